import Verif.Proofs.Active
import Verif.Props.Occurrences

/-! # C72: the values when callbacks change them -/

set_option synthInstance.maxSize 1000

namespace Argos
open Spec Parser

/-- **C72**: whatever callbacks do, after a parse without errors the values of the program and of every
sub-command are its initial values, changed in order by every occurrence that was reported for that
command and, right after each occurrence, by the builder calls of its callbacks: first its own
callback, then the one of the parser. Each callback gets the value that was read (unless a callback
before it has replaced or removed the stored value) and sees the values that have been reached at
that moment; and the value that is reported is the one that is left after the callbacks. -/
theorem C72_values {d0 d : ParserData} (h : finishInitialization d0 = .ok d) {env : Env} {args : List Str} {rs : List IterResult}
    {n : PNode} (hr : Returns env d args rs .done n) : ∃ u : Tree (List Happening),
      given d.command rs = some (u.map (List.map Happening.reported)) ∧ u.Both (Told env d0.settings) n.tree := by
  rw [← (finishInitialization_ok h).1]
  exact hr.explained (ready_of_init h)

/-- **C72**: the same when no sub-commands are given. -/
theorem C72_flat {d0 d : ParserData} (h : finishInitialization d0 = .ok d) {env : Env} {args : List Str} {rs : List IterResult}
    {n : PNode} (hr : Returns env d args rs .done n) (hc : ∀ c x, .command c x ∉ rs) : ∃ hs : List Happening,
      hs.map Happening.reported = d.command.options.map .initial ++ rs.filterMap occOf ∧
      Told env d0.settings d.command hs (fun id => n.values.getValues id) := by
  obtain ⟨u, h1, h2⟩ := C72_values h hr
  unfold given at h1
  rw [after_flat _ _ hc] at h1
  obtain ⟨c, hs, us⟩ := u
  simp only [Open.close, Open.close.go, Option.some.injEq, Tree.map_node, Tree.node.injEq] at h1
  refine ⟨hs, h1.2.1.symm, ?_⟩
  cases n
  rw [PNode.tree, Tree.Both] at h2
  rw [h1.1]
  exact h2.2.1

/-! ### Callbacks that only add values -/

/-- The builder call adds a value. -/
def BuilderOp.Adds : BuilderOp → Prop
  | .append _ _ => True
  | .appendTo _ _ _ => True
  | _ => False

/-- Callbacks change values only by adding some. -/
def Env.Adding (env : Env) : Prop := ∀ cb k view v n, ∀ op ∈ (env.callback cb k view v n).ops, op.Adds

theorem WritesOf.adds {c : Command} {ops : List BuilderOp} {ws : List Write} (h : WritesOf c ops ws) (ha : ∀ op ∈ ops, op.Adds) :
    ∀ w ∈ ws, ∃ id v a, w = .append id v a := by
  induction h with
  | nil => intro w hw; simp at hw
  | cons h1 _ ih =>
    intro w hw
    rcases List.mem_cons.mp hw with rfl | hw
    · have := ha _ List.mem_cons_self
      cases h1 <;> simp only [BuilderOp.Adds] at this
      · exact ⟨_, _, _, rfl⟩
      · exact ⟨_, _, _, rfl⟩
    · exact ih (fun op hop => ha op (List.mem_cons_of_mem _ hop)) w hw

theorem appends_sublist (ws : List Write) (h : ∀ w ∈ ws, ∃ id v a, w = .append id v a) (vm : ValueMap) (id : Nat) :
    (vm id).Sublist (ws.foldl Write.run vm id) := by
  induction ws generalizing vm with
  | nil => exact List.Sublist.refl _
  | cons w ws ih =>
    refine List.Sublist.trans ?_ (ih (fun x hx => h x (List.mem_cons_of_mem _ hx)) (Write.run vm w))
    obtain ⟨j, v, a, rfl⟩ := h w List.mem_cons_self
    simp only [Write.run]
    split
    · exact List.sublist_append_left _ _
    · exact List.Sublist.refl _

/-- Callbacks that only add leave the value they get, and everything stored. -/
theorem Acted.adding {env : Env} (he : env.Adding) {c : Command} {view : ViewRef} {own : Option Nat} {cbs : List Nat} {v v' : Option Str}
    {vm vm' : ValueMap} (h : Acted env c view own cbs v vm v' vm') : v' = v ∧ ∀ id, (vm id).Sublist (vm' id) := by
  induction h with
  | nil => exact ⟨rfl, fun id => List.Sublist.refl _⟩
  | @cons cb cbs v vm ws v' vm' h1 _ ih =>
    obtain ⟨k, n, _, _, _, h2⟩ := h1
    have hw := WritesOf.adds h2 (he _ _ _ _ _)
    have hno : ¬ ∃ id ∈ own, ∃ w ∈ ws, w.Replaces id := by
      rintro ⟨id, _, w, hw', hr⟩
      obtain ⟨j, x, a, rfl⟩ := hw w hw'
      exact hr
    rw [if_neg hno] at ih
    exact ⟨ih.1, fun id => (appends_sublist ws hw vm id).trans (ih.2 id)⟩

theorem run_sublist {vm vm' : ValueMap} (h : ∀ id, (vm id).Sublist (vm' id)) (w : Write) (id : Nat) :
    (Write.run vm w id).Sublist (Write.run vm' w id) := by
  cases w with
  | assign j v a =>
    simp only [Write.run]
    split
    · exact List.Sublist.refl _
    · exact h id
  | append j v a =>
    simp only [Write.run]
    split
    · exact (h id).append (List.Sublist.refl _)
    · exact h id
  | clear j =>
    simp only [Write.run]
    split
    · exact List.Sublist.refl _
    · exact h id

theorem runs_sublist (ws : List Write) {vm vm' : ValueMap} (h : ∀ id, (vm id).Sublist (vm' id)) :
    ∀ id, (ws.foldl Write.run vm id).Sublist (ws.foldl Write.run vm' id) := by
  induction ws generalizing vm vm' with
  | nil => exact h
  | cons w ws ih => exact ih (run_sublist h w)

theorem Told.adding {env : Env} (he : env.Adding) {st : ParserSettings} {c : Command} {hs : List Happening} {vm : ValueMap}
    (h : Told env st c hs vm) : ∀ id, (valuesOf (hs.map Happening.reported) id).Sublist (vm id) := by
  induction h with
  | start os =>
    intro id
    rw [List.map_map]
    exact List.Sublist.refl _
  | unknown _ ih =>
    intro id
    rw [List.map_append, List.map_singleton, valuesOf_snoc]
    exact ih id
  | option _ h2 ih =>
    intro id
    obtain ⟨rfl, h3⟩ := Acted.adding he h2
    rw [List.map_append, List.map_singleton, valuesOf_snoc]
    exact (runs_sublist _ ih id).trans (h3 id)
  | argument _ h2 ih =>
    intro id
    obtain ⟨rfl, h3⟩ := Acted.adding he h2
    rw [List.map_append, List.map_singleton, valuesOf_snoc]
    exact (runs_sublist _ ih id).trans (h3 id)

mutual
theorem both_imp {α β γ : Type} {f : α → γ} {R : Command → α → β → Prop} {S : Command → γ → β → Prop} (h : ∀ c a b, R c a b → S c (f a) b) :
    ∀ (t : Tree α) (u : Tree β), t.Both R u → (t.map f).Both S u
  | .node c a ts, .node c' b us, hb => by
    rw [Tree.Both] at hb
    rw [Tree.map, Tree.Both]
    exact ⟨hb.1, h _ _ _ hb.2.1, bothList_imp h ts us hb.2.2⟩

theorem bothList_imp {α β γ : Type} {f : α → γ} {R : Command → α → β → Prop} {S : Command → γ → β → Prop} (h : ∀ c a b, R c a b → S c (f a) b) :
    ∀ (ts : List (Tree α)) (us : List (Tree β)), Tree.BothList R ts us → Tree.BothList S (Tree.mapList f ts) us
  | [], [], _ => trivial
  | t :: ts, u :: us, hb => by
    rw [Tree.BothList] at hb
    rw [Tree.mapList, Tree.BothList]
    exact ⟨both_imp h t u hb.1, bothList_imp h ts us hb.2⟩
  | [], _ :: _, hb => by simp [Tree.BothList] at hb
  | _ :: _, [], hb => by simp [Tree.BothList] at hb
end

/-- **C72**: callbacks that only add values never lose any: in every given command, what the reported
occurrences alone lead to is still there, in the same order. -/
theorem C72_adding {d0 d : ParserData} (h : finishInitialization d0 = .ok d) {env : Env} (he : env.Adding) {args : List Str}
    {rs : List IterResult} {n : PNode} (hr : Returns env d args rs .done n) : ∃ t,
      given d.command rs = some t ∧ t.Both (fun _ occs vm => ∀ id, (valuesOf occs id).Sublist (vm id)) n.tree := by
  obtain ⟨u, h1, h2⟩ := C72_values h hr
  exact ⟨_, h1, both_imp (fun c hs vm ht => Told.adding he ht) u _ h2⟩

/-! ### Examples -/

/-- Callback 1 belongs to an option and callback 3 to an argument, 8 is the one for all options; the
option "--all" collects values. -/
def activeData : ParserData :=
  { command :=
      { name := b!"cli"
        options := [{ flags := [b!"-o"], argument := b!"FILE", initialValue := b!"init", operation := .append, callback := some 1 },
          { flags := [b!"--all"], argument := b!"VALUE", operation := .append }]
        arguments := [{ name := b!"IN", callback := some 3 }] }
    settings := { autoExit := false, optionCallback := some 8 } }

/-- Callback 1 copies its value to "--all", callback 8 adds the number of values of "-o" that it
sees, and callback 3 replaces the argument that it is called for. -/
def activeEnv : Env :=
  ⟨fun cb _ _ v n =>
    if cb = 1 then { ops := [.append b!"--all" (v.getD b!"?")] }
    else if cb = 8 then { ops := [.append b!"--all" (natToStr (n.values.getValues 2).length)] }
    else { ops := [.assign b!"IN" b!"new"] }⟩

/-- The same without the replacement. -/
def addingEnv : Env :=
  ⟨fun cb _ _ v n =>
    if cb = 1 then { ops := [.append b!"--all" (v.getD b!"?")] }
    else if cb = 8 then { ops := [.append b!"--all" (natToStr (n.values.getValues 2).length)] }
    else {}⟩

-- What occurrences and callbacks lead to: "-o" has an initial value and a given one; callback 1 and callback 8
-- have added to "--all"; the argument has been replaced.
example : ∃ d, finishInitialization activeData = .ok d ∧
    parseTo (fun n => n.values) activeEnv d [b!"-o", b!"x", b!"--all", b!"y", b!"in"] 9 =
      some [(1, b!"new", 0), (2, b!"init", 3), (2, b!"x", 3), (3, b!"x", 0), (3, b!"2", 0), (3, b!"y", 4), (3, b!"2", 0)] := by
  refine Outcome.exists_ok ?_
  decide +kernel

-- The value of the argument is lost for the client of the iterator, because its callback has replaced it.
example : ∃ d, finishInitialization activeData = .ok d ∧
    (resultsOf activeEnv 4 (start d [b!"-o", b!"x", b!"--all", b!"y", b!"in"]).2).filterMap (fun r => match r with
      | .option _ v => some v
      | .argument _ v => some v
      | _ => none) = [some b!"x", some b!"y", none] := by
  refine Outcome.exists_ok ?_
  decide +kernel

-- Without the replacement everything that was given is there.
example : addingEnv.Adding := by
  intro cb k view v n op hop
  simp only [addingEnv] at hop
  split at hop
  · simp only [List.mem_singleton] at hop
    rw [hop]
    trivial
  · split at hop
    · simp only [List.mem_singleton] at hop
      rw [hop]
      trivial
    · simp at hop

example : ∃ d, finishInitialization activeData = .ok d ∧
    parseTo (fun n => n.values) addingEnv d [b!"-o", b!"x", b!"--all", b!"y", b!"in"] 9 =
      some [(1, b!"in", 2), (2, b!"init", 3), (2, b!"x", 3), (3, b!"x", 0), (3, b!"2", 0), (3, b!"y", 4), (3, b!"2", 0)] := by
  refine Outcome.exists_ok ?_
  decide +kernel

end Argos
