import Verif.Spec.Nested
import Verif.Proofs.Ignored
import Verif.Proofs.ReorderInit
import Verif.Proofs.Ends
import Verif.Proofs.Insert

/-!
# A sub-command on its own: two runs, one of them inside of other commands
-/

namespace Argos

open Spec

theorem _root_.Argos.Spec.Recoded.length {ps ps' : List PNode} (h : Recoded ps ps') : ps'.length = ps.length := by
  rcases h with rfl | ⟨k, rfl⟩
  · rfl
  · simp

theorem _root_.Argos.Spec.Recoded.recode {ps ps' : List PNode} (h : Recoded ps ps') (k : ResultCode) : Recoded ps (ps'.map fun p => { p with code := k }) := by
  rcases h with rfl | ⟨k', rfl⟩
  · exact Or.inr ⟨k, rfl⟩
  · refine Or.inr ⟨k, ?_⟩
    rw [List.map_map]
    rfl

theorem _root_.Argos.Spec.Recoded.single {ps ps' : List PNode} (h : Recoded ps ps') (hm : ∀ n ∈ ps, n.command.multiCommand = false) :
    ∀ n ∈ ps', n.command.multiCommand = false := by
  rcases h with rfl | ⟨k, rfl⟩
  · exact hm
  · intro n hn
    obtain ⟨p, hp, rfl⟩ := List.mem_map.mp hn
    exact hm p hp

namespace Parser
open ParserM

variable (up : List PNode) (l : List Event) (k : Nat)

/-- The second parser does inside of the commands `up` what the first one does. -/
structure Nested (s t : PState) : Prop where
  ne : s.stack ≠ []
  stack : ∃ up', Recoded up up' ∧ t.stack = s.stack ++ up'
  same : t = { s with
    stack := t.stack
    log := l ++ s.log
    calls := s.calls + k }

/-- The methods do the same. -/
def Nests {α : Type} (m m' : ParserM α) : Prop := ∀ s t, Nested up l k s t → (m' t).1 = (m s).1 ∧ Nested up l k (m s).2 (m' t).2

variable {up l k}

namespace Nests

variable {α β : Type}

theorem bind {m m' : ParserM α} {f f' : α → ParserM β} (hm : Nests up l k m m') (hf : ∀ x, Nests up l k (f x) (f' x)) : Nests up l k (m >>= f) (m' >>= f') := by
  intro s t h
  show (ParserM.bind m' f' t).1 = (ParserM.bind m f s).1 ∧ Nested up l k (ParserM.bind m f s).2 (ParserM.bind m' f' t).2
  have h := hm s t h
  simp only [ParserM.bind]
  revert h
  generalize m s = r
  generalize m' t = r'
  obtain ⟨r, s1⟩ := r
  obtain ⟨r', t1⟩ := r'
  rintro ⟨h1, h2⟩
  simp only at h1
  subst h1
  cases r' with
  | ok x => exact hf x s1 t1 h2
  | _ => exact ⟨rfl, h2⟩

theorem pure (x : α) : Nests up l k (Pure.pure x) (Pure.pure x) := fun _ _ h => ⟨rfl, h⟩

theorem lift (x : Outcome α) : Nests up l k (ParserM.lift x) (ParserM.lift x) := fun _ _ h => ⟨rfl, h⟩

theorem get {f f' : PState → ParserM α} (h : ∀ s t, Nested up l k s t → Nests up l k (f s) (f' t)) : Nests up l k (ParserM.get >>= f) (ParserM.get >>= f') :=
  fun s t hs => h s t hs s t hs

theorem modify {f f' : PState → PState} (h : ∀ s t, Nested up l k s t → Nested up l k (f s) (f' t)) : Nests up l k (ParserM.modify f) (ParserM.modify f') :=
  fun s t hs => ⟨rfl, h s t hs⟩

theorem ite {p : Prop} [Decidable p] {m n m' n' : ParserM α} (hm : p → Nests up l k m m') (hn : ¬ p → Nests up l k n n') :
    Nests up l k (if p then m else n) (if p then m' else n') := by
  by_cases h : p
  · rw [if_pos h, if_pos h]; exact hm h
  · rw [if_neg h, if_neg h]; exact hn h

end Nests

theorem Nested.fields {s t : PState} (h : Nested up l k s t) : t.settings = s.settings ∧ t.command = s.command ∧ t.iter = s.iter ∧ t.mode = s.mode ∧
    t.counter = s.counter ∧ t.calls = s.calls + k := by
  have := h.same
  rw [this]
  exact ⟨rfl, rfl, rfl, rfl, rfl, rfl⟩

theorem Nested.elim {s t : PState} (h : Nested up l k s t) : ∃ n ns up', s.stack = n :: ns ∧ Recoded up up' ∧ t = { s with
    stack := n :: ns ++ up'
    log := l ++ s.log
    calls := s.calls + k } := by
  obtain ⟨up', h1, h2⟩ := h.stack
  cases hs : s.stack with
  | nil => exact absurd hs h.ne
  | cons n ns =>
    refine ⟨n, ns, up', rfl, h1, ?_⟩
    have := h.same
    rw [h2, hs] at this
    exact this

/-- Reading the innermost results. -/
theorem Nests.back {α : Type} {f f' : PNode → ParserM α} (h : ∀ n, Nests up l k (f n) (f' n)) :
    Nests up l k (Parser.back >>= f) (Parser.back >>= f') := by
  intro s t hs
  obtain ⟨n, ns, up', h1, h2, rfl⟩ := hs.elim
  show (ParserM.bind Parser.back f' _).1 = (ParserM.bind Parser.back f s).1 ∧ Nested up l k (ParserM.bind Parser.back f s).2 (ParserM.bind Parser.back f' _).2
  simp only [ParserM.bind, Parser.back, h1, List.cons_append]
  exact h n _ _ hs

theorem nests_modifyBack (f : PNode → PNode) : Nests up l k (modifyBack f) (modifyBack f) := by
  intro s t hs
  obtain ⟨n, ns, up', h1, h2, rfl⟩ := hs.elim
  simp only [modifyBack, h1, List.cons_append]
  exact ⟨trivial, ⟨by simp, ⟨up', h2, rfl⟩, rfl⟩⟩

/-- Methods that use the iterator only. -/
theorem nests_iter {α : Type} {g : Iter → Outcome (α × Iter)} {m : ParserM α} (hm : ∀ s, m s = match g s.iter with
      | .ok (x, it) => (.ok x, { s with iter := it })
      | .throw m => (.throw m, s)
      | .outOfRange => (.outOfRange, s)
      | .exit c => (.exit c, s)
      | .ub => (.ub, s)
      | .diverges => (.diverges, s)) : Nests up l k m m := by
  intro s t hs
  obtain ⟨n, ns, up', h1, h2, rfl⟩ := hs.elim
  rw [hm, hm]
  simp only
  cases g s.iter with
  | ok p => exact ⟨rfl, ⟨hs.ne, ⟨up', h2, by rw [h1]⟩, rfl⟩⟩
  | _ => exact ⟨rfl, hs⟩

theorem nests_iterNext : Nests up l k iterNext iterNext := nests_iter (g := Iter.next) fun s => by
  unfold iterNext; cases s.iter.next <;> rfl

theorem nests_iterNextValue : Nests up l k iterNextValue iterNextValue := nests_iter (g := Iter.nextValue) fun s => by
  unfold iterNextValue; cases s.iter.nextValue <;> rfl

theorem nests_iterRemaining : Nests up l k iterRemaining iterRemaining := nests_iter (g := Iter.remainingArguments) fun s => by
  unfold iterRemaining; cases s.iter.remainingArguments <;> rfl

theorem nests_iterInsert (args : List Str) : Nests up l k (iterInsert args) (iterInsert args) :=
  nests_iter (g := fun it => (it.insert args).mapOk fun it => ((), it)) fun s => by
    unfold iterInsert; cases s.iter.insert args <;> rfl

theorem nests_iterCurrent : Nests up l k iterCurrent iterCurrent := by
  intro s t hs
  simp only [iterCurrent, hs.fields.2.2.1]
  exact ⟨trivial, hs⟩

theorem nests_emit (e : Event) : Nests up l k (emit e) (emit e) := Nests.modify fun s t hs => by
  obtain ⟨n, ns, up', h1, h2, rfl⟩ := hs.elim
  exact ⟨hs.ne, ⟨up', h2, by rw [h1]⟩, by simp only [List.append_assoc]⟩

theorem findMultiParent_go_append (xs : List PNode) {ys : List PNode} (hm : ∀ n ∈ ys, n.command.multiCommand = false) :
    findMultiParent.go (xs ++ ys) = (findMultiParent.go xs).map (· ++ ys) := by
  induction xs with
  | nil =>
    induction ys with
    | nil => rfl
    | cons y ys ih =>
      have := ih fun n hn => hm n (List.mem_cons_of_mem _ hn)
      simp only [List.nil_append, findMultiParent.go, Option.map_none] at this ⊢
      rw [if_neg (by simp [hm y List.mem_cons_self]), this]
  | cons x xs ih =>
    simp only [List.cons_append, findMultiParent.go]
    split
    · rfl
    · exact ih

theorem findMultiParent_ne {xs st : List PNode} (h : findMultiParent xs = some st) : st ≠ [] := by
  have go : ∀ xs : List PNode, findMultiParent.go xs = some st → st ≠ [] := by
    intro xs
    induction xs with
    | nil => intro h; simp [findMultiParent.go] at h
    | cons x xs ih =>
      intro h
      simp only [findMultiParent.go] at h
      split at h
      · simp only [Option.some.injEq] at h
        rw [← h]
        simp
      · exact ih h
  cases xs with
  | nil => simp [findMultiParent] at h
  | cons x xs => exact go xs h

section
variable (hm : ∀ n ∈ up, n.command.multiCommand = false)
include hm

theorem findMultiParent_nested {s t : PState} (h : Nested up l k s t) : ∃ up', up'.length = up.length ∧ findMultiParent t.stack = (findMultiParent s.stack).map (· ++ up') := by
  obtain ⟨n, ns, up', h1, h2, rfl⟩ := h.elim
  refine ⟨up', h2.length, ?_⟩
  rw [h1]
  exact findMultiParent_go_append ns (h2.single hm)

theorem findSibling_nested {s t : PState} (h : Nested up l k s t) (name : Str) :
    findSibling t name = (findSibling s name).map fun p => (p.1, p.2 + up.length) := by
  obtain ⟨up', e1, e2⟩ := findMultiParent_nested hm h
  obtain ⟨g1, g2, g3, g4, g5, g6⟩ := h.fields
  simp only [findSibling, e2, g1, g5]
  split
  · rfl
  · cases hf : findMultiParent s.stack with
    | none => rfl
    | some st =>
      cases st with
      | nil => exact absurd rfl (findMultiParent_ne hf)
      | cons p ps =>
        simp only [Option.map_some, List.cons_append, Option.map_map, List.length_append, e1]
        congr 1
        funext c
        simp only [Function.comp, Prod.mk.injEq, true_and]
        omega

theorem countStops_nested {s t : PState} (h : Nested up l k s t) (m r : Nat) (arg : Str) : countStops t m r arg = countStops s m r arg := by
  unfold countStops
  rw [findSibling_nested hm h, h.fields.1, h.fields.2.1, Option.isSome_map]

theorem countArgsOnly_nested {s t : PState} (h : Nested up l k s t) (m fuel : Nat) (it : Iter) (r : Nat) : countArgsOnly t m fuel it r = countArgsOnly s m fuel it r := by
  induction fuel generalizing it r with
  | zero => rfl
  | succ fuel ih => simp only [countArgsOnly, countStops_nested hm h, ih]

theorem countLoop_nested {s t : PState} (h : Nested up l k s t) (m fuel : Nat) (it : Iter) (r : Nat) : countLoop t m fuel it r = countLoop s m fuel it r := by
  induction fuel generalizing it r with
  | zero => rfl
  | succ fuel ih => simp only [countLoop, countStops_nested hm h, countArgsOnly_nested hm h, ih, h.fields.1, h.fields.2.1]

theorem countArguments_nested {s t : PState} (h : Nested up l k s t) : countArguments t = countArguments s := by
  simp only [countArguments, countLoop_nested hm h, h.fields.2.1, h.fields.2.2.1]

end

theorem nests_copyRemaining : Nests up l k copyRemaining copyRemaining :=
  nests_iterRemaining.bind fun _ => nests_modifyBack _

theorem nests_code (m : Mode) (code : ResultCode) : Nests up l k
    (ParserM.modify fun s => { s with stack := s.stack.map fun n => { n with code := code }, mode := m })
    (ParserM.modify fun s => { s with stack := s.stack.map fun n => { n with code := code }, mode := m }) := Nests.modify fun s t hs => by
  obtain ⟨n, ns, up', h1, h2, rfl⟩ := hs.elim
  refine ⟨by simp [h1], ⟨_, h2.recode code, ?_⟩, rfl⟩
  simp only [h1, List.map_append]

theorem nests_error (msg : Str) : Nests up l k (error msg) (error msg) := by
  refine Nests.get fun s t hs => ?_
  rw [hs.fields.1, hs.fields.2.1]
  exact (nests_emit _).bind fun _ => Nests.ite (fun _ => Nests.lift _) fun _ => nests_copyRemaining.bind fun _ => nests_code _ _

theorem nests_hasAllMandatory (vs : Values) (os : List OptData) : Nests up l k (hasAllMandatory vs os) (hasAllMandatory vs os) := by
  induction os with
  | nil => exact Nests.pure true
  | cons o os ih =>
    simp only [hasAllMandatory]
    refine Nests.ite (fun _ => Nests.ite (fun _ => Nests.lift _) fun _ => ?_) fun _ => ih
    exact (nests_error _).bind fun _ => Nests.pure false

theorem nests_checkCounts : Nests up l k checkCounts checkCounts := by
  refine Nests.back fun n => Nests.get fun s t hs => ?_
  rw [hs.fields.2.1, hs.fields.2.2.2.2.1]
  refine (nests_hasAllMandatory _ _).bind fun ok => Nests.ite (fun _ => Nests.pure false) fun _ => ?_
  cases s.command.requireSubcommand with
  | none => exact Nests.lift _
  | some req =>
    refine Nests.ite (fun _ => (nests_error _).bind fun _ => Nests.pure false) fun _ => ?_
    refine Nests.ite (fun _ => ?_) fun _ => (nests_error _).bind fun _ => Nests.pure false
    exact Nests.bind (nests_code _ _) fun _ => Nests.pure true

theorem nests_applyOps (vid : Nat) (ops : List BuilderOp) (b : Bool) : Nests up l k (applyOps vid ops b) (applyOps vid ops b) := by
  induction ops generalizing b with
  | nil => exact Nests.pure b
  | cons op ops ih =>
    intro s t hs
    obtain ⟨n, ns, up', h1, h2, rfl⟩ := hs.elim
    simp only [applyOps, h1, List.cons_append]
    cases op.apply n with
    | ok p => exact ih _ _ _ ⟨by simp, ⟨up', h2, rfl⟩, rfl⟩
    | _ => exact ⟨rfl, by simpa only [List.cons_append] using hs⟩

theorem nests_builderError (msg : Str) : Nests up l k (builderError msg) (builderError msg) := by
  refine Nests.back fun n => (nests_emit _).bind fun _ => Nests.get fun s t hs => ?_
  rw [hs.fields.1]
  exact Nests.ite (fun _ => Nests.lift _) fun _ => Nests.lift _

theorem nests_mode (m : Mode) : Nests up l k (ParserM.modify fun s => { s with mode := m }) (ParserM.modify fun s => { s with mode := m }) := Nests.modify fun s t hs => by
  obtain ⟨n, ns, up', h1, h2, rfl⟩ := hs.elim
  exact ⟨hs.ne, ⟨up', h2, by rw [h1]⟩, rfl⟩

theorem nests_counter (ct : Counter) : Nests up l k (ParserM.modify fun s => { s with counter := ct }) (ParserM.modify fun s => { s with counter := ct }) :=
  Nests.modify fun s t hs => by
    obtain ⟨n, ns, up', h1, h2, rfl⟩ := hs.elim
    exact ⟨hs.ne, ⟨up', h2, by rw [h1]⟩, rfl⟩

theorem nests_applyOperation (o : OptData) (flag : Str) : Nests up l k (applyOperation o flag) (applyOperation o flag) := by
  simp only [applyOperation]
  cases o.operation with
  | none => exact Nests.pure _
  | clear => exact (nests_modifyBack _).bind fun _ => Nests.pure _
  | assign =>
    refine Nests.ite (fun _ => ?_) fun _ => ?_
    · exact (nests_modifyBack _).bind fun _ => Nests.pure _
    · refine nests_iterNextValue.bind fun v => ?_
      cases v with
      | none => exact (nests_error _).bind fun _ => Nests.pure _
      | some v => exact (nests_modifyBack _).bind fun _ => Nests.pure _
  | append =>
    refine Nests.ite (fun _ => ?_) fun _ => ?_
    · exact (nests_modifyBack _).bind fun _ => Nests.pure _
    · refine nests_iterNextValue.bind fun v => ?_
      cases v with
      | none => exact (nests_error _).bind fun _ => Nests.pure _
      | some v => exact (nests_modifyBack _).bind fun _ => Nests.pure _

theorem nests_applyType (o : OptData) : Nests up l k (applyType o) (applyType o) := by
  simp only [applyType]
  cases o.type with
  | normal => exact Nests.pure _
  | help =>
    refine Nests.get fun s t hs => ?_
    rw [hs.fields.2.1]
    exact (nests_emit _).bind fun _ => (nests_mode _).bind fun _ => (nests_modifyBack _).bind fun _ => Nests.pure _
  | exit => exact (nests_mode _).bind fun _ => (nests_modifyBack _).bind fun _ => Nests.pure _
  | stop => exact (nests_mode _).bind fun _ => (nests_modifyBack _).bind fun _ => Nests.pure _
  | lastArgument => exact (nests_mode _).bind fun _ => Nests.pure _
  | lastOption => exact (nests_mode _).bind fun _ => Nests.pure _

theorem closeFrames_append (j : Nat) (xs ys : List PNode) (h : j < xs.length) : closeFrames j (xs ++ ys) = closeFrames j xs ++ ys := by
  induction j generalizing xs with
  | zero => rfl
  | succ j ih =>
    match xs with
    | [] => simp at h
    | [n] => simp at h
    | n :: p :: st =>
      simp only [List.cons_append, closeFrames]
      exact ih ({ p with subs := p.subs ++ [n] } :: st) (by simp only [List.length_cons] at h ⊢; omega)

theorem nests_reactivate {size size' : Nat} (h : size' = size + up.length) (hs : 0 < size) : Nests up l k (reactivate size) (reactivate size') := by
  intro s t hst
  obtain ⟨n, ns, up', h1, h2, rfl⟩ := hst.elim
  have e : (n :: ns ++ up').length - size' = s.stack.length - size := by
    rw [List.length_append, h2.length, h1]
    omega
  simp only [reactivate]
  rw [e, h1, closeFrames_append _ _ _ (by simp only [List.length_cons]; omega)]
  have hne := closeFrames_ne ((n :: ns).length - size) (n :: ns) (by simp)
  revert hne
  generalize closeFrames ((n :: ns).length - size) (n :: ns) = x
  intro hne
  cases x with
  | nil => exact absurd rfl hne
  | cons m ms => exact ⟨rfl, ⟨by simp, ⟨up', h2, rfl⟩, rfl⟩⟩

section
variable (hm : ∀ n ∈ up, n.command.multiCommand = false)
include hm

theorem nests_initCounter : Nests up l k initCounter initCounter := by
  intro s t hs
  have e := countArguments_nested hm hs
  obtain ⟨n, ns, up', h1, h2, rfl⟩ := hs.elim
  simp only [initCounter]
  split
  · exact ⟨rfl, ⟨hs.ne, ⟨up', h2, by rw [h1]⟩, rfl⟩⟩
  · rw [e]
    cases countArguments s with
    | ok n => exact ⟨rfl, ⟨hs.ne, ⟨up', h2, by rw [h1]⟩, rfl⟩⟩
    | _ => exact ⟨rfl, hs⟩

theorem nests_updateArguments (args : List Str) : Nests up l k (updateArguments args) (updateArguments args) := by
  refine Nests.ite (fun _ => Nests.pure ()) fun _ => (nests_iterInsert args).bind fun _ => Nests.get fun s t hs => ?_
  rw [hs.fields.2.1, hs.fields.2.2.2.2.1, countArguments_nested hm hs]
  refine Nests.ite (fun _ => Nests.pure ()) fun _ => Nests.bind (Nests.lift _) fun more => Nests.modify fun s t hs => ?_
  obtain ⟨n, ns, up', h1, h2, rfl⟩ := hs.elim
  exact ⟨hs.ne, ⟨up', h2, by rw [h1]⟩, rfl⟩

theorem nests_runCallback (env : Env) (cb : Nat) (view : ViewRef) (vid : Nat) (stored : Bool) (value : Option Str) :
    Nests up l k (runCallback (env.later k) cb view vid stored value) (runCallback env cb view vid stored value) := by
  refine Nests.back fun n => Nests.get fun s t hs => ?_
  rw [hs.fields.2.2.2.2.2]
  show Nests up l k (ParserM.modify _ >>= fun _ => applyOps vid (env.callback cb (s.calls + k) view value n).ops false >>= _) _
  refine Nests.bind (Nests.modify fun s t hs => ?_) fun _ => (nests_applyOps _ _ _).bind fun touched => ?_
  · obtain ⟨n, ns, up', h1, h2, rfl⟩ := hs.elim
    exact ⟨hs.ne, ⟨up', h2, by rw [h1]⟩, by simp only [List.append_assoc]; congr 1; omega⟩
  · simp only [Env.later]
    cases (env.callback cb (s.calls + k) view value n).fin with
    | returns => exact (nests_updateArguments hm _).bind fun _ => Nests.pure _
    | throws m => exact Nests.lift _
    | error m => exact (nests_builderError m).bind fun _ => Nests.pure _

theorem nests_runCallbackOpt (env : Env) (cb : Option Nat) (view : ViewRef) (vid : Nat) (stored : Bool) (value : Option Str) :
    Nests up l k (runCallbackOpt (env.later k) cb view vid stored value) (runCallbackOpt env cb view vid stored value) := by
  cases cb with
  | none => exact Nests.pure value
  | some cb => exact nests_runCallback hm env cb view vid stored value

theorem nests_processOptionData (env : Env) (o : OptData) (flag : Str) :
    Nests up l k (processOptionData (env.later k) o flag) (processOptionData env o flag) := by
  refine (nests_applyOperation o flag).bind fun r => ?_
  cases r with
  | none => exact Nests.pure _
  | some p =>
    obtain ⟨value, stored⟩ := p
    refine (nests_runCallbackOpt hm env o.callback (.opt o) o.valueId stored (some value)).bind fun v => Nests.get fun s t hs => ?_
    rw [hs.fields.1]
    exact (nests_runCallbackOpt hm env s.settings.optionCallback (.opt o) o.valueId stored v).bind fun v => (nests_applyType o).bind fun r => Nests.pure _

theorem nests_processOption (env : Env) (flag : Str) : Nests up l k (processOption (env.later k) flag) (processOption env flag) := by
  refine Nests.get fun s t hs => ?_
  rw [hs.fields.1, hs.fields.2.1]
  cases findOption s.command.optionIndex flag s.settings.allowAbbreviatedOptions s.settings.caseInsensitive with
  | some o =>
    refine (nests_processOptionData hm env o flag).bind fun p => ?_
    obtain ⟨res, v⟩ := p
    have hc : Nests up l k (copyRemaining >>= fun _ => pure (IterResult.option o v)) (copyRemaining >>= fun _ => pure (.option o v)) :=
      nests_copyRemaining.bind fun _ => Nests.pure _
    cases res with
    | normal => exact Nests.pure _
    | error => exact Nests.pure _
    | stop => exact hc
    | exit => exact Nests.ite (fun _ => Nests.lift _) fun _ => hc
    | lastArgument =>
      refine nests_checkCounts.bind fun ok => Nests.ite (fun _ => Nests.pure _) fun _ => Nests.get fun s t hs => ?_
      obtain ⟨up', e1, e2⟩ := findMultiParent_nested hm hs
      rw [e2]
      cases hf : findMultiParent s.stack with
      | none => exact hc
      | some st =>
        have hne := findMultiParent_ne hf
        refine (nests_reactivate (by rw [List.length_append, e1]) ?_).bind fun _ => Nests.pure _
        cases st with
        | nil => exact absurd rfl hne
        | cons _ _ => simp
  | none =>
    refine nests_iterCurrent.bind fun cur => Nests.ite (fun _ => (nests_error _).bind fun _ => Nests.pure _) fun _ => ?_
    exact (nests_modifyBack _).bind fun _ => Nests.pure _

theorem nests_processCommand (sub : Command) : Nests up l k (processCommand sub) (processCommand sub) := by
  refine Nests.bind (Nests.modify fun s t hs => ?_) fun _ => (nests_initCounter hm).bind fun _ => (nests_mode _).bind fun _ => nests_iterCurrent.bind fun cur => Nests.pure _
  obtain ⟨n, ns, up', h1, h2, rfl⟩ := hs.elim
  exact ⟨by simp, ⟨up', h2, by rw [h1]; rfl⟩, rfl⟩

theorem nests_processArgument (env : Env) (value : Str) : Nests up l k (processArgument (env.later k) value) (processArgument env value) := by
  refine Nests.get fun s t hs => ?_
  rw [findSibling_nested hm hs, hs.fields.1, hs.fields.2.2.2.2.1]
  cases hf : findSibling s value with
  | some p =>
    obtain ⟨sub, size⟩ := p
    refine (nests_reactivate rfl ?_).bind fun _ => nests_processCommand hm sub
    unfold findSibling at hf
    split at hf
    · simp at hf
    · split at hf
      · simp at hf
      · simp at hf
      · simp only [Option.map_eq_some_iff, Prod.mk.injEq] at hf
        obtain ⟨_, _, _, rfl⟩ := hf
        omega
  | none =>
    rcases s.counter.nextArgument with ⟨_ | arg, ct⟩
    · refine (nests_counter ct).bind fun _ => Nests.ite (fun _ => ?_) fun _ => (nests_error _).bind fun _ => Nests.pure _
      exact (nests_modifyBack _).bind fun _ => nests_iterCurrent.bind fun cur => Nests.pure _
    · refine (nests_counter ct).bind fun _ => Nests.bind (nests_modifyBack _) fun _ => ?_
      refine (nests_runCallbackOpt hm env arg.callback (.arg arg) arg.valueId true (some value)).bind fun v => Nests.get fun s t hs => ?_
      rw [hs.fields.1]
      exact (nests_runCallbackOpt hm env s.settings.argumentCallback (.arg arg) arg.valueId true v).bind fun v => Nests.pure _

theorem nests_next (env : Env) : Nests up l k (next (env.later k)) (next env) := by
  refine Nests.get fun s t hs => ?_
  rw [hs.fields.1, hs.fields.2.1, hs.fields.2.2.2.1]
  have key : ∀ (read : ParserM (Option Str)) (mo : Mode), Nests up l k read read →
      Nests up l k (read >>= nextTail (env.later k) mo s) (read >>= nextTail env mo s) := by
    intro read mo hr
    refine hr.bind fun arg => ?_
    cases arg with
    | none => exact nests_checkCounts.bind fun ok => Nests.ite (fun _ => Nests.pure _) fun _ => Nests.pure _
    | some arg =>
      refine Nests.ite (fun _ => nests_processOption hm env arg) fun _ => Nests.ite (fun _ => nests_processArgument hm env arg) fun _ => ?_
      cases findCommand s.command.commands arg s.settings.caseInsensitive with
      | none => exact (nests_error _).bind fun _ => Nests.pure _
      | some c => exact nests_processCommand hm c
  cases s.mode with
  | error => exact Nests.lift _
  | done => exact Nests.pure _
  | argumentsAndOptions => exact key iterNext _ nests_iterNext
  | argumentsOnly => exact key iterNextValue _ nests_iterNextValue

theorem nests_run (env : Env) (fuel : Nat) : Nests up l k (run (env.later k) fuel) (run env fuel) := by
  induction fuel with
  | zero => exact Nests.lift _
  | succ fuel ih =>
    refine (nests_next hm env).bind fun r => ?_
    cases r <;> first | exact ih | exact Nests.pure ()

end

/-! ## Just after the command has been entered -/

theorem readStandard_whole {r : Reader} {x : Reading} (h : r.readStandard = some x) (hf : ¬ IsFlag .standard x.flag) : x.afterFlag.pending = [] := by
  have short : ∀ (c : UInt8) (cs : Str) (rest : List Str), IsFlag .standard (shortFlag c cs rest).flag := by
    intro c cs rest
    unfold shortFlag
    split <;> exact ⟨by simp [wholeFlag], rfl⟩
  unfold Reader.readStandard at h
  repeat' split at h
  all_goals simp only [Option.some.injEq, reduceCtorEq] at h
  all_goals subst h
  all_goals first | rfl | exact absurd (short _ _ _) hf

/-- After a word that is no option, no flags are pending. -/
theorem taken_pending {d : ParserData} {s : PState} (hg : Good d s) {arg : Str} {it : Iter} (ht : Taken s (some arg) it) (hno : ¬ OptionLike s arg) :
    it.Ok ∧ it.reader.pending = [] ∧ it.pfx = stylePrefix d.settings.optionStyle := by
  rcases ht with ⟨hm, hn⟩ | ⟨hm, hn⟩
  · obtain ⟨x, e1, rfl, e3, e4, e5, e6⟩ := Iter.read_some hg.iterOk hg.pfx hn
    have hnf : ¬ IsFlag d.settings.optionStyle x.flag := by
      intro hf
      apply hno
      refine ⟨hm, ?_⟩
      rw [hg.settings]
      exact (isOption_iff _ _).mpr hf
    refine ⟨by assumption, ?_, by assumption⟩
    cases hs : stylePrefix d.settings.optionStyle with
    | none =>
      have := stylePrefix_none hs
      rw [this] at hnf e1
      have h2 := readStandard_whole e1 hnf
      rw [← h2]
      congr 1
    | some c => exact Iter.prefixed_pending (by simp_all)
  · obtain ⟨it', h1, h2, h3, h4⟩ := s.iter.nextValue_spec hg.iterOk
    rw [hn] at h1
    simp only [Outcome.ok.injEq, Prod.mk.injEq] at h1
    obtain ⟨_, rfl⟩ := h1
    refine ⟨h2, ?_, h3.trans hg.pfx⟩
    rcases h4 with h4 | ⟨_, _, h4⟩
    · rw [h4]
      cases s.iter with
      | std i => exact i.valueState_pending
      | opt i =>
        simp only [Iter.valueState, OptIt.valueState]
        split <;> rfl
    · rw [h4]

/-- What has happened when a command is reported. -/
theorem entered {env : Env} {d : ParserData} (hr : Ready d) {s t : PState} {c : Command} {v : Str} (hg : Good d s) (h : next env s = (.ok (.command c v), t)) :
    ∃ s1, t = enterState c s1 ∧ s1.iter.Ok ∧ s1.iter.reader.pending = [] ∧ s1.iter.pfx = stylePrefix d.settings.optionStyle := by
  obtain ⟨hst, _⟩ := next_good hr hg h
  generalize hq : Outcome.ok (IterResult.command c v) = q at hst
  cases hst with
  | afterError => simp at hq
  | afterDone => simp at hq
  | finished => simp at hq
  | unfinished _ _ he => subst hq; cases he
  | unknownOption _ _ _ _ _ he => subst hq; cases he
  | ignoredOption => simp at hq
  | option _ _ _ ho =>
    subst hq
    cases ho with
    | noValue _ _ he => cases he
    | lastFails _ _ _ _ he => cases he
  | command ht hno _ _ _ =>
    simp only [Outcome.ok.injEq, IterResult.command.injEq] at hq
    obtain ⟨rfl, _⟩ := hq
    exact ⟨_, rfl, taken_pending hg ht hno⟩
  | unknownCommand _ _ _ _ he => subst hq; cases he
  | argument ht hno _ ha =>
    subst hq
    cases ha with
    | sibling _ _ => exact ⟨_, rfl, taken_pending hg ht hno⟩
    | tooMany _ _ _ he => cases he

theorem next_of_iter (env : Env) {s : PState} {i : Iter} (hok : s.iter.Ok) (hm : s.mode = .argumentsAndOptions) (hi : i.next = s.iter.next) :
    next env { s with iter := i } = next env s := by
  obtain ⟨a, it, h1, _⟩ := s.iter.next_ok hok
  rw [next_taken env s a it (Or.inl ⟨hm, h1⟩), next_taken env { s with iter := i } a it (Or.inl ⟨hm, hi.trans h1⟩)]
  cases a <;> rfl

theorem countLoop_more (s : PState) (lo : Nat) {it : Iter} {r n fuel : Nat} (h : countLoop s lo fuel it r = .ok n) (m : Nat) : countLoop s lo (fuel + m) it r = .ok n := by
  induction m with
  | zero => exact h
  | succ m ih => exact countLoop_fuel s lo (fuel + m) ih

/-- The number of arguments ahead depends on the words that follow only. -/
theorem ahead_iter (s : PState) {i : Iter} (hs : s.iter.Ok) (hi : i.Ok) (hn : i.next = s.iter.next) : ahead { s with iter := i } = ahead s := by
  obtain ⟨n, h1⟩ := countArguments_ok s hs
  obtain ⟨m, h2⟩ := countArguments_ok { s with iter := i } hi
  have key : ∀ (lo fuel r : Nat), countLoop s lo (fuel + 1) i r = countLoop s lo (fuel + 1) s.iter r := by
    intro lo fuel r
    simp only [countLoop, hn]
  have h3 : countLoop s (Counter.getMinMaxCount s.command.arguments).1 (i.weight + 1) i 0 = .ok m := by
    have : ∀ (lo fuel : Nat) (it : Iter) (r : Nat), countLoop { s with iter := i } lo fuel it r = countLoop s lo fuel it r := by
      have go : ∀ (lo fuel : Nat) (it : Iter) (r : Nat), countArgsOnly { s with iter := i } lo fuel it r = countArgsOnly s lo fuel it r := by
        intro lo fuel
        induction fuel with
        | zero => intro it r; rfl
        | succ fuel ih => intro it r; simp only [countArgsOnly, ih]; rfl
      intro lo fuel
      induction fuel with
      | zero => intro it r; rfl
      | succ fuel ih => intro it r; simp only [countLoop, ih, go]; rfl
    rw [← this]
    exact h2
  have e1 := countLoop_more s _ h1 i.weight
  have e2 := countLoop_more s _ h3 s.iter.weight
  rw [show i.weight + 1 + s.iter.weight = (s.iter.weight + i.weight) + 1 by omega, key] at e2
  rw [show s.iter.weight + 1 + i.weight = (s.iter.weight + i.weight) + 1 by omega] at e1
  rw [e1] at e2
  simp only [ahead, h1, h2]
  exact (Outcome.ok.inj e2).symm

/-- Without enclosing commands with several sub-commands the enclosing ones don't matter for the number of arguments ahead. -/
theorem ahead_alone {s t : PState} (hset : t.settings = s.settings) (hcmd : t.command = s.command) (hit : t.iter = s.iter)
    (h1 : findMultiParent s.stack = none) (h2 : findMultiParent t.stack = none) : ahead t = ahead s := by
  have hsib : ∀ u : PState, findMultiParent u.stack = none → ∀ name, findSibling u name = none := by
    intro u hu name
    simp only [findSibling, hu]
    split <;> rfl
  have hst : ∀ m r arg, countStops t m r arg = countStops s m r arg := by
    intro m r arg
    simp only [countStops, hsib _ h1, hsib _ h2, hset, hcmd]
  have ha : ∀ m fuel (it : Iter) r, countArgsOnly t m fuel it r = countArgsOnly s m fuel it r := by
    intro m fuel
    induction fuel with
    | zero => intro it r; rfl
    | succ fuel ih => intro it r; simp only [countArgsOnly, hst, ih]
  have hl : ∀ m fuel (it : Iter) r, countLoop t m fuel it r = countLoop s m fuel it r := by
    intro m fuel
    induction fuel with
    | zero => intro it r; rfl
    | succ fuel ih => intro it r; simp only [countLoop, hst, ha, ih, hset, hcmd]
  simp only [ahead, countArguments, hl, hcmd, hit]

theorem inside_nest (m : PNode) (ps : List PNode) : inside m ps = nest m ps := by
  induction ps generalizing m with
  | nil => rfl
  | cons p ps ih => exact ih _

/-- `parse` after the command has been entered, and `parse` for the command alone. -/
theorem parse_nested {env : Env} {d : ParserData} (hr : Ready d) {line post : List Str} {rs : List IterResult} {c : Command} {v : Str} {t : PState}
    (ht : Trace env (start d line).2 (rs ++ [.command c v]) t) (hl : ∀ r ∈ rs, ¬ r.IsLast) {it : Iter} (hrest : t.iter.remainingArguments = .ok (post, it))
    (hm : ∀ n ∈ t.stack.tail, n.command.multiCommand = false) (hi : initialValues c.options [] = []) (fuel : Nat) :
    SameEnd (fun a b => ∃ m up, a = some (inside m up) ∧ b = some m ∧ Recoded t.stack.tail up) (parse env d line (rs.length + 1 + fuel)).1
      (parse (env.later t.calls) { d with command := c } post fuel).1 ∧
    (parse env d line (rs.length + 1 + fuel)).2.log = t.log ++ (parse (env.later t.calls) { d with command := c } post fuel).2.log := by
  obtain ⟨s, hts, hn⟩ : ∃ s, Trace env (start d line).2 rs s ∧ next env s = (.ok (.command c v), t) := by
    obtain ⟨s, h1, h2⟩ := ht.split
    cases h2 with
    | cons hn h2 => cases h2; exact ⟨s, h1, hn⟩
  have hg := hts.good hr (start_good d line).2
  obtain ⟨hst, hgt⟩ := next_good hr hg hn
  obtain ⟨s1, he, k1, k2, k3⟩ := entered hr hg hn
  have hset : s1.settings = d.settings := by rw [← hgt.settings, he]; rfl
  have hiter : t.iter = s1.iter := by rw [he]; rfl
  obtain ⟨it2, j1, j2, j3, j4⟩ := s1.iter.remaining_spec k1
  have hpost : s1.iter.reader = ⟨[], post⟩ := by
    rw [hiter, j1] at hrest
    simp only [Outcome.ok.injEq, Prod.mk.injEq, Reader.unread, k2, if_true] at hrest
    rw [← hrest.1, ← k2]
  obtain ⟨m1, m2, m3⟩ := make_iter d.settings.optionStyle post
  have hnext : (Iter.make d.settings.optionStyle post).next = s1.iter.next := next_of_reader m1 k1 (m3.trans k3.symm) m2 hpost
  have hstack : t.stack = PNode.make c :: s1.stack := by rw [he]; rfl
  have hm1 : ∀ n ∈ s1.stack, n.command.multiCommand = false := by rw [hstack] at hm; exact hm
  have hnone : findMultiParent (PNode.make c :: s1.stack) = none := by
    have := findMultiParent_go_append [] hm1
    exact this
  -- The states before the calls.
  obtain ⟨hS, hgS⟩ := start_good { d with command := c } post
  have hcnt : t.counter = Counter.forCount c.arguments (ahead (startState { d with command := c } post)) := by
    have e1 : t.counter = Counter.forCount c.arguments (ahead { s1 with stack := PNode.make c :: s1.stack, command := c }) := by rw [he]; rfl
    rw [e1]
    congr 1
    rw [← ahead_iter { s1 with stack := PNode.make c :: s1.stack, command := c } k1 m1 hnext]
    refine ahead_alone hset rfl rfl rfl hnone
  have hN : Nested t.stack.tail t.log t.calls (start { d with command := c } post).2 { t with iter := Iter.make d.settings.optionStyle post } := by
    rw [hS]
    refine ⟨by simp [startState], ⟨t.stack.tail, Or.inl rfl, ?_⟩, ?_⟩
    · simp only [startState, hi, hstack]
      rfl
    · have : t = { t with settings := d.settings, command := c, counter := t.counter, mode := .argumentsAndOptions } := by
        have e1 : t.settings = d.settings := hgt.settings
        have e2 : t.command = c := by rw [he]; rfl
        have e3 : t.mode = .argumentsAndOptions := by rw [he]; rfl
        rw [← e1, ← e2, ← e3]
      rw [this]
      simp only [startState, hcnt, List.append_nil, Nat.zero_add]
  have hrun : run env (rs.length + 1 + fuel) (start d line).2 = run env fuel t := by
    have hl' : ∀ r ∈ rs ++ [.command c v], ¬ r.IsLast := by
      intro r hr
      rcases List.mem_append.mp hr with h | h
      · exact hl r h
      · simp only [List.mem_singleton] at h
        subst h
        exact id
    have := Trace.run ht hl' fuel
    rwa [List.length_append, List.length_singleton] at this
  have hrun2 : (run env fuel t).1 = (run env fuel { t with iter := Iter.make d.settings.optionStyle post }).1 ∧
      (run env fuel t).2.log = (run env fuel { t with iter := Iter.make d.settings.optionStyle post }).2.log ∧
      (run env fuel t).2.stack = (run env fuel { t with iter := Iter.make d.settings.optionStyle post }).2.stack := by
    cases fuel with
    | zero => exact ⟨rfl, rfl, rfl⟩
    | succ fuel =>
      have hnx : next env { t with iter := Iter.make d.settings.optionStyle post } = next env t :=
        next_of_iter env (by rw [hiter]; exact k1) (by rw [he]; rfl) (hnext.trans (by rw [hiter]))
      have : run env (fuel + 1) { t with iter := Iter.make d.settings.optionStyle post } = run env (fuel + 1) t := by
        show ParserM.bind (next env) _ _ = ParserM.bind (next env) _ _
        simp only [ParserM.bind, hnx]
      rw [this]
      exact ⟨rfl, rfl, rfl⟩
  obtain ⟨n1, n2⟩ := nests_run hm env fuel _ _ hN
  obtain ⟨q1, q2, q3⟩ := hrun2
  rw [n1] at q1
  have hlog : (run env fuel t).2.log = t.log ++ (run (env.later t.calls) fuel (start { d with command := c } post).2).2.log := by
    rw [q2, n2.same]
  obtain ⟨S1, hS1⟩ : ∃ S, start d line = (.ok (), S) := ⟨_, (start_good d line).1⟩
  obtain ⟨S2, hS2⟩ : ∃ S, start { d with command := c } post = (.ok (), S) := ⟨_, hS⟩
  simp only [parse, hS1, hS2]
  rw [hS1] at hrun
  rw [hS2] at n2 q1 hlog
  simp only at hrun n2 q1 hlog
  rw [hrun]
  obtain ⟨a, al, up', g1, g2, g3⟩ := n2.elim
  have hstk : (run env fuel t).2.stack = a :: (al ++ up') := by
    rw [q3, g3]
    rfl
  clear g3 q2 q3 n1 n2 hS1 hS2 hrun
  revert hstk g1 hlog q1
  generalize run env fuel t = x
  generalize run (env.later t.calls) fuel S2 = y
  obtain ⟨x, X⟩ := x
  obtain ⟨y, Y⟩ := y
  intro hlog q1 g1 hstk
  simp only at q1 hlog hstk g1
  subst x
  cases y with
  | ok u =>
    refine ⟨⟨nest a al, up', ?_, topLevel_eq g1, g2⟩, hlog⟩
    rw [topLevel_eq hstk, inside_nest]
    congr 1
    clear hstk g1
    induction al generalizing a with
    | nil => rfl
    | cons b bs ih => exact ih _
  | _ => first | exact ⟨rfl, hlog⟩ | exact ⟨trivial, hlog⟩

theorem initialValues_none {os : List OptData} (h : ∀ o ∈ os, o.initialValue = []) (vs : Values) : initialValues os vs = vs := by
  induction os generalizing vs with
  | nil => rfl
  | cons o os ih =>
    simp only [initialValues, h o (by simp)]
    simpa using ih (fun o ho => h o (by simp [ho])) vs

end Parser

/-! ## The sub-command after the initialisation, inside of its parser and alone -/

theorem finishCommand_named (s : ParserSettings) (fn : Str) (a b : Nat) (c : Command) (f : Str) :
    finishCommand s fn a b { c with fullName := f } = finishCommand s fn a b c := by
  cases c
  rfl

theorem finishCommand_called {s : ParserSettings} {fn : Str} {a b : Nat} {c c' : Command} (h : finishCommand s fn a b c = .ok c') : c'.fullName = fn := by
  obtain ⟨c1, x, y, cmds, h1, h2, rfl⟩ := finishCommand_ok h
  obtain ⟨_, _, _, _, _, _, _, _, h, _⟩ := finishSelf_ok h1
  exact h

/-- The sub-commands after the initialisation come from the declared ones at the same place. -/
theorem finishCommand_place {s : ParserSettings} {fn : Str} {a b : Nat} {c c' : Command} (h : finishCommand s fn a b c = .ok c') {p : List Nat} {x x' : Command}
    (hx : c.at p = some x) (hx' : c'.at p = some x') : ∃ a' b', finishCommand s x'.fullName a' b' x = .ok x' := by
  induction p generalizing fn a b c c' with
  | nil =>
    simp only [Command.at, Option.some.injEq] at hx hx'
    subst hx hx'
    exact ⟨a, b, by rw [finishCommand_called h]; exact h⟩
  | cons i p ih =>
    obtain ⟨c1, u, v, cmds, h1, h2, rfl⟩ := finishCommand_ok h
    obtain ⟨_, hget⟩ := finishCommands_get h2
    unfold Command.at at hx hx'
    cases hi : c.commands[i]? with
    | none => rw [hi] at hx; simp at hx
    | some y =>
      obtain ⟨y', e1, e2⟩ := hget i y hi
      simp only [hi] at hx
      simp only [e1] at hx'
      exact ih e2 hx hx'

theorem at_within {c x : Command} {p : List Nat} (h : c.at p = some x) : x.Within c := by
  induction p generalizing c with
  | nil =>
    simp only [Command.at, Option.some.injEq] at h
    subst h
    exact .self
  | cons i p ih =>
    unfold Command.at at h
    cases hi : c.commands[i]? with
    | none => rw [hi] at h; simp at h
    | some y =>
      simp only [hi] at h
      exact .sub (List.mem_of_getElem? hi) (ih h)

theorem at_version {c : Command} {os : List OptData} {i : Nat} {p : List Nat} : ({ c with options := os } : Command).at (i :: p) = c.at (i :: p) := by
  simp only [Command.at]

mutual
theorem reordered_refl : (c : Command) → Reordered c c
  | ⟨args, os, cs, sec, name, fn, texts, vis, req, multi, sect, id, aid, idx⟩ =>
    .intro ⟨args, os, cs, sec, name, fn, texts, vis, req, multi, sect, id, aid, idx⟩ (List.Perm.refl _) (reorderedAll_refl cs)
theorem reorderedAll_refl : (cs : List Command) → ReorderedAll cs cs
  | [] => .nil
  | c :: cs => .cons (reordered_refl c) (reorderedAll_refl cs)
end

theorem alone_init (d0 : ParserData) (c0 : Command) {fn : Str} (hfn : fn ≠ []) :
    finishInitialization (alone d0 c0 fn) = finishCommand d0.settings fn 0 0 c0 >>= fun c => pure { alone d0 c0 fn with command := c } := by
  cases fn with
  | nil => exact absurd rfl hfn
  | cons x xs =>
    rw [← finishCommand_named d0.settings (x :: xs) 0 0 c0 (x :: xs)]
    rfl

theorem alone_ok {d0 d' : ParserData} {c0 : Command} {fn : Str} (hfn : fn ≠ []) (h : finishInitialization (alone d0 c0 fn) = .ok d') :
    d'.settings = d0.settings ∧ finishCommand d0.settings fn 0 0 c0 = .ok d'.command := by
  refine ⟨(finishInitialization_ok h).1, ?_⟩
  rw [alone_init d0 c0 hfn, Outcome.bind_eq_ok] at h
  obtain ⟨c', h1, h2⟩ := h
  simp only [Outcome.pure_eq, Outcome.ok.injEq] at h2
  subst h2
  exact h1

theorem sub_fullName {s : ParserSettings} {fn : Str} {a b : Nat} {c c' : Command} (h : finishCommand s fn a b c = .ok c') {i : Nat} {p : List Nat} {x' : Command}
    (hx' : c'.at (i :: p) = some x') : x'.fullName ≠ [] := by
  induction p generalizing i fn a b c c' with
  | nil =>
    obtain ⟨c1, u, v, cmds, h1, h2, rfl⟩ := finishCommand_ok h
    obtain ⟨hlen, hget⟩ := finishCommands_get h2
    unfold Command.at at hx'
    cases hi : cmds[i]? with
    | none => simp only [hi] at hx'; simp at hx'
    | some y' =>
      simp only [hi, Command.at, Option.some.injEq] at hx'
      subst hx'
      have hlt := (List.getElem?_eq_some_iff.mp hi).1
      obtain ⟨y2, e1, e2⟩ := hget i _ (List.getElem?_eq_getElem (by omega : i < c.commands.length))
      rw [hi] at e1
      simp only [Option.some.injEq] at e1
      subst e1
      rw [finishCommand_called e2]
      simp
  | cons j p ih =>
    obtain ⟨c1, u, v, cmds, h1, h2, rfl⟩ := finishCommand_ok h
    obtain ⟨hlen, hget⟩ := finishCommands_get h2
    unfold Command.at at hx'
    cases hi : cmds[i]? with
    | none => simp only [hi] at hx'; simp at hx'
    | some y' =>
      simp only [hi] at hx'
      have hlt := (List.getElem?_eq_some_iff.mp hi).1
      obtain ⟨y2, e1, e2⟩ := hget i _ (List.getElem?_eq_getElem (by omega : i < c.commands.length))
      rw [hi] at e1
      simp only [Option.some.injEq] at e1
      subst e1
      exact ih e2 hx'

end Argos
