import Verif.Proofs.Objects
import Verif.Props.Outcome

/-! # C91: objects that hold results -/

namespace Argos
open Spec

/-! ## C91 -/

/-- **C91**, part 1: a client program that keeps to the rules never has undefined behaviour, whatever has been parsed. The rules forbid the use of objects
that have been moved from or default-constructed, and of views when nothing keeps the results; see the violations below. -/
theorem C91_safe_partial {ops : List ObjOp} (h : Careful ops) : Client.run {} ops ≠ .ub := by
  obtain ⟨t, ht⟩ := Option.isSome_iff_exists.mp h
  exact (run_good ops agrees_init ht).1

/-- **C91**, part 2: what reading an object shows doesn't depend on what has been done to other objects since, including that they have been destroyed. -/
theorem C91_unchanged {pre more : List ObjOp} {op : ObjOp} {y : Nat} {ss ss' : List Sight} {w w' : Client} (h : Careful (pre ++ [op]))
    (h' : Careful (pre ++ more ++ [op])) (hl : ∀ o ∈ more, LeavesAlone y o) (hr : Reads y op) (hw : Client.run {} pre = .ok (ss, w))
    (hw' : Client.run {} (pre ++ more) = .ok (ss', w')) : ((·.1) <$> w'.step op) = ((·.1) <$> w.step op) := by
  obtain ⟨t, ht⟩ := Option.isSome_iff_exists.mp h
  obtain ⟨t', ht'⟩ := Option.isSome_iff_exists.mp h'
  rw [known_append, Option.bind_eq_some_iff] at ht ht'
  obtain ⟨t1, ht1, ht2⟩ := ht
  obtain ⟨t1', ht1', ht2'⟩ := ht'
  simp only [Known.run, Option.bind_eq_some_iff] at ht2 ht2'
  obtain ⟨_, hs, _⟩ := ht2
  obtain ⟨_, hs', _⟩ := ht2'
  have ha := (run_good pre agrees_init ht1).2 ss w hw
  have ha' := (run_good (pre ++ more) agrees_init ht1').2 ss' w' hw'
  rw [run_append_ok hw] at hw'
  obtain ⟨⟨ss2, w2⟩, h2, h3⟩ := bind_ok (f := fun (p : List Sight × Client) => .ok (ss ++ p.1, p.2)) hw'
  simp only [Outcome.ok.injEq, Prod.mk.injEq] at h3
  have hy : y < w.vars.length := by
    rcases Nat.lt_or_ge y w.vars.length with h | h
    · exact h
    · exfalso
      have hg := step_good ha hs
      have hn : w.obj y = none := by simp [Client.obj, List.getElem?_eq_none h]
      cases op <;> simp only [Reads] at hr <;> (try subst hr) <;> simp [Client.step, hn, GoodStep] at hg
  have hsp := run_spares more hy hl h2
  rw [h3.2] at hsp
  exact reads_same ha ha' hsp hr (by simp [hs]) (by simp [hs'])

/-- **C91**, part 3: a value that has been taken from the results is the same after anything else the client does without touching it; the results may be
gone by then. -/
theorem C91_survives {p : Parse} {name d : Str} {v : ArgValue} {more : List ObjOp} {ss : List Sight} {w : Client} (hv : p.node.value name = .ok v)
    (hc : Careful (.parsed p :: .getValue 0 name :: more ++ [.asString 1 d])) (hl : ∀ o ∈ more, LeavesAlone 1 o)
    (hw : Client.run {} (.parsed p :: .getValue 0 name :: more) = .ok (ss, w)) : ((·.1) <$> w.step (.asString 1 d)) = .ok (.texts [v.asString d]) := by
  have hfind : Client.find ⟨[p], [some (.results (some ⟨0, []⟩))]⟩ ⟨0, []⟩ = some (p.node, p.settings) := rfl
  have hpre : Client.run {} [.parsed p, .getValue 0 name] =
      .ok ([.nothing, .nothing], ⟨[p], [some (.results (some ⟨0, []⟩)), some (Client.valueObj ⟨0, []⟩ v)]⟩) := by
    show ((Client.step ⟨[p], [some (.results (some ⟨0, []⟩))]⟩ (.getValue 0 name)) >>= _) >>= _ = _
    have : Client.step ⟨[p], [some (.results (some ⟨0, []⟩))]⟩ (.getValue 0 name) =
        .ok (.nothing, ⟨[p], [some (.results (some ⟨0, []⟩)), some (Client.valueObj ⟨0, []⟩ v)]⟩) := by
      show (p.node.value name >>= _) = _
      rw [hv]
      rfl
    rw [this]
    rfl
  have h := C91_unchanged (pre := [.parsed p, .getValue 0 name]) (more := more) (op := .asString 1 d) (y := 1) rfl hc hl rfl hpre hw
  rw [h]
  simp only [Client.step, Client.obj, Client.valueObj, List.getElem?_cons_succ, List.getElem?_cons_zero, Option.join_some, Client.readValue]
  split <;> rfl

/-- **C91**, part 4: a default-constructed `ArgumentValue` is empty, and what would need results throws. -/
theorem C91_default {w : Client} {s : Sight} {w' : Client} (h : w.step .newValue = .ok (s, w')) :
    let y := w.vars.length
    ((·.1) <$> w'.step (.toBool y)) = .ok (.flag false) ∧ (∀ d, ((·.1) <$> w'.step (.asString y d)) = .ok (.texts [d])) ∧
      (∀ d base, ((·.1) <$> w'.step (.asInt y d base)) = .ok (.number d)) ∧ w'.step (.argumentIds y) = .throw Client.uninitialized ∧
      (∀ m, w'.step (.valueError y m) = .throw Client.uninitialized) ∧ ∀ c a b, w'.step (.splitValue y c a b) = .throw Client.uninitialized := by
  simp only [Client.step, Outcome.ok.injEq, Prod.mk.injEq] at h
  obtain ⟨_, rfl⟩ := h
  have ho : (w.push (.value ⟨none, 0, 0⟩ none none)).obj w.vars.length = some (.value ⟨none, 0, 0⟩ none none) := by rw [obj_push, if_pos rfl]
  simp only [Client.step, ho]
  exact ⟨rfl, fun _ => rfl, fun _ _ => rfl, trivial, fun _ => rfl, fun _ _ _ => trivial⟩

/-- **C91**, part 5: moving an `ArgumentValue` leaves one that throws when its results are needed; the new one reads as the old one did. -/
theorem C91_moved {pre : List ObjOp} {x : Nat} {d : Str} {ss : List Sight} {w w' : Client} {s : Sight} (h : Careful (pre ++ [.asString x d]))
    (hw : Client.run {} pre = .ok (ss, w)) (hm : w.step (.move x) = .ok (s, w')) :
    w'.step (.argumentIds x) = .throw Client.uninitialized ∧ (∀ m, w'.step (.valueError x m) = .throw Client.uninitialized) ∧
      (∀ c a b, w'.step (.splitValue x c a b) = .throw Client.uninitialized) ∧
      ((·.1) <$> w'.step (.asString w.vars.length d)) = ((·.1) <$> w.step (.asString x d)) := by
  obtain ⟨t, ht⟩ := Option.isSome_iff_exists.mp h
  rw [known_append, Option.bind_eq_some_iff] at ht
  obtain ⟨t1, ht1, ht2⟩ := ht
  simp only [Known.run, Option.bind_eq_some_iff] at ht2
  obtain ⟨_, hs, _⟩ := ht2
  have ha := (run_good pre agrees_init ht1).2 ss w hw
  simp only [Known.step, Option.map_eq_some_iff] at hs
  obtain ⟨n, hu, _⟩ := hs
  obtain ⟨v, tx, r, h1, h2, ⟨nd, h3⟩, h4⟩ := uses_value ha hu
  have hx : x < w.vars.length := by
    rcases Nat.lt_or_ge x w.vars.length with h | h
    · exact h
    · simp [Client.obj, List.getElem?_eq_none h] at h1
  simp only [Client.step, h1, Outcome.ok.injEq, Prod.mk.injEq] at hm
  obtain ⟨_, rfl⟩ := hm
  have o1 : ((w.put x (some (ResultObj.value v tx (some r)).moved)).push (.value v tx (some r))).obj x = some (.value v tx none) := by
    rw [obj_push, length_put, if_neg (by omega), obj_put, if_pos ⟨rfl, hx⟩]
    rfl
  have o2 : ((w.put x (some (ResultObj.value v tx (some r)).moved)).push (.value v tx (some r))).obj w.vars.length = some (.value v tx (some r)) := by
    rw [obj_push, length_put, if_pos rfl]
  refine ⟨by simp only [Client.step, o1], fun m => by simp only [Client.step, o1, Client.errorOf], fun _ _ _ => by simp only [Client.step, o1], ?_⟩
  simp only [Client.step, o2, h1]
  have hv : ∀ u : Client, (∃ i, u.obj i = some (.value v tx (some r))) → u.readValue v tx = .ok () := by
    rintro u ⟨i, hi⟩
    unfold Client.readValue
    split
    · rename_i hv
      rw [h4 hv]
      exact readText_alive hi rfl
    · rfl
  rw [hv _ ⟨_, o2⟩, hv w ⟨_, h1⟩]
  rfl

/-- What a program shows. -/
def shownBy (st : ParserSettings) (ops : List ObjOp) (n : PNode) : Option (List Sight) :=
  match Client.run {} (.parsed ⟨n, st⟩ :: ops) with
  | .ok (ss, _) => some ss
  | _ => none

/-- A program has undefined behaviour. -/
def isUndefined (st : ParserSettings) (ops : List ObjOp) (n : PNode) : Bool :=
  match Client.run {} (.parsed ⟨n, st⟩ :: ops) with
  | .ub => true
  | _ => false

/-- A program that takes a value, destroys the results, splits the value, and reads both. -/
def carefulProgram : List ObjOp := [.getValue 0 b!"--output", .destroy 0, .splitValue 1 c!"," 0 9, .item 2 1, .asString 1 b!"?", .asStrings 2 [], .destroy 1,
  .destroy 2, .asString 3 b!"?"]

example (p : Parse) : Careful (.parsed p :: carefulProgram) := rfl

example : ∃ d, finishInitialization cliData = .ok d ∧
    parseTo (shownBy d.settings carefulProgram) Env.inert d [b!"-o", b!"a,b", b!"in"] 50 =
    some (some [.nothing, .nothing, .nothing, .nothing, .nothing, .texts [b!"a,b"], .texts [b!"a", b!"b"], .nothing, .nothing, .texts [b!"b"]]) := by
  refine Outcome.exists_ok ?_
  decide +kernel

example : (∀ o ∈ [ObjOp.destroy 0, .newValue], LeavesAlone 1 o) := by
  intro o ho
  simp only [List.mem_cons, List.not_mem_nil, or_false] at ho
  rcases ho with rfl | rfl <;> simp [LeavesAlone]

/-- **C91** is violated by results that have been moved from: asking them is undefined behaviour, while an `ArgumentIterator`, an `ArgumentParser` or a
`Command` in the same state throws. -/
theorem C91_moved_violated : ∃ d, finishInitialization cliData = .ok d ∧
    parseTo (isUndefined d.settings [.move 0, .has 0 b!"-v"]) Env.inert d [b!"in"] 50 = some true := by
  refine Outcome.exists_ok ?_
  decide +kernel

/-- **C91** is violated by default-constructed results. -/
theorem C91_default_violated : ∃ d, finishInitialization cliData = .ok d ∧
    parseTo (isUndefined d.settings [.newResults, .unprocessed 1]) Env.inert d [b!"in"] 50 = some true := by
  refine Outcome.exists_ok ?_
  decide +kernel

/-- **C91** is violated by an `ArgumentValue` that has been moved from: it still has the text, but no longer keeps it. -/
theorem C91_text_violated :
    ∃ d, finishInitialization cliData = .ok d ∧
    parseTo (isUndefined d.settings [.getValue 0 b!"IN", .move 1, .destroy 0, .destroy 2, .asString 1 []]) Env.inert d [b!"in"] 50 = some true := by
  refine Outcome.exists_ok ?_
  decide +kernel

/-- **C91** is violated by `ArgumentValues` that have been moved from: `error` and `arguments` are undefined behaviour, while they throw for
`ArgumentValue`. -/
theorem C91_values_violated : ∃ d, finishInitialization cliData = .ok d ∧
    parseTo (isUndefined d.settings [.getValues 0 b!"IN", .move 1, .valuesError 1 b!"bad"]) Env.inert d [b!"in"] 50 = some true := by
  refine Outcome.exists_ok ?_
  decide +kernel

/-- **C91** is violated by views: the stop option doesn't keep what it refers to. -/
theorem C91_view_violated : ∃ d, finishInitialization cliData = .ok d ∧
    parseTo (isUndefined d.settings [.stopOption 0, .destroy 0, .names 1]) Env.inert d [b!"--stop"] 50 = some true := by
  refine Outcome.exists_ok ?_
  decide +kernel

/-- **C91**, what views need: the view of the command shows its name while the results exist. Once they are destroyed, reading it is undefined behaviour,
although other results still exist. -/
theorem C91_view (p q : Parse) :
    (∃ w, Client.run {} [.parsed p, .command 0, .names 1] = .ok ([.nothing, .nothing, .texts [p.node.command.name]], w)) ∧
    Client.run {} [.parsed p, .command 0, .parsed q, .destroy 0, .names 1] = .ub := by
  constructor
  · exact ⟨_, rfl⟩
  · rfl

/-- **C91**, what texts need: an `ArgumentValue` that has been moved from still has its text while any object keeps the results. Once none does, reading it is
undefined behaviour, although other results still exist. -/
theorem C91_text (p q : Parse) (name : Str) {v : ArgValue} {t : Str} (hv : p.node.value name = .ok v) (ht : v.value = some t) (d : Str) :
    (∃ w, Client.run {} [.parsed p, .getValue 0 name, .move 1, .destroy 0, .asString 1 d] =
      .ok ([.nothing, .nothing, .nothing, .nothing, .texts [t]], w)) ∧
    Client.run {} [.parsed p, .getValue 0 name, .move 1, .parsed q, .destroy 0, .destroy 2, .asString 1 d] = .ub := by
  obtain ⟨x, i, a⟩ := v
  simp only at ht
  subst ht
  have h1 : Client.step ⟨[p], [some (.results (some ⟨0, []⟩))]⟩ (.getValue 0 name) =
      .ok (.nothing, ⟨[p], [some (.results (some ⟨0, []⟩)), some (Client.valueObj ⟨0, []⟩ ⟨some t, i, a⟩)]⟩) := by
    show (p.node.value name >>= _) = _
    rw [hv]
    rfl
  have h2 : ∀ ops, Client.run {} (.parsed p :: .getValue 0 name :: ops) =
      (Client.run ⟨[p], [some (.results (some ⟨0, []⟩)), some (Client.valueObj ⟨0, []⟩ ⟨some t, i, a⟩)]⟩ ops >>= fun r =>
        .ok (.nothing :: .nothing :: r.1, r.2)) := by
    intro ops
    show ((Client.step ⟨[p], [some (.results (some ⟨0, []⟩))]⟩ (.getValue 0 name)) >>= _) >>= _ = _
    rw [h1]
    show (Client.run _ ops >>= _) >>= _ = _
    cases Client.run _ ops <;> rfl
  rw [h2, h2]
  exact ⟨⟨_, rfl⟩, rfl⟩

-- A value that was given.
example : ∃ d, finishInitialization cliData = .ok d ∧
    parseTo (fun n => match n.value b!"IN" with | .ok v => v.value | _ => none) Env.inert d [b!"in"] 50 = some (some b!"in") := by
  refine Outcome.exists_ok ?_
  decide +kernel

end Argos
