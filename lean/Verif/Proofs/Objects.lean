import Verif.Spec.Objects

/-! # Client programs: the variables are as the client knows them -/

namespace Argos
open Spec

/-- The object is as the client knows it. -/
def Fits (w : Client) : Status → Option ResultObj → Prop
  | .gone, o => o = none
  | .blank .results, o => ∃ r, o = some (.results r)
  | .blank .value, o => ∃ v t a, o = some (.value v t a)
  | .blank .values, o => ∃ v t a, o = some (.values v t a)
  | .blank .option, o => ∃ x k, o = some (.view (.option x) k)
  | .blank .command, o => ∃ x k, o = some (.view (.command x) k)
  | .live .results n, o => ∃ r, o = some (.results (some r)) ∧ r.parse = n ∧ (w.find r).isSome
  | .live .value n, o => ∃ v t r, o = some (.value v t (some r)) ∧ r.parse = n ∧ (w.find r).isSome ∧ (v.value.isSome → t = some r)
  | .live .values n, o => ∃ v t r, o = some (.values v t (some r)) ∧ r.parse = n ∧ (w.find r).isSome ∧ (v.values.isEmpty = false → t = some r)
  | .live .option n, o => ∃ x, o = some (.view (.option x) n)
  | .live .command n, o => ∃ x, o = some (.view (.command x) n)

/-- The variables are as the client knows them. -/
structure Agrees (t : Known) (w : Client) : Prop where
  parses : t.parses = w.parses.length
  vars : t.vars.length = w.vars.length
  fits : ∀ x, Fits w (t.var x) (w.obj x)

theorem Fits.mono {w w' : Client} (h : ∀ r, (w.find r).isSome → (w'.find r).isSome) {s : Status} {o : Option ResultObj} (hf : Fits w s o) : Fits w' s o := by
  cases s with
  | gone => exact hf
  | blank k => cases k <;> exact hf
  | live k n =>
    cases k with
    | results => obtain ⟨r, h1, h2, h3⟩ := hf; exact ⟨r, h1, h2, h r h3⟩
    | value => obtain ⟨v, t, r, h1, h2, h3, h4⟩ := hf; exact ⟨v, t, r, h1, h2, h r h3, h4⟩
    | values => obtain ⟨v, t, r, h1, h2, h3, h4⟩ := hf; exact ⟨v, t, r, h1, h2, h r h3, h4⟩
    | option => exact hf
    | command => exact hf

theorem obj_push (w : Client) (o : ResultObj) (x : Nat) : (w.push o).obj x = if x = w.vars.length then some o else w.obj x := by
  unfold Client.obj Client.push
  simp only [List.getElem?_append]
  split
  · have : x ≠ w.vars.length := by omega
    simp [this]
  · by_cases hx : x = w.vars.length
    · subst hx; simp
    · simp only [hx, if_false]
      rw [List.getElem?_eq_none (by simp; omega), List.getElem?_eq_none (by omega)]

theorem obj_put (w : Client) (o : Option ResultObj) (x y : Nat) : (w.put x o).obj y = if y = x ∧ x < w.vars.length then o else w.obj y := by
  unfold Client.obj Client.put
  simp only [List.getElem?_set]
  by_cases h : x = y
  · subst h
    by_cases h2 : x < w.vars.length
    · simp [h2]
    · simp [h2]
  · simp [h, Ne.symm h, eq_comm]

theorem var_push (t : Known) (s : Status) (x : Nat) : (t.push s).var x = if x = t.vars.length then s else t.var x := by
  unfold Known.var Known.push
  simp only [List.getElem?_append]
  split
  · have : x ≠ t.vars.length := by omega
    simp [this]
  · by_cases hx : x = t.vars.length
    · subst hx; simp
    · simp only [hx, if_false]
      rw [List.getElem?_eq_none (by simp; omega), List.getElem?_eq_none (by omega)]

theorem var_put (t : Known) (s : Status) (x y : Nat) : (t.put x s).var y = if y = x ∧ x < t.vars.length then s else t.var y := by
  unfold Known.var Known.put
  simp only [List.getElem?_set]
  by_cases h : x = y
  · subst h
    by_cases h2 : x < t.vars.length
    · simp [h2]
    · simp [h2]
  · simp [h, Ne.symm h, eq_comm]

theorem Agrees.push {t : Known} {w : Client} (h : Agrees t w) {s : Status} {o : ResultObj} (hf : Fits w s (some o)) : Agrees (t.push s) (w.push o) := by
  refine ⟨h.parses, by simp [Known.push, Client.push, h.vars], fun x => ?_⟩
  rw [var_push, obj_push, h.vars]
  split
  · exact Fits.mono (fun _ h => h) hf
  · exact Fits.mono (fun _ h => h) (h.fits x)

theorem Agrees.put {t : Known} {w : Client} (h : Agrees t w) {s : Status} {o : Option ResultObj} (x : Nat) (hf : Fits w s o) : Agrees (t.put x s) (w.put x o) := by
  refine ⟨h.parses, by simp [Known.put, Client.put, h.vars], fun y => ?_⟩
  rw [var_put, obj_put, h.vars]
  split
  · exact Fits.mono (fun _ h => h) hf
  · exact Fits.mono (fun _ h => h) (h.fits y)

theorem Fits.moved {w : Client} {s : Status} {o : ResultObj} (h : Fits w s (some o)) : Fits w s.moved (some o.moved) := by
  cases s with
  | gone => simp [Fits] at h
  | blank k =>
    cases k with
    | results => obtain ⟨r, h⟩ := h; cases h; exact ⟨_, rfl⟩
    | value => obtain ⟨v, t, a, h⟩ := h; cases h; exact ⟨_, _, _, rfl⟩
    | values => obtain ⟨v, t, a, h⟩ := h; cases h; exact ⟨_, _, _, rfl⟩
    | option => obtain ⟨v, t, h⟩ := h; cases h; exact ⟨_, _, rfl⟩
    | command => obtain ⟨v, t, h⟩ := h; cases h; exact ⟨_, _, rfl⟩
  | live k n =>
    cases k with
    | results => obtain ⟨r, h, _⟩ := h; cases h; exact ⟨_, rfl⟩
    | value => obtain ⟨v, t, a, h, _⟩ := h; cases h; exact ⟨_, _, _, rfl⟩
    | values => obtain ⟨v, t, a, h, _⟩ := h; cases h; exact ⟨_, _, _, rfl⟩
    | option => obtain ⟨v, h⟩ := h; cases h; exact ⟨_, rfl⟩
    | command => obtain ⟨v, h⟩ := h; cases h; exact ⟨_, rfl⟩

theorem Fits.exists {w : Client} {s : Status} {o : Option ResultObj} (h : Fits w s o) (hs : s ≠ .gone) : ∃ x, o = some x := by
  cases s with
  | gone => exact absurd rfl hs
  | blank k =>
    cases k with
    | results => obtain ⟨_, h⟩ := h; exact ⟨_, h⟩
    | value => obtain ⟨_, _, _, h⟩ := h; exact ⟨_, h⟩
    | values => obtain ⟨_, _, _, h⟩ := h; exact ⟨_, h⟩
    | option => obtain ⟨_, _, h⟩ := h; exact ⟨_, h⟩
    | command => obtain ⟨_, _, h⟩ := h; exact ⟨_, h⟩
  | live k n =>
    cases k with
    | results => obtain ⟨_, h, _⟩ := h; exact ⟨_, h⟩
    | value => obtain ⟨_, _, _, h, _⟩ := h; exact ⟨_, h⟩
    | values => obtain ⟨_, _, _, h, _⟩ := h; exact ⟨_, h⟩
    | option => obtain ⟨_, h⟩ := h; exact ⟨_, h⟩
    | command => obtain ⟨_, h⟩ := h; exact ⟨_, h⟩

/-- The type of an object. -/
def ResultObj.kind : ResultObj → Kind
  | .results _ => .results
  | .value .. => .value
  | .values .. => .values
  | .view (.option _) _ => .option
  | .view (.command _) _ => .command

theorem Fits.kind {w : Client} {s : Status} {o : ResultObj} (h : Fits w s (some o)) : s.kind = some o.kind := by
  cases s with
  | gone => simp [Fits] at h
  | blank k =>
    cases k with
    | results => obtain ⟨_, h⟩ := h; cases h; rfl
    | value => obtain ⟨_, _, _, h⟩ := h; cases h; rfl
    | values => obtain ⟨_, _, _, h⟩ := h; cases h; rfl
    | option => obtain ⟨_, _, h⟩ := h; cases h; rfl
    | command => obtain ⟨_, _, h⟩ := h; cases h; rfl
  | live k n =>
    cases k with
    | results => obtain ⟨_, h, _⟩ := h; cases h; rfl
    | value => obtain ⟨_, _, _, h, _⟩ := h; cases h; rfl
    | values => obtain ⟨_, _, _, h, _⟩ := h; cases h; rfl
    | option => obtain ⟨_, h⟩ := h; cases h; rfl
    | command => obtain ⟨_, h⟩ := h; cases h; rfl

theorem sameType_of_kind {o p : ResultObj} (h : o.kind = p.kind) : o.sameType p = true := by
  rcases o with _ | _ | _ | ⟨_ | _, _⟩ <;> rcases p with _ | _ | _ | ⟨_ | _, _⟩ <;> first | rfl | exact absurd h (by decide) | (simp [ResultObj.kind] at h)

theorem obj_mem {w : Client} {x : Nat} {o : ResultObj} (h : w.obj x = some o) : some o ∈ w.vars := by
  unfold Client.obj at h
  cases e : w.vars[x]? with
  | none => simp [e] at h
  | some q =>
    simp only [e, Option.join_some] at h
    exact List.mem_of_getElem? (h ▸ e)

theorem alive_of {w : Client} {x : Nat} {o : ResultObj} {r : Ref} (h : w.obj x = some o) (ho : o.owns = some r) : w.nodeAlive r = true := by
  unfold Client.nodeAlive
  rw [List.any_eq_true]
  refine ⟨_, obj_mem h, ?_⟩
  simp [ho]

theorem dataAlive_of {w : Client} {x : Nat} {o : ResultObj} {r : Ref} (h : w.obj x = some o) (ho : o.owns = some r) : w.dataAlive r.parse = true := by
  unfold Client.dataAlive
  rw [List.any_eq_true]
  refine ⟨_, obj_mem h, ?_⟩
  simp [ho]

theorem Agrees.kept {t : Known} {w : Client} (h : Agrees t w) {n : Nat} (hk : t.kept n = true) : w.dataAlive n = true := by
  unfold Known.kept at hk
  rw [List.any_eq_true] at hk
  obtain ⟨s, hs, hk⟩ := hk
  obtain ⟨x, hx, rfl⟩ := List.mem_iff_getElem.mp hs
  have hv : t.var x = t.vars[x] := by simp [Known.var, hx]
  have hf := h.fits x
  rw [hv] at hf
  generalize t.vars[x] = s at hf hk
  unfold Status.keeps at hk
  split at hk
  · obtain ⟨r, h1, h2, _⟩ := hf
    have : n = r.parse := by rw [h2]; simpa using hk
    rw [this]
    exact dataAlive_of h1 rfl
  · obtain ⟨_, _, r, h1, h2, _⟩ := hf
    have : n = r.parse := by rw [h2]; simpa using hk
    rw [this]
    exact dataAlive_of h1 rfl
  · obtain ⟨_, _, r, h1, h2, _⟩ := hf
    have : n = r.parse := by rw [h2]; simpa using hk
    rw [this]
    exact dataAlive_of h1 rfl
  · simp at hk

theorem uses_results {t : Known} {w : Client} (h : Agrees t w) {x n : Nat} (hu : t.uses x .results = some n) :
    ∃ r, w.obj x = some (.results (some r)) ∧ r.parse = n ∧ ∃ nd, w.find r = some nd := by
  have hf := h.fits x
  unfold Known.uses at hu
  generalize t.var x = s at hf hu
  cases s with
  | gone => simp at hu
  | blank _ => simp at hu
  | live k m =>
    simp only [Option.ite_none_right_eq_some, Option.some.injEq] at hu
    obtain ⟨rfl, rfl⟩ := hu
    obtain ⟨r, h1, h2, h3⟩ := hf
    exact ⟨r, h1, h2, Option.isSome_iff_exists.mp h3⟩

theorem uses_value {t : Known} {w : Client} (h : Agrees t w) {x n : Nat} (hu : t.uses x .value = some n) :
    ∃ v t r, w.obj x = some (.value v t (some r)) ∧ r.parse = n ∧ (∃ nd, w.find r = some nd) ∧ (v.value.isSome → t = some r) := by
  have hf := h.fits x
  unfold Known.uses at hu
  generalize t.var x = s at hf hu
  cases s with
  | gone => simp at hu
  | blank _ => simp at hu
  | live k m =>
    simp only [Option.ite_none_right_eq_some, Option.some.injEq] at hu
    obtain ⟨rfl, rfl⟩ := hu
    obtain ⟨v, t, r, h1, h2, h3, h4⟩ := hf
    exact ⟨v, t, r, h1, h2, Option.isSome_iff_exists.mp h3, h4⟩

theorem uses_values {t : Known} {w : Client} (h : Agrees t w) {x n : Nat} (hu : t.uses x .values = some n) :
    ∃ v t r, w.obj x = some (.values v t (some r)) ∧ r.parse = n ∧ (∃ nd, w.find r = some nd) ∧ (v.values.isEmpty = false → t = some r) := by
  have hf := h.fits x
  unfold Known.uses at hu
  generalize t.var x = s at hf hu
  cases s with
  | gone => simp at hu
  | blank _ => simp at hu
  | live k m =>
    simp only [Option.ite_none_right_eq_some, Option.some.injEq] at hu
    obtain ⟨rfl, rfl⟩ := hu
    obtain ⟨v, t, r, h1, h2, h3, h4⟩ := hf
    exact ⟨v, t, r, h1, h2, Option.isSome_iff_exists.mp h3, h4⟩

/-- No undefined behaviour, and what the client knows is right if the operation succeeds. -/
def GoodStep (t : Known) : Outcome (Sight × Client) → Prop
  | .ok (_, w) => Agrees t w
  | .ub => False
  | _ => True

theorem GoodStep.bind {t : Known} {α : Type} {a : Outcome α} {f : α → Outcome (Sight × Client)} (ha : a ≠ .ub) (hf : ∀ x, a = .ok x → GoodStep t (f x)) :
    GoodStep t (a >>= f) := by
  cases a with
  | ok x => exact hf x rfl
  | ub => exact absurd rfl ha
  | _ => trivial

theorem reportError_noUb {α : Type} (st : ParserSettings) (m : Str) (a : Nat) : (reportError (α := α) st m a).1 ≠ .ub := by
  unfold reportError
  simp only
  split <;> simp

theorem getValueId_noUb (ids : List IdEntry) (name : Str) : getValueId ids name ≠ .ub := by
  unfold getValueId
  split
  · split <;> simp
  · simp

theorem getValue_noUb (vs : Values) (id : Nat) : vs.getValue id ≠ .ub := by
  unfold Values.getValue
  split
  · simp
  · split <;> simp
  · split
    · simp
    · split <;> simp

theorem bind_noUb {α β : Type} {a : Outcome α} {f : α → Outcome β} (ha : a ≠ .ub) (hf : ∀ x, a = .ok x → f x ≠ .ub) : (a >>= f) ≠ .ub := by
  cases a with
  | ok x => exact hf x rfl
  | ub => exact absurd rfl ha
  | _ => simp [Bind.bind, Outcome.bind]

theorem value_noUb (n : PNode) (name : Str) : n.value name ≠ .ub := by
  unfold PNode.value
  refine bind_noUb (getValueId_noUb _ _) fun id _ => bind_noUb (getValue_noUb _ _) fun v _ => ?_
  split <;> simp [Pure.pure]

theorem valueView_noUb (n : PNode) (v : View) : n.valueView v ≠ .ub := by
  unfold PNode.valueView
  refine bind_noUb (getValue_noUb _ _) fun v _ => ?_
  split <;> simp [Pure.pure]

theorem argValues_noUb (n : PNode) (name : Str) : n.argValues name ≠ .ub := by
  unfold PNode.argValues
  exact bind_noUb (getValueId_noUb _ _) fun id _ => by simp [Pure.pure]

theorem has_noUb (n : PNode) (name : Str) : n.has name ≠ .ub := by
  unfold PNode.has
  exact bind_noUb (getValueId_noUb _ _) fun id _ => by simp [Pure.pure]

theorem stopOption_noUb (n : PNode) : n.getStopOption ≠ .ub := by
  unfold PNode.getStopOption
  split <;> simp

theorem item_noUb (vs : ArgValues) (i : Nat) : vs.value i ≠ .ub := by
  unfold ArgValues.value
  split
  · simp
  · split <;> simp

theorem splitValue_noUb (st : ParserSettings) (v : ArgValue) (sep : UInt8) (a b : Nat) : (v.split st sep a b).1 ≠ .ub := by
  unfold ArgValue.split
  split
  · simp
  · simp only
    split
    · exact reportError_noUb _ _ _
    · simp

theorem splitLoop_noUb (st : ParserSettings) (sep : UInt8) (a b : Nat) (vs : ArgValues) : ∀ (l acc : List (Str × Nat)), (ArgValues.splitLoop st sep a b vs l acc).1 ≠ .ub
  | [], acc => by simp [ArgValues.splitLoop]
  | (v, k) :: l, acc => by
    unfold ArgValues.splitLoop
    simp only
    split
    · exact reportError_noUb _ _ _
    · exact splitLoop_noUb st sep a b vs l _

theorem item_isSome {vs : ArgValues} {i : Nat} {v : ArgValue} (h : vs.value i = .ok v) (hv : v.value.isSome) : vs.values.isEmpty = false := by
  unfold ArgValues.value at h
  split at h
  · cases h; simp at hv
  · simp_all

theorem deref_some {w : Client} {r : Ref} {nd : PNode × ParserSettings} (h : w.find r = some nd) : w.deref (some r) = .ok nd := by
  simp [Client.deref, h]

theorem isSome_find {w : Client} {r : Ref} {nd : PNode × ParserSettings} (h : w.find r = some nd) : (w.find r).isSome := by simp [h]

theorem readText_alive {w : Client} {x : Nat} {o : ResultObj} {r : Ref} (h : w.obj x = some o) (ho : o.owns = some r) : w.readText (some r) = .ok () := by
  simp [Client.readText, alive_of h ho]

theorem node_snoc {path : NodeRef} {n m : PNode} {i : Nat} (h : NodeRef.node path n = some m) : NodeRef.node (path ++ [i]) n = m.subs[i]? := by
  induction path generalizing n with
  | nil => cases h; simp only [List.nil_append, NodeRef.node]; cases m.subs[i]? <;> rfl
  | cons j path ih =>
    simp only [List.cons_append, NodeRef.node] at h ⊢
    cases e : n.subs[j]? with
    | none => simp [e] at h
    | some k =>
      simp only [e, Option.bind_some] at h ⊢
      exact ih h

theorem find_sub {w : Client} {r : Ref} {nd : PNode × ParserSettings} {i : Nat} {m : PNode} (h : w.find r = some nd) (hi : nd.1.subs[i]? = some m) :
    (w.find ⟨r.parse, r.path ++ [i]⟩).isSome := by
  unfold Client.find at h ⊢
  split at h
  · rename_i p hp
    simp only [hp]
    rw [Option.map_eq_some_iff] at h
    obtain ⟨a, h1, h2⟩ := h
    rw [node_snoc h1]
    subst h2
    simp only at hi
    rw [hi]
    rfl
  · simp at h

theorem Agrees.parsed {t : Known} {w : Client} (h : Agrees t w) (p : Parse) :
    Agrees { t.push (.live .results t.parses) with parses := t.parses + 1 } { w.push (.results (some ⟨w.parses.length, []⟩)) with parses := w.parses ++ [p] } := by
  have hmono : ∀ (r : Ref) vars, (w.find r).isSome → (Client.find ⟨w.parses ++ [p], vars⟩ r).isSome := by
    intro r vars hr
    unfold Client.find at hr ⊢
    split at hr
    · rename_i q hq
      simp only [List.getElem?_append_left (List.getElem?_eq_some_iff.mp hq).1, hq]
      exact hr
    · simp at hr
  refine ⟨by simp [h.parses], by simp [Known.push, Client.push, h.vars], fun x => ?_⟩
  show Fits _ ((t.push (.live .results t.parses)).var x) ((w.push (.results (some ⟨w.parses.length, []⟩))).obj x)
  rw [var_push, obj_push, h.vars]
  split
  · refine ⟨_, rfl, h.parses.symm, ?_⟩
    simp [Client.find, NodeRef.node]
  · exact Fits.mono (fun r => hmono r _) (h.fits x)

theorem step_good {t t' : Known} {w : Client} (h : Agrees t w) {op : ObjOp} (hs : t.step op = some t') : GoodStep t' (w.step op) := by
  cases op with
  | parsed p => simp only [Known.step, Option.some.injEq] at hs; subst hs; exact h.parsed p
  | newResults => simp only [Known.step, Option.some.injEq] at hs; subst hs; exact h.push ⟨_, rfl⟩
  | newValue => simp only [Known.step, Option.some.injEq] at hs; subst hs; exact h.push ⟨_, _, _, rfl⟩
  | copy x =>
    simp only [Known.step, Option.ite_none_left_eq_some, Option.some.injEq] at hs
    obtain ⟨hx, rfl⟩ := hs
    obtain ⟨o, ho⟩ := (h.fits x).exists hx
    simp only [Client.step, ho]
    exact h.push (ho ▸ h.fits x)
  | move x =>
    simp only [Known.step, Option.ite_none_left_eq_some, Option.some.injEq] at hs
    obtain ⟨hx, rfl⟩ := hs
    obtain ⟨o, ho⟩ := (h.fits x).exists hx
    simp only [Client.step, ho]
    have hf := h.fits x
    rw [ho] at hf
    exact (h.put x hf.moved).push (Fits.mono (fun _ h => h) hf)
  | assign x y =>
    simp only [Known.step, Option.ite_none_right_eq_some, Option.some.injEq] at hs
    obtain ⟨⟨hx, hk⟩, rfl⟩ := hs
    obtain ⟨o, ho⟩ := (h.fits x).exists hx
    have hf := h.fits x
    rw [ho] at hf
    have hy : t.var y ≠ .gone := by intro e; rw [hf.kind, e] at hk; simp [Status.kind] at hk
    obtain ⟨p, hp⟩ := (h.fits y).exists hy
    have hg := h.fits y
    rw [hp] at hg
    rw [hf.kind, hg.kind, Option.some.injEq] at hk
    simp only [Client.step, ho, hp, sameType_of_kind hk, if_true]
    exact h.put y hf
  | moveAssign x y =>
    simp only [Known.step, Option.ite_none_right_eq_some, Option.some.injEq] at hs
    obtain ⟨⟨hx, hk, hxy⟩, rfl⟩ := hs
    obtain ⟨o, ho⟩ := (h.fits x).exists hx
    have hf := h.fits x
    rw [ho] at hf
    have hy : t.var y ≠ .gone := by intro e; rw [hf.kind, e] at hk; simp [Status.kind] at hk
    obtain ⟨p, hp⟩ := (h.fits y).exists hy
    have hg := h.fits y
    rw [hp] at hg
    rw [hf.kind, hg.kind, Option.some.injEq] at hk
    simp only [Client.step, ho, hp, sameType_of_kind hk, Bool.true_and, bne_iff_ne, ne_eq, hxy, not_false_eq_true, if_true]
    exact (h.put x hf.moved).put y (Fits.mono (fun _ h => h) hf)
  | destroy x =>
    simp only [Known.step, Option.ite_none_left_eq_some, Option.some.injEq] at hs
    obtain ⟨hx, rfl⟩ := hs
    obtain ⟨o, ho⟩ := (h.fits x).exists hx
    simp only [Client.step, ho]
    exact h.put x rfl
  | subcommand x i =>
    simp only [Known.step, Option.map_eq_some_iff] at hs
    obtain ⟨n, hu, rfl⟩ := hs
    obtain ⟨r, h1, h2, nd, h3⟩ := uses_results h hu
    simp only [Client.step, h1, deref_some h3, Bind.bind, Outcome.bind]
    cases e : nd.1.subs[i]? with
    | none => trivial
    | some m => exact h.push ⟨_, rfl, h2, find_sub h3 e⟩
  | getValue x name =>
    simp only [Known.step, Option.map_eq_some_iff] at hs
    obtain ⟨n, hu, rfl⟩ := hs
    obtain ⟨r, h1, h2, nd, h3⟩ := uses_results h hu
    simp only [Client.step, h1]
    refine GoodStep.bind (by simp [deref_some h3]) fun nd _ => GoodStep.bind (value_noUb _ _) fun v _ => ?_
    exact h.push ⟨v, _, r, rfl, h2, isSome_find h3, fun hv => by simp [hv]⟩
  | getValues x name =>
    simp only [Known.step, Option.map_eq_some_iff] at hs
    obtain ⟨n, hu, rfl⟩ := hs
    obtain ⟨r, h1, h2, nd, h3⟩ := uses_results h hu
    simp only [Client.step, h1]
    refine GoodStep.bind (by simp [deref_some h3]) fun nd _ => GoodStep.bind (argValues_noUb _ _) fun v _ => ?_
    exact h.push ⟨v, _, r, rfl, h2, isSome_find h3, fun hv => by simp [hv]⟩
  | stopOption x =>
    simp only [Known.step, Option.map_eq_some_iff] at hs
    obtain ⟨n, hu, rfl⟩ := hs
    obtain ⟨r, h1, h2, nd, h3⟩ := uses_results h hu
    simp only [Client.step, h1]
    refine GoodStep.bind (by simp [deref_some h3]) fun nd _ => GoodStep.bind (stopOption_noUb _) fun v _ => ?_
    exact h.push ⟨v, by rw [h2]⟩
  | command x =>
    simp only [Known.step, Option.map_eq_some_iff] at hs
    obtain ⟨n, hu, rfl⟩ := hs
    obtain ⟨r, h1, h2, nd, h3⟩ := uses_results h hu
    simp only [Client.step, h1]
    refine GoodStep.bind (by simp [deref_some h3]) fun nd _ => ?_
    exact h.push ⟨_, by rw [h2]⟩
  | has x name =>
    simp only [Known.step, Option.map_eq_some_iff] at hs
    obtain ⟨n, hu, rfl⟩ := hs
    obtain ⟨r, h1, h2, nd, h3⟩ := uses_results h hu
    simp only [Client.step, h1]
    exact GoodStep.bind (by simp [deref_some h3]) fun nd _ => GoodStep.bind (has_noUb _ _) fun v _ => h
  | unprocessed x =>
    simp only [Known.step, Option.map_eq_some_iff] at hs
    obtain ⟨n, hu, rfl⟩ := hs
    obtain ⟨r, h1, h2, nd, h3⟩ := uses_results h hu
    simp only [Client.step, h1]
    exact GoodStep.bind (by simp [deref_some h3]) fun nd _ => h
  | resultsError x m =>
    simp only [Known.step, Option.map_eq_some_iff] at hs
    obtain ⟨n, hu, rfl⟩ := hs
    obtain ⟨r, h1, h2, nd, h3⟩ := uses_results h hu
    simp only [Client.step, h1]
    refine GoodStep.bind (by simp [deref_some h3]) fun nd _ => ?_
    unfold reportError
    simp only
    split <;> trivial
  | item x i =>
    simp only [Known.step, Option.map_eq_some_iff] at hs
    obtain ⟨n, hu, rfl⟩ := hs
    obtain ⟨v, tx, r, h1, h2, ⟨nd, h3⟩, h4⟩ := uses_values h hu
    simp only [Client.step, h1]
    refine GoodStep.bind (item_noUb _ _) fun a ha => ?_
    exact h.push ⟨a, _, r, rfl, h2, isSome_find h3, fun hv => by simp only [hv, if_true]; exact h4 (item_isSome ha hv)⟩
  | splitValue x sep a b =>
    simp only [Known.step, Option.map_eq_some_iff] at hs
    obtain ⟨n, hu, rfl⟩ := hs
    obtain ⟨v, tx, r, h1, h2, ⟨nd, h3⟩, h4⟩ := uses_value h hu
    simp only [Client.step, h1]
    refine GoodStep.bind (by simp [deref_some h3]) fun nd _ => GoodStep.bind ?_ fun _ _ => GoodStep.bind (splitValue_noUb _ _ _ _ _) fun vs hvs => ?_
    · unfold Client.readValue
      split
      · rename_i hv
        rw [h4 hv, readText_alive h1 rfl]
        simp
      · simp
    · refine h.push ⟨vs, _, r, rfl, h2, isSome_find h3, fun he => ?_⟩
      simp only [he, Bool.false_eq_true, if_false]
      refine h4 ?_
      unfold ArgValue.split at hvs
      split at hvs
      · cases hvs; simp at he
      · rename_i s hs; simp [hs]
  | splitValues x sep a b =>
    simp only [Known.step, Option.map_eq_some_iff] at hs
    obtain ⟨n, hu, rfl⟩ := hs
    obtain ⟨v, tx, r, h1, h2, ⟨nd, h3⟩, h4⟩ := uses_values h hu
    simp only [Client.step, h1]
    split
    · exact h.push ⟨_, _, r, rfl, h2, isSome_find h3, fun he => by simp at he⟩
    · rename_i hne
      have hne : v.values.isEmpty = false := by simpa using hne
      refine GoodStep.bind ?_ fun _ _ => GoodStep.bind (by simp [deref_some h3]) fun nd _ => GoodStep.bind (splitLoop_noUb _ _ _ _ _ _ _) fun vs hvs => ?_
      · simp only [Client.readValues, hne, Bool.false_eq_true, if_false]
        rw [h4 hne, readText_alive h1 rfl]
        simp
      · refine h.push ⟨vs, _, r, rfl, h2, isSome_find h3, fun he => ?_⟩
        simp only [he, Bool.false_eq_true, if_false]
        exact h4 hne
  | toBool x =>
    simp only [Known.step, Option.map_eq_some_iff] at hs
    obtain ⟨n, hu, rfl⟩ := hs
    obtain ⟨v, tx, r, h1, h2, ⟨nd, h3⟩, h4⟩ := uses_value h hu
    simp only [Client.step, h1]
    exact h
  | asString x d =>
    simp only [Known.step, Option.map_eq_some_iff] at hs
    obtain ⟨n, hu, rfl⟩ := hs
    obtain ⟨v, tx, r, h1, h2, ⟨nd, h3⟩, h4⟩ := uses_value h hu
    simp only [Client.step, h1]
    refine GoodStep.bind ?_ fun _ _ => h
    unfold Client.readValue
    split
    · rename_i hv
      rw [h4 hv, readText_alive h1 rfl]
      simp
    · simp
  | asInt x d base =>
    simp only [Known.step, Option.map_eq_some_iff] at hs
    obtain ⟨n, hu, rfl⟩ := hs
    obtain ⟨v, tx, r, h1, h2, ⟨nd, h3⟩, h4⟩ := uses_value h hu
    simp only [Client.step, h1]
    refine GoodStep.bind ?_ fun _ _ => GoodStep.bind ?_ fun _ _ => h
    · unfold Client.readValue
      split
      · rename_i hv
        rw [h4 hv, readText_alive h1 rfl]
        simp
      · simp
    · unfold Client.intOf
      split
      · simp
      · split
        · simp
        · exact bind_noUb (by simp [deref_some h3]) fun _ _ => reportError_noUb _ _ _
  | argumentIds x =>
    simp only [Known.step, Option.map_eq_some_iff] at hs
    obtain ⟨n, hu, rfl⟩ := hs
    obtain ⟨v, tx, r, h1, h2, ⟨nd, h3⟩, h4⟩ := uses_value h hu
    simp only [Client.step, h1]
    refine GoodStep.bind (by simp [deref_some h3]) fun nd _ => ?_
    split <;> exact h
  | valueError x m =>
    simp only [Known.step, Option.map_eq_some_iff] at hs
    obtain ⟨n, hu, rfl⟩ := hs
    obtain ⟨v, tx, r, h1, h2, ⟨nd, h3⟩, h4⟩ := uses_value h hu
    simp only [Client.step, h1, Client.errorOf]
    refine GoodStep.bind (by simp [deref_some h3]) fun nd _ => ?_
    unfold ArgValue.error reportError
    simp only
    split <;> trivial
  | size x =>
    simp only [Known.step, Option.map_eq_some_iff] at hs
    obtain ⟨n, hu, rfl⟩ := hs
    obtain ⟨v, tx, r, h1, h2, ⟨nd, h3⟩, h4⟩ := uses_values h hu
    simp only [Client.step, h1]
    exact h
  | asStrings x d =>
    simp only [Known.step, Option.map_eq_some_iff] at hs
    obtain ⟨n, hu, rfl⟩ := hs
    obtain ⟨v, tx, r, h1, h2, ⟨nd, h3⟩, h4⟩ := uses_values h hu
    simp only [Client.step, h1]
    refine GoodStep.bind ?_ fun _ _ => h
    unfold Client.readValues
    split
    · simp
    · rename_i hv
      rw [h4 (by simpa using hv), readText_alive h1 rfl]
      simp
  | valuesArguments x =>
    simp only [Known.step, Option.map_eq_some_iff] at hs
    obtain ⟨n, hu, rfl⟩ := hs
    obtain ⟨v, tx, r, h1, h2, ⟨nd, h3⟩, h4⟩ := uses_values h hu
    simp only [Client.step, h1]
    exact GoodStep.bind (by simp [deref_some h3]) fun nd _ => h
  | valuesError x m =>
    simp only [Known.step, Option.map_eq_some_iff] at hs
    obtain ⟨n, hu, rfl⟩ := hs
    obtain ⟨v, tx, r, h1, h2, ⟨nd, h3⟩, h4⟩ := uses_values h hu
    simp only [Client.step, h1]
    refine GoodStep.bind (by simp [deref_some h3]) fun nd _ => ?_
    unfold ArgValues.error reportError
    simp only
    split <;> trivial
  | names x =>
    simp only [Known.step] at hs
    have hf := h.fits x
    split at hs
    · rename_i n hv
      simp only [Option.ite_none_right_eq_some, Option.some.injEq] at hs
      obtain ⟨hk, rfl⟩ := hs
      rw [hv] at hf
      obtain ⟨v, h1⟩ := hf
      simp only [Client.step, h1, h.kept hk, if_true]
      exact h
    · rename_i n hv
      simp only [Option.ite_none_right_eq_some, Option.some.injEq] at hs
      obtain ⟨hk, rfl⟩ := hs
      rw [hv] at hf
      obtain ⟨v, h1⟩ := hf
      simp only [Client.step, h1, h.kept hk, if_true]
      exact h
    · simp at hs
  | getValueOf x y =>
    simp only [Known.step] at hs
    split at hs
    · rename_i n m hu hv
      simp only [Option.ite_none_right_eq_some, Option.some.injEq] at hs
      obtain ⟨hk, rfl⟩ := hs
      obtain ⟨r, h1, h2, nd, h3⟩ := uses_results h hu
      have hf := h.fits y
      have : t.var y = .live .option m := by
        unfold Known.uses at hv
        split at hv
        · rename_i k q e
          simp only [Option.ite_none_right_eq_some, Option.some.injEq] at hv
          rw [e, ← hv.1, hv.2]
        · simp at hv
      rw [this] at hf
      obtain ⟨v, h5⟩ := hf
      simp only [Client.step, h1, h5, h.kept hk, if_true]
      refine GoodStep.bind (by simp [deref_some h3]) fun nd _ => GoodStep.bind (valueView_noUb _ _) fun v _ => ?_
      exact h.push ⟨v, _, r, rfl, h2, isSome_find h3, fun hv => by simp [hv]⟩
    · simp at hs

theorem agrees_init : Agrees {} {} := ⟨rfl, rfl, fun x => by simp [Known.var, Client.obj, Fits]⟩

/-- No undefined behaviour, and what the client knows is right at the end. -/
theorem run_good : ∀ (ops : List ObjOp) {t t' : Known} {w : Client}, Agrees t w → t.run ops = some t' →
    w.run ops ≠ .ub ∧ ∀ ss w', w.run ops = .ok (ss, w') → Agrees t' w'
  | [], t, t', w, h, ht => by
    simp only [Known.run, Option.some.injEq] at ht
    subst ht
    refine ⟨by simp [Client.run], fun ss w' e => ?_⟩
    simp only [Client.run, Outcome.ok.injEq, Prod.mk.injEq] at e
    rw [← e.2]
    exact h
  | op :: ops, t, t', w, h, ht => by
    simp only [Known.run, Option.bind_eq_some_iff] at ht
    obtain ⟨t1, h1, h2⟩ := ht
    have hg := step_good h h1
    simp only [Client.run]
    cases e : w.step op with
    | ok p =>
      obtain ⟨s, w1⟩ := p
      rw [e] at hg
      obtain ⟨g1, g2⟩ := run_good ops hg h2
      simp only [Bind.bind, Outcome.bind]
      cases e2 : w1.run ops with
      | ok p =>
        refine ⟨by simp [Pure.pure], fun ss w' e3 => ?_⟩
        simp only [Pure.pure, Outcome.ok.injEq, Prod.mk.injEq] at e3
        exact g2 p.1 w' (by rw [e2, ← e3.2])
      | ub => exact absurd e2 g1
      | _ => simp
    | ub => rw [e] at hg; exact hg.elim
    | _ => simp [Bind.bind, Outcome.bind]

theorem known_append (t : Known) (a b : List ObjOp) : t.run (a ++ b) = (t.run a).bind fun t => t.run b := by
  induction a generalizing t with
  | nil => rfl
  | cons op a ih =>
    simp only [List.cons_append, Known.run, Option.bind_assoc]
    congr 1
    funext t
    exact ih t

theorem run_append_ok {w w1 : Client} {a b : List ObjOp} {ss : List Sight} (h : w.run a = .ok (ss, w1)) :
    w.run (a ++ b) = ((fun p => (ss ++ p.1, p.2)) <$> w1.run b) := by
  induction a generalizing w ss with
  | nil =>
    simp only [Client.run, Outcome.ok.injEq, Prod.mk.injEq] at h
    obtain ⟨rfl, rfl⟩ := h
    simp only [List.nil_append]
    cases w.run b <;> rfl
  | cons op a ih =>
    simp only [List.cons_append, Client.run] at h ⊢
    cases e : w.step op with
    | ok p =>
      obtain ⟨s, w2⟩ := p
      simp only [e, Bind.bind, Outcome.bind] at h ⊢
      cases e2 : w2.run a with
      | ok p =>
        obtain ⟨ss2, w3⟩ := p
        simp only [e2, Pure.pure, Outcome.ok.injEq, Prod.mk.injEq] at h
        obtain ⟨rfl, rfl⟩ := h
        rw [ih e2]
        cases w3.run b <;> rfl
      | _ => simp [e2] at h
    | _ => simp [e, Bind.bind, Outcome.bind] at h

/-- What an operation that leaves a variable alone may do. -/
structure Spares (y : Nat) (w w' : Client) : Prop where
  obj : w'.obj y = w.obj y
  parses : ∀ (i : Nat) (p : Parse), w.parses[i]? = some p → w'.parses[i]? = some p

theorem Spares.refl (y : Nat) (w : Client) : Spares y w w := ⟨rfl, fun _ _ h => h⟩

theorem Spares.trans {y : Nat} {a b c : Client} (h : Spares y a b) (g : Spares y b c) : Spares y a c :=
  ⟨g.obj.trans h.obj, fun i p e => g.parses i p (h.parses i p e)⟩

theorem Spares.push {y : Nat} {w : Client} {o : ResultObj} (hy : y < w.vars.length) : Spares y w (w.push o) := by
  refine ⟨?_, fun _ _ h => h⟩
  rw [obj_push, if_neg (by omega)]

theorem Spares.put {x y : Nat} {w : Client} {o : Option ResultObj} (hy : x ≠ y) : Spares y w (w.put x o) := by
  refine ⟨?_, fun _ _ h => h⟩
  rw [obj_put, if_neg (by rintro ⟨h, _⟩; exact hy h.symm)]

theorem length_push (w : Client) (o : ResultObj) : (w.push o).vars.length = w.vars.length + 1 := by simp [Client.push]

theorem length_put (w : Client) (x : Nat) (o : Option ResultObj) : (w.put x o).vars.length = w.vars.length := by simp [Client.put]

theorem bind_ok {α β : Type} {a : Outcome α} {f : α → Outcome β} {b : β} (h : (a >>= f) = .ok b) : ∃ x, a = .ok x ∧ f x = .ok b := by
  cases a with
  | ok x => exact ⟨x, rfl, h⟩
  | _ => simp [Bind.bind, Outcome.bind] at h

theorem step_spares {w w' : Client} {op : ObjOp} {s : Sight} {y : Nat} (hy : y < w.vars.length) (hl : LeavesAlone y op) (h : w.step op = .ok (s, w')) :
    Spares y w w' ∧ y < w'.vars.length := by
  have key : ∀ o, Spares y w (w.push o) ∧ y < (w.push o).vars.length := fun o => ⟨.push hy, by rw [length_push]; omega⟩
  have same : Spares y w w ∧ y < w.vars.length := ⟨.refl y w, hy⟩
  cases op with
  | parsed p =>
    simp only [Client.step, Outcome.ok.injEq, Prod.mk.injEq] at h
    obtain ⟨_, rfl⟩ := h
    refine ⟨⟨(Spares.push (o := .results (some ⟨w.parses.length, []⟩)) hy).obj, fun i q hq => ?_⟩, (key _).2⟩
    simp only [List.getElem?_append_left (List.getElem?_eq_some_iff.mp hq).1, hq]
  | newResults => simp only [Client.step, Outcome.ok.injEq, Prod.mk.injEq] at h; obtain ⟨_, rfl⟩ := h; exact key _
  | newValue => simp only [Client.step, Outcome.ok.injEq, Prod.mk.injEq] at h; obtain ⟨_, rfl⟩ := h; exact key _
  | copy x =>
    simp only [Client.step] at h
    split at h
    · simp only [Outcome.ok.injEq, Prod.mk.injEq] at h; obtain ⟨_, rfl⟩ := h; exact key _
    · simp at h
  | move x =>
    simp only [Client.step] at h
    split at h
    · simp only [Outcome.ok.injEq, Prod.mk.injEq] at h
      obtain ⟨_, rfl⟩ := h
      exact ⟨(Spares.put hl).trans (.push (by rw [length_put]; exact hy)), by rw [length_push, length_put]; omega⟩
    · simp at h
  | assign x z =>
    simp only [Client.step] at h
    split at h
    · split at h
      · simp only [Outcome.ok.injEq, Prod.mk.injEq] at h
        obtain ⟨_, rfl⟩ := h
        exact ⟨.put hl, by rw [length_put]; exact hy⟩
      · simp at h
    · simp at h
  | moveAssign x z =>
    simp only [Client.step] at h
    split at h
    · split at h
      · simp only [Outcome.ok.injEq, Prod.mk.injEq] at h
        obtain ⟨_, rfl⟩ := h
        exact ⟨(Spares.put hl.1).trans (.put hl.2), by rw [length_put, length_put]; exact hy⟩
      · simp at h
    · simp at h
  | destroy x =>
    simp only [Client.step] at h
    split at h
    · simp only [Outcome.ok.injEq, Prod.mk.injEq] at h
      obtain ⟨_, rfl⟩ := h
      exact ⟨.put hl, by rw [length_put]; exact hy⟩
    · simp at h
  | subcommand x i =>
    simp only [Client.step] at h
    split at h
    · obtain ⟨nd, _, h⟩ := bind_ok h
      split at h
      · simp only [Outcome.ok.injEq, Prod.mk.injEq] at h; obtain ⟨_, rfl⟩ := h; exact key _
      · simp at h
    · simp at h
  | getValue x name =>
    simp only [Client.step] at h
    split at h
    · obtain ⟨nd, _, h⟩ := bind_ok h
      obtain ⟨v, _, h⟩ := bind_ok h
      split at h
      · simp only [Outcome.ok.injEq, Prod.mk.injEq] at h; obtain ⟨_, rfl⟩ := h; exact key _
      · simp at h
    · simp at h
  | getValues x name =>
    simp only [Client.step] at h
    split at h
    · obtain ⟨nd, _, h⟩ := bind_ok h
      obtain ⟨v, _, h⟩ := bind_ok h
      split at h
      · simp only [Outcome.ok.injEq, Prod.mk.injEq] at h; obtain ⟨_, rfl⟩ := h; exact key _
      · simp at h
    · simp at h
  | stopOption x =>
    simp only [Client.step] at h
    split at h
    · obtain ⟨nd, _, h⟩ := bind_ok h
      obtain ⟨v, _, h⟩ := bind_ok h
      split at h
      · simp only [Outcome.ok.injEq, Prod.mk.injEq] at h; obtain ⟨_, rfl⟩ := h; exact key _
      · simp at h
    · simp at h
  | command x =>
    simp only [Client.step] at h
    split at h
    · obtain ⟨nd, _, h⟩ := bind_ok h
      split at h
      · simp only [Outcome.ok.injEq, Prod.mk.injEq] at h; obtain ⟨_, rfl⟩ := h; exact key _
      · simp at h
    · simp at h
  | has x name =>
    simp only [Client.step] at h
    split at h
    · obtain ⟨nd, _, h⟩ := bind_ok h
      obtain ⟨v, _, h⟩ := bind_ok h
      simp only [Outcome.ok.injEq, Prod.mk.injEq] at h; obtain ⟨_, rfl⟩ := h; exact same
    · simp at h
  | unprocessed x =>
    simp only [Client.step] at h
    split at h
    · obtain ⟨nd, _, h⟩ := bind_ok h
      simp only [Outcome.ok.injEq, Prod.mk.injEq] at h; obtain ⟨_, rfl⟩ := h; exact same
    · simp at h
  | resultsError x m =>
    simp only [Client.step] at h
    split at h
    · obtain ⟨nd, _, h⟩ := bind_ok h
      unfold reportError at h
      simp only at h
      split at h <;> simp at h
    · simp at h
  | item x i =>
    simp only [Client.step] at h
    split at h
    · obtain ⟨v, _, h⟩ := bind_ok h
      simp only [Outcome.ok.injEq, Prod.mk.injEq] at h; obtain ⟨_, rfl⟩ := h; exact key _
    · simp at h
  | splitValue x sep a b =>
    simp only [Client.step] at h
    split at h
    · split at h
      · simp at h
      · obtain ⟨_, _, h⟩ := bind_ok h
        obtain ⟨_, _, h⟩ := bind_ok h
        obtain ⟨_, _, h⟩ := bind_ok h
        simp only [Outcome.ok.injEq, Prod.mk.injEq] at h; obtain ⟨_, rfl⟩ := h; exact key _
    · simp at h
  | splitValues x sep a b =>
    simp only [Client.step] at h
    split at h
    · split at h
      · simp only [Outcome.ok.injEq, Prod.mk.injEq] at h; obtain ⟨_, rfl⟩ := h; exact key _
      · obtain ⟨_, _, h⟩ := bind_ok h
        obtain ⟨_, _, h⟩ := bind_ok h
        obtain ⟨_, _, h⟩ := bind_ok h
        simp only [Outcome.ok.injEq, Prod.mk.injEq] at h; obtain ⟨_, rfl⟩ := h; exact key _
    · simp at h
  | toBool x =>
    simp only [Client.step] at h
    split at h
    · simp only [Outcome.ok.injEq, Prod.mk.injEq] at h; obtain ⟨_, rfl⟩ := h; exact same
    · simp at h
  | asString x d =>
    simp only [Client.step] at h
    split at h
    · obtain ⟨_, _, h⟩ := bind_ok h
      simp only [Outcome.ok.injEq, Prod.mk.injEq] at h; obtain ⟨_, rfl⟩ := h; exact same
    · simp at h
  | asInt x d base =>
    simp only [Client.step] at h
    split at h
    · obtain ⟨_, _, h⟩ := bind_ok h
      obtain ⟨_, _, h⟩ := bind_ok h
      simp only [Outcome.ok.injEq, Prod.mk.injEq] at h; obtain ⟨_, rfl⟩ := h; exact same
    · simp at h
  | argumentIds x =>
    simp only [Client.step] at h
    split at h
    · split at h
      · simp at h
      · obtain ⟨_, _, h⟩ := bind_ok h
        split at h <;> (simp only [Outcome.ok.injEq, Prod.mk.injEq] at h; obtain ⟨_, rfl⟩ := h; exact same)
    · simp at h
  | valueError x m =>
    simp only [Client.step] at h
    split at h
    · unfold Client.errorOf at h
      split at h
      · simp at h
      · obtain ⟨_, _, h⟩ := bind_ok h
        unfold ArgValue.error reportError at h
        simp only at h
        split at h <;> simp at h
    · simp at h
  | size x =>
    simp only [Client.step] at h
    split at h
    · simp only [Outcome.ok.injEq, Prod.mk.injEq] at h; obtain ⟨_, rfl⟩ := h; exact same
    · simp at h
  | asStrings x d =>
    simp only [Client.step] at h
    split at h
    · obtain ⟨_, _, h⟩ := bind_ok h
      simp only [Outcome.ok.injEq, Prod.mk.injEq] at h; obtain ⟨_, rfl⟩ := h; exact same
    · simp at h
  | valuesArguments x =>
    simp only [Client.step] at h
    split at h
    · obtain ⟨_, _, h⟩ := bind_ok h
      simp only [Outcome.ok.injEq, Prod.mk.injEq] at h; obtain ⟨_, rfl⟩ := h; exact same
    · simp at h
  | valuesError x m =>
    simp only [Client.step] at h
    split at h
    · obtain ⟨_, _, h⟩ := bind_ok h
      unfold ArgValues.error reportError at h
      simp only at h
      split at h <;> simp at h
    · simp at h
  | names x =>
    simp only [Client.step] at h
    split at h
    · split at h
      · simp only [Outcome.ok.injEq, Prod.mk.injEq] at h; obtain ⟨_, rfl⟩ := h; exact same
      · simp at h
    · simp at h
  | getValueOf x z =>
    simp only [Client.step] at h
    split at h
    · split at h
      · obtain ⟨_, _, h⟩ := bind_ok h
        obtain ⟨_, _, h⟩ := bind_ok h
        split at h
        · simp only [Outcome.ok.injEq, Prod.mk.injEq] at h; obtain ⟨_, rfl⟩ := h; exact key _
        · simp at h
      · simp at h
    · simp at h

theorem run_spares {y : Nat} : ∀ (ops : List ObjOp) {w w' : Client} {ss : List Sight}, y < w.vars.length → (∀ op ∈ ops, LeavesAlone y op) →
    w.run ops = .ok (ss, w') → Spares y w w'
  | [], w, w', ss, hy, hl, h => by
    simp only [Client.run, Outcome.ok.injEq, Prod.mk.injEq] at h
    rw [← h.2]
    exact .refl y w
  | op :: ops, w, w', ss, hy, hl, h => by
    simp only [Client.run] at h
    obtain ⟨⟨s, w1⟩, h1, h⟩ := bind_ok h
    obtain ⟨⟨ss1, w2⟩, h2, h⟩ := bind_ok h
    simp only [Pure.pure, Outcome.ok.injEq, Prod.mk.injEq] at h
    obtain ⟨g1, g2⟩ := step_spares hy (hl op (by simp)) h1
    rw [← h.2]
    exact g1.trans (run_spares ops g2 (fun o ho => hl o (by simp [ho])) h2)

theorem Spares.find {y : Nat} {w w' : Client} (h : Spares y w w') {r : Ref} {nd : PNode × ParserSettings} (hr : w.find r = some nd) : w'.find r = some nd := by
  unfold Client.find at hr ⊢
  split at hr
  · rename_i p hp
    simp only [h.parses _ _ hp]
    exact hr
  · simp at hr

/-- A careful operation that only reads a variable shows the same in any two states in which the variable holds the same object. -/
theorem reads_same {t t' : Known} {w w' : Client} {y : Nat} {op : ObjOp} (h : Agrees t w) (h' : Agrees t' w') (hsp : Spares y w w') (hr : Reads y op)
    (hc : (t.step op).isSome) (hc' : (t'.step op).isSome) : ((·.1) <$> w'.step op) = ((·.1) <$> w.step op) := by
  have hobj := hsp.obj
  cases op with
  | has x name =>
    cases hr
    simp only [Known.step, Option.isSome_map] at hc
    obtain ⟨n, hu⟩ := Option.isSome_iff_exists.mp hc
    obtain ⟨r, h1, h2, nd, h3⟩ := uses_results h hu
    simp only [Client.step, hobj, h1, deref_some h3, deref_some (hsp.find h3), Bind.bind, Outcome.bind]
    cases nd.1.has name <;> rfl
  | unprocessed x =>
    cases hr
    simp only [Known.step, Option.isSome_map] at hc
    obtain ⟨n, hu⟩ := Option.isSome_iff_exists.mp hc
    obtain ⟨r, h1, h2, nd, h3⟩ := uses_results h hu
    simp only [Client.step, hobj, h1, deref_some h3, deref_some (hsp.find h3), Bind.bind, Outcome.bind]
    rfl
  | resultsError x m =>
    cases hr
    simp only [Known.step, Option.isSome_map] at hc
    obtain ⟨n, hu⟩ := Option.isSome_iff_exists.mp hc
    obtain ⟨r, h1, h2, nd, h3⟩ := uses_results h hu
    simp only [Client.step, hobj, h1, deref_some h3, deref_some (hsp.find h3), Bind.bind, Outcome.bind]
  | toBool x =>
    cases hr
    simp only [Known.step, Option.isSome_map] at hc
    obtain ⟨n, hu⟩ := Option.isSome_iff_exists.mp hc
    obtain ⟨v, tx, r, h1, h2, ⟨nd, h3⟩, h4⟩ := uses_value h hu
    simp only [Client.step, hobj, h1]
    rfl
  | asString x d =>
    cases hr
    simp only [Known.step, Option.isSome_map] at hc
    obtain ⟨n, hu⟩ := Option.isSome_iff_exists.mp hc
    obtain ⟨v, tx, r, h1, h2, ⟨nd, h3⟩, h4⟩ := uses_value h hu
    have h1' := hobj.trans h1
    have hv : w.readValue v tx = .ok () ∧ w'.readValue v tx = .ok () := by
      unfold Client.readValue
      split
      · rename_i hv
        rw [h4 hv, readText_alive h1 rfl, readText_alive h1' rfl]
        simp
      · simp
    simp only [Client.step, h1, h1', hv.1, hv.2, Bind.bind, Outcome.bind]
    rfl
  | asInt x d base =>
    cases hr
    simp only [Known.step, Option.isSome_map] at hc
    obtain ⟨n, hu⟩ := Option.isSome_iff_exists.mp hc
    obtain ⟨v, tx, r, h1, h2, ⟨nd, h3⟩, h4⟩ := uses_value h hu
    have h1' := hobj.trans h1
    have hv : w.readValue v tx = .ok () ∧ w'.readValue v tx = .ok () := by
      unfold Client.readValue
      split
      · rename_i hv
        rw [h4 hv, readText_alive h1 rfl, readText_alive h1' rfl]
        simp
      · simp
    have hi : w'.intOf v (some r) d base = w.intOf v (some r) d base := by
      simp only [Client.intOf, Client.errorOf, deref_some h3, deref_some (hsp.find h3)]
    simp only [Client.step, h1, h1', hv.1, hv.2, hi, Bind.bind, Outcome.bind]
    cases w.intOf v (some r) d base <;> rfl
  | argumentIds x =>
    cases hr
    simp only [Known.step, Option.isSome_map] at hc
    obtain ⟨n, hu⟩ := Option.isSome_iff_exists.mp hc
    obtain ⟨v, tx, r, h1, h2, ⟨nd, h3⟩, h4⟩ := uses_value h hu
    simp only [Client.step, hobj, h1, deref_some h3, deref_some (hsp.find h3), Bind.bind, Outcome.bind]
    cases getArgumentView nd.1.command v.argumentId <;> rfl
  | valueError x m =>
    cases hr
    simp only [Known.step, Option.isSome_map] at hc
    obtain ⟨n, hu⟩ := Option.isSome_iff_exists.mp hc
    obtain ⟨v, tx, r, h1, h2, ⟨nd, h3⟩, h4⟩ := uses_value h hu
    simp only [Client.step, hobj, h1, Client.errorOf, deref_some h3, deref_some (hsp.find h3), Bind.bind, Outcome.bind]
  | size x =>
    cases hr
    simp only [Known.step, Option.isSome_map] at hc
    obtain ⟨n, hu⟩ := Option.isSome_iff_exists.mp hc
    obtain ⟨v, tx, r, h1, h2, ⟨nd, h3⟩, h4⟩ := uses_values h hu
    simp only [Client.step, hobj, h1]
    rfl
  | asStrings x d =>
    cases hr
    simp only [Known.step, Option.isSome_map] at hc
    obtain ⟨n, hu⟩ := Option.isSome_iff_exists.mp hc
    obtain ⟨v, tx, r, h1, h2, ⟨nd, h3⟩, h4⟩ := uses_values h hu
    have h1' := hobj.trans h1
    have hv : w.readValues v tx = .ok () ∧ w'.readValues v tx = .ok () := by
      unfold Client.readValues
      split
      · simp
      · rename_i hv
        rw [h4 (by simpa using hv), readText_alive h1 rfl, readText_alive h1' rfl]
        simp
    simp only [Client.step, h1, h1', hv.1, hv.2, Bind.bind, Outcome.bind]
    rfl
  | valuesArguments x =>
    cases hr
    simp only [Known.step, Option.isSome_map] at hc
    obtain ⟨n, hu⟩ := Option.isSome_iff_exists.mp hc
    obtain ⟨v, tx, r, h1, h2, ⟨nd, h3⟩, h4⟩ := uses_values h hu
    simp only [Client.step, hobj, h1, deref_some h3, deref_some (hsp.find h3), Bind.bind, Outcome.bind]
    rfl
  | valuesError x m =>
    cases hr
    simp only [Known.step, Option.isSome_map] at hc
    obtain ⟨n, hu⟩ := Option.isSome_iff_exists.mp hc
    obtain ⟨v, tx, r, h1, h2, ⟨nd, h3⟩, h4⟩ := uses_values h hu
    simp only [Client.step, hobj, h1, deref_some h3, deref_some (hsp.find h3), Bind.bind, Outcome.bind]
  | names x =>
    cases hr
    obtain ⟨t1, e1⟩ := Option.isSome_iff_exists.mp hc
    obtain ⟨t2, e2⟩ := Option.isSome_iff_exists.mp hc'
    have g1 := step_good h e1
    have g2 := step_good h' e2
    simp only [Client.step, hobj] at g1 g2 ⊢
    cases e : w.obj y with
    | none => simp [e, GoodStep] at g1
    | some o =>
      cases o with
      | view v k =>
        simp only [e] at g1 g2 ⊢
        by_cases a : w.dataAlive k = true
        · by_cases b : w'.dataAlive k = true
          · simp only [a, b, if_true]
            rfl
          · simp [b, GoodStep] at g2
        · simp [a, GoodStep] at g1
      | _ => simp [e, GoodStep] at g1
  | _ => exact hr.elim

end Argos
