import Verif.Proofs.Objects
import Verif.Spec.Cursors

/-! # Iterators of values -/

namespace Argos
open Spec

theorem known_length_push (t : Known) (s : Status) : (t.push s).vars.length = t.vars.length + 1 := by simp [Known.push]

theorem known_length_put (t : Known) (x : Nat) (s : Status) : (t.put x s).vars.length = t.vars.length := by simp [Known.put]

/-- An operation leaves what is known about other variables. -/
theorem known_spares {t t' : Known} {op : ObjOp} {y : Nat} (hy : y < t.vars.length) (hl : LeavesAlone y op) (h : t.step op = some t') :
    t'.var y = t.var y ∧ y < t'.vars.length := by
  have key : ∀ s, (t.push s).var y = t.var y ∧ y < (t.push s).vars.length := fun s =>
    ⟨by rw [var_push, if_neg (by omega)], by rw [known_length_push]; omega⟩
  have put : ∀ x s, x ≠ y → (t.put x s).var y = t.var y ∧ y < (t.put x s).vars.length := fun x s hx =>
    ⟨by rw [var_put, if_neg (by rintro ⟨e, _⟩; exact hx e.symm)], by rw [known_length_put]; omega⟩
  cases op with
  | parsed p => simp only [Known.step, Option.some.injEq] at h; subst h; exact key _
  | newResults => simp only [Known.step, Option.some.injEq] at h; subst h; exact key _
  | newValue => simp only [Known.step, Option.some.injEq] at h; subst h; exact key _
  | copy x =>
    simp only [Known.step, Option.ite_none_left_eq_some, Option.some.injEq] at h
    obtain ⟨_, rfl⟩ := h
    exact key _
  | move x =>
    simp only [Known.step, Option.ite_none_left_eq_some, Option.some.injEq] at h
    obtain ⟨_, rfl⟩ := h
    have := put x (t.var x).moved hl
    exact ⟨by rw [var_push, known_length_put, if_neg (by omega)]; exact this.1, by rw [known_length_push, known_length_put]; omega⟩
  | assign x z =>
    simp only [Known.step, Option.ite_none_right_eq_some, Option.some.injEq] at h
    obtain ⟨_, rfl⟩ := h
    exact put _ _ hl
  | moveAssign x z =>
    simp only [Known.step, Option.ite_none_right_eq_some, Option.some.injEq] at h
    obtain ⟨_, rfl⟩ := h
    have := put x (t.var x).moved hl.1
    exact ⟨by rw [var_put, if_neg (by rintro ⟨e, _⟩; exact hl.2 e.symm)]; exact this.1, by rw [known_length_put, known_length_put]; omega⟩
  | destroy x =>
    simp only [Known.step, Option.ite_none_left_eq_some, Option.some.injEq] at h
    obtain ⟨_, rfl⟩ := h
    exact put _ _ hl
  | names x =>
    simp only [Known.step] at h
    split at h
    · simp only [Option.ite_none_right_eq_some, Option.some.injEq] at h; obtain ⟨_, rfl⟩ := h; exact ⟨rfl, hy⟩
    · simp only [Option.ite_none_right_eq_some, Option.some.injEq] at h; obtain ⟨_, rfl⟩ := h; exact ⟨rfl, hy⟩
    · cases h
  | getValueOf x z =>
    simp only [Known.step] at h
    split at h
    · simp only [Option.ite_none_right_eq_some, Option.some.injEq] at h; obtain ⟨_, rfl⟩ := h; exact key _
    · cases h
  | _ =>
    simp only [Known.step, Option.map_eq_some_iff] at h
    obtain ⟨_, _, rfl⟩ := h
    first | exact key _ | exact ⟨rfl, hy⟩

theorem leavesAlone_of_not_named {op : ObjOp} {y : Nat} (h : y ∉ op.named) : LeavesAlone y op := by
  cases op <;> simp only [ObjOp.named, List.mem_cons, List.not_mem_nil, or_false, not_or] at h <;> simp only [LeavesAlone] <;>
    first | trivial | exact fun e => h e.symm | exact fun e => h.2 e.symm | exact ⟨fun e => h.1 e.symm, fun e => h.2 e.symm⟩

/-- The iterator is where the client knows it to be. -/
def AtPlace (t : Known) (w : Client) : Option Place → Option Cursor → Prop
  | none, c => c = none
  | some p, c => ∃ k, c = some k ∧ k.home = p.list ∧ k.share = p.share ∧ p.share < t.vars.length ∧ (t.var p.share).kind = some .results ∧
      ∀ x, p.list = some x → ∃ n vs text r, t.uses x .values = some n ∧ t.uses p.share .results = some n ∧ w.obj x = some (.values vs text (some r)) ∧
        w.obj p.share = some (.results (some r)) ∧ k.pos ≤ vs.values.length ∧ k.valueId = vs.valueId

/-- The iterators are where the client knows them to be. -/
structure Travels (t : Route) (w : Walker) : Prop where
  base : Agrees t.base w.base
  count : t.places.length = w.cursors.length
  places : ∀ i, AtPlace t.base w.base (t.place i) (w.cursor i)
  apart : ∀ i j p q, t.place i = some p → t.place j = some q → p.share = q.share → i = j

theorem travels_init : Travels {} {} := ⟨agrees_init, rfl, fun i => by simp [Route.place, Walker.cursor, AtPlace], fun i j p q h => by simp [Route.place] at h⟩

theorem uses_lt {t : Known} {x n : Nat} {k : Kind} (h : t.uses x k = some n) : x < t.vars.length := by
  rcases Nat.lt_or_ge x t.vars.length with hx | hx
  · exact hx
  · simp [Known.uses, Known.var, List.getElem?_eq_none hx] at h

theorem uses_eq {t : Known} {x n : Nat} {k : Kind} (h : t.uses x k = some n) : t.var x = .live k n := by
  unfold Known.uses at h
  split at h
  · rename_i k' m e
    simp only [Option.ite_none_right_eq_some, Option.some.injEq] at h
    obtain ⟨rfl, rfl⟩ := h
    exact e
  · cases h

theorem uses_of {t : Known} {x n : Nat} {k : Kind} (h : t.var x = .live k n) : t.uses x k = some n := by simp [Known.uses, h]

theorem mem_place {t : Route} {i : Nat} {p : Place} (h : t.place i = some p) : some p ∈ t.places := by
  unfold Route.place at h
  cases e : t.places[i]? with
  | none => simp [e] at h
  | some q =>
    simp only [e, Option.join_some] at h
    exact List.mem_of_getElem? (h ▸ e)

theorem reserved_of {t : Route} {i : Nat} {p : Place} (h : t.place i = some p) : t.reserved p.share = true := by
  unfold Route.reserved
  rw [List.any_eq_true]
  exact ⟨_, mem_place h, by simp⟩

theorem isShare_reserved {t : Route} {w : Walker} (h : Travels t w) {x : Nat} (hx : w.isShare x = true) : t.reserved x = true := by
  unfold Walker.isShare at hx
  rw [List.any_eq_true] at hx
  obtain ⟨c, hc, hx⟩ := hx
  cases c with
  | none => simp at hx
  | some c =>
    simp only [beq_iff_eq] at hx
    obtain ⟨i, hi⟩ := List.mem_iff_getElem?.mp hc
    have hcur : w.cursor i = some c := by simp [Walker.cursor, hi]
    have ha := h.places i
    rw [hcur] at ha
    cases e : t.place i with
    | none => rw [e] at ha; cases ha
    | some p =>
      rw [e] at ha
      obtain ⟨k, hk, _, hs, _⟩ := ha
      cases hk
      rw [← hx, hs]
      exact reserved_of e

/-- Other variables have been added or changed. -/
theorem AtPlace.mono {t t' : Known} {w w' : Client} {p : Option Place} {c : Option Cursor} (h : AtPlace t w p c) (hlen : t.vars.length ≤ t'.vars.length)
    (hs : ∀ q, p = some q → t'.var q.share = t.var q.share ∧ w'.obj q.share = w.obj q.share)
    (hl : ∀ q x, p = some q → q.list = some x → t'.var x = t.var x ∧ w'.obj x = w.obj x) : AtPlace t' w' p c := by
  cases p with
  | none => exact h
  | some p =>
    obtain ⟨k, h1, h2, h3, h4, h5, h6⟩ := h
    refine ⟨k, h1, h2, h3, by omega, by rw [(hs p rfl).1]; exact h5, fun x hx => ?_⟩
    obtain ⟨n, vs, text, r, g1, g2, g3, g4, g5⟩ := h6 x hx
    refine ⟨n, vs, text, r, ?_, ?_, ?_, ?_, g5⟩
    · rw [Known.uses, (hl p x rfl hx).1]; exact g1
    · rw [Known.uses, (hs p rfl).1]; exact g2
    · rw [(hl p x rfl hx).2]; exact g3
    · rw [(hs p rfl).2]; exact g4

theorem AtPlace.lt {t : Known} {w : Client} {q : Place} {c : Option Cursor} (h : AtPlace t w (some q) c) :
    q.share < t.vars.length ∧ ∀ x, q.list = some x → x < t.vars.length := by
  obtain ⟨k, _, _, _, h4, _, h6⟩ := h
  refine ⟨h4, fun x hx => ?_⟩
  obtain ⟨n, _, _, _, g1, _⟩ := h6 x hx
  exact uses_lt g1

theorem AtPlace.push {t : Known} {w : Client} (hlen : t.vars.length = w.vars.length) {p : Option Place} {c : Option Cursor} (h : AtPlace t w p c) (s : Status) (o : ResultObj) :
    AtPlace (t.push s) (w.push o) p c := by
  refine h.mono (by rw [known_length_push]; omega) ?_ ?_
  · rintro q rfl
    have := h.lt.1
    exact ⟨by rw [var_push, if_neg (by omega)], by rw [obj_push, if_neg (by omega)]⟩
  · rintro q x rfl hx
    have := h.lt.2 x hx
    exact ⟨by rw [var_push, if_neg (by omega)], by rw [obj_push, if_neg (by omega)]⟩

theorem place_push (t : Route) (b : Known) (q : Place) (i : Nat) :
    Route.place ⟨b, t.places ++ [some q]⟩ i = if i = t.places.length then some q else t.place i := by
  unfold Route.place
  simp only [List.getElem?_append]
  split
  · have : i ≠ t.places.length := by omega
    simp [this]
  · by_cases hx : i = t.places.length
    · simp [hx]
    · have : t.places.length < i := by omega
      simp [hx, List.getElem?_eq_none (by omega : t.places.length ≤ i), List.getElem?_eq_none (by simp; omega : [some q].length ≤ i - t.places.length)]

theorem cursor_push (w : Walker) (b : Client) (q : Cursor) (i : Nat) :
    Walker.cursor ⟨b, w.cursors ++ [some q]⟩ i = if i = w.cursors.length then some q else w.cursor i := by
  unfold Walker.cursor
  simp only [List.getElem?_append]
  split
  · have : i ≠ w.cursors.length := by omega
    simp [this]
  · by_cases hx : i = w.cursors.length
    · simp [hx]
    · have : w.cursors.length < i := by omega
      simp [hx, List.getElem?_eq_none (by omega : w.cursors.length ≤ i), List.getElem?_eq_none (by simp; omega : [some q].length ≤ i - w.cursors.length)]

theorem place_set (t : Route) (b : Known) (q : Option Place) (i j : Nat) :
    Route.place ⟨b, t.places.set j q⟩ i = if i = j ∧ j < t.places.length then q else t.place i := by
  unfold Route.place
  simp only [List.getElem?_set]
  by_cases h : j = i
  · subst h
    by_cases h2 : j < t.places.length
    · simp [h2]
    · simp [h2]
  · have : i ≠ j := fun e => h e.symm
    simp [h, this]

theorem cursor_set (w : Walker) (b : Client) (q : Option Cursor) (i j : Nat) :
    Walker.cursor ⟨b, w.cursors.set j q⟩ i = if i = j ∧ j < w.cursors.length then q else w.cursor i := by
  unfold Walker.cursor
  simp only [List.getElem?_set]
  by_cases h : j = i
  · subst h
    by_cases h2 : j < w.cursors.length
    · simp [h2]
    · simp [h2]
  · have : i ≠ j := fun e => h e.symm
    simp [h, this]

theorem place_lt {t : Route} {i : Nat} {p : Place} (h : t.place i = some p) : i < t.places.length := by
  rcases Nat.lt_or_ge i t.places.length with hx | hx
  · exact hx
  · simp [Route.place, List.getElem?_eq_none hx] at h

/-- A new iterator. -/
theorem Travels.pushCursor {t : Route} {w : Walker} (h : Travels t w) {s : Status} {home : Option Nat} {pos valueId : Nat} {args : Option Ref}
    (hk : s.kind = some .results) (hf : Fits w.base s (some (.results args)))
    (hx : ∀ x, home = some x → ∃ n vs text r, t.base.uses x .values = some n ∧ s = .live .results n ∧ w.base.obj x = some (.values vs text (some r)) ∧
      args = some r ∧ pos ≤ vs.values.length ∧ valueId = vs.valueId) :
    Travels ⟨t.base.push s, t.places ++ [some ⟨home, t.base.vars.length⟩]⟩ (w.pushCursor home pos valueId args) := by
  have hlen := h.base.vars
  refine ⟨h.base.push hf, by simp [Walker.pushCursor, h.count], fun i => ?_, fun i j p q hp hq e => ?_⟩
  · unfold Walker.pushCursor
    rw [place_push, cursor_push, h.count]
    split
    · refine ⟨_, rfl, rfl, hlen.symm, by rw [known_length_push]; exact Nat.lt_succ_self _, by rw [var_push, if_pos rfl]; exact hk, fun x e => ?_⟩
      obtain ⟨n, vs, text, r, h1, rfl, h3, rfl, h5⟩ := hx x e
      have hlt := uses_lt h1
      refine ⟨n, vs, text, r, ?_, ?_, ?_, ?_, h5⟩
      · rw [Known.uses, var_push, if_neg (by omega)]; exact h1
      · exact uses_of (by rw [var_push, if_pos rfl])
      · rw [obj_push, if_neg (by omega)]; exact h3
      · rw [obj_push, if_pos hlen]
    · exact (h.places i).push hlen _ _
  · rw [place_push] at hp hq
    have hlt : ∀ i p, t.place i = some p → p.share < t.base.vars.length := fun i p hp => by
      have := h.places i
      rw [hp] at this
      exact this.lt.1
    split at hp <;> split at hq
    · omega
    · cases hp; have := hlt _ _ hq; simp only at e; omega
    · cases hq; have := hlt _ _ hp; simp only at e; omega
    · exact h.apart i j p q hp hq e

theorem relocate_some (count : Nat) (op : ObjOp) (z : Nat) : relocate count op (some z) = Route.goes count op z := by
  cases op <;> simp only [relocate, Route.goes]
  rename_i x y
  by_cases h : x = y
  · simp [h]
  · by_cases h2 : z = y <;> simp [h, h2]

theorem relocate_none (count : Nat) (op : ObjOp) : relocate count op none = none := by cases op <;> rfl

theorem relocate_bind (count : Nat) (op : ObjOp) (h : Option Nat) : relocate count op h = h.bind (Route.goes count op) := by
  cases h with
  | none => exact relocate_none _ _
  | some z => exact relocate_some _ _ _

/-- The list of an iterator takes its values along. -/
theorem goes_values {t t' : Known} {w w' : Client} {op : ObjOp} {s : Sight} {z x n : Nat} {o : ResultObj} (ha : Agrees t w) (hs : t.step op = some t')
    (hw : w.step op = .ok (s, w')) (hz : t.var z = .live .values n) (ho : w.obj z = some o) (hg : Route.goes t.vars.length op z = some x) :
    t'.var x = .live .values n ∧ w'.obj x = some o := by
  have hlen := ha.vars
  have hlt : z < t.vars.length := by
    rcases Nat.lt_or_ge z t.vars.length with h | h
    · exact h
    · simp [Known.var, List.getElem?_eq_none h] at hz
  have alone : LeavesAlone z op → z = x → t'.var x = .live .values n ∧ w'.obj x = some o := by
    rintro hl rfl
    exact ⟨(known_spares hlt hl hs).1.trans hz, (step_spares (by omega) hl hw).1.obj.trans ho⟩
  cases op with
  | move y =>
    simp only [Route.goes] at hg
    split at hg
    · rename_i e
      subst e
      cases hg
      simp only [Known.step, hz, reduceCtorEq, if_false, Option.some.injEq] at hs
      simp only [Client.step, ho, Outcome.ok.injEq, Prod.mk.injEq] at hw
      obtain ⟨_, rfl⟩ := hw
      subst hs
      exact ⟨by rw [var_push, known_length_put, if_pos rfl], by rw [obj_push, length_put, if_pos hlen]⟩
    · rename_i e
      cases hg
      exact alone (fun e' => e e'.symm) rfl
  | destroy y =>
    simp only [Route.goes] at hg
    split at hg
    · cases hg
    · rename_i e
      cases hg
      exact alone (fun e' => e e'.symm) rfl
  | assign y y' =>
    simp only [Route.goes] at hg
    split at hg
    · rename_i e
      subst e
      cases hg
      by_cases e : z = y
      · subst e
        simp only [Known.step, Option.ite_none_right_eq_some, Option.some.injEq] at hs
        obtain ⟨_, rfl⟩ := hs
        have hw2 := hw
        simp only [Client.step, ho] at hw2
        split at hw2
        · simp only [Outcome.ok.injEq, Prod.mk.injEq] at hw2
          obtain ⟨_, rfl⟩ := hw2
          exact ⟨by rw [var_put, if_pos ⟨rfl, hlt⟩]; exact hz, by rw [obj_put, if_pos ⟨rfl, by omega⟩]⟩
        · cases hw2
      · exact alone (fun e' => e e'.symm) rfl
    · split at hg
      · cases hg
      · rename_i e
        cases hg
        exact alone (fun e' => e e'.symm) rfl
  | moveAssign y y' =>
    simp only [Route.goes] at hg
    split at hg
    · cases hg
    · rename_i e
      split at hg
      · rename_i e2
        subst e2
        cases hg
        simp only [Known.step, Option.ite_none_right_eq_some, Option.some.injEq] at hs
        obtain ⟨⟨_, hk, hne⟩, rfl⟩ := hs
        have hx : x < t.vars.length := by
          rcases Nat.lt_or_ge x t.vars.length with h | h
          · exact h
          · have : t.var x = .gone := by simp [Known.var, List.getElem?_eq_none h]
            rw [hz, this] at hk
            cases hk
        have hw2 := hw
        simp only [Client.step, ho] at hw2
        split at hw2
        · rename_i _ _ o' p' e1 e2
          cases e1
          split at hw2
          · simp only [Outcome.ok.injEq, Prod.mk.injEq] at hw2
            obtain ⟨_, rfl⟩ := hw2
            exact ⟨by rw [var_put, known_length_put, if_pos ⟨rfl, hx⟩]; exact hz, by rw [obj_put, length_put, if_pos ⟨rfl, by omega⟩]⟩
          · cases hw2
        · cases hw2
      · rename_i e2
        cases hg
        exact alone ⟨fun e' => e2 e'.symm, fun e' => e e'.symm⟩ rfl
  | _ =>
    simp only [Route.goes, Option.some.injEq] at hg
    exact alone trivial hg

theorem place_map (t : Route) (b : Known) (f : Place → Place) (i : Nat) : Route.place ⟨b, t.places.map fun p => p.map f⟩ i = (t.place i).map f := by
  unfold Route.place
  simp only [List.getElem?_map]
  cases t.places[i]? with
  | none => rfl
  | some p => rfl

theorem cursor_map (w : Walker) (b : Client) (f : Cursor → Cursor) (i : Nat) : Walker.cursor ⟨b, w.cursors.map fun p => p.map f⟩ i = (w.cursor i).map f := by
  unfold Walker.cursor
  simp only [List.getElem?_map]
  cases w.cursors[i]? with
  | none => rfl
  | some p => rfl

theorem share_not_named {t : Route} {op : ObjOp} (hn : op.named.any t.reserved ≠ true) {i : Nat} {p : Place} (h : t.place i = some p) : LeavesAlone p.share op := by
  refine leavesAlone_of_not_named fun hm => hn ?_
  rw [List.any_eq_true]
  exact ⟨_, hm, reserved_of h⟩

/-- An operation on other objects. -/
theorem Travels.base_step {t : Route} {w : Walker} (h : Travels t w) {op : ObjOp} {b : Known} {s : Sight} {b' : Client} (hn : op.named.any t.reserved ≠ true)
    (hs : t.base.step op = some b) (hw : w.base.step op = .ok (s, b')) :
    Travels ⟨b, t.places.map fun p => p.map fun p => { p with list := p.list.bind (Route.goes t.base.vars.length op) }⟩
      ⟨b', w.cursors.map fun c => c.map fun c => { c with home := relocate w.base.vars.length op c.home }⟩ := by
  have hg := step_good h.base hs
  rw [hw] at hg
  refine ⟨hg, by simp [h.count], fun i => ?_, fun i j p q hp hq e => ?_⟩
  · rw [place_map, cursor_map]
    have ha := h.places i
    cases e : t.place i with
    | none => rw [e] at ha; rw [ha]; rfl
    | some p =>
      rw [e] at ha
      obtain ⟨k, h1, h2, h3, h4, h5, h6⟩ := ha
      have hl := share_not_named hn e
      have hv := known_spares h4 hl hs
      have ho := (step_spares (by rw [← h.base.vars]; exact h4) hl hw).1.obj
      rw [h1]
      refine ⟨_, rfl, ?_, h3, hv.2, by simp only; rw [hv.1]; exact h5, fun x hx => ?_⟩
      · simp only
        rw [relocate_bind, h2, h.base.vars]
      · simp only [Option.bind_eq_some_iff] at hx
        obtain ⟨z, hz, hx⟩ := hx
        obtain ⟨n, vs, text, r, g1, g2, g3, g4, g5⟩ := h6 z hz
        obtain ⟨m1, m2⟩ := goes_values h.base hs hw (uses_eq g1) g3 hx
        exact ⟨n, vs, text, r, uses_of m1, by rw [Known.uses, hv.1]; exact g2, m2, by rw [ho]; exact g4, g5⟩
  · rw [place_map, Option.map_eq_some_iff] at hp hq
    obtain ⟨p', hp', rfl⟩ := hp
    obtain ⟨q', hq', rfl⟩ := hq
    exact h.apart i j p' q' hp' hq' e

/-- What is known about an iterator that has a list. -/
theorem Travels.at_list {t : Route} {w : Walker} (h : Travels t w) {i x sh : Nat} (hp : t.place i = some ⟨some x, sh⟩) :
    ∃ c n vs text r, w.cursor i = some c ∧ c.home = some x ∧ c.share = sh ∧ t.base.uses x .values = some n ∧ t.base.uses sh .results = some n ∧
      w.base.obj x = some (.values vs text (some r)) ∧ w.base.obj sh = some (.results (some r)) ∧ c.pos ≤ vs.values.length ∧ c.valueId = vs.valueId ∧
      (vs.values.isEmpty = false → text = some r) ∧ w.list c = some (vs, text) := by
  have ha := h.places i
  rw [hp] at ha
  obtain ⟨k, h1, h2, h3, h4, h5, h6⟩ := ha
  obtain ⟨n, vs, text, r, g1, g2, g3, g4, g5, g6⟩ := h6 x rfl
  obtain ⟨vs', text', r', m1, _, _, m4⟩ := uses_values h.base g1
  rw [g3] at m1
  cases m1
  exact ⟨k, n, vs, text, r, h1, h2, h3, g1, g2, g3, g4, g5, g6, m4, by simp [Walker.list, h2, g3]⟩

/-- The iterator is at the end of its list. -/
def AtLast (w : Walker) (i x : Nat) : Prop := ∃ c vs text r, w.cursor i = some c ∧ c.home = some x ∧ w.base.obj x = some (.values vs text (some r)) ∧ c.pos = vs.values.length

theorem fits_share {t : Known} {w : Client} (h : Agrees t w) {x : Nat} (hk : (t.var x).kind = some .results) : ∃ a, w.obj x = some (.results a) := by
  have hf := h.fits x
  generalize t.var x = s at hf hk
  cases s with
  | gone => cases hk
  | blank k =>
    simp only [Status.kind, Option.some.injEq] at hk
    subst hk
    exact hf
  | live k n =>
    simp only [Status.kind, Option.some.injEq] at hk
    subst hk
    obtain ⟨r, h1, _⟩ := hf
    exact ⟨_, h1⟩

theorem walk_good {t t' : Route} {w : Walker} (h : Travels t w) {op : WalkOp} (hs : t.step op = some t') :
    (∀ s w', w.step op = .ok (s, w') → Travels t' w') ∧ (w.step op = .ub → ∃ i x, StepsFrom i op ∧ AtLast w i x) := by
  have hlen := h.base.vars
  cases op with
  | base op =>
    simp only [Route.step, Option.ite_none_left_eq_some, Option.map_eq_some_iff] at hs
    obtain ⟨hn, b, hb, rfl⟩ := hs
    have hn' : op.named.any w.isShare ≠ true := by
      intro e
      rw [List.any_eq_true] at e
      obtain ⟨x, hx, e⟩ := e
      exact hn (List.any_eq_true.mpr ⟨x, hx, isShare_reserved h e⟩)
    have hg := step_good h.base hb
    simp only [Walker.step, if_neg hn']
    refine ⟨fun s w' e => ?_, fun e => ?_⟩
    · obtain ⟨⟨s1, b'⟩, e1, e2⟩ := bind_ok e
      simp only [Outcome.ok.injEq, Prod.mk.injEq] at e2
      obtain ⟨_, rfl⟩ := e2
      exact h.base_step hn hb e1
    · exfalso
      cases e1 : w.base.step op with
      | ub => rw [e1] at hg; exact hg
      | ok p => rw [e1] at e; simp [Bind.bind, Outcome.bind] at e
      | _ => rw [e1] at e; simp [Bind.bind, Outcome.bind] at e
  | newCursor =>
    simp only [Route.step, Option.some.injEq] at hs
    subst hs
    refine ⟨fun s w' e => ?_, fun e => by simp [Walker.step] at e⟩
    simp only [Walker.step, Outcome.ok.injEq, Prod.mk.injEq] at e
    obtain ⟨_, rfl⟩ := e
    exact h.pushCursor rfl ⟨_, rfl⟩ (fun x e => by cases e)
  | first x =>
    simp only [Route.step, Option.map_eq_some_iff] at hs
    obtain ⟨n, hu, rfl⟩ := hs
    obtain ⟨vs, text, r, h1, h2, ⟨nd, h3⟩, h4⟩ := uses_values h.base hu
    simp only [Walker.step, h1]
    refine ⟨fun s w' e => ?_, fun e => by simp at e⟩
    simp only [Outcome.ok.injEq, Prod.mk.injEq] at e
    obtain ⟨_, rfl⟩ := e
    exact h.pushCursor rfl ⟨r, rfl, h2, isSome_find h3⟩ (fun y e => by cases e; exact ⟨n, vs, text, r, hu, rfl, h1, rfl, Nat.zero_le _, rfl⟩)
  | last x =>
    simp only [Route.step, Option.map_eq_some_iff] at hs
    obtain ⟨n, hu, rfl⟩ := hs
    obtain ⟨vs, text, r, h1, h2, ⟨nd, h3⟩, h4⟩ := uses_values h.base hu
    simp only [Walker.step, h1]
    refine ⟨fun s w' e => ?_, fun e => by simp at e⟩
    simp only [Outcome.ok.injEq, Prod.mk.injEq] at e
    obtain ⟨_, rfl⟩ := e
    exact h.pushCursor rfl ⟨r, rfl, h2, isSome_find h3⟩ (fun y e => by cases e; exact ⟨n, vs, text, r, hu, rfl, h1, rfl, Nat.le_refl _, rfl⟩)
  | copyCursor i =>
    simp only [Route.step, Option.map_eq_some_iff] at hs
    obtain ⟨p, hp, rfl⟩ := hs
    have ha := h.places i
    rw [hp] at ha
    obtain ⟨k, h1, h2, h3, h4, h5, h6⟩ := ha
    obtain ⟨a, hsh⟩ := fits_share h.base h5
    simp only [Walker.step, h1, h3, hsh]
    refine ⟨fun s w' e => ?_, fun e => by simp at e⟩
    simp only [Outcome.ok.injEq, Prod.mk.injEq] at e
    obtain ⟨_, rfl⟩ := e
    rw [h2]
    refine h.pushCursor h5 (by rw [← hsh]; exact h.base.fits p.share) (fun x e => ?_)
    obtain ⟨n, vs, text, r, g1, g2, g3, g4, g5⟩ := h6 x e
    rw [hsh] at g4
    cases g4
    exact ⟨n, vs, text, r, g1, uses_eq g2, g3, rfl, g5⟩
  | assignCursor i j =>
    simp only [Route.step] at hs
    split at hs
    · rename_i p q hp hq
      cases hs
      have ha := h.places i
      have hb := h.places j
      rw [hp] at ha
      rw [hq] at hb
      obtain ⟨k, h1, h2, h3, h4, h5, h6⟩ := ha
      obtain ⟨e, f1, f2, f3, f4, f5, f6⟩ := hb
      obtain ⟨a, hsh⟩ := fits_share h.base h5
      obtain ⟨a', hsh'⟩ := fits_share h.base f5
      simp only [Walker.step, h1, f1, h3, f3, hsh]
      refine ⟨fun s w' e => ?_, fun e => by simp at e⟩
      simp only [Outcome.ok.injEq, Prod.mk.injEq] at e
      obtain ⟨_, rfl⟩ := e
      -- a list is never in the variable of a share
      have hne : ∀ (x : Nat) vs text r, w.base.obj x = some (.values vs text r) → x ≠ q.share := by
        rintro x vs text r e1 rfl
        rw [hsh'] at e1
        cases e1
      refine ⟨h.base.put _ (by rw [← hsh]; exact h.base.fits p.share), by simp [h.count], fun m => ?_, fun m m' pm pm' e1 e2 e3 => ?_⟩
      · rw [place_set, cursor_set, ← h.count]
        by_cases hm : m = j ∧ j < t.places.length
        · rw [if_pos hm, if_pos hm]
          refine ⟨_, rfl, h2, rfl, by rw [known_length_put]; exact f4, by rw [var_put, if_pos ⟨rfl, f4⟩]; exact h5, fun x hx => ?_⟩
          obtain ⟨n, vs, text, r, g1, g2, g3, g4, g5⟩ := h6 x hx
          rw [hsh] at g4
          cases g4
          have hx' := hne _ _ _ _ g3
          refine ⟨n, vs, text, r, ?_, ?_, ?_, ?_, g5⟩
          · rw [Known.uses, var_put, if_neg (fun c => hx' c.1)]; exact g1
          · exact uses_of (by rw [var_put, if_pos ⟨rfl, f4⟩]; exact uses_eq g2)
          · rw [obj_put, if_neg (fun c => hx' c.1)]; exact g3
          · rw [obj_put, if_pos ⟨rfl, by rw [← hlen]; exact f4⟩]
        · rw [if_neg hm, if_neg hm]
          have hmj : m ≠ j := fun c => hm ⟨c, place_lt hq⟩
          have hcur := h.places m
          refine hcur.mono (by rw [known_length_put]; omega) ?_ ?_
          · intro q' hq'
            have hd : q'.share ≠ q.share := fun c => hmj (h.apart m j q' q hq' hq c)
            exact ⟨by rw [var_put, if_neg (fun c => hd c.1)], by rw [obj_put, if_neg (fun c => hd c.1)]⟩
          · intro q' x hq' hx
            rw [hq'] at hcur
            obtain ⟨_, _, _, _, _, _, l6⟩ := hcur
            obtain ⟨_, vs, text, r, _, _, g3, _⟩ := l6 x hx
            have hd := hne _ _ _ _ g3
            exact ⟨by rw [var_put, if_neg (fun c => hd c.1)], by rw [obj_put, if_neg (fun c => hd c.1)]⟩
      · rw [place_set] at e1 e2
        split at e1 <;> split at e2
        · omega
        · rename_i c1 c2
          cases e1
          exact c1.1 ▸ h.apart j m' q pm' hq e2 e3
        · rename_i c1 c2
          cases e2
          exact c2.1 ▸ h.apart m j pm q e1 hq e3
        · exact h.apart m m' pm pm' e1 e2 e3
    · cases hs
  | destroyCursor i =>
    simp only [Route.step, Option.map_eq_some_iff] at hs
    obtain ⟨q, hq, rfl⟩ := hs
    have hb := h.places i
    rw [hq] at hb
    obtain ⟨e, f1, f2, f3, f4, f5, f6⟩ := hb
    obtain ⟨a', hsh'⟩ := fits_share h.base f5
    simp only [Walker.step, f1, f3]
    refine ⟨fun s w' e => ?_, fun e => by simp at e⟩
    simp only [Outcome.ok.injEq, Prod.mk.injEq] at e
    obtain ⟨_, rfl⟩ := e
    have hne : ∀ (x : Nat) vs text r, w.base.obj x = some (.values vs text r) → x ≠ q.share := by
      rintro x vs text r e1 rfl
      rw [hsh'] at e1
      cases e1
    refine ⟨h.base.put _ rfl, by simp [h.count], fun m => ?_, fun m m' pm pm' e1 e2 e3 => ?_⟩
    · rw [place_set, cursor_set, ← h.count]
      by_cases hm : m = i ∧ i < t.places.length
      · rw [if_pos hm, if_pos hm]; rfl
      · rw [if_neg hm, if_neg hm]
        have hmj : m ≠ i := fun c => hm ⟨c, place_lt hq⟩
        have hcur := h.places m
        refine hcur.mono (by rw [known_length_put]; omega) ?_ ?_
        · intro q' hq'
          have hd : q'.share ≠ q.share := fun c => hmj (h.apart m i q' q hq' hq c)
          exact ⟨by rw [var_put, if_neg (fun c => hd c.1)], by rw [obj_put, if_neg (fun c => hd c.1)]⟩
        · intro q' x hq' hx
          rw [hq'] at hcur
          obtain ⟨_, _, _, _, _, _, l6⟩ := hcur
          obtain ⟨_, vs, text, r, _, _, g3, _⟩ := l6 x hx
          have hd := hne _ _ _ _ g3
          exact ⟨by rw [var_put, if_neg (fun c => hd c.1)], by rw [obj_put, if_neg (fun c => hd c.1)]⟩
    · rw [place_set] at e1 e2
      split at e1
      · cases e1
      · split at e2
        · cases e2
        · exact h.apart m m' pm pm' e1 e2 e3
  | next i =>
    simp only [Route.step] at hs
    split at hs
    · rename_i x sh hp
      cases hs
      obtain ⟨c, n, vs, text, r, h1, h2, h3, h4, h5, h6, h7, h8, h9, h10, h11⟩ := h.at_list hp
      simp only [Walker.step, h1, h11]
      split
      · rename_i hlt
        refine ⟨fun s w' e => ?_, fun e => by simp at e⟩
        simp only [Outcome.ok.injEq, Prod.mk.injEq] at e
        obtain ⟨_, rfl⟩ := e
        refine ⟨h.base, by simp [Walker.putCursor, h.count], fun m => ?_, h.apart⟩
        unfold Walker.putCursor
        rw [cursor_set, ← h.count]
        by_cases hm : m = i ∧ i < t.places.length
        · rw [if_pos hm, hm.1, hp]
          have ha := h.places i
          rw [hp] at ha
          obtain ⟨k, e1, e2, e3, e4, e5, e6⟩ := ha
          refine ⟨_, rfl, h2, h3, e4, e5, fun y hy => ?_⟩
          cases hy
          exact ⟨n, vs, text, r, h4, h5, h6, h7, hlt, h9⟩
        · rw [if_neg hm]
          exact h.places m
      · refine ⟨fun s w' e => by simp at e, fun _ => ⟨i, x, rfl, c, vs, text, r, h1, h2, h6, by omega⟩⟩
    · cases hs
  | get i =>
    simp only [Route.step] at hs
    split at hs
    · rename_i x sh hp
      simp only [Option.map_eq_some_iff] at hs
      obtain ⟨n', hu, rfl⟩ := hs
      obtain ⟨c, n, vs, text, r, h1, h2, h3, h4, h5, h6, h7, h8, h9, h10, h11⟩ := h.at_list hp
      rw [h4] at hu
      cases hu
      simp only [Walker.step, h1, h11, h3, h7]
      cases hv : vs.values[c.pos]? with
      | none =>
        refine ⟨fun s w' e => by simp at e, fun _ => ⟨i, x, rfl, c, vs, text, r, h1, h2, h6, ?_⟩⟩
        rw [List.getElem?_eq_none_iff] at hv
        omega
      | some va =>
        obtain ⟨v, a⟩ := va
        refine ⟨fun s w' e => ?_, fun e => by simp at e⟩
        simp only [Outcome.ok.injEq, Prod.mk.injEq] at e
        obtain ⟨_, rfl⟩ := e
        obtain ⟨r', m1, m2, nd, m3⟩ := uses_results h.base h5
        rw [h7] at m1
        cases m1
        have hne : vs.values.isEmpty = false := by
          cases e : vs.values with
          | nil => rw [e] at hv; simp at hv
          | cons _ _ => rfl
        exact ⟨h.base.push ⟨_, _, r, rfl, m2, isSome_find m3, fun _ => h10 hne⟩, h.count, fun m => (h.places m).push hlen _ _, h.apart⟩
    · cases hs
  | same i j =>
    simp only [Route.step] at hs
    split at hs
    · rename_i x sh y sh' hp hq
      simp only [Option.ite_none_right_eq_some, Option.some.injEq] at hs
      obtain ⟨rfl, rfl⟩ := hs
      obtain ⟨c, _, _, _, _, h1, h2, _⟩ := h.at_list hp
      obtain ⟨e, _, _, _, _, f1, f2, _⟩ := h.at_list hq
      simp only [Walker.step, h1, f1, h2, f2, Option.isSome_some, and_self, if_true]
      refine ⟨fun s w' e => ?_, fun e => by simp at e⟩
      simp only [Outcome.ok.injEq, Prod.mk.injEq] at e
      obtain ⟨_, rfl⟩ := e
      exact h
    · cases hs

theorem walk_run : ∀ (ops : List WalkOp) {t t' : Route} {w : Walker}, Travels t w → t.run ops = some t' →
    (∀ ss w', w.run ops = .ok (ss, w') → Travels t' w') ∧
      (w.run ops = .ub → ∃ pre op rest i x ss w1, ops = pre ++ op :: rest ∧ w.run pre = .ok (ss, w1) ∧ StepsFrom i op ∧ AtLast w1 i x)
  | [], t, t', w, h, ht => by
    simp only [Route.run, Option.some.injEq] at ht
    subst ht
    refine ⟨fun ss w' e => ?_, fun e => by simp [Walker.run] at e⟩
    simp only [Walker.run, Outcome.ok.injEq, Prod.mk.injEq] at e
    exact e.2 ▸ h
  | op :: ops, t, t', w, h, ht => by
    simp only [Route.run, Option.bind_eq_some_iff] at ht
    obtain ⟨t1, hs, ht⟩ := ht
    obtain ⟨g1, g2⟩ := walk_good h hs
    cases e : w.step op with
    | ok p =>
      obtain ⟨s, w1⟩ := p
      obtain ⟨f1, f2⟩ := walk_run ops (g1 s w1 e) ht
      have hrun : w.run (op :: ops) = (w1.run ops >>= fun p => pure (s :: p.1, p.2)) := by
        simp only [Walker.run, e]
        rfl
      rw [hrun]
      refine ⟨fun ss w' e2 => ?_, fun e2 => ?_⟩
      · obtain ⟨⟨s2, w2⟩, e3, e4⟩ := bind_ok e2
        simp only [Pure.pure, Outcome.ok.injEq, Prod.mk.injEq] at e4
        exact e4.2 ▸ f1 s2 w2 e3
      · have hub : w1.run ops = .ub := by
          cases e3 : w1.run ops with
          | ub => rfl
          | _ => rw [e3] at e2; simp [Bind.bind, Outcome.bind, Pure.pure] at e2
        obtain ⟨pre, op', rest, i, x, ss, w2, rfl, h2, h3, h4⟩ := f2 hub
        refine ⟨op :: pre, op', rest, i, x, s :: ss, w2, rfl, ?_, h3, h4⟩
        simp only [Walker.run, e, Bind.bind, Outcome.bind, h2, Pure.pure]
    | ub =>
      refine ⟨fun ss w' e2 => by simp [Walker.run, e, Bind.bind, Outcome.bind] at e2, fun _ => ?_⟩
      obtain ⟨i, x, a, b⟩ := g2 e
      exact ⟨[], op, ops, i, x, [], w, rfl, rfl, a, b⟩
    | _ => exact ⟨fun ss w' e2 => by simp [Walker.run, e, Bind.bind, Outcome.bind] at e2, fun e2 => by simp [Walker.run, e, Bind.bind, Outcome.bind] at e2⟩

theorem route_append (t : Route) (a b : List WalkOp) : t.run (a ++ b) = (t.run a).bind fun t => t.run b := by
  induction a generalizing t with
  | nil => rfl
  | cons op a ih =>
    simp only [List.cons_append, Route.run, Option.bind_assoc]
    congr 1
    funext t
    exact ih t

theorem walk_append {w w1 : Walker} {a b : List WalkOp} {ss : List Sight} (h : w.run a = .ok (ss, w1)) :
    w.run (a ++ b) = (w1.run b >>= fun p => .ok (ss ++ p.1, p.2)) := by
  induction a generalizing w ss with
  | nil =>
    simp only [Walker.run, Outcome.ok.injEq, Prod.mk.injEq] at h
    obtain ⟨rfl, rfl⟩ := h
    simp only [List.nil_append]
    cases w.run b <;> rfl
  | cons op a ih =>
    simp only [Walker.run, List.cons_append] at h ⊢
    obtain ⟨⟨s, w2⟩, h1, h2⟩ := bind_ok h
    obtain ⟨⟨s2, w3⟩, h3, h4⟩ := bind_ok h2
    simp only [Pure.pure, Outcome.ok.injEq, Prod.mk.injEq] at h4
    obtain ⟨rfl, rfl⟩ := h4
    rw [h1]
    show (w2.run (a ++ b) >>= _) = _
    rw [ih h3]
    cases w3.run b <;> rfl

theorem cursor_lt {w : Walker} {i : Nat} {c : Cursor} (h : w.cursor i = some c) : i < w.cursors.length := by
  rcases Nat.lt_or_ge i w.cursors.length with hx | hx
  · exact hx
  · simp [Walker.cursor, List.getElem?_eq_none hx] at h

/-- What a comparison with the end shows. -/
theorem same_last {w : Walker} {i x : Nat} {c : Cursor} {vs : ArgValues} {text args : Option Ref} (hc : w.cursor i = some c) (hh : c.home = some x)
    (ho : w.base.obj x = some (.values vs text args)) :
    ((·.1) <$> w.run [.last x, .same i w.cursors.length]) = .ok [.nothing, .flag (decide (c.pos = vs.values.length))] := by
  have hi := cursor_lt hc
  have h1 : w.step (.last x) = .ok (.nothing, w.pushCursor (some x) vs.values.length vs.valueId args) := by simp only [Walker.step, ho]
  have h2 : (w.pushCursor (some x) vs.values.length vs.valueId args).cursor i = some c := by
    unfold Walker.pushCursor
    rw [cursor_push, if_neg (by omega)]
    exact hc
  have h3 : (w.pushCursor (some x) vs.values.length vs.valueId args).cursor w.cursors.length = some ⟨some x, vs.values.length, vs.valueId, w.base.vars.length⟩ := by
    unfold Walker.pushCursor
    rw [cursor_push, if_pos rfl]
  have h4 : (w.pushCursor (some x) vs.values.length vs.valueId args).step (.same i w.cursors.length) =
      .ok (.flag (decide (c.pos = vs.values.length)), w.pushCursor (some x) vs.values.length vs.valueId args) := by
    simp only [Walker.step, h2, h3, hh, Option.isSome_some, and_self, if_true]
  have hr : w.run [.last x, .same i w.cursors.length] = .ok ([.nothing, .flag (decide (c.pos = vs.values.length))],
      w.pushCursor (some x) vs.values.length vs.valueId args) := by
    simp only [Walker.run, h1, Bind.bind, Outcome.bind, h4, Pure.pure]
  rw [hr]
  rfl

theorem isShare_lt {t : Route} {w : Walker} (h : Travels t w) {x : Nat} (hx : t.base.vars.length ≤ x) : w.isShare x = false := by
  cases e : w.isShare x with
  | false => rfl
  | true =>
    exfalso
    have := isShare_reserved h e
    unfold Route.reserved at this
    rw [List.any_eq_true] at this
    obtain ⟨p, hp, e2⟩ := this
    cases p with
    | none => simp at e2
    | some p =>
      simp only [Option.elim_some, beq_iff_eq] at e2
      obtain ⟨i, hi⟩ := List.mem_iff_getElem?.mp hp
      have hpl : t.place i = some p := by simp [Route.place, hi]
      have ha := h.places i
      rw [hpl] at ha
      have := ha.lt.1
      omega

/-- What looking at the value of an iterator shows. -/
theorem get_shows {t : Route} {w : Walker} (h : Travels t w) {i x sh : Nat} (hp : t.place i = some ⟨some x, sh⟩) {c : Cursor} {vs : ArgValues}
    {text : Option Ref} (hc : w.cursor i = some c) (hl : w.list c = some (vs, text)) (d : Str) :
    ((·.1) <$> w.run [.get i, .base (.asString w.base.vars.length d)]) =
      match vs.values[c.pos]? with
      | some (v, _) => .ok [.nothing, .texts [v]]
      | none => .ub := by
  obtain ⟨c', n, vs', text', r, h1, h2, h3, h4, h5, h6, h7, h8, h9, h10, h11⟩ := h.at_list hp
  rw [hc] at h1
  cases h1
  rw [hl] at h11
  cases h11
  cases hv : vs.values[c.pos]? with
  | none => simp only [Walker.run, Walker.step, hc, hl, h3, h7, hv, Bind.bind, Outcome.bind, Functor.map]
  | some va =>
    obtain ⟨v, a⟩ := va
    have hne : vs.values.isEmpty = false := by
      cases e : vs.values with
      | nil => rw [e] at hv; simp at hv
      | cons _ _ => rfl
    have htx := h10 hne
    subst htx
    have s1 : w.step (.get i) = .ok (.nothing, { w with base := w.base.push (.value ⟨some v, c.valueId, a⟩ (some r) (some r)) }) := by
      simp only [Walker.step, hc, hl, h3, h7, hv]
    have hobj : (w.base.push (.value ⟨some v, c.valueId, a⟩ (some r) (some r))).obj w.base.vars.length = some (.value ⟨some v, c.valueId, a⟩ (some r) (some r)) := by
      rw [obj_push, if_pos rfl]
    have s2 : (w.base.push (.value ⟨some v, c.valueId, a⟩ (some r) (some r))).step (.asString w.base.vars.length d) =
        .ok (.texts [v], w.base.push (.value ⟨some v, c.valueId, a⟩ (some r) (some r))) := by
      simp only [Client.step, hobj, Client.readValue, Option.isSome_some, if_true]
      rw [readText_alive hobj rfl]
      rfl
    have hns : w.isShare w.base.vars.length = false := isShare_lt h (by rw [h.base.vars]; exact Nat.le_refl _)
    have hns' : Walker.isShare { w with base := w.base.push (.value ⟨some v, c.valueId, a⟩ (some r) (some r)) } w.base.vars.length = false := hns
    have s3 : ∃ w2, Walker.step { w with base := w.base.push (.value ⟨some v, c.valueId, a⟩ (some r) (some r)) } (.base (.asString w.base.vars.length d)) =
        .ok (.texts [v], w2) := by
      simp only [Walker.step, ObjOp.named, List.any_cons, List.any_nil, Bool.or_false, hns', Bool.false_eq_true, if_false, s2, Bind.bind, Outcome.bind]
      exact ⟨_, rfl⟩
    obtain ⟨w2, s3⟩ := s3
    have hr : w.run [.get i, .base (.asString w.base.vars.length d)] = .ok ([.nothing, .texts [v]], w2) := by
      simp only [Walker.run, s1, Bind.bind, Outcome.bind, s3, Pure.pure]
    rw [hr]
    rfl

/-- What an iterator refers to. -/
def lookAt (w : Walker) (i : Nat) : Option (Nat × Nat × Option (ArgValues × Option Ref) × Option ResultObj) :=
  (w.cursor i).map fun c => (c.pos, c.valueId, w.list c, w.base.obj c.share)

theorem lookAt_of {w w' : Walker} {i : Nat} {c c' : Cursor} (hc : w.cursor i = some c) (hc' : w'.cursor i = some c') (h1 : c'.pos = c.pos)
    (h2 : c'.valueId = c.valueId) (h3 : w'.list c' = w.list c) (h4 : w'.base.obj c'.share = w.base.obj c.share) : lookAt w' i = lookAt w i := by
  simp [lookAt, hc, hc', h1, h2, h3, h4]

theorem list_of {w : Walker} {c : Cursor} {x : Nat} (h : c.home = some x) {vs : ArgValues} {text args : Option Ref}
    (ho : w.base.obj x = some (.values vs text args)) : w.list c = some (vs, text) := by
  simp [Walker.list, h, ho]

/-- What an iterator refers to stays the same as long as it has its list. -/
theorem walk_steady {t t' : Route} {w w' : Walker} (h : Travels t w) {op : WalkOp} {s : Sight} (hs : t.step op = some t') (hw : w.step op = .ok (s, w'))
    {i x' sh' : Nat} (hn : ¬ Changes i op) (hi : i < w.cursors.length) (hp' : t'.place i = some ⟨some x', sh'⟩) :
    (∃ x sh, t.place i = some ⟨some x, sh⟩) ∧ lookAt w' i = lookAt w i := by
  have hlen := h.base.vars
  have hcnt := h.count
  have h' := (walk_good h hs).1 s w' hw
  obtain ⟨c', n', vs', text', r', k1, k2, k3, k4, k5, k6, k7, k8, k9, k10, k11⟩ := h'.at_list hp'
  have push : ∀ (p : Place) (cc : Cursor) o b, t' = ⟨b, t.places ++ [some p]⟩ → w' = ⟨w.base.push o, w.cursors ++ [some cc]⟩ →
      (∃ x sh, t.place i = some ⟨some x, sh⟩) ∧ lookAt w' i = lookAt w i := by
    rintro p cc o b rfl rfl
    rw [place_push, if_neg (by omega)] at hp'
    refine ⟨⟨_, _, hp'⟩, ?_⟩
    obtain ⟨c, n, vs, text, r, h1, h2, h3, h4, h5, h6, h7, h8, h9, h10, h11⟩ := h.at_list hp'
    have hx := uses_lt h4
    have hsh := uses_lt h5
    refine lookAt_of h1 (c' := c) (by rw [cursor_push, if_neg (by omega)]; exact h1) rfl rfl ?_ ?_
    · rw [h11]
      exact list_of h2 (by simp only; rw [obj_push, if_neg (by omega)]; exact h6)
    · simp only
      rw [obj_push, if_neg (by omega)]
  cases op with
  | base op =>
    simp only [Route.step, Option.ite_none_left_eq_some, Option.map_eq_some_iff] at hs
    obtain ⟨hn, b, hb, rfl⟩ := hs
    rw [place_map, Option.map_eq_some_iff] at hp'
    obtain ⟨p, hp, e⟩ := hp'
    obtain ⟨l, sh⟩ := p
    simp only [Place.mk.injEq, Option.bind_eq_some_iff] at e
    obtain ⟨⟨z, rfl, hz⟩, rfl⟩ := e
    refine ⟨⟨z, sh, hp⟩, ?_⟩
    obtain ⟨c, n, vs, text, r, h1, h2, h3, h4, h5, h6, h7, h8, h9, h10, h11⟩ := h.at_list hp
    simp only [Walker.step] at hw
    split at hw
    · cases hw
    · obtain ⟨⟨s1, b'⟩, e1, e2⟩ := bind_ok hw
      simp only [Outcome.ok.injEq, Prod.mk.injEq] at e2
      obtain ⟨_, rfl⟩ := e2
      obtain ⟨m1, m2⟩ := goes_values h.base hb e1 (uses_eq h4) h6 hz
      have ho := (step_spares (by rw [← hlen]; exact uses_lt h5) (share_not_named hn hp) e1).1.obj
      refine lookAt_of h1 (c' := { c with home := relocate w.base.vars.length op c.home }) (by rw [cursor_map, h1]; rfl) rfl rfl ?_ ?_
      · rw [h11]
        exact list_of (x := x') (by simp only; rw [relocate_bind, h2, ← hlen]; exact hz) m2
      · simp only
        rw [h3]
        exact ho
  | newCursor =>
    simp only [Route.step, Option.some.injEq] at hs
    simp only [Walker.step, Outcome.ok.injEq, Prod.mk.injEq] at hw
    exact push _ _ _ _ hs.symm hw.2.symm
  | first x =>
    simp only [Route.step, Option.map_eq_some_iff] at hs
    obtain ⟨n, hu, rfl⟩ := hs
    obtain ⟨vs, text, r, h1, h2, h3, h4⟩ := uses_values h.base hu
    simp only [Walker.step, h1, Outcome.ok.injEq, Prod.mk.injEq] at hw
    exact push _ _ _ _ rfl hw.2.symm
  | last x =>
    simp only [Route.step, Option.map_eq_some_iff] at hs
    obtain ⟨n, hu, rfl⟩ := hs
    obtain ⟨vs, text, r, h1, h2, h3, h4⟩ := uses_values h.base hu
    simp only [Walker.step, h1, Outcome.ok.injEq, Prod.mk.injEq] at hw
    exact push _ _ _ _ rfl hw.2.symm
  | copyCursor j =>
    simp only [Route.step, Option.map_eq_some_iff] at hs
    obtain ⟨p, hp, rfl⟩ := hs
    have ha := h.places j
    rw [hp] at ha
    obtain ⟨k, h1, h2, h3, h4, h5, h6⟩ := ha
    obtain ⟨a, hsh⟩ := fits_share h.base h5
    simp only [Walker.step, h1, h3, hsh, Outcome.ok.injEq, Prod.mk.injEq] at hw
    exact push _ _ _ _ rfl hw.2.symm
  | assignCursor a j =>
    simp only [Changes] at hn
    simp only [Route.step] at hs
    split at hs
    · rename_i p q hp hq
      cases hs
      rw [place_set, if_neg (fun c => hn c.1.symm)] at hp'
      refine ⟨⟨_, _, hp'⟩, ?_⟩
      obtain ⟨c, n, vs, text, r, h1, h2, h3, h4, h5, h6, h7, h8, h9, h10, h11⟩ := h.at_list hp'
      have hb := h.places j
      rw [hq] at hb
      obtain ⟨e, f1, f2, f3, f4, f5, f6⟩ := hb
      obtain ⟨a2, hsh2⟩ := fits_share h.base f5
      have ha := h.places a
      rw [hp] at ha
      obtain ⟨k, g1, g2, g3, g4, g5, g6⟩ := ha
      obtain ⟨a1, hsh1⟩ := fits_share h.base g5
      simp only [Walker.step, g1, f1, g3, f3, hsh1, Outcome.ok.injEq, Prod.mk.injEq] at hw
      obtain ⟨_, rfl⟩ := hw
      have hx : x' ≠ q.share := by
        rintro rfl
        rw [hsh2] at h6
        cases h6
      have hd : sh' ≠ q.share := fun e => hn (h.apart j i q _ hq hp' e.symm)
      refine lookAt_of h1 (c' := c) (by rw [cursor_set, if_neg (fun c => hn c.1.symm)]; exact h1) rfl rfl ?_ ?_
      · rw [h11]
        exact list_of h2 (by simp only; rw [obj_put, if_neg (fun c => hx c.1)]; exact h6)
      · simp only
        rw [obj_put, h3, if_neg (fun c => hd c.1)]
    · cases hs
  | destroyCursor j =>
    simp only [Changes] at hn
    simp only [Route.step, Option.map_eq_some_iff] at hs
    obtain ⟨q, hq, rfl⟩ := hs
    rw [place_set, if_neg (fun c => hn c.1.symm)] at hp'
    refine ⟨⟨_, _, hp'⟩, ?_⟩
    obtain ⟨c, n, vs, text, r, h1, h2, h3, h4, h5, h6, h7, h8, h9, h10, h11⟩ := h.at_list hp'
    have hb := h.places j
    rw [hq] at hb
    obtain ⟨e, f1, f2, f3, f4, f5, f6⟩ := hb
    obtain ⟨a2, hsh2⟩ := fits_share h.base f5
    simp only [Walker.step, f1, f3, Outcome.ok.injEq, Prod.mk.injEq] at hw
    obtain ⟨_, rfl⟩ := hw
    have hx : x' ≠ q.share := by
      rintro rfl
      rw [hsh2] at h6
      cases h6
    have hd : sh' ≠ q.share := fun e => hn (h.apart j i q _ hq hp' e.symm)
    refine lookAt_of h1 (c' := c) (by rw [cursor_set, if_neg (fun c => hn c.1.symm)]; exact h1) rfl rfl ?_ ?_
    · rw [h11]
      exact list_of h2 (by simp only; rw [obj_put, if_neg (fun c => hx c.1)]; exact h6)
    · simp only
      rw [obj_put, h3, if_neg (fun c => hd c.1)]
  | next j =>
    simp only [Changes] at hn
    have ht : t' = t := by
      simp only [Route.step] at hs
      split at hs
      · cases hs; rfl
      · cases hs
    subst ht
    refine ⟨⟨_, _, hp'⟩, ?_⟩
    simp only [Walker.step] at hw
    split at hw
    · split at hw
      · split at hw
        · simp only [Outcome.ok.injEq, Prod.mk.injEq] at hw
          obtain ⟨_, rfl⟩ := hw
          obtain ⟨c, n, vs, text, r, h1, _⟩ := h.at_list hp'
          exact lookAt_of h1 (c' := c) (by unfold Walker.putCursor; rw [cursor_set, if_neg (fun c => hn c.1.symm)]; exact h1) rfl rfl rfl rfl
        · cases hw
      · cases hw
    · cases hw
  | get j =>
    have hbase : ∃ o, w' = { w with base := w.base.push o } := by
      simp only [Walker.step] at hw
      repeat' split at hw
      all_goals first | (simp only [Outcome.ok.injEq, Prod.mk.injEq] at hw; exact ⟨_, hw.2.symm⟩) | cases hw
    obtain ⟨o, rfl⟩ := hbase
    have hpl : t'.place i = t.place i := by
      simp only [Route.step] at hs
      split at hs
      · simp only [Option.map_eq_some_iff] at hs
        obtain ⟨_, _, rfl⟩ := hs
        rfl
      · cases hs
    rw [hpl] at hp'
    refine ⟨⟨_, _, hp'⟩, ?_⟩
    obtain ⟨c, n, vs, text, r, h1, h2, h3, h4, h5, h6, h7, h8, h9, h10, h11⟩ := h.at_list hp'
    have hx := uses_lt h4
    have hsh := uses_lt h5
    refine lookAt_of h1 (c' := c) h1 rfl rfl ?_ ?_
    · rw [h11]
      exact list_of h2 (by simp only; rw [obj_push, if_neg (by omega)]; exact h6)
    · simp only
      rw [obj_push, if_neg (by omega)]
  | same a j =>
    have ht : t' = t := by
      simp only [Route.step] at hs
      split at hs
      · simp only [Option.ite_none_right_eq_some, Option.some.injEq] at hs; exact hs.2.symm
      · cases hs
    have hw2 : w' = w := by
      simp only [Walker.step] at hw
      split at hw
      · split at hw
        · simp only [Outcome.ok.injEq, Prod.mk.injEq] at hw; exact hw.2.symm
        · cases hw
      · cases hw
    subst ht hw2
    exact ⟨⟨_, _, hp'⟩, rfl⟩

theorem route_length {t t' : Route} {op : WalkOp} (h : t.step op = some t') : t.places.length ≤ t'.places.length := by
  cases op with
  | base op =>
    simp only [Route.step, Option.ite_none_left_eq_some, Option.map_eq_some_iff] at h
    obtain ⟨_, _, _, rfl⟩ := h
    simp
  | newCursor => simp only [Route.step, Option.some.injEq] at h; subst h; simp
  | first x => simp only [Route.step, Option.map_eq_some_iff] at h; obtain ⟨_, _, rfl⟩ := h; simp
  | last x => simp only [Route.step, Option.map_eq_some_iff] at h; obtain ⟨_, _, rfl⟩ := h; simp
  | copyCursor i => simp only [Route.step, Option.map_eq_some_iff] at h; obtain ⟨_, _, rfl⟩ := h; simp
  | destroyCursor i => simp only [Route.step, Option.map_eq_some_iff] at h; obtain ⟨_, _, rfl⟩ := h; simp
  | assignCursor i j =>
    simp only [Route.step] at h
    split at h
    · cases h; simp
    · cases h
  | next i =>
    simp only [Route.step] at h
    split at h
    · cases h; simp
    · cases h
  | get i =>
    simp only [Route.step] at h
    split at h
    · simp only [Option.map_eq_some_iff] at h; obtain ⟨_, _, rfl⟩ := h; simp
    · cases h
  | same i j =>
    simp only [Route.step] at h
    split at h
    · simp only [Option.ite_none_right_eq_some, Option.some.injEq] at h; rw [h.2]; simp
    · cases h

theorem run_steady {i x' sh' : Nat} : ∀ (ops : List WalkOp) {t t' : Route} {w w' : Walker} {ss : List Sight}, Travels t w → t.run ops = some t' →
    w.run ops = .ok (ss, w') → (∀ o ∈ ops, ¬ Changes i o) → i < t.places.length → t'.place i = some ⟨some x', sh'⟩ →
    (∃ x sh, t.place i = some ⟨some x, sh⟩) ∧ lookAt w' i = lookAt w i
  | [], t, t', w, w', ss, h, ht, hw, hn, hi, hp => by
    simp only [Route.run, Option.some.injEq] at ht
    simp only [Walker.run, Outcome.ok.injEq, Prod.mk.injEq] at hw
    rw [ht, ← hw.2]
    exact ⟨⟨_, _, hp⟩, rfl⟩
  | op :: ops, t, t', w, w', ss, h, ht, hw, hn, hi, hp => by
    simp only [Route.run, Option.bind_eq_some_iff] at ht
    obtain ⟨t1, hs, ht⟩ := ht
    simp only [Walker.run] at hw
    obtain ⟨⟨s, w1⟩, e1, hw⟩ := bind_ok hw
    obtain ⟨⟨ss1, w2⟩, e2, e3⟩ := bind_ok hw
    simp only [Pure.pure, Outcome.ok.injEq, Prod.mk.injEq] at e3
    obtain ⟨_, rfl⟩ := e3
    have h1 := (walk_good h hs).1 s w1 e1
    obtain ⟨⟨x, sh, g1⟩, g2⟩ := run_steady ops h1 ht e2 (fun o ho => hn o (List.mem_cons_of_mem _ ho)) (Nat.lt_of_lt_of_le hi (route_length hs)) hp
    obtain ⟨g3, g4⟩ := walk_steady h hs e1 (hn op (List.mem_cons_self ..)) (by rw [← h.count]; exact hi) g1
    exact ⟨g3, g2.trans g4⟩

/-- Going on from an iterator. -/
theorem run_next {t : Route} {i x sh : Nat} (hp : t.place i = some ⟨some x, sh⟩) : ∀ (k : Nat) {w : Walker} {c : Cursor} {vs : ArgValues} {text : Option Ref},
    Travels t w → w.cursor i = some c → w.list c = some (vs, text) → c.pos + k ≤ vs.values.length →
    ∃ w', w.run (List.replicate k (.next i)) = .ok (List.replicate k .nothing, w') ∧ Travels t w' ∧ w'.base = w.base ∧
      w'.cursor i = some { c with pos := c.pos + k }
  | 0, w, c, vs, text, h, hc, hl, hk => ⟨w, rfl, h, rfl, hc⟩
  | k + 1, w, c, vs, text, h, hc, hl, hk => by
    have hlt : c.pos < vs.values.length := by omega
    have e : w.step (.next i) = .ok (.nothing, w.putCursor i (some { c with pos := c.pos + 1 })) := by simp only [Walker.step, hc, hl, if_pos hlt]
    have hs : t.step (.next i) = some t := by simp only [Route.step, hp]
    have h1 := (walk_good h hs).1 _ _ e
    have hc1 : (w.putCursor i (some { c with pos := c.pos + 1 })).cursor i = some { c with pos := c.pos + 1 } := by
      unfold Walker.putCursor
      rw [cursor_set, if_pos ⟨rfl, cursor_lt hc⟩]
    obtain ⟨w', g1, g2, g3, g4⟩ := run_next hp k h1 hc1 (c := { c with pos := c.pos + 1 }) (vs := vs) (text := text) hl (by simp only; omega)
    refine ⟨w', ?_, g2, g3, ?_⟩
    · simp only [List.replicate_succ, Walker.run, e, Bind.bind, Outcome.bind, g1, Pure.pure]
    · rw [g4]
      simp only [Nat.add_assoc, Nat.add_comm 1 k]

end Argos
