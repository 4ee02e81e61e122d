import Verif.Model.Store
import Verif.Spec.Store
import Verif.Proofs.Search
import Verif.Proofs.Order

/-! # The stored values -/

namespace Argos
open Spec

namespace Values

/-- The order of the keys of a multimap. -/
def Sorted (vs : Values) : Prop := vs.Pairwise fun a b => a.1 ≤ b.1

/-- The entries under a key. -/
def entries (vs : Values) (id : Nat) : List (Str × Nat) :=
  (vs.filter fun e => decide (e.1 = id)).map (·.2)

theorem takeWhile_sorted {vs : Values} (h : vs.Sorted) (p : Nat × Str × Nat → Bool)
    (hp : ∀ a b, a ∈ vs → b ∈ vs → a.1 ≤ b.1 → p b = true → p a = true) :
    vs.takeWhile p = vs.filter p ∧ vs.dropWhile p = vs.filter (fun e => !p e) := by
  induction vs with
  | nil => simp
  | cons e vs ih =>
    rw [Sorted, List.pairwise_cons] at h
    cases hc : p e with
    | true =>
      obtain ⟨i1, i2⟩ := ih h.2 (fun a b ha hb => hp a b (by simp [ha]) (by simp [hb]))
      simp [hc, i1, i2]
    | false =>
      have hall : ∀ b ∈ vs, p b = false := by
        intro b hb
        cases hb' : p b with
        | false => rfl
        | true => rw [hp e b (by simp) (by simp [hb]) (h.1 b hb) hb'] at hc; exact absurd hc (by simp)
      constructor
      · simp only [List.takeWhile_cons, hc, Bool.false_eq_true, if_false]
        symm
        rw [List.filter_eq_nil_iff]
        intro b hb
        rcases List.mem_cons.mp hb with rfl | hb
        · simp [hc]
        · simp [hall b hb]
      · simp only [List.dropWhile_cons, hc, Bool.false_eq_true, if_false]
        symm
        rw [List.filter_eq_self]
        intro b hb
        rcases List.mem_cons.mp hb with rfl | hb
        · simp [hc]
        · simp [hall b hb]

theorem takeWhile_le {vs : Values} (h : vs.Sorted) (id : Nat) :
    vs.takeWhile (fun e => decide (e.1 ≤ id)) = vs.filter (fun e => decide (e.1 ≤ id)) ∧
    vs.dropWhile (fun e => decide (e.1 ≤ id)) = vs.filter (fun e => decide (id < e.1)) := by
  obtain ⟨h1, h2⟩ := takeWhile_sorted h (fun e => decide (e.1 ≤ id)) (by
    intro a b _ _ hab hb
    simp only [decide_eq_true_eq] at *
    omega)
  refine ⟨h1, h2.trans ?_⟩
  congr 1
  funext e
  by_cases c : e.1 ≤ id <;> simp [c] <;> omega

theorem takeWhile_lt {vs : Values} (h : vs.Sorted) (id : Nat) :
    vs.takeWhile (fun e => decide (e.1 < id)) = vs.filter (fun e => decide (e.1 < id)) ∧
    vs.dropWhile (fun e => decide (e.1 < id)) = vs.filter (fun e => decide (id ≤ e.1)) := by
  obtain ⟨h1, h2⟩ := takeWhile_sorted h (fun e => decide (e.1 < id)) (by
    intro a b _ _ hab hb
    simp only [decide_eq_true_eq] at *
    omega)
  refine ⟨h1, h2.trans ?_⟩
  congr 1
  funext e
  by_cases c : e.1 < id <;> simp [c] <;> omega

theorem entries_append_list (a b : Values) (id : Nat) : entries (a ++ b) id = entries a id ++ entries b id := by
  simp [entries]

theorem entries_cons (e : Nat × Str × Nat) (b : Values) (id : Nat) :
    entries (e :: b) id = if e.1 = id then e.2 :: entries b id else entries b id := by
  simp only [entries, List.filter_cons]
  by_cases c : e.1 = id <;> simp [c]

theorem entries_filter (vs : Values) (p : Nat × Str × Nat → Bool) (id : Nat)
    (hp : ∀ e, e.1 = id → p e = true) : entries (vs.filter p) id = entries vs id := by
  simp only [entries, List.filter_filter]
  congr 1
  apply List.filter_congr
  intro e _
  by_cases c : e.1 = id
  · simp [c, hp e c]
  · simp [c]

theorem entries_filter_none (vs : Values) (p : Nat × Str × Nat → Bool) (id : Nat)
    (hp : ∀ e, e.1 = id → p e = false) : entries (vs.filter p) id = [] := by
  simp only [entries, List.filter_filter, List.map_eq_nil_iff, List.filter_eq_nil_iff]
  intro e _
  by_cases c : e.1 = id
  · simp [hp e c]
  · simp [c]

theorem append_eq {vs : Values} (h : vs.Sorted) (id : Nat) (v : Str) (a : Nat) :
    vs.append id v a = vs.filter (fun e => decide (e.1 ≤ id)) ++ (id, v, a) ::
      vs.filter (fun e => decide (id < e.1)) := by
  rw [append, (takeWhile_le h id).1, (takeWhile_le h id).2]

theorem append_sorted {vs : Values} (h : vs.Sorted) (id : Nat) (v : Str) (a : Nat) :
    (vs.append id v a).Sorted := by
  rw [append_eq h, Sorted, List.pairwise_append]
  refine ⟨h.sublist List.filter_sublist, ?_, ?_⟩
  · rw [List.pairwise_cons]
    refine ⟨?_, h.sublist List.filter_sublist⟩
    intro e he
    have := (List.mem_filter.mp he).2
    simp only [decide_eq_true_eq] at this
    simp only; omega
  · intro x hx y hy
    have hx := (List.mem_filter.mp hx).2
    simp only [decide_eq_true_eq] at hx
    rcases List.mem_cons.mp hy with rfl | hy
    · exact hx
    · have hy := (List.mem_filter.mp hy).2
      simp only [decide_eq_true_eq] at hy
      omega

theorem append_entries {vs : Values} (h : vs.Sorted) (id : Nat) (v : Str) (a i : Nat) :
    (vs.append id v a).entries i = if i = id then vs.entries i ++ [(v, a)] else vs.entries i := by
  rw [append_eq h, entries_append_list, entries_cons]
  by_cases c : i = id
  · subst c
    rw [entries_filter _ _ _ (by intro e he; simp [he]), entries_filter_none _ _ _ (by intro e he; simp [he])]
    simp
  · rw [if_neg (by simp only; omega), if_neg c]
    by_cases d : i < id
    · rw [entries_filter _ _ _ (by intro e he; simp; omega),
        entries_filter_none _ _ _ (by intro e he; simp; omega)]
      simp
    · rw [entries_filter_none _ _ _ (by intro e he; simp; omega),
        entries_filter _ _ _ (by intro e he; simp; omega)]
      simp

theorem dropWhile_eq_of_sorted {e : Nat × Str × Nat} {rest : Values} (h : Sorted (e :: rest)) (id : Nat) (he : e.1 = id) :
    rest.dropWhile (fun e => decide (e.1 = id)) = rest.filter (fun e => decide (id < e.1)) := by
  rw [Sorted, List.pairwise_cons] at h
  have hle : ∀ b ∈ rest, id ≤ b.1 := fun b hb => by have := h.1 b hb; omega
  have := (takeWhile_sorted h.2 (fun e => decide (e.1 = id)) (by
    intro a b ha hb hab hb'
    simp only [decide_eq_true_eq] at *
    have := hle a ha
    omega)).2
  rw [this]
  apply List.filter_congr
  intro b hb
  have := hle b hb
  by_cases c : b.1 = id <;> simp [c] <;> omega

theorem filter_ge_eq {vs : Values} (id : Nat) : (vs.filter fun e => decide (id ≤ e.1)).filter (fun e => decide (id < e.1)) =
    vs.filter (fun e => decide (id < e.1)) := by
  rw [List.filter_filter]
  apply List.filter_congr
  intro e _
  by_cases c : id < e.1 <;> simp [c] <;> omega

theorem assign_eq {vs : Values} (h : vs.Sorted) (id : Nat) (v : Str) (a : Nat) :
    vs.assign id v a = vs.filter (fun e => decide (e.1 < id)) ++ (id, v, a) ::
      vs.filter (fun e => decide (id < e.1)) := by
  have key : vs.filter (fun e => decide (e.1 = id)) = [] →
      vs.append id v a = vs.filter (fun e => decide (e.1 < id)) ++ (id, v, a) ::
        vs.filter (fun e => decide (id < e.1)) := by
    intro hn
    rw [append_eq h]
    congr 1
    apply List.filter_congr
    intro e he
    rw [List.filter_eq_nil_iff] at hn
    have := hn e he
    simp only [decide_eq_true_eq] at this
    by_cases c : e.1 < id <;> simp [c] <;> omega
  unfold assign
  have hd := (takeWhile_lt h id).2
  rw [hd, (takeWhile_lt h id).1]
  have hsub : (vs.filter fun e => decide (id ≤ e.1)).Pairwise (fun a b => a.1 ≤ b.1) :=
    h.sublist List.filter_sublist
  have hmem : ∀ b ∈ vs, id ≤ b.1 → b ∈ vs.filter fun e => decide (id ≤ e.1) := by
    intro b hb hl; rw [List.mem_filter]; exact ⟨hb, by simpa using hl⟩
  have hge : ∀ b ∈ vs.filter (fun e => decide (id ≤ e.1)), id ≤ b.1 := by
    intro b hb; simpa using (List.mem_filter.mp hb).2
  have hfl := filter_ge_eq (vs := vs) id
  generalize vs.filter (fun e => decide (id ≤ e.1)) = l at hsub hmem hge hfl
  cases l with
  | nil =>
    refine key ?_
    rw [List.filter_eq_nil_iff]
    intro b hb hbid
    simp only [decide_eq_true_eq] at hbid
    have := hmem b hb (by omega)
    simp at this
  | cons e rest =>
    by_cases c : e.1 = id
    · simp only [c, ne_eq, not_true_eq_false, if_false]
      rw [dropWhile_eq_of_sorted hsub id c]
      rw [← hfl, List.filter_cons, if_neg (by simp; omega)]
    · simp only [ne_eq, c, not_false_eq_true, if_true]
      refine key ?_
      rw [List.filter_eq_nil_iff]
      intro b hb hbid
      simp only [decide_eq_true_eq] at hbid
      have hb' := hmem b hb (by omega)
      have he := hge e (by simp)
      rw [List.pairwise_cons] at hsub
      rcases List.mem_cons.mp hb' with rfl | hb'
      · exact c hbid
      · have h1 := hsub.1 b hb'
        omega

theorem assign_sorted {vs : Values} (h : vs.Sorted) (id : Nat) (v : Str) (a : Nat) :
    (vs.assign id v a).Sorted := by
  rw [assign_eq h, Sorted, List.pairwise_append]
  refine ⟨h.sublist List.filter_sublist, ?_, ?_⟩
  · rw [List.pairwise_cons]
    refine ⟨?_, h.sublist List.filter_sublist⟩
    intro e he
    have := (List.mem_filter.mp he).2
    simp only [decide_eq_true_eq] at this
    simp only; omega
  · intro x hx y hy
    have hx := (List.mem_filter.mp hx).2
    simp only [decide_eq_true_eq] at hx
    rcases List.mem_cons.mp hy with rfl | hy
    · simp only; omega
    · have hy := (List.mem_filter.mp hy).2
      simp only [decide_eq_true_eq] at hy
      omega

theorem assign_entries {vs : Values} (h : vs.Sorted) (id : Nat) (v : Str) (a i : Nat) :
    (vs.assign id v a).entries i = if i = id then [(v, a)] else vs.entries i := by
  rw [assign_eq h, entries_append_list, entries_cons]
  by_cases c : i = id
  · subst c
    rw [entries_filter_none _ _ _ (by intro e he; simp [he]), entries_filter_none _ _ _ (by intro e he; simp [he])]
    simp
  · rw [if_neg (by simp only; omega), if_neg c]
    by_cases d : i < id
    · rw [entries_filter _ _ _ (by intro e he; simp; omega),
        entries_filter_none _ _ _ (by intro e he; simp; omega)]
      simp
    · rw [entries_filter_none _ _ _ (by intro e he; simp; omega),
        entries_filter _ _ _ (by intro e he; simp; omega)]
      simp

theorem clear_sorted {vs : Values} (h : vs.Sorted) (id : Nat) : (vs.clear id).Sorted :=
  h.sublist List.filter_sublist

theorem clear_entries (vs : Values) (id i : Nat) :
    (vs.clear id).entries i = if i = id then [] else vs.entries i := by
  unfold clear
  by_cases c : i = id
  · subst c
    rw [entries_filter_none _ _ _ (by intro e he; simp [he])]; simp
  · rw [entries_filter _ _ _ (by intro e he; simp; omega), if_neg c]

theorem getValues_eq {vs : Values} (h : vs.Sorted) (id : Nat) : vs.getValues id = vs.entries id := by
  unfold getValues entries
  rw [(takeWhile_lt h id).2]
  have hs : Sorted (vs.filter fun e => decide (id ≤ e.1)) := h.sublist List.filter_sublist
  have := (takeWhile_sorted hs (fun e => decide (e.1 = id)) (by
    intro a b ha hb hab hb'
    have ha := (List.mem_filter.mp ha).2
    simp only [decide_eq_true_eq] at *
    omega)).1
  rw [this, List.filter_filter]
  congr 1
  apply List.filter_congr
  intro e _
  by_cases c : e.1 = id <;> simp [c]

theorem has_eq (vs : Values) (id : Nat) : vs.has id = true ↔ vs.entries id ≠ [] := by
  simp only [has, List.any_eq_true, decide_eq_true_eq, entries, ne_eq, List.map_eq_nil_iff,
    List.filter_eq_nil_iff]
  constructor
  · rintro ⟨e, he, h⟩ hc
    exact hc e he (by simpa using h)
  · intro h
    apply Classical.byContradiction
    intro hc
    apply h
    intro e he heq
    exact hc ⟨e, he, by simpa using heq⟩

theorem getValue_eq {vs : Values} (h : vs.Sorted) (id : Nat) :
    vs.getValue id = match vs.entries id with
      | [] => .ok none
      | [e] => .ok (some e)
      | _ => .throw b!"Attempt to read multiple values as a single value." := by
  have hd := (takeWhile_lt h id).2
  have he : vs.entries id = entries (vs.filter fun e => decide (id ≤ e.1)) id := by
    rw [entries_filter _ _ _ (by intro e he; simp [he])]
  have hs : Sorted (vs.filter fun e => decide (id ≤ e.1)) := h.sublist List.filter_sublist
  have hge : ∀ b ∈ vs.filter (fun e => decide (id ≤ e.1)), id ≤ b.1 := by
    intro b hb; simpa using (List.mem_filter.mp hb).2
  unfold getValue
  rw [hd, he]
  generalize vs.filter (fun e => decide (id ≤ e.1)) = l at hs hge
  have hnone : ∀ l : Values, Sorted l → (∀ b ∈ l, id < b.1) → entries l id = [] := by
    intro l _ hl
    simp only [entries, List.map_eq_nil_iff, List.filter_eq_nil_iff, decide_eq_true_eq]
    intro b hb
    have := hl b hb; omega
  match l, hs, hge with
  | [], _, _ => rfl
  | [e], _, _ =>
    rw [entries_cons]
    by_cases c : e.1 = id <;> simp [c, entries]
  | e :: nx :: rest, hs, hge =>
    rw [Sorted, List.pairwise_cons] at hs
    rw [entries_cons]
    by_cases c : e.1 = id
    · simp only [c, ne_eq, not_true_eq_false, if_false, if_true]
      rw [entries_cons]
      by_cases c2 : nx.1 = id
      · simp [c2]
      · have h2 := hge nx (by simp)
        have : entries rest id = [] := hnone rest (List.pairwise_cons.mp hs.2).2 (by
          intro b hb
          have := (List.pairwise_cons.mp hs.2).1 b hb
          omega)
        simp [c2, this]
    · simp only [ne_eq, c, not_false_eq_true, if_true, if_false]
      have h2 := hge e (by simp)
      rw [hnone (nx :: rest) hs.2 (by
        intro b hb
        have := hs.1 b hb
        omega)]

end Values

/-- The operation of `ParsedArgumentsImpl` for a write. -/
def Spec.Write.exec (vs : Values) : Write → Values
  | .assign id v a => vs.assign id v a
  | .append id v a => vs.append id v a
  | .clear id => vs.clear id

/-- The stores that can arise: the results of sequences of writes. -/
def Values.Reachable (vs : Values) : Prop := ∃ ws : List Write, vs = ws.foldl Write.exec []

theorem exec_sorted {vs : Values} (h : vs.Sorted) (w : Write) : (w.exec vs).Sorted := by
  cases w with
  | assign id v a => exact Values.assign_sorted h id v a
  | append id v a => exact Values.append_sorted h id v a
  | clear id => exact Values.clear_sorted h id

theorem exec_entries {vs : Values} (h : vs.Sorted) (w : Write) :
    (w.exec vs).entries = w.run vs.entries := by
  funext i
  cases w with
  | assign id v a => exact Values.assign_entries h id v a i
  | append id v a =>
    show (vs.append id v a).entries i = _
    rw [Values.append_entries h id v a i]; rfl
  | clear id => exact Values.clear_entries vs id i

theorem exec_all (ws : List Write) : ∀ {vs : Values}, vs.Sorted →
    (ws.foldl Write.exec vs).Sorted ∧ (ws.foldl Write.exec vs).entries = ws.foldl Write.run vs.entries := by
  induction ws with
  | nil => intro vs h; exact ⟨h, rfl⟩
  | cons w ws ih =>
    intro vs h
    simp only [List.foldl_cons]
    rw [← exec_entries h]
    exact ih (exec_sorted h w)

theorem Values.Reachable.sorted {vs : Values} (h : vs.Reachable) : vs.Sorted := by
  obtain ⟨ws, rfl⟩ := h
  exact (exec_all ws List.Pairwise.nil).1

theorem Values.Reachable.step {vs : Values} (h : vs.Reachable) (w : Write) : (w.exec vs).Reachable := by
  obtain ⟨ws, rfl⟩ := h
  exact ⟨ws ++ [w], by simp⟩

theorem Values.Reachable.nil : Values.Reachable [] := ⟨[], rfl⟩

end Argos
