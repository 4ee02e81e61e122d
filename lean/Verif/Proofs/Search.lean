import Verif.Model.Search

/-! # Correctness of sorting, bisection and adjacent search -/

namespace Argos

variable {α β : Type}

theorem insertSorted_perm (less : α → α → Bool) (x : α) (l : List α) :
    (insertSorted less x l).Perm (x :: l) := by
  induction l with
  | nil => exact List.Perm.refl _
  | cons y ys ih =>
    simp only [insertSorted]
    split
    · exact (List.Perm.cons y ih).trans (List.Perm.swap x y ys)
    · exact List.Perm.refl _

theorem sortList_perm (less : α → α → Bool) (l : List α) : (sortList less l).Perm l := by
  induction l with
  | nil => exact List.Perm.refl _
  | cons x xs ih => exact (insertSorted_perm less x _).trans (List.Perm.cons x ih)

/-- If the order is transitive in the form "not greater" on the elements, sorting gives a sorted list. -/
theorem insertSorted_sorted (less : α → α → Bool) (x : α) (l : List α)
    (hasym : ∀ b ∈ l, less b x = true → less x b = false)
    (htrans : ∀ b ∈ l, ∀ c ∈ l, less b x = false → less c b = false → less c x = false)
    (h : l.Pairwise (fun a b => less b a = false)) :
    (insertSorted less x l).Pairwise (fun a b => less b a = false) := by
  induction l with
  | nil => simp [insertSorted]
  | cons y ys ih =>
    rw [List.pairwise_cons] at h
    simp only [insertSorted]
    split
    · rename_i hlt
      rw [List.pairwise_cons]
      refine ⟨?_, ih (fun b hb => hasym b (by simp [hb]))
        (fun b hb c hc => htrans b (by simp [hb]) c (by simp [hc])) h.2⟩
      intro b hb
      rcases List.mem_cons.mp ((insertSorted_perm less x ys).mem_iff.mp hb) with rfl | hb
      · exact hasym y (by simp) hlt
      · exact h.1 b hb
    · rename_i hlt
      have hlt : less y x = false := by simpa using hlt
      rw [List.pairwise_cons]
      refine ⟨?_, List.pairwise_cons.mpr h⟩
      intro b hb
      rcases List.mem_cons.mp hb with rfl | hb'
      · exact hlt
      · exact htrans y (by simp) b hb hlt (h.1 b hb')

theorem sortList_sorted (less : α → α → Bool) (l : List α)
    (hasym : ∀ a ∈ l, ∀ b ∈ l, less b a = true → less a b = false)
    (htrans : ∀ a ∈ l, ∀ b ∈ l, ∀ c ∈ l, less b a = false → less c b = false → less c a = false) :
    (sortList less l).Pairwise (fun a b => less b a = false) := by
  induction l with
  | nil => simp [sortList]
  | cons x xs ih =>
    have hp := sortList_perm less xs
    refine insertSorted_sorted less x _ ?_ ?_ (ih ?_ ?_)
    · intro b hb
      exact hasym x (by simp) b (by simp [hp.mem_iff.mp hb])
    · intro b hb c hc
      exact htrans x (by simp) b (by simp [hp.mem_iff.mp hb]) c (by simp [hp.mem_iff.mp hc])
    · intro a ha b hb; exact hasym a (by simp [ha]) b (by simp [hb])
    · intro a ha b hb c hc; exact htrans a (by simp [ha]) b (by simp [hb]) c (by simp [hc])

theorem lowerBoundLoop_partition (less : α → β → Bool) (l : List α) (v : β) (k : Nat)
    (h1 : ∀ i x, i < k → l[i]? = some x → less x v = true)
    (h2 : ∀ i x, k ≤ i → l[i]? = some x → less x v = false)
    (fuel first len : Nat) (hf : len ≤ fuel) (ha : first ≤ k) (hb : k ≤ first + len)
    (hl : first + len ≤ l.length) :
    lowerBoundLoop less l v fuel first len = k := by
  induction fuel generalizing first len with
  | zero => simp [lowerBoundLoop]; omega
  | succ fuel ih =>
    simp only [lowerBoundLoop]
    split
    · omega
    · rename_i hne
      have hlt : first + len / 2 < l.length := by omega
      simp only [List.getElem?_eq_getElem hlt]
      split
      · rename_i hless
        have : first + len / 2 < k := by
          apply Classical.byContradiction
          intro hge
          have := h2 (first + len / 2) _ (by omega) (List.getElem?_eq_getElem hlt)
          simp [hless] at this
        exact ih _ _ (by omega) (by omega) (by omega) (by omega)
      · rename_i hless
        have : k ≤ first + len / 2 := by
          apply Classical.byContradiction
          intro hge
          exact hless (h1 (first + len / 2) _ (by omega) (List.getElem?_eq_getElem hlt))
        exact ih _ _ (by omega) (by omega) (by omega) (by omega)

/-- Bisection finds the boundary of a partitioned list. -/
theorem lowerBound_partition (less : α → β → Bool) (l : List α) (v : β) (k : Nat) (hk : k ≤ l.length)
    (h1 : ∀ i x, i < k → l[i]? = some x → less x v = true)
    (h2 : ∀ i x, k ≤ i → l[i]? = some x → less x v = false) : lowerBound less l v = k :=
  lowerBoundLoop_partition less l v k h1 h2 _ 0 _ (by omega) (by omega) (by omega) (by omega)

/-- A sorted list is partitioned by every value with a compatible comparison. -/
theorem exists_partition (less : α → β → Bool) (v : β) (l : List α)
    (h : l.Pairwise (fun a b => less b v = true → less a v = true)) :
    ∃ k, k ≤ l.length ∧ (∀ i x, i < k → l[i]? = some x → less x v = true) ∧
      (∀ i x, k ≤ i → l[i]? = some x → less x v = false) := by
  induction l with
  | nil => exact ⟨0, by simp, by simp, by simp⟩
  | cons a l ih =>
    rw [List.pairwise_cons] at h
    obtain ⟨k, hk, h1, h2⟩ := ih h.2
    cases ha : less a v with
    | true =>
      refine ⟨k + 1, by simp; omega, ?_, ?_⟩
      · intro i x hi hx
        cases i with
        | zero => simp at hx; rwa [← hx]
        | succ i => exact h1 i x (by omega) (by simpa using hx)
      · intro i x hi hx
        cases i with
        | zero => omega
        | succ i => exact h2 i x (by omega) (by simpa using hx)
    | false =>
      refine ⟨0, by simp, by simp, ?_⟩
      intro i x _ hx
      cases i with
      | zero => simp at hx; rwa [← hx]
      | succ i =>
        have hx' : l[i]? = some x := by simpa using hx
        cases hxv : less x v with
        | false => rfl
        | true =>
          have := h.1 x (List.mem_of_getElem? hx') hxv
          simp [ha] at this

theorem adjacentFind_none (p : α → α → Bool) (l : List α) :
    adjacentFind p l = none ↔ ∀ i a b, l[i]? = some a → l[i + 1]? = some b → p a b = false := by
  induction l with
  | nil => simp [adjacentFind]
  | cons x l ih =>
    cases l with
    | nil => simp [adjacentFind]
    | cons y l =>
      simp only [adjacentFind]
      constructor
      · intro h
        split at h
        · simp at h
        · rename_i hp
          intro i a b ha hb
          cases i with
          | zero => simp at ha hb; rw [← ha, ← hb]; simpa using hp
          | succ i => exact ih.mp h i a b (by simpa using ha) (by simpa using hb)
      · intro h
        rw [if_neg (by simp [h 0 x y (by simp) (by simp)])]
        exact ih.mpr (fun i a b ha hb => h (i + 1) a b (by simpa using ha) (by simpa using hb))

theorem adjacentFind_some (p : α → α → Bool) (l : List α) (a b : α) (h : adjacentFind p l = some (a, b)) :
    p a b = true ∧ ∃ i : Nat, l[i]? = some a ∧ l[i + 1]? = some b := by
  induction l with
  | nil => simp [adjacentFind] at h
  | cons x l ih =>
    cases l with
    | nil => simp [adjacentFind] at h
    | cons y l =>
      simp only [adjacentFind] at h
      split at h
      · rename_i hp
        simp at h
        obtain ⟨rfl, rfl⟩ := h
        exact ⟨hp, 0, by simp, by simp⟩
      · obtain ⟨h1, i, h2, h3⟩ := ih h
        exact ⟨h1, i + 1, by simpa using h2, by simpa using h3⟩

end Argos
