import Verif.Model.Values
import Verif.Spec.Strings

/-! # Lemmas about bytes and strings -/

namespace Argos

/-- A property of all bytes follows from a check of the table of 256 bytes. -/
theorem forall_byte {p : UInt8 → Prop} (h : ∀ a : Fin 256, p (UInt8.ofFin a)) (a : UInt8) : p a := by
  have := h a.toFin
  simpa using this

theorem xor_eq_32_iff (a b : UInt8) : (a ^^^ b) = 32 ↔ b = a ^^^ 32 := by
  constructor
  · intro h; rw [← h, ← UInt8.xor_assoc, UInt8.xor_self, UInt8.zero_xor]
  · intro h; rw [h, ← UInt8.xor_assoc, UInt8.xor_self, UInt8.zero_xor]

theorem fold_xor_table : ∀ a : UInt8, (65 ≤ (a &&& 0xDF) ∧ (a &&& 0xDF) ≤ 90) →
    Spec.foldByte (a ^^^ 32) = Spec.foldByte a :=
  forall_byte (by decide +kernel)

theorem foldByte_lt (a : UInt8) : Spec.foldByte a < 256 := by
  unfold Spec.foldByte
  have := a.toNat_lt
  split <;> omega

theorem fold_cases_table : ∀ a : UInt8,
    (∀ n : Fin 256, Spec.foldByte (UInt8.ofFin n) = Spec.foldByte a →
      UInt8.ofFin n = a ∨ ((65 ≤ (a &&& 0xDF) ∧ (a &&& 0xDF) ≤ 90) ∧ UInt8.ofFin n = a ^^^ 32)) := by
  intro a n h
  have ha := a.toNat_lt
  unfold Spec.foldByte at h
  have hn : (UInt8.ofFin n).toNat = n.val := by simp [UInt8.toNat]
  rw [hn] at h
  have key : ∀ a : UInt8, (65 ≤ a.toNat ∧ a.toNat ≤ 90 → (65 ≤ (a &&& 0xDF) ∧ (a &&& 0xDF) ≤ 90) ∧
      (a ^^^ 32).toNat = a.toNat + 32) ∧
      (97 ≤ a.toNat ∧ a.toNat ≤ 122 → (65 ≤ (a &&& 0xDF) ∧ (a &&& 0xDF) ≤ 90) ∧
      (a ^^^ 32).toNat + 32 = a.toNat) := forall_byte (by decide +kernel)
  have hk := key a
  by_cases h1 : 65 ≤ a.toNat ∧ a.toNat ≤ 90
  · rw [if_pos h1] at h
    split at h
    · left; apply UInt8.toNat_inj.mp; omega
    · right
      refine ⟨(hk.1 h1).1, ?_⟩
      apply UInt8.toNat_inj.mp
      have := (hk.1 h1).2
      omega
  · rw [if_neg h1] at h
    split at h
    · right
      have h2 : 97 ≤ a.toNat ∧ a.toNat ≤ 122 := by omega
      refine ⟨(hk.2 h2).1, ?_⟩
      apply UInt8.toNat_inj.mp
      have := (hk.2 h2).2
      omega
    · left; apply UInt8.toNat_inj.mp; omega

theorem areEqualCharsCi_iff (a b : UInt8) :
    areEqualCharsCi a b = true ↔ Spec.foldByte a = Spec.foldByte b := by
  unfold areEqualCharsCi
  simp only [Bool.or_eq_true, Bool.and_eq_true, beq_iff_eq, decide_eq_true_eq]
  constructor
  · rintro (rfl | ⟨h1, h2⟩)
    · rfl
    · rw [xor_eq_32_iff] at h1
      rw [h1, fold_xor_table a h2]
  · intro h
    have := fold_cases_table a b.toFin (by simpa using h.symm)
    simp only [UInt8.ofFin_toFin] at this
    rcases this with rfl | ⟨h1, h2⟩
    · left; rfl
    · right; exact ⟨(xor_eq_32_iff a b).mpr h2, h1⟩

theorem areEqualCi_iff (s t : Str) : areEqualCi s t = true ↔ Spec.foldCase s = Spec.foldCase t := by
  induction s generalizing t with
  | nil => cases t <;> simp [areEqualCi, Spec.foldCase]
  | cons a s ih =>
    cases t with
    | nil => simp [areEqualCi, Spec.foldCase]
    | cons b t =>
      simp only [areEqualCi, Bool.and_eq_true, areEqualCharsCi_iff, ih]
      simp [Spec.foldCase, eq_comm]

theorem startsWithCi_iff (s p : Str) :
    startsWithCi s p = true ↔ Spec.foldCase p <+: Spec.foldCase s := by
  induction p generalizing s with
  | nil => cases s <;> simp [startsWithCi, Spec.foldCase]
  | cons b p ih =>
    cases s with
    | nil => simp [startsWithCi, Spec.foldCase]
    | cons a s =>
      simp only [startsWithCi, Bool.and_eq_true, areEqualCharsCi_iff, ih]
      simp [Spec.foldCase, List.cons_prefix_cons]

theorem startsWithCs_iff (s p : Str) : startsWithCs s p = true ↔ p <+: s := by
  induction p generalizing s with
  | nil => cases s <;> simp [startsWithCs]
  | cons b p ih =>
    cases s with
    | nil => simp [startsWithCs]
    | cons a s => simp [startsWithCs, ih, List.cons_prefix_cons]

/-! ## split_string -/

theorem joinWith_cons (sep : UInt8) (p : Str) {ps : List Str} (h : ps ≠ []) :
    Spec.joinWith sep (p :: ps) = p ++ sep :: Spec.joinWith sep ps := by
  cases ps with
  | nil => exact absurd rfl h
  | cons q qs => rfl

theorem splitLoop_ne_nil (d : UInt8) (acc s : Str) (left : Nat) : splitLoop d acc s left ≠ [] := by
  induction s generalizing acc left with
  | nil => simp [splitLoop]
  | cons a s ih =>
    unfold splitLoop
    split
    · split <;> simp
    · exact ih _ _

theorem splitLoop_join (d : UInt8) (acc s : Str) (left : Nat) :
    Spec.joinWith d (splitLoop d acc s left) = acc.reverse ++ s := by
  induction s generalizing acc left with
  | nil => simp [splitLoop, Spec.joinWith]
  | cons a s ih =>
    unfold splitLoop
    split
    · rename_i h
      subst h
      split
      · simp [Spec.joinWith]
      · rw [joinWith_cons _ _ (splitLoop_ne_nil _ _ _ _), ih]; simp
    · rw [ih]; simp

theorem splitLoop_length (d : UInt8) (acc s : Str) (left : Nat) (h : 1 ≤ left) :
    (splitLoop d acc s left).length = min (left + 1) (s.count d + 1) := by
  induction s generalizing acc left with
  | nil => simp [splitLoop]
  | cons a s ih =>
    unfold splitLoop
    split
    · rename_i ha
      subst ha
      split
      · rename_i h1; subst h1; simp
      · rename_i h1
        simp only [List.length_cons, List.count_cons_self]
        rw [ih _ _ (by omega)]
        omega
    · rename_i ha
      rw [ih _ _ h, List.count_cons_of_ne (by simpa using ha)]

theorem splitLoop_separated (d : UInt8) (acc s : Str) (left : Nat) (h : 1 ≤ left)
    (hacc : d ∉ acc) (i : Nat) (hi : i < (splitLoop d acc s left).length)
    (hd : d ∈ (splitLoop d acc s left)[i]) :
    i + 1 = (splitLoop d acc s left).length ∧ (splitLoop d acc s left).length = left + 1 := by
  induction s generalizing acc left i with
  | nil =>
    simp only [splitLoop, List.length_singleton] at hi
    have : i = 0 := by omega
    subst this
    simp [splitLoop, hacc] at hd
  | cons a s ih =>
    unfold splitLoop at hd hi ⊢
    by_cases ha : a = d
    · subst ha
      simp only [if_true] at hd hi ⊢
      by_cases h1 : left = 1
      · simp only [if_pos h1, List.length_cons, List.length_nil] at hd hi ⊢
        have h2 : i = 0 ∨ i = 1 := by omega
        rcases h2 with rfl | rfl
        · simp [hacc] at hd
        · omega
      · simp only [if_neg h1, List.length_cons] at hd hi ⊢
        cases i with
        | zero => simp [hacc] at hd
        | succ i =>
          simp only [List.getElem_cons_succ] at hd
          have := ih [] (left - 1) (by omega) (by simp) i (by omega) hd
          omega
    · simp only [if_neg ha] at hd hi ⊢
      exact ih (a :: acc) left h (by simp [hacc, Ne.symm ha]) i hi hd

end Argos
