import Verif.Proofs.Strings
import Verif.Proofs.Search
import Verif.Model.Options

/-! # The string orders used for option lookup -/

namespace Argos

open Spec

/-- Lexicographic order on lists of numbers. -/
def lexLess : List Nat → List Nat → Bool
  | a :: s, b :: t => if a = b then lexLess s t else decide (a < b)
  | [], _ :: _ => true
  | _, [] => false

theorem lexLess_irrefl (s : List Nat) : lexLess s s = false := by
  induction s with
  | nil => rfl
  | cons a s ih => simp [lexLess, ih]

theorem lexLess_asymm (s t : List Nat) (h : lexLess s t = true) : lexLess t s = false := by
  induction s generalizing t with
  | nil => cases t <;> simp_all [lexLess]
  | cons a s ih =>
    cases t with
    | nil => simp [lexLess] at h
    | cons b t =>
      simp only [lexLess] at h ⊢
      by_cases hab : a = b
      · subst hab; simp at h ⊢; exact ih t h
      · simp [hab] at h
        simp [Ne.symm hab]; omega

theorem lexLess_trans (s t u : List Nat) (h1 : lexLess s t = true) (h2 : lexLess t u = true) :
    lexLess s u = true := by
  induction s generalizing t u with
  | nil => cases t <;> cases u <;> simp_all [lexLess]
  | cons a s ih =>
    cases t with
    | nil => simp [lexLess] at h1
    | cons b t =>
      cases u with
      | nil => simp [lexLess] at h2
      | cons c u =>
        simp only [lexLess] at h1 h2 ⊢
        by_cases hab : a = b
        · subst hab
          simp at h1
          by_cases hac : a = c
          · subst hac; simp at h2 ⊢; exact ih _ _ h1 h2
          · simp [hac] at h2 ⊢; exact h2
        · simp [hab] at h1
          by_cases hbc : b = c
          · subst hbc; simp [hab, h1]
          · simp [hbc] at h2
            have : a ≠ c := by omega
            simp [this]; omega

theorem lexLess_total (s t : List Nat) (h1 : lexLess s t = false) (h2 : lexLess t s = false) : s = t := by
  induction s generalizing t with
  | nil => cases t <;> simp_all [lexLess]
  | cons a s ih =>
    cases t with
    | nil => simp [lexLess] at h2
    | cons b t =>
      simp only [lexLess] at h1 h2
      by_cases hab : a = b
      · subst hab; simp at h1 h2; rw [ih t h1 h2]
      · simp [hab] at h1
        simp [Ne.symm hab] at h2
        omega

/-- Transitivity of "not greater". -/
theorem lexLess_trans_not (s t u : List Nat) (h1 : lexLess t s = false) (h2 : lexLess u t = false) :
    lexLess u s = false := by
  cases h : lexLess u s with
  | false => rfl
  | true =>
    exfalso
    cases h3 : lexLess s t with
    | true =>
      have := lexLess_trans u s t h h3
      simp [h2] at this
    | false =>
      have := lexLess_total s t h3 h1
      subst this
      simp [h] at h2

/-- A prefix is not greater than the string. -/
theorem lexLess_prefix (p s : List Nat) (h : p <+: s) : lexLess s p = false := by
  induction p generalizing s with
  | nil => cases s <;> simp [lexLess]
  | cons a p ih =>
    obtain ⟨u, rfl⟩ := h
    simp [lexLess]
    exact ih _ ⟨u, rfl⟩

/-- What lies between a prefix and a string has the prefix. -/
theorem lexLess_between (p x s : List Nat) (h : p <+: s) (h1 : lexLess x p = false) (h2 : lexLess s x = false) :
    p <+: x := by
  induction p generalizing x s with
  | nil => exact List.nil_prefix
  | cons a p ih =>
    obtain ⟨u, rfl⟩ := h
    cases x with
    | nil => simp [lexLess] at h1
    | cons b x =>
      simp only [List.cons_append, lexLess] at h1 h2
      by_cases hab : a = b
      · subst hab
        simp at h1 h2
        exact List.cons_prefix_cons.mpr ⟨rfl, ih x _ ⟨u, rfl⟩ h1 h2⟩
      · simp [hab] at h2
        simp [Ne.symm hab] at h1
        omega

/-! ### Keys -/

/-- The bytes on which `compare_ci` is consistent: ASCII except `[ \ ] ^ _` and backtick. -/
def IsRegular (c : UInt8) : Prop := c.toNat < 128 ∧ ¬ (0x5B ≤ c.toNat ∧ c.toNat ≤ 0x60)

instance (c : UInt8) : Decidable (IsRegular c) := by unfold IsRegular; infer_instance

theorem and_df (c : UInt8) : (c &&& 0xDF).toNat = if c.toNat / 32 % 2 = 1 then c.toNat - 32 else c.toNat := by
  have key : ∀ n : Fin 256, (UInt8.ofNat n &&& 0xDF).toNat =
      if (UInt8.ofNat n).toNat / 32 % 2 = 1 then (UInt8.ofNat n).toNat - 32 else (UInt8.ofNat n).toNat := by
    decide +kernel
  have := key ⟨c.toNat, c.toNat_lt⟩
  simpa using this

theorem charToInt_inj (a b : UInt8) : charToInt a = charToInt b ↔ a.toNat = b.toNat := by
  have := a.toNat_lt
  have := b.toNat_lt
  unfold charToInt
  split <;> split <;> omega

theorem compareCi_regular (a b : UInt8) (ha : IsRegular a) (hb : IsRegular b) :
    (compareCi a b = 0 ↔ foldByte a = foldByte b) ∧ (compareCi a b < 0 ↔ foldByte a < foldByte b) := by
  obtain ⟨ha1, ha2⟩ := ha
  obtain ⟨hb1, hb2⟩ := hb
  have e1 : charToInt a = a.toNat := by simp [charToInt, ha1]
  have e2 : charToInt b = b.toNat := by simp [charToInt, hb1]
  unfold compareCi
  rw [e1, e2, and_df, and_df]
  unfold foldByte
  simp only
  constructor
  · split
    · rename_i h
      have : a.toNat = b.toNat := by omega
      simp [this]
    · split <;> split <;> split <;> (try split) <;> (try split) <;> omega
  · split
    · rename_i h
      have : a.toNat = b.toNat := by omega
      simp [this]
    · split <;> split <;> split <;> (try split) <;> (try split) <;> omega

/-- The key by which flags are ordered. -/
def flagKey (ci : Bool) (s : Str) : List Nat := if ci then foldCase s else s.map UInt8.toNat

/-- All bytes are regular, or the case matters. -/
def KeyOk (ci : Bool) (s : Str) : Prop := ci = true → ∀ c ∈ s, IsRegular c

theorem isLess_key (ci : Bool) (s t : Str) (hs : KeyOk ci s) (ht : KeyOk ci t) :
    isLess s t ci = lexLess (flagKey ci s) (flagKey ci t) := by
  cases ci with
  | false =>
    simp only [isLess, flagKey, Bool.false_eq_true, if_false]
    clear hs ht
    induction s generalizing t with
    | nil => cases t <;> rfl
    | cons a s ih =>
      cases t with
      | nil => rfl
      | cons b t =>
        simp only [isLessCs, List.map_cons, lexLess, ih]
        by_cases h : a = b
        · subst h; simp
        · have : a.toNat ≠ b.toNat := fun e => h (UInt8.toNat_inj.mp e)
          simp [h, this]
  | true =>
    replace hs := hs rfl
    replace ht := ht rfl
    simp only [isLess, flagKey, if_true]
    induction s generalizing t with
    | nil => cases t <;> rfl
    | cons a s ih =>
      cases t with
      | nil => rfl
      | cons b t =>
        have hc := compareCi_regular a b (hs a (by simp)) (ht b (by simp))
        have := ih t (fun c hc => hs c (by simp [hc])) (fun c hc => ht c (by simp [hc]))
        simp only [isLessCi, foldCase, List.map_cons, lexLess] at *
        by_cases h : foldByte a = foldByte b
        · have h0 := hc.1.mpr h
          simp [h, h0, this]
        · have h0 : compareCi a b ≠ 0 := fun e => h (hc.1.mp e)
          simp only [h0, ne_eq, not_false_eq_true, if_true, h, if_false]
          by_cases h1 : foldByte a < foldByte b
          · simp [h1, hc.2.mpr h1]
          · have : ¬ compareCi a b < 0 := fun e => h1 (hc.2.mp e)
            simp [h1, this]

theorem areEqual_key (ci : Bool) (s t : Str) : areEqual s t ci = true ↔ flagKey ci s = flagKey ci t := by
  cases ci with
  | false =>
    simp only [areEqual, flagKey, Bool.false_eq_true, if_false, beq_iff_eq]
    constructor
    · rintro rfl; rfl
    · intro h
      exact (List.map_inj_right (fun _ _ => UInt8.toNat_inj.mp)).mp h
  | true => simp [areEqual, flagKey, areEqualCi_iff]

theorem startsWith_key (ci : Bool) (s p : Str) :
    startsWith s p ci = true ↔ flagKey ci p <+: flagKey ci s := by
  cases ci with
  | false =>
    simp only [startsWith, flagKey, Bool.false_eq_true, if_false, startsWithCs_iff]
    constructor
    · rintro ⟨u, rfl⟩; exact ⟨u.map UInt8.toNat, by simp⟩
    · rintro ⟨u, h⟩
      refine ⟨s.drop p.length, ?_⟩
      have h1 := congrArg (List.take p.length) h
      rw [List.take_left' (by simp)] at h1
      rw [← List.map_take] at h1
      have h2 := (List.map_inj_right (fun _ _ => UInt8.toNat_inj.mp)).mp h1
      have h3 := List.take_append_drop p.length s
      rwa [← h2] at h3
  | true => simp only [startsWith, flagKey, if_true, startsWithCi_iff]

/-- Folding preserves regularity both ways. -/
theorem fold_regular (a b : UInt8) (h : foldByte a = foldByte b) : IsRegular a ↔ IsRegular b := by
  unfold foldByte IsRegular at *
  split at h <;> split at h <;> omega

theorem keyOk_of_key_eq (ci : Bool) (s t : Str) (h : flagKey ci s = flagKey ci t) (hs : KeyOk ci s) :
    KeyOk ci t := by
  cases ci with
  | false => intro h; simp at h
  | true =>
    intro _
    replace hs := hs rfl
    simp only [flagKey, if_true] at h
    induction s generalizing t with
    | nil => cases t <;> simp_all [foldCase]
    | cons a s ih =>
      cases t with
      | nil => simp [foldCase] at h
      | cons b t =>
        simp only [foldCase, List.map_cons, List.cons.injEq] at h
        intro c hc
        rcases List.mem_cons.mp hc with rfl | hc
        · exact (fold_regular _ _ h.1).mp (hs a (by simp))
        · exact ih t (fun c hc => hs c (by simp [hc])) h.2 c hc

theorem keyOk_of_prefix (ci : Bool) (s p : Str) (h : flagKey ci p <+: flagKey ci s) (hs : KeyOk ci s) :
    KeyOk ci p := by
  cases ci with
  | false => intro h; simp at h
  | true =>
    have hs := hs rfl
    simp only [flagKey, if_true] at h
    have : flagKey true (s.take p.length) = flagKey true p := by
      obtain ⟨u, hu⟩ := h
      simp only [flagKey, if_true]
      have h1 := congrArg (List.take p.length) hu
      rw [List.take_left' (by simp [foldCase])] at h1
      rw [h1]; simp [foldCase]
    exact keyOk_of_key_eq true _ _ this (fun _ c hc => hs c (List.mem_of_mem_take hc))

end Argos
