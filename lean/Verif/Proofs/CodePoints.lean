import Verif.Proofs.Strings

/-! # Lemmas about UTF-8 code points -/

namespace Argos

theorem isContinuation_iff : ∀ c : UInt8, isContinuation c = true ↔ 0x80 ≤ c.toNat ∧ c.toNat < 0xC0 :=
  forall_byte (by decide +kernel)

theorem ofNat_toNat {n : Nat} (h : n < 256) : (UInt8.ofNat n).toNat = n := by
  simp [UInt8.toNat_ofNat, Nat.mod_eq_of_lt h]

theorem cont_ofNat (n : Nat) : isContinuation (UInt8.ofNat (0x80 + n % 0x40)) = true := by
  rw [isContinuation_iff, ofNat_toNat (by omega)]
  omega

theorem gcl_table : ∀ n : Fin 256,
    (n.val < 0x80 → getCodePointLength (UInt8.ofFin n) = 1) ∧
    (0xC0 ≤ n.val ∧ n.val < 0xE0 → getCodePointLength (UInt8.ofFin n) = 2) ∧
    (0xE0 ≤ n.val ∧ n.val < 0xF0 → getCodePointLength (UInt8.ofFin n) = 3) ∧
    (0xF0 ≤ n.val ∧ n.val < 0xF8 → getCodePointLength (UInt8.ofFin n) = 4) := by
  decide +kernel

theorem gcl_ofNat {n : Nat} (h : n < 256) :
    (n < 0x80 → getCodePointLength (UInt8.ofNat n) = 1) ∧
    (0xC0 ≤ n ∧ n < 0xE0 → getCodePointLength (UInt8.ofNat n) = 2) ∧
    (0xE0 ≤ n ∧ n < 0xF0 → getCodePointLength (UInt8.ofNat n) = 3) ∧
    (0xF0 ≤ n ∧ n < 0xF8 → getCodePointLength (UInt8.ofNat n) = 4) := by
  have := gcl_table ⟨n, h⟩
  have e : UInt8.ofFin ⟨n, h⟩ = UInt8.ofNat n := by
    apply UInt8.toNat_inj.mp
    rw [ofNat_toNat h]
    simp [UInt8.toNat]
  rwa [e] at this

theorem gcl_le (c : UInt8) : getCodePointLength c ≤ 4 := by
  unfold getCodePointLength
  dsimp only
  split
  · omega
  · split
    · omega
    · split <;> omega

/-- The shape of the encoding of a code point: a lead byte and as many continuation bytes as it
announces. -/
theorem encode_shape {n : Nat} (h : n < 0x110000) :
    ∃ lead conts, Spec.encodeUtf8 n = lead :: conts ∧
      getCodePointLength lead = conts.length + 1 ∧ ∀ c ∈ conts, isContinuation c = true := by
  unfold Spec.encodeUtf8
  split
  · exact ⟨_, [], rfl, (gcl_ofNat (by omega)).1 (by omega), by simp⟩
  · split
    · refine ⟨_, [_], rfl, (gcl_ofNat (by omega)).2.1 (by omega), ?_⟩
      simp only [List.mem_cons, List.not_mem_nil, or_false, forall_eq, cont_ofNat]
    · split
      · refine ⟨_, [_, _], rfl, (gcl_ofNat (by omega)).2.2.1 (by omega), ?_⟩
        simp only [List.mem_cons, List.not_mem_nil, or_false, forall_eq_or_imp, forall_eq, cont_ofNat, and_self]
      · refine ⟨_, [_, _, _], rfl, (gcl_ofNat (by omega)).2.2.2 (by omega), ?_⟩
        simp only [List.mem_cons, List.not_mem_nil, or_false, forall_eq_or_imp, forall_eq, cont_ofNat, and_self]

theorem countLoop_conts (conts s : Str) (count : Nat) (h : ∀ c ∈ conts, isContinuation c = true) :
    countLoop (conts ++ s) count conts.length = countLoop s count 0 := by
  induction conts with
  | nil => rfl
  | cons c cs ih =>
    simp only [List.cons_append, countLoop, List.length_cons]
    rw [if_neg (by omega), if_pos (h c (by simp))]
    exact ih (fun x hx => h x (by simp [hx]))

theorem countLoop_encode {n : Nat} (h : n < 0x110000) (s : Str) (count : Nat) :
    countLoop (Spec.encodeUtf8 n ++ s) count 0 = countLoop s (count + 1) 0 := by
  obtain ⟨l, cs, e, hl, hc⟩ := encode_shape h
  rw [e]
  simp only [List.cons_append, countLoop, if_true]
  rw [if_neg (by omega), hl]
  exact countLoop_conts cs s _ hc

theorem countLoop_text (cps : List Nat) (h : Spec.IsText cps) (count : Nat) :
    countLoop (Spec.encodeText cps) count 0 = some (count + cps.length) := by
  induction cps generalizing count with
  | nil => rfl
  | cons n cps ih =>
    simp only [Spec.encodeText, List.flatMap_cons]
    rw [countLoop_encode (h n (by simp))]
    have := ih (fun x hx => h x (by simp [hx])) (count + 1)
    simp only [Spec.encodeText] at this
    rw [this]
    simp; omega

theorem countLoop_le (s : Str) (count k : Nat) {r : Nat} (h : countLoop s count k = some r) :
    r ≤ count + s.length := by
  induction s generalizing count k with
  | nil => simp [countLoop] at h; simp [h]
  | cons c s ih =>
    simp only [countLoop] at h
    split at h
    · split at h
      · simp at h
      · have := ih _ _ h; simp; omega
    · split at h
      · have := ih _ _ h; simp; omega
      · simp at h

theorem findNthLoop_conts (n : Nat) (conts s : Str) (i count : Nat)
    (h : ∀ c ∈ conts, isContinuation c = true) :
    findNthLoop n (conts ++ s) i count conts.length = findNthLoop n s (i + conts.length) count 0 := by
  induction conts generalizing i with
  | nil => rfl
  | cons c cs ih =>
    simp only [List.cons_append, findNthLoop, List.length_cons]
    rw [if_neg (by omega), if_pos (h c (by simp))]
    have := ih (i + 1) (fun x hx => h x (by simp [hx]))
    simp only [Nat.add_sub_cancel]
    rw [this]
    congr 1; omega

theorem findNthLoop_encode {m : Nat} (h : m < 0x110000) (n : Nat) (s : Str) (i count : Nat) :
    findNthLoop n (Spec.encodeUtf8 m ++ s) i count 0 =
      if count = n then some i
      else findNthLoop n s (i + (Spec.encodeUtf8 m).length) (count + 1) 0 := by
  obtain ⟨l, cs, e, hl, hc⟩ := encode_shape h
  rw [e]
  simp only [List.cons_append, findNthLoop, if_true]
  split
  · rfl
  · rw [if_neg (by omega), hl]
    have := findNthLoop_conts n cs s (i + 1) (count + 1) hc
    simp only [Nat.add_sub_cancel, List.length_cons]
    rw [this]
    congr 1; omega

theorem findNthLoop_text (cps : List Nat) (h : Spec.IsText cps) (n i count : Nat)
    (hc : count ≤ n) :
    findNthLoop n (Spec.encodeText cps) i count 0 =
      if n - count < cps.length then some (i + (Spec.encodeText (cps.take (n - count))).length)
      else none := by
  induction cps generalizing i count with
  | nil => simp [Spec.encodeText, findNthLoop]
  | cons m cps ih =>
    have e : Spec.encodeText (m :: cps) = Spec.encodeUtf8 m ++ Spec.encodeText cps := by
      simp [Spec.encodeText]
    rw [e, findNthLoop_encode (h m (by simp))]
    by_cases hn : count = n
    · subst hn
      simp [Spec.encodeText]
    · rw [if_neg hn, ih (fun x hx => h x (by simp [hx])) _ _ (by omega)]
      obtain ⟨k, hk⟩ : ∃ k, n - count = k + 1 := ⟨n - count - 1, by omega⟩
      have hk' : n - (count + 1) = k := by omega
      rw [hk, hk']
      simp only [List.length_cons, Nat.add_lt_add_iff_right, List.take_succ_cons]
      split
      · congr 1
        simp [Spec.encodeText]; omega
      · rfl

theorem encode_length_pos (n : Nat) : 1 ≤ (Spec.encodeUtf8 n).length := by
  unfold Spec.encodeUtf8
  split
  · simp
  · split
    · simp
    · split <;> simp

theorem encodeText_length_le (cps : List Nat) : cps.length ≤ (Spec.encodeText cps).length := by
  induction cps with
  | nil => simp
  | cons n cps ih =>
    have := encode_length_pos n
    simp only [Spec.encodeText, List.flatMap_cons, List.length_append, List.length_cons] at *
    omega

theorem findNthLoop_bounds (n : Nat) (s : Str) (i count k : Nat) {r : Nat}
    (h : findNthLoop n s i count k = some r) (hn : n < i + s.length) (hc : count ≤ i)
    (hcn : count ≤ n) :
    r < i + s.length ∧ n ≤ r := by
  induction s generalizing i count k with
  | nil =>
    simp only [findNthLoop] at h
    split at h
    · simp at h; simp at hn; omega
    · simp at h
  | cons c s ih =>
    simp only [findNthLoop] at h
    simp only [List.length_cons] at hn ⊢
    split at h
    · split at h
      · simp at h; omega
      · split at h
        · simp at h; omega
        · have := ih _ _ _ h (by omega) (by omega) (by omega); omega
    · split at h
      · have := ih _ _ _ h (by omega) (by omega) (by omega); omega
      · simp at h; omega

end Argos
