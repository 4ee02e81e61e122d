import Verif.Spec.Floats
import Verif.Proofs.Numbers

/-! # Lemmas about the conversion to floating-point numbers -/

namespace Argos

open Spec

/-! ### Powers -/

theorem pow_shift {q c : Rat} {j : Int} (h : ∀ e : Int, q ^ (e - j) * c = q ^ e) (e : Int) (k : Nat) :
    q ^ (e - j * (k : Int)) * c ^ k = q ^ e := by
  induction k generalizing e with
  | zero => simp [Rat.mul_one]
  | succ k ih =>
    have e1 : e - j * ((k + 1 : Nat) : Int) = (e - j) - j * (k : Int) := by
      have : j * ((k + 1 : Nat) : Int) = j * (k : Int) + j := by rw [Int.natCast_add, Int.mul_add]; simp
      omega
    rw [e1, Rat.pow_succ, ← Rat.mul_assoc, ih (e - j), h]

theorem shift_ten (e : Int) : (10 : Rat) ^ (e - 1) * 10 = 10 ^ e := by
  have := Rat.zpow_add_one (q := 10) (by decide) (e - 1)
  rw [← this]; congr 1; omega

theorem shift_sixteen (e : Int) : (2 : Rat) ^ (e - 4) * 16 = 2 ^ e := by
  have h (m : Int) := Rat.zpow_add_one (q := 2) (by decide) m
  have : (16 : Rat) = 2 * 2 * 2 * 2 := by decide +kernel
  rw [this]
  simp only [← Rat.mul_assoc]
  rw [← h, ← h, ← h, ← h]; congr 1; omega

theorem ten_pow_ne (k : Nat) : (10 : Rat) ^ k ≠ 0 := by
  induction k with
  | zero => decide
  | succ k ih =>
    rw [Rat.pow_succ]
    intro h
    rcases Rat.mul_eq_zero.mp h with h | h
    · exact ih h
    · exact absurd h (by decide)

theorem sixteen_pow_ne (k : Nat) : (16 : Rat) ^ k ≠ 0 := by
  induction k with
  | zero => decide
  | succ k ih =>
    rw [Rat.pow_succ]
    intro h
    rcases Rat.mul_eq_zero.mp h with h | h
    · exact ih h
    · exact absurd h (by decide)

/-- The value with the exponent. -/
theorem value_ten {x : Rat} {m k : Nat} (h : x * (10 : Rat) ^ k = m) (e : Int) : (m : Rat) * 10 ^ (e - (k : Int)) = x * 10 ^ e := by
  have := pow_shift shift_ten e k
  rw [Int.one_mul] at this
  rw [← h, ← this, Rat.mul_assoc, Rat.mul_comm (10 ^ k)]

theorem value_sixteen {x : Rat} {m k : Nat} (h : x * (16 : Rat) ^ k = m) (e : Int) : (m : Rat) * 2 ^ (e - 4 * (k : Int)) = x * 2 ^ e := by
  have := pow_shift shift_sixteen e k
  rw [← h, ← this, Rat.mul_assoc, Rat.mul_comm (16 ^ k)]

/-! ### The parts -/

/-- What begins after digits: nothing, or something that is no digit. -/
def Stops (base : Nat) (s : Str) : Prop := ∀ c, s.head? = some c → ¬ digitVal c < base

theorem take_digits {base : Nat} {ds t : Str} (h : ∀ c ∈ ds, digitVal c < base) (ht : Stops base t) :
    (ds ++ t).takeWhile (fun c => decide (digitVal c < base)) = ds ∧ (ds ++ t).dropWhile (fun c => decide (digitVal c < base)) = t := by
  induction ds with
  | nil =>
    cases t with
    | nil => simp
    | cons c t => have := ht c rfl; simp [this]
  | cons c ds ih =>
    have hc := h c (by simp)
    obtain ⟨h1, h2⟩ := ih (fun c hc => h c (by simp [hc]))
    simp [hc, h1, h2]

theorem take_spec (base : Nat) (s : Str) : ∃ ds t, s = ds ++ t ∧ (∀ c ∈ ds, digitVal c < base) ∧ Stops base t ∧
    s.takeWhile (fun c => decide (digitVal c < base)) = ds ∧ s.dropWhile (fun c => decide (digitVal c < base)) = t := by
  induction s with
  | nil => exact ⟨[], [], rfl, by simp, by simp [Stops], rfl, rfl⟩
  | cons c s ih =>
    by_cases hc : digitVal c < base
    · obtain ⟨ds, t, e, h1, h2, h3, h4⟩ := ih
      refine ⟨c :: ds, t, by simp [← e], ?_, h2, by simp [hc, h3], by simp [hc, h4]⟩
      intro c' hc'
      rcases List.mem_cons.mp hc' with rfl | hc'
      · exact hc
      · exact h1 _ hc'
    · exact ⟨[], c :: s, rfl, by simp, by simpa [Stops] using hc, by simp [hc], by simp [hc]⟩

theorem accDigits_all {base : Nat} {ds : Str} (h : ∀ c ∈ ds, digitVal c < base) :
    accDigits base ds 0 = (ds.foldl (fun a c => a * base + digitVal c) 0, []) := by
  have := accDigits_append base ds [] 0 h
  rw [List.append_nil] at this
  rw [this]; rfl

/-- What a mantissa may be followed by. -/
def After (base : Nat) (s : Str) : Prop := Stops base s ∧ s.head? ≠ some 46

theorem scanMantissa_complete {base : Nat} (hb : base = 10 ∨ base = 16) {whole fraction t s : Str} {n : Nat}
    (hs : s = whole ++ b!"." ++ fraction ∨ (s = whole ∧ fraction = [])) (hn : Numeral base (whole ++ fraction) n) (ht : After base t) :
    scanMantissa base (s ++ t) = some (n, fraction.length, t) := by
  have hb' : base ≤ 36 := by omega
  obtain ⟨h1, h2, h3⟩ := (numeral_iff base hb' _ n).mp hn
  have hw : ∀ c ∈ whole, digitVal c < base := fun c hc => h2 c (by simp [hc])
  have hf : ∀ c ∈ fraction, digitVal c < base := fun c hc => h2 c (by simp [hc])
  have hdot : ¬ digitVal 46 < base := by rcases hb with rfl | rfl <;> decide
  rcases hs with rfl | ⟨rfl, rfl⟩
  · have hst : Stops base (b!"." ++ fraction ++ t) := by
      intro c hc
      have : c = 46 := by simpa [eq_comm] using hc
      rw [this]; exact hdot
    obtain ⟨e1, e2⟩ := take_digits hw hst
    obtain ⟨e3, e4⟩ := take_digits hf ht.1
    have es : whole ++ b!"." ++ fraction ++ t = whole ++ (b!"." ++ fraction ++ t) := by simp
    have ed : b!"." ++ fraction ++ t = 46 :: (fraction ++ t) := rfl
    simp only [scanMantissa, es, e1, e2]
    simp only [ed, e3, e4]
    rw [if_neg]
    · rw [accDigits_all h2, h3]
    · intro hh
      apply h1
      simpa using hh
  · obtain ⟨e1, e2⟩ := take_digits hw ht.1
    simp only [scanMantissa, e1, e2]
    simp only [List.append_nil] at h1 h2 h3
    have hne : s.isEmpty = false := by simpa using h1
    split
    · rename_i r
      exact absurd rfl ht.2
    · rw [if_neg (by simp [hne]), accDigits_all h2, h3]
      rfl

theorem scanMantissa_sound {base : Nat} (hb : base = 10 ∨ base = 16) {s t : Str} {n k : Nat} (h : scanMantissa base s = some (n, k, t)) :
    ∃ m whole fraction, s = m ++ t ∧ (m = whole ++ b!"." ++ fraction ∨ (m = whole ∧ fraction = [])) ∧
      Numeral base (whole ++ fraction) n ∧ k = fraction.length := by
  have hb' : base ≤ 36 := by omega
  obtain ⟨ds, r, rfl, h1, h2, e1, e2⟩ := take_spec base s
  simp only [scanMantissa, e1, e2] at h
  split at h
  · rename_i r
    obtain ⟨fs, r, rfl, h3, h4, e3, e4⟩ := take_spec base r
    simp only [e3, e4] at h
    split at h
    · simp at h
    · rename_i hne
      have hall : ∀ c ∈ ds ++ fs, digitVal c < base := by
        intro c hc
        rcases List.mem_append.mp hc with hc | hc
        · exact h1 c hc
        · exact h3 c hc
      simp only [Option.some.injEq, Prod.mk.injEq] at h
      obtain ⟨rfl, rfl, rfl⟩ := h
      refine ⟨ds ++ b!"." ++ fs, ds, fs, by simp, Or.inl rfl, ?_, rfl⟩
      rw [numeral_iff base hb', accDigits_all hall]
      exact ⟨by simpa using hne, hall, rfl⟩
  · split at h
    · simp at h
    · rename_i hne
      simp only [Option.some.injEq, Prod.mk.injEq] at h
      obtain ⟨rfl, rfl, rfl⟩ := h
      refine ⟨ds, ds, [], rfl, Or.inr ⟨rfl, rfl⟩, ?_, rfl⟩
      rw [List.append_nil, numeral_iff base hb', accDigits_all h1]
      exact ⟨by simpa using hne, h1, rfl⟩

theorem accDigits_ten {s : Str} (h : startsWithDigit 10 s = true) {n : Nat} (he : accDigits 10 s 0 = (n, [])) : Numeral 10 s n := by
  rw [numeral_iff 10 (by omega)]
  obtain ⟨h1, h2⟩ := accDigits_nil 10 s 0 n he
  exact ⟨ne_nil_of_startsWithDigit _ _ h, h1, h2⟩

theorem numeral_ten {s : Str} {n : Nat} (h : Numeral 10 s n) : startsWithDigit 10 s = true ∧ accDigits 10 s 0 = (n, []) := by
  obtain ⟨h1, h2, h3⟩ := (numeral_iff 10 (by omega) s n).mp h
  exact ⟨startsWithDigit_of 10 s h1 h2, by rw [accDigits_all h2, h3]⟩

theorem scanExponent_iff (lower upper : UInt8) (s : Str) (e : Int) :
    scanExponent lower upper s = (e, []) ↔ Exponent [lower, upper] s e := by
  constructor
  · intro h
    cases s with
    | nil =>
      simp only [scanExponent, Prod.mk.injEq] at h
      exact Or.inl ⟨rfl, h.1.symm⟩
    | cons c r =>
      simp only [scanExponent] at h
      split at h
      · rename_i hc
        have key : ∀ (neg : Bool) (r' : Str),
            (if startsWithDigit 10 r' = true then (if neg = true then -((accDigits 10 r' 0).1 : Int) else (accDigits 10 r' 0).1, (accDigits 10 r' 0).2)
              else (0, c :: r)) = (e, ([] : Str)) →
            ∃ n, Numeral 10 r' n ∧ e = if neg = true then -(n : Int) else n := by
          intro neg r' h
          split at h
          · rename_i hd
            simp only [Prod.mk.injEq] at h
            exact ⟨(accDigits 10 r' 0).1, accDigits_ten hd (by rw [← h.2]), h.1.symm⟩
          · simp at h
        refine Or.inr ⟨c, by simpa using hc, ?_⟩
        split at h
        · obtain ⟨n, hn, he⟩ := key true _ h
          exact ⟨b!"-", _, n, by simp, hn, Or.inl ⟨rfl, by simpa using he⟩⟩
        · obtain ⟨n, hn, he⟩ := key false _ h
          exact ⟨b!"+", _, n, by simp, hn, Or.inr ⟨Or.inr rfl, by simpa using he⟩⟩
        · obtain ⟨n, hn, he⟩ := key false _ h
          exact ⟨[], _, n, by simp, hn, Or.inr ⟨Or.inl rfl, by simpa using he⟩⟩
      · simp at h
  · rintro (⟨rfl, rfl⟩ | ⟨c, hc, sign, ds, n, rfl, hn, hs⟩)
    · rfl
    · obtain ⟨h1, h2⟩ := numeral_ten hn
      have hc' : c = lower ∨ c = upper := by simpa using hc
      rcases hs with ⟨rfl, rfl⟩ | ⟨rfl | rfl, rfl⟩
      · simp [scanExponent, hc', h1, h2]
      · cases ds with
        | nil => simp [startsWithDigit] at h1
        | cons d ds =>
          have hd : digitVal d < 36 := by
            have : digitVal d < 10 := by simpa [startsWithDigit] using h1
            omega
          obtain ⟨_, d1, d2⟩ := digit_not_space d hd
          simp only [List.cons_append, List.nil_append, scanExponent, if_pos hc']
          split
          · rename_i he; simp only [List.cons.injEq] at he; exact absurd he.1 d1
          · rename_i he; simp only [List.cons.injEq] at he; exact absurd he.1 d2
          · rw [if_pos h1, h2]; simp
      · simp [scanExponent, hc', h1, h2]

theorem exponent_after {base : Nat} {letters s : Str} {e : Int} (h : Exponent letters s e)
    (hl : ∀ c ∈ letters, ¬ digitVal c < base ∧ c ≠ 46) : After base s := by
  rcases h with ⟨rfl, _⟩ | ⟨c, hc, sign, ds, n, rfl, _⟩
  · exact ⟨by simp [Stops], by simp⟩
  · obtain ⟨h1, h2⟩ := hl c hc
    refine ⟨?_, by simpa using h2⟩
    intro c' hc'
    simp only [List.cons_append, List.head?_cons, Option.some.injEq] at hc'
    rw [← hc']; exact h1

/-! ### Words -/

theorem lower_table : ∀ n : Fin 256, ∀ w ∈ b!"infityna",
    (toLowerChar (UInt8.ofNat n) = w ↔ (UInt8.ofNat n = w ∨ (c!"A" ≤ UInt8.ofNat n ∧ UInt8.ofNat n ≤ c!"Z" ∧ UInt8.ofNat n + 32 = w))) := by
  decide +kernel

theorem lower_iff {c w : UInt8} (hw : w ∈ b!"infityna") : toLowerChar c = w ↔ (c = w ∨ (c!"A" ≤ c ∧ c ≤ c!"Z" ∧ c + 32 = w)) := by
  have := lower_table ⟨c.toNat, c.toNat_lt⟩ w hw
  simpa using this

theorem scanWord_iff {word : Str} (hw : ∀ w ∈ word, w ∈ b!"infityna") (s rest : Str) :
    scanWord word s = some rest ↔ ∃ t, s = t ++ rest ∧ AnyCase t word := by
  induction word generalizing s with
  | nil =>
    constructor
    · intro h
      simp only [scanWord, Option.some.injEq] at h
      exact ⟨[], by simp [h], Each.nil⟩
    · rintro ⟨t, rfl, h⟩
      cases h; rfl
  | cons w word ih =>
    have ih := ih (fun w hw' => hw w (by simp [hw']))
    have hw1 := hw w (by simp)
    cases s with
    | nil =>
      constructor
      · intro h; simp [scanWord] at h
      · rintro ⟨t, e, h⟩
        cases h with
        | cons _ _ => simp at e
    | cons c s =>
      simp only [scanWord]
      constructor
      · intro h
        split at h
        · rename_i hc
          obtain ⟨t, rfl, ht⟩ := (ih s).mp h
          exact ⟨c :: t, rfl, Each.cons ((lower_iff hw1).mp hc) ht⟩
        · simp at h
      · rintro ⟨t, e, h⟩
        cases h with
        | @cons x _ xs _ h1 h2 =>
          simp only [List.cons_append, List.cons.injEq] at e
          obtain ⟨rfl, rfl⟩ := e
          rw [if_pos ((lower_iff hw1).mpr h1)]
          exact (ih _).mpr ⟨xs, rfl, h2⟩

theorem anyCase_head {s word : Str} {w : UInt8} (h : AnyCase s (w :: word)) (hw : w ∈ b!"infityna") :
    ∃ c t, s = c :: t ∧ toLowerChar c = w := by
  cases h with
  | cons h1 h2 => exact ⟨_, _, rfl, (lower_iff hw).mpr h1⟩

theorem nan_table : ∀ n : Fin 256, isNanByte (UInt8.ofNat n) = true →
    UInt8.ofNat n = 95 ∨ (digitVal (UInt8.ofNat n) < 36) := by
  decide +kernel

theorem isNanByte_iff (c : UInt8) : isNanByte c = true ↔ c = c!"_" ∨ ∃ d, IsDigit c d := by
  have hlen : ∀ d, IsDigit c d → d < 36 := by
    intro d h
    rcases h with h | h
    · have := (List.getElem?_eq_some_iff.mp h).1
      exact this
    · have := (List.getElem?_eq_some_iff.mp h).1
      exact this
  constructor
  · intro h
    simp only [isNanByte, Bool.or_eq_true, decide_eq_true_eq, beq_iff_eq] at h
    rcases h with h | h
    · exact Or.inr ⟨digitVal c, (isDigit_iff c _ h).mpr rfl⟩
    · exact Or.inl h
  · rintro (rfl | ⟨d, h⟩)
    · decide
    · have := (isDigit_iff c d (hlen d h)).mp h
      have := hlen d h
      simp [isNanByte]; left; omega

theorem scanNan_iff (s : Str) : scanNan s = [] ↔
    s = [] ∨ ∃ cs, s = b!"(" ++ cs ++ b!")" ∧ ∀ c ∈ cs, c = c!"_" ∨ ∃ d, IsDigit c d := by
  constructor
  · intro h
    unfold scanNan at h
    split at h
    · rename_i r
      split at h
      · rename_i rest hd
        subst h
        refine Or.inr ⟨r.takeWhile isNanByte, ?_, ?_⟩
        · have := List.takeWhile_append_dropWhile (p := isNanByte) (l := r)
          rw [hd] at this
          show _ = b!"(" ++ _ ++ b!")"
          simpa using this.symm
        · intro c hc
          exact (isNanByte_iff c).mp (List.all_eq_true.mp (List.all_takeWhile (p := isNanByte) (l := r)) c hc)
      · simp at h
    · exact Or.inl h
  · rintro (rfl | ⟨cs, rfl, hcs⟩)
    · rfl
    · have : (cs ++ [41]).dropWhile isNanByte = [41] := by
        have h41 : isNanByte 41 = false := by decide
        clear h41
        induction cs with
        | nil => decide
        | cons c cs ih =>
          have := (isNanByte_iff c).mpr (hcs c (by simp))
          simp only [List.cons_append, List.dropWhile_cons, this, if_true]
          exact ih (fun c hc => hcs c (by simp [hc]))
      show (match (cs ++ [41]).dropWhile isNanByte with | 41 :: rest => rest | _ => _) = []
      rw [this]
      rfl

/-! ### Numbers -/

theorem mantissa_head {base : Nat} (hb : base ≤ 36) {m : Str} {x : Rat} (h : Mantissa base m x) :
    ∃ c t, m = c :: t ∧ (digitVal c < base ∨ c = 46) := by
  obtain ⟨whole, fraction, n, hs, hn, _⟩ := h
  obtain ⟨h1, h2, _⟩ := (numeral_iff base hb _ n).mp hn
  cases whole with
  | nil =>
    rcases hs with rfl | ⟨rfl, rfl⟩
    · exact ⟨46, fraction, rfl, Or.inr rfl⟩
    · simp at h1
  | cons c w =>
    have hc := h2 c (by simp)
    rcases hs with rfl | ⟨rfl, _⟩
    · exact ⟨c, _, rfl, Or.inl hc⟩
    · exact ⟨c, w, rfl, Or.inl hc⟩

theorem mantissa_unpack {base : Nat} {m : Str} {x : Rat} (h : Mantissa base m x) :
    ∃ whole fraction n, (m = whole ++ b!"." ++ fraction ∨ (m = whole ∧ fraction = [])) ∧ Numeral base (whole ++ fraction) n ∧
      x * (base : Rat) ^ fraction.length = n := h

theorem mantissa_of {base : Nat} (hp : ∀ k : Nat, (base : Rat) ^ k ≠ 0) {m whole fraction : Str} {n : Nat}
    (hs : m = whole ++ b!"." ++ fraction ∨ (m = whole ∧ fraction = [])) (hn : Numeral base (whole ++ fraction) n) :
    ∃ x, Mantissa base m x ∧ x * (base : Rat) ^ fraction.length = n := by
  have : (n : Rat) / (base : Rat) ^ fraction.length * (base : Rat) ^ fraction.length = n := by
    rw [Rat.div_def, Rat.mul_assoc, Rat.inv_mul_cancel _ (hp _), Rat.mul_one]
  exact ⟨_, ⟨whole, fraction, n, hs, hn, this⟩, this⟩

theorem cast_ten : ((10 : Nat) : Rat) = 10 := by decide +kernel
theorem cast_sixteen : ((16 : Nat) : Rat) = 16 := by decide +kernel

/-- A number of the grammar. -/
def Number (s : Str) (x : Rat) : Prop :=
  (∃ m ex y e, s = m ++ ex ∧ Mantissa 10 m y ∧ Exponent b!"eE" ex e ∧ x = y * 10 ^ e) ∨
  ∃ pfx m ex y e, s = pfx ++ m ++ ex ∧ (pfx = b!"0x" ∨ pfx = b!"0X") ∧ Mantissa 16 m y ∧ Exponent b!"pP" ex e ∧ x = y * 2 ^ e

/-- The part of `scanNumber` that looks for hexadecimal numbers. -/
def scanHex (s : Str) : Option (Nat × Nat × Str) :=
  match s with
  | z :: x :: rest => if z = 48 ∧ (x = 120 ∨ x = 88) then scanMantissa 16 rest else none
  | _ => none

theorem scanNumber_eq (s : Str) : scanNumber s =
    match scanHex s with
    | some (m, k, rest) => some ((m : Rat) * (2 : Rat) ^ ((scanExponent 112 80 rest).1 - 4 * (k : Int)), (scanExponent 112 80 rest).2)
    | none =>
      match scanMantissa 10 s with
      | some (m, k, rest) => some ((m : Rat) * (10 : Rat) ^ ((scanExponent 101 69 rest).1 - (k : Int)), (scanExponent 101 69 rest).2)
      | none => none := rfl

theorem letters_e : ∀ c ∈ b!"eE", ¬ digitVal c < 10 ∧ c ≠ 46 := by decide
theorem letters_p : ∀ c ∈ b!"pP", ¬ digitVal c < 16 ∧ c ≠ 46 := by decide

theorem digit_zero_x {x : UInt8} (h : x = 120 ∨ x = 88) : ¬ digitVal x < 10 ∧ x ≠ 46 ∧ x ∉ b!"eE" := by
  rcases h with rfl | rfl <;> decide

/-- A decimal number does not begin like a hexadecimal one. -/
theorem decimal_no_hex {m ex : Str} {y : Rat} {e : Int} (hm : Mantissa 10 m y) (he : Exponent b!"eE" ex e) : scanHex (m ++ ex) = none := by
  unfold scanHex
  split
  · rename_i z x rest heq
    split
    · rename_i hzx
      exfalso
      obtain ⟨rfl, hx⟩ := hzx
      obtain ⟨x1, x2, x3⟩ := digit_zero_x hx
      -- all bytes of the mantissa are digits or the point
      have hall : ∀ c ∈ m, digitVal c < 10 ∨ c = 46 := by
        obtain ⟨whole, fraction, n, hs, hn, _⟩ := hm
        obtain ⟨_, h2, _⟩ := (numeral_iff 10 (by omega) _ n).mp hn
        intro c hc
        rcases hs with rfl | ⟨rfl, _⟩
        · simp only [List.mem_append, List.mem_singleton] at hc
          rcases hc with (hc | hc) | hc
          · exact Or.inl (h2 c (by simp [hc]))
          · exact Or.inr hc
          · exact Or.inl (h2 c (by simp [hc]))
        · exact Or.inl (h2 c (by simp [hc]))
      obtain ⟨c, t, rfl, _⟩ := mantissa_head (by omega) hm
      cases t with
      | nil =>
        simp only [List.cons_append, List.nil_append, List.cons.injEq] at heq
        obtain ⟨rfl, heq⟩ := heq
        rcases he with ⟨rfl, _⟩ | ⟨l, hl, sign, ds, n, rfl, _⟩
        · simp at heq
        · simp only [List.cons_append, List.cons.injEq] at heq
          exact x3 (heq.1 ▸ hl)
      | cons d t =>
        simp only [List.cons_append, List.cons.injEq] at heq
        obtain ⟨rfl, rfl, _⟩ := heq
        rcases hall d (by simp) with h | h
        · exact x1 h
        · exact x2 h
    · rfl
  · rfl

theorem scanNumber_iff (s : Str) (x : Rat) : scanNumber s = some (x, []) ↔ Number s x := by
  constructor
  · intro h
    rw [scanNumber_eq] at h
    split at h
    · rename_i n k rest hh
      simp only [Option.some.injEq, Prod.mk.injEq] at h
      obtain ⟨rfl, hr⟩ := h
      unfold scanHex at hh
      split at hh
      · rename_i z c r
        split at hh
        · rename_i hz
          obtain ⟨rfl, hc⟩ := hz
          obtain ⟨m, whole, fraction, rfl, hs, hn, rfl⟩ := scanMantissa_sound (Or.inr rfl) hh
          have he := (scanExponent_iff 112 80 rest _).mp (Prod.ext rfl hr)
          obtain ⟨y, hy, hv⟩ := mantissa_of (base := 16) (by rw [cast_sixteen]; exact sixteen_pow_ne) hs hn
          rw [cast_sixteen] at hv
          refine Or.inr ⟨[48, c], m, rest, y, _, by simp, ?_, hy, he, value_sixteen hv _⟩
          rcases hc with rfl | rfl <;> simp
        · simp at hh
      · simp at hh
    · split at h
      · rename_i n k rest hh
        simp only [Option.some.injEq, Prod.mk.injEq] at h
        obtain ⟨rfl, hr⟩ := h
        obtain ⟨m, whole, fraction, rfl, hs, hn, rfl⟩ := scanMantissa_sound (Or.inl rfl) hh
        have he := (scanExponent_iff 101 69 rest _).mp (Prod.ext rfl hr)
        obtain ⟨y, hy, hv⟩ := mantissa_of (base := 10) (by rw [cast_ten]; exact ten_pow_ne) hs hn
        rw [cast_ten] at hv
        exact Or.inl ⟨m, rest, y, _, rfl, hy, he, value_ten hv _⟩
      · simp at h
  · rintro (⟨m, ex, y, e, rfl, hm, he, rfl⟩ | ⟨pfx, m, ex, y, e, rfl, hp, hm, he, rfl⟩)
    · rw [scanNumber_eq, decimal_no_hex hm he]
      obtain ⟨whole, fraction, n, hs, hn, hv⟩ := hm
      rw [cast_ten] at hv
      have h1 := scanMantissa_complete (Or.inl rfl) hs hn (exponent_after he letters_e)
      have h2 := (scanExponent_iff 101 69 ex e).mpr he
      simp only [h1, h2, value_ten hv]
    · obtain ⟨whole, fraction, n, hs, hn, hv⟩ := hm
      rw [cast_sixteen] at hv
      have h1 := scanMantissa_complete (Or.inr rfl) hs hn (exponent_after he letters_p)
      have h2 := (scanExponent_iff 112 80 ex e).mpr he
      have h3 : scanHex (pfx ++ m ++ ex) = some (n, fraction.length, ex) := by
        rcases hp with rfl | rfl
        · show scanMantissa 16 (m ++ ex) = _
          exact h1
        · show scanMantissa 16 (m ++ ex) = _
          exact h1
      rw [scanNumber_eq, h3]
      simp only [h2, value_sixteen hv]

/-- What a number begins with. -/
theorem number_head {s : Str} {x : Rat} (h : Number s x) : ∃ c t, s = c :: t ∧ (digitVal c < 10 ∨ c = 46) := by
  rcases h with ⟨m, ex, y, e, rfl, hm, _⟩ | ⟨pfx, m, ex, y, e, rfl, hp, _⟩
  · obtain ⟨c, t, rfl, h⟩ := mantissa_head (by omega) hm
    exact ⟨c, _, rfl, h⟩
  · rcases hp with rfl | rfl
    · exact ⟨48, _, rfl, by decide⟩
    · exact ⟨48, _, rfl, by decide⟩

theorem head_table : ∀ n : Fin 256, (digitVal (UInt8.ofNat n) < 10 ∨ UInt8.ofNat n = 46) →
    toLowerChar (UInt8.ofNat n) ≠ c!"i" ∧ toLowerChar (UInt8.ofNat n) ≠ c!"n" ∧
      isSpaceByte (UInt8.ofNat n) = false ∧ UInt8.ofNat n ≠ 45 ∧ UInt8.ofNat n ≠ 43 := by
  decide +kernel

theorem head_byte {c : UInt8} (h : digitVal c < 10 ∨ c = 46) :
    toLowerChar c ≠ c!"i" ∧ toLowerChar c ≠ c!"n" ∧ isSpaceByte c = false ∧ c ≠ 45 ∧ c ≠ 43 := by
  have := head_table ⟨c.toNat, c.toNat_lt⟩
  simp only [UInt8.ofNat_toNat] at this
  exact this h

theorem word_table : ∀ n : Fin 256, (toLowerChar (UInt8.ofNat n) = c!"i" ∨ toLowerChar (UInt8.ofNat n) = c!"n") →
    isSpaceByte (UInt8.ofNat n) = false ∧ UInt8.ofNat n ≠ 45 ∧ UInt8.ofNat n ≠ 43 := by
  decide +kernel

theorem word_byte {c : UInt8} (h : toLowerChar c = c!"i" ∨ toLowerChar c = c!"n") : isSpaceByte c = false ∧ c ≠ 45 ∧ c ≠ 43 := by
  have := word_table ⟨c.toNat, c.toNat_lt⟩
  simp only [UInt8.ofNat_toNat] at this
  exact this h

theorem anyCase_length {s word : Str} (h : AnyCase s word) : s.length = word.length := by
  unfold AnyCase at h
  induction h with
  | nil => rfl
  | cons _ _ ih => simp [ih]

theorem inf_letters : ∀ w ∈ b!"inf", w ∈ b!"infityna" := by decide
theorem infinity_letters : ∀ w ∈ b!"infinity", w ∈ b!"infityna" := by decide
theorem nan_letters : ∀ w ∈ b!"nan", w ∈ b!"infityna" := by decide

theorem scanWord_none {w : UInt8} {word : Str} {c : UInt8} {t : Str} (h : toLowerChar c ≠ w) : scanWord (w :: word) (c :: t) = none := by
  simp [scanWord, h]

theorem scanFloat_iff (s : Str) (x : FloatMag) : scanFloat s = some (x, []) ↔ Magnitude s x := by
  constructor
  · intro h
    unfold scanFloat at h
    split at h
    · rename_i rest hw
      simp only [Option.some.injEq, Prod.mk.injEq] at h
      obtain ⟨rfl, rfl⟩ := h
      obtain ⟨t, rfl, ht⟩ := (scanWord_iff infinity_letters s []).mp hw
      rw [List.append_nil]
      exact .infinite (Or.inr ht)
    · split at h
      · rename_i rest hw
        simp only [Option.some.injEq, Prod.mk.injEq] at h
        obtain ⟨rfl, rfl⟩ := h
        obtain ⟨t, rfl, ht⟩ := (scanWord_iff inf_letters s []).mp hw
        rw [List.append_nil]
        exact .infinite (Or.inl ht)
      · split at h
        · rename_i rest hw
          simp only [Option.some.injEq, Prod.mk.injEq] at h
          obtain ⟨rfl, hr⟩ := h
          obtain ⟨t, rfl, ht⟩ := (scanWord_iff nan_letters s rest).mp hw
          rcases (scanNan_iff rest).mp hr with rfl | ⟨cs, rfl, hcs⟩
          · rw [List.append_nil]; exact .nan ht
          · have := Magnitude.nanWith ht hcs
            simpa [List.append_assoc] using this
        · cases hn : scanNumber s with
          | none => simp [hn] at h
          | some p =>
            obtain ⟨y, r⟩ := p
            simp only [hn, Option.map_some, Option.some.injEq, Prod.mk.injEq] at h
            obtain ⟨rfl, rfl⟩ := h
            rcases (scanNumber_iff s y).mp hn with ⟨m, ex, z, e, rfl, hm, he, rfl⟩ | ⟨pfx, m, ex, z, e, rfl, hp, hm, he, rfl⟩
            · exact .decimal hm he
            · exact .hexadecimal hp hm he
  · have hnum : ∀ {s : Str} {y : Rat}, Number s y → scanFloat s = some (.finite y, []) := by
      intro s y h
      have hn := (scanNumber_iff s y).mpr h
      obtain ⟨c, t, rfl, hc⟩ := number_head h
      obtain ⟨c1, c2, _⟩ := head_byte hc
      have w1 : scanWord b!"infinity" (c :: t) = none := scanWord_none c1
      have w2 : scanWord b!"inf" (c :: t) = none := scanWord_none c1
      have w3 : scanWord b!"nan" (c :: t) = none := scanWord_none c2
      simp only [scanFloat, w1, w2, w3, hn, Option.map_some]
    have hnan : ∀ {s r : Str}, AnyCase s b!"nan" → scanNan r = [] → scanFloat (s ++ r) = some (.nan, []) := by
      intro s r h hr
      have w3 := (scanWord_iff nan_letters (s ++ r) r).mpr ⟨s, rfl, h⟩
      obtain ⟨c, t, rfl, hc⟩ := anyCase_head h (by decide)
      have hci : toLowerChar c ≠ c!"i" := by rw [hc]; decide
      have w1 : scanWord b!"infinity" (c :: t ++ r) = none := scanWord_none hci
      have w2 : scanWord b!"inf" (c :: t ++ r) = none := scanWord_none hci
      simp only [scanFloat, w1, w2, w3, hr]
    intro h
    cases h with
    | decimal hm he => exact hnum (Or.inl ⟨_, _, _, _, rfl, hm, he, rfl⟩)
    | hexadecimal hp hm he => exact hnum (Or.inr ⟨_, _, _, _, _, rfl, hp, hm, he, rfl⟩)
    | infinite h =>
      rcases h with h | h
      · have w2 := (scanWord_iff inf_letters s []).mpr ⟨s, by simp, h⟩
        have w1 : scanWord b!"infinity" s = none := by
          cases hw : scanWord b!"infinity" s with
          | none => rfl
          | some rest =>
            obtain ⟨t, rfl, ht⟩ := (scanWord_iff infinity_letters s rest).mp hw
            have h1 := anyCase_length h
            have h2 := anyCase_length ht
            simp at h1 h2
            omega
        simp only [scanFloat, w1, w2]
      · have w1 := (scanWord_iff infinity_letters s []).mpr ⟨s, by simp, h⟩
        simp only [scanFloat, w1]
    | nan h =>
      have := hnan (r := []) h rfl
      rwa [List.append_nil] at this
    | nanWith h hcs =>
      have := hnan h ((scanNan_iff _).mpr (Or.inr ⟨_, rfl, hcs⟩))
      simpa [List.append_assoc] using this

theorem magnitude_head {s : Str} {x : FloatMag} (h : Magnitude s x) : ∃ c t, s = c :: t ∧ isSpaceByte c = false ∧ c ≠ 45 ∧ c ≠ 43 := by
  have hnum : ∀ {s : Str} {y : Rat}, Number s y → ∃ c t, s = c :: t ∧ isSpaceByte c = false ∧ c ≠ 45 ∧ c ≠ 43 := by
    intro s y h
    obtain ⟨c, t, rfl, hc⟩ := number_head h
    exact ⟨c, t, rfl, (head_byte hc).2.2⟩
  cases h with
  | decimal hm he => exact hnum (Or.inl ⟨_, _, _, _, rfl, hm, he, rfl⟩)
  | hexadecimal hp hm he => exact hnum (Or.inr ⟨_, _, _, _, _, rfl, hp, hm, he, rfl⟩)
  | infinite h =>
    rcases h with h | h
    · obtain ⟨c, t, rfl, hc⟩ := anyCase_head h (by decide)
      exact ⟨c, t, rfl, word_byte (Or.inl hc)⟩
    · obtain ⟨c, t, rfl, hc⟩ := anyCase_head h (by decide)
      exact ⟨c, t, rfl, word_byte (Or.inl hc)⟩
  | nan h =>
    obtain ⟨c, t, rfl, hc⟩ := anyCase_head h (by decide)
    exact ⟨c, t, rfl, word_byte (Or.inr hc)⟩
  | nanWith h _ =>
    obtain ⟨c, t, rfl, hc⟩ := anyCase_head h (by decide)
    exact ⟨c, _, rfl, word_byte (Or.inr hc)⟩

theorem strtodRaw_iff (s : Str) (x : FloatNum) : strtodRaw s = some (x, []) ↔ FloatLiteral s x := by
  obtain ⟨neg, x⟩ := x
  constructor
  · intro h
    obtain ⟨ws, hs, hws⟩ := exists_space_prefix s
    unfold strtodRaw at h
    generalize ht : s.dropWhile isSpaceByte = t at *
    have pick : ∀ {b : Bool} {r : Str}, ((scanFloat r).map fun (m, r) => ((⟨b, m⟩ : FloatNum), r)) = some (⟨neg, x⟩, []) →
        b = neg ∧ Magnitude r x := by
      intro b r h
      cases hf : scanFloat r with
      | none => simp [hf] at h
      | some p =>
        obtain ⟨m, r'⟩ := p
        simp only [hf, Option.map_some, Option.some.injEq, Prod.mk.injEq, FloatNum.mk.injEq] at h
        obtain ⟨⟨rfl, rfl⟩, rfl⟩ := h
        exact ⟨rfl, (scanFloat_iff r m).mp hf⟩
    cases t with
    | nil => simp at h
    | cons c rest =>
      simp only at h
      split at h
      · rename_i hc
        subst hc
        obtain ⟨rfl, hm⟩ := pick h
        exact ⟨ws, b!"-", rest, by simpa using hs, hws, by simp, hm⟩
      · split at h
        · rename_i hc
          subst hc
          obtain ⟨rfl, hm⟩ := pick h
          exact ⟨ws, b!"+", rest, by simpa using hs, hws, by simp, hm⟩
        · obtain ⟨rfl, hm⟩ := pick h
          exact ⟨ws, [], c :: rest, by simpa using hs, hws, by simp, hm⟩
  · rintro ⟨ws, sign, body, rfl, hws, hsign, hm⟩
    have hf := (scanFloat_iff body x).mpr hm
    obtain ⟨c, rest, hc, c1, c2, c3⟩ := magnitude_head hm
    unfold strtodRaw
    rw [List.append_assoc, dropWhile_space _ _ hws]
    cases neg with
    | true =>
      simp only [if_true] at hsign
      subst hsign
      have : isSpaceByte 45 = false := by decide
      simp [this, hf]
    | false =>
      simp only [Bool.false_eq_true, if_false] at hsign
      rcases hsign with rfl | rfl
      · simp only [List.nil_append, hc, List.dropWhile_cons, c1]
        rw [hc] at hf
        simp [c2, c3, hf]
      · have : isSpaceByte 43 = false := by decide
        simp [this, hf]

theorem parseFloat_iff {α : Type} (convert : FloatNum → Option α) (s : Str) (v : α) :
    parseFloat convert s = some v ↔ ∃ x, FloatLiteral s x ∧ convert x = some v := by
  unfold parseFloat
  constructor
  · intro h
    split at h
    · simp at h
    · split at h
      · rename_i x hr
        exact ⟨x, (strtodRaw_iff s x).mp hr, h⟩
      · simp at h
  · rintro ⟨x, hl, hv⟩
    have hr := (strtodRaw_iff s x).mpr hl
    rw [if_neg]
    · simp only [hr, hv]
    · intro he
      have : s = [] := by simpa using he
      subst this
      simp [strtodRaw] at hr

end Argos
