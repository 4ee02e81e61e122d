import Verif.Proofs.Numbers

/-!
# Integer conversion: C39, C40
-/

namespace Argos

open Spec

/-- The error of a failed conversion. -/
private abbrev conversionError (st : ParserSettings) {α : Type} : Outcome α :=
  if st.autoExit then .exit st.errorExitCode else .throw b!"Error while parsing arguments."

theorem parseLong_raw (base : Nat) (s : Str) (v : Int) : parseLong s base = some v ↔
    ∃ neg n, strtoRaw base s = some (neg, n, []) ∧ v = (if neg then -(n : Int) else n) ∧ -(2 ^ 63) ≤ v ∧ v < 2 ^ 63 := by
  unfold parseLong strtol
  split
  · rename_i he
    have : s = [] := by simpa using he
    subst this
    simp [strtoRaw]
  · cases hr : strtoRaw base s with
    | none => simp
    | some r =>
      obtain ⟨neg, n, r⟩ := r
      simp only
      constructor
      · intro h
        split at h
        · rename_i v' hv
          simp only [Option.some.injEq] at h
          subst h
          generalize hw : (if neg = true then -(n : Int) else (n : Int)) = w at hv
          by_cases hr : w < -2 ^ 63 ∨ 2 ^ 63 - 1 < w
          · rw [if_pos hr] at hv; simp at hv
          · rw [if_neg hr] at hv
            simp only [Option.some.injEq, Prod.mk.injEq] at hv
            obtain ⟨rfl, rfl⟩ := hv
            refine ⟨neg, n, rfl, hw.symm, ?_, ?_⟩ <;> omega
        · simp at h
      · rintro ⟨neg', n', h1, h2, h3, h4⟩
        simp only [Option.some.injEq, Prod.mk.injEq] at h1
        obtain ⟨rfl, rfl, rfl⟩ := h1
        rw [← h2, if_neg (by omega)]

theorem parseLong_iff (base : Nat) (h2 : 2 ≤ base) (hb : base ≤ 36) (s : Str) (v : Int) :
    parseLong s base = some v ↔ Denotes base s v ∧ -(2 ^ 63) ≤ v ∧ v < 2 ^ 63 := by
  have h1 := parseLong_raw base s v
  rw [h1]
  constructor
  · rintro ⟨neg, n, hr, hv, h⟩
    refine ⟨?_, h⟩
    rw [strtoRaw_iff base h2 hb] at hr
    cases neg
    · exact Or.inl ⟨n, hr, by simpa using hv⟩
    · exact Or.inr ⟨n, hr, by simpa using hv⟩
  · rintro ⟨⟨n, hl, rfl⟩ | ⟨n, hl, rfl⟩, h⟩
    · exact ⟨false, n, (strtoRaw_iff base h2 hb s false n).mpr hl, rfl, h⟩
    · exact ⟨true, n, (strtoRaw_iff base h2 hb s true n).mpr hl, rfl, h⟩

theorem parseInt_iff (base : Nat) (h2 : 2 ≤ base) (hb : base ≤ 36) (s : Str) (v : Int) :
    parseInt s base = some v ↔ Denotes base s v ∧ -(2 ^ 31) ≤ v ∧ v < 2 ^ 31 := by
  have h := parseLong_iff base h2 hb s
  unfold parseInt
  cases hp : parseLong s base with
  | none =>
    simp only [reduceCtorEq, false_iff]
    rintro ⟨h1, h3, h4⟩
    have := (h v).mpr ⟨h1, by omega, by omega⟩
    simp [hp] at this
  | some n =>
    have hn := (h n).mp hp
    simp only
    constructor
    · intro h
      split at h
      · simp at h
      · simp at h; subst h
        exact ⟨hn.1, by omega, by omega⟩
    · rintro ⟨h1, h3, h4⟩
      have := (h v).mpr ⟨h1, by omega, by omega⟩
      rw [hp] at this
      simp at this
      subst this
      rw [if_neg (by omega)]

/-- C39. `as_long` and `as_llong` return a number exactly when the string denotes it (white space,
sign, digits of the base) and it is in the range of the type. -/
theorem C39_as_long (st : ParserSettings) (base : Nat) (h2 : 2 ≤ base) (hb : base ≤ 36) (s : Str)
    (default v : Int) :
    getInteger st (some s) default (parseLong · base) = .ok v ↔
      Denotes base s v ∧ -(2 ^ 63) ≤ v ∧ v < 2 ^ 63 := by
  rw [← parseLong_iff base h2 hb]
  unfold getInteger
  simp only
  cases parseLong s base with
  | none => simp only [valueError]; split <;> simp
  | some n => simp

/-- C39. `as_int` returns a number exactly when the string denotes it and it is in the range. -/
theorem C39_as_int (st : ParserSettings) (base : Nat) (h2 : 2 ≤ base) (hb : base ≤ 36) (s : Str)
    (default v : Int) :
    getInteger st (some s) default (parseInt · base) = .ok v ↔
      Denotes base s v ∧ -(2 ^ 31) ≤ v ∧ v < 2 ^ 31 := by
  rw [← parseInt_iff base h2 hb]
  unfold getInteger
  simp only
  cases parseInt s base with
  | none => simp only [valueError]; split <;> simp
  | some n => simp

/-- C39. Every other string is reported as an error: never a wrong number, never undefined
behaviour. Without a value the default is returned. -/
theorem C39_error (st : ParserSettings) (base : Nat) (h2 : 2 ≤ base) (hb : base ≤ 36) (s : Str)
    (default : Int) :
    ((¬ ∃ v, Denotes base s v ∧ -(2 ^ 63) ≤ v ∧ v < 2 ^ 63) →
      getInteger st (some s) default (parseLong · base) = conversionError st) ∧
    ((¬ ∃ v, Denotes base s v ∧ -(2 ^ 31) ≤ v ∧ v < 2 ^ 31) →
      getInteger st (some s) default (parseInt · base) = conversionError st) ∧
    getInteger st none default (parseLong · base) = .ok default ∧
    getInteger st none default (parseInt · base) = .ok default := by
  refine ⟨fun h => ?_, fun h => ?_, rfl, rfl⟩
  · cases hp : parseLong s base with
    | none => simp [getInteger, hp, valueError]
    | some n => exact absurd ⟨n, (parseLong_iff base h2 hb s n).mp hp⟩ h
  · cases hp : parseInt s base with
    | none => simp [getInteger, hp, valueError]
    | some n => exact absurd ⟨n, (parseInt_iff base h2 hb s n).mp hp⟩ h

/-- C39. For a base that doesn't exist every string is reported as an error. -/
theorem C39_no_base (st : ParserSettings) (base : Nat) (hb : base = 1 ∨ 36 < base) (s : Str) :
    (∀ default, getInteger st (some s) default (parseLong · base) = conversionError st) ∧
    (∀ default, getInteger st (some s) default (parseInt · base) = conversionError st) ∧
    (∀ default, getInteger st (some s) default (parseULong · base) = conversionError st) ∧
    (∀ default, getInteger st (some s) default (parseUInt · base) = conversionError st) := by
  have hr : strtoRaw base s = none := by unfold strtoRaw; exact if_pos hb
  have h1 : parseLong s base = none := by
    unfold parseLong strtol
    rw [hr]
    simp
  have h2 : parseULong s base = none := by
    unfold parseULong strtoul
    rw [hr]
    simp
  exact ⟨fun _ => by simp [getInteger, h1, valueError], fun _ => by simp [getInteger, parseInt, h1, valueError],
    fun _ => by simp [getInteger, h2, valueError], fun _ => by simp [getInteger, parseUInt, h2, valueError]⟩

/-- An example for `C39_no_base`: the digits would be valid. -/
example : getInteger { autoExit := false } (some b!"0") 7 (parseLong · 1) = .throw b!"Error while parsing arguments." ∧
    getInteger { autoExit := false } (some b!"z") 7 (parseULong · 37) = .throw b!"Error while parsing arguments." ∧
    getInteger { autoExit := false } (some b!"z") 7 (parseULong · 36) = .ok 35 := by decide +kernel

/-- C39. A string denotes at most one number. -/
theorem C39_unique (base : Nat) (h2 : 2 ≤ base) (hb : base ≤ 36) (s : Str) (v w : Int)
    (hv : Denotes base s v) (hw : Denotes base s w) : v = w := by
  have key : ∀ v, Denotes base s v → ∃ neg n, strtoRaw base s = some (neg, n, []) ∧
      v = (if neg then -(n : Int) else n) := by
    rintro v (⟨n, hl, rfl⟩ | ⟨n, hl, rfl⟩)
    · exact ⟨false, n, (strtoRaw_iff base h2 hb s false n).mpr hl, rfl⟩
    · exact ⟨true, n, (strtoRaw_iff base h2 hb s true n).mpr hl, rfl⟩
  obtain ⟨a, m, h1, rfl⟩ := key v hv
  obtain ⟨b, n, h3, rfl⟩ := key w hw
  rw [h1] at h3
  simp at h3
  obtain ⟨rfl, rfl⟩ := h3
  rfl

/-- C39. The decimal rendering of every value of the type is converted back to the value. -/
theorem C39_round_trip (st : ParserSettings) (default v : Int) :
    ((-(2 ^ 63) ≤ v ∧ v < 2 ^ 63) →
      getInteger st (some (decimal v)) default (parseLong · 10) = .ok v) ∧
    ((-(2 ^ 31) ≤ v ∧ v < 2 ^ 31) →
      getInteger st (some (decimal v)) default (parseInt · 10) = .ok v) :=
  ⟨fun h => (C39_as_long st 10 (by omega) (by omega) _ _ _).mpr ⟨decimal_denotes v, h⟩,
   fun h => (C39_as_int st 10 (by omega) (by omega) _ _ _).mpr ⟨decimal_denotes v, h⟩⟩

/-- C39, base 0: the base is taken from the number itself, as for literals in C: 16 after `0x`, 8 after a leading `0`,
otherwise 10. -/
theorem C39_base_zero (st : ParserSettings) (s : Str) (default v : Int) :
    (getInteger st (some s) default (parseLong · 0) = .ok v ↔
      (∃ b, AutoBase s b ∧ Denotes b s v) ∧ -(2 ^ 63) ≤ v ∧ v < 2 ^ 63) ∧
    (getInteger st (some s) default (parseInt · 0) = .ok v ↔
      (∃ b, AutoBase s b ∧ Denotes b s v) ∧ -(2 ^ 31) ≤ v ∧ v < 2 ^ 31) := by
  have hget : ∀ parse : Str → Option Int, getInteger st (some s) default parse = .ok v ↔ parse s = some v := by
    intro parse
    unfold getInteger
    simp only
    cases parse s with
    | none => simp only [valueError]; split <;> simp
    | some n => simp
  have hl : ∀ w, parseLong s 0 = some w ↔ (∃ b, AutoBase s b ∧ Denotes b s w) ∧ -(2 ^ 63) ≤ w ∧ w < 2 ^ 63 := by
    intro w
    rw [parseLong_raw]
    constructor
    · rintro ⟨neg, n, h1, h2, h3⟩
      obtain ⟨b, hb, hlit⟩ := (strtoRaw_auto s neg n).mp h1
      refine ⟨⟨b, hb, ?_⟩, h3⟩
      cases neg
      · exact Or.inl ⟨n, hlit, by simpa using h2⟩
      · exact Or.inr ⟨n, hlit, by simpa using h2⟩
    · rintro ⟨⟨b, hb, ⟨n, hlit, rfl⟩ | ⟨n, hlit, rfl⟩⟩, h3⟩
      · exact ⟨false, n, (strtoRaw_auto s false n).mpr ⟨b, hb, hlit⟩, rfl, h3⟩
      · exact ⟨true, n, (strtoRaw_auto s true n).mpr ⟨b, hb, hlit⟩, rfl, h3⟩
  refine ⟨by rw [hget, hl], ?_⟩
  rw [hget]
  unfold parseInt
  cases hp : parseLong s 0 with
  | none =>
    simp only [reduceCtorEq, false_iff]
    rintro ⟨h1, h3, h4⟩
    have := (hl v).mpr ⟨h1, by omega, by omega⟩
    simp [hp] at this
  | some n =>
    have hn := (hl n).mp hp
    simp only
    constructor
    · intro h
      split at h
      · simp at h
      · simp at h; subst h
        exact ⟨hn.1, by omega, by omega⟩
    · rintro ⟨h1, h3, h4⟩
      have := (hl v).mpr ⟨h1, by omega, by omega⟩
      rw [hp] at this
      simp at this
      subst this
      rw [if_neg (by omega)]

/-- In base 0 the base of a number is determined. -/
theorem C39_base_unique {s : Str} {b b' : Nat} (h : AutoBase s b) (h' : AutoBase s b') : b = b' := by
  obtain ⟨ws, sign, body, rfl, hws, hs, hp⟩ := h
  obtain ⟨ws', sign', body', e, hws', hs', hp'⟩ := h'
  have strip : ∀ {ws sign body : Str}, (∀ c ∈ ws, c ∈ whiteSpace) → (sign = [] ∨ sign = b!"+" ∨ sign = b!"-") →
      (∃ c rest, body = c :: rest ∧ isSpaceByte c = false ∧ c ≠ 45 ∧ c ≠ 43) →
      (match (ws ++ sign ++ body).dropWhile isSpaceByte with
        | [] => []
        | c :: rest => if c = 45 ∨ c = 43 then rest else c :: rest) = body := by
    rintro ws sign body h1 h2 ⟨c, rest, rfl, c1, c2, c3⟩
    rw [List.append_assoc, dropWhile_space _ _ h1]
    have e1 : isSpaceByte 43 = false := by decide
    have e2 : isSpaceByte 45 = false := by decide
    rcases h2 with rfl | rfl | rfl
    · simp [List.dropWhile_cons, c1, c2, c3]
    · simp [List.dropWhile_cons, e1]
    · simp [List.dropWhile_cons, e2]
  have hb := strip hws hs (prefixBase_head hp)
  rw [e, strip hws' hs' (prefixBase_head hp')] at hb
  subst hb
  have zero : ∀ {body : Str} {d : Nat} {c : UInt8}, body.head? = some c → IsDigit c d → 1 ≤ d → d < 10 → body.head? ≠ some 48 := by
    intro body d c h1 h2 h3 h4 h5
    rw [h1, Option.some.injEq] at h5
    subst h5
    have := (isDigit_iff 48 d (by omega)).mp h2
    have : digitVal 48 = 0 := by decide
    omega
  have hex0 : ∀ {body : Str}, b!"0x" <+: body ∨ b!"0X" <+: body → body.head? = some 48 := by
    rintro body (⟨t, rfl⟩ | ⟨t, rfl⟩) <;> rfl
  cases hp with
  | hex h =>
    cases hp' with
    | hex _ => rfl
    | octal _ h1 h2 => exact (h.elim h1 h2).elim
    | decimal h1 h2 h3 h4 => exact absurd (hex0 h) (zero h1 h2 h3 h4)
  | octal h0 h1 h2 =>
    cases hp' with
    | hex h => exact (h.elim h1 h2).elim
    | octal _ _ _ => rfl
    | decimal h1 h2 h3 h4 => exact absurd h0 (zero h1 h2 h3 h4)
  | decimal h1 h2 h3 h4 =>
    cases hp' with
    | hex h => exact absurd (hex0 h) (zero h1 h2 h3 h4)
    | octal h0 _ _ => exact absurd h0 (zero h1 h2 h3 h4)
    | decimal _ _ _ _ => rfl

example : getInteger { autoExit := false } (some b!" -0x1F") 0 (parseLong · 0) = .ok (-31) ∧
    getInteger { autoExit := false } (some b!"017") 0 (parseInt · 0) = .ok 15 ∧
    getInteger { autoExit := false } (some b!"08") 0 (parseInt · 0) = .throw b!"Error while parsing arguments." := by
  decide

/-- C39, several values: `as_ints`/`as_longs`/... succeed exactly when every value can be converted,
and return the numbers in order; without values the default is returned. -/
theorem C39_as_integers {α : Type} (st : ParserSettings) (parse : Str → Option α) (default : List α)
    (values : List Str) :
    (values = [] → asIntegers st parse default values = .ok default) ∧
    (values ≠ [] → ∀ ns, asIntegers st parse default values = .ok ns ↔
      values.map parse = ns.map some) := by
  constructor
  · rintro rfl; rfl
  · intro hne ns
    simp only [asIntegers, List.isEmpty_iff, hne, if_false]
    clear hne
    induction values generalizing ns with
    | nil =>
      simp only [parseIntegers, List.map_nil]
      constructor
      · intro h; simp at h; subst h; rfl
      · intro h; cases ns <;> simp_all
    | cons v vs ih =>
      simp only [parseIntegers, List.map_cons]
      cases hp : parse v with
      | none =>
        simp only [valueError]
        constructor
        · intro h; split at h <;> simp at h
        · intro h; cases ns <;> simp at h
      | some n =>
        simp only [Outcome.bind_eq_ok, Outcome.pure_eq]
        constructor
        · rintro ⟨more, h1, h2⟩
          simp at h2; subst h2
          simp [(ih more).mp h1]
        · intro h
          cases ns with
          | nil => simp at h
          | cons m ms =>
            simp at h
            exact ⟨ms, (ih ms).mpr h.2, by simp [h.1]⟩

example : parseLong b!" -9223372036854775808" 10 = some (-9223372036854775808) ∧
    parseLong b!"9223372036854775808" 10 = none ∧ parseInt b!"2147483648" 10 = none ∧
    parseInt b!"+12x" 10 = none ∧ parseInt b!"0xfF" 16 = some 255 := by decide

/-! ## C40: unsigned conversion -/

theorem parseULong_raw (base : Nat) (s : Str) (v : Nat) :
    parseULong s base = some v ↔ ∃ neg n, strtoRaw base s = some (neg, n, []) ∧ n < 2 ^ 64 ∧
      v = (if neg then (2 ^ 64 - n) % 2 ^ 64 else n) := by
  unfold parseULong strtoul
  split
  · rename_i he
    have : s = [] := by simpa using he
    subst this
    simp [strtoRaw]
  · cases hr : strtoRaw base s with
    | none => simp
    | some r =>
      obtain ⟨neg, n, r⟩ := r
      simp only
      constructor
      · intro h
        split at h
        · rename_i v' hv
          split at hv
          · simp at hv
          · simp only [Option.some.injEq, Prod.mk.injEq] at hv h
            obtain ⟨hv1, hv2⟩ := hv
            refine ⟨neg, n, by rw [hv2], by omega, ?_⟩
            rw [← h, ← hv1]
        · simp at h
      · rintro ⟨neg', n', hl, hn, rfl⟩
        simp only [Option.some.injEq, Prod.mk.injEq] at hl
        obtain ⟨rfl, rfl, rfl⟩ := hl
        rw [if_neg (by omega)]

theorem parseULong_iff (base : Nat) (h2 : 2 ≤ base) (hb : base ≤ 36) (s : Str) (v : Nat) :
    parseULong s base = some v ↔ ∃ neg n, Literal base s neg n ∧ n < 2 ^ 64 ∧
      v = (if neg then (2 ^ 64 - n) % 2 ^ 64 else n) := by
  rw [parseULong_raw]
  simp only [strtoRaw_iff base h2 hb]

/-- C40 (what holds). For strings without a minus sign `as_ulong`, `as_ullong` (and `as_uint`, with
its smaller range) return n exactly when the string denotes n and n is in range. Missing: strings
with a minus sign are not rejected. -/
theorem C40_unsigned_partial (st : ParserSettings) (base : Nat) (h2 : 2 ≤ base) (hb : base ≤ 36)
    (s : Str) (default v : Nat) (hs : c!"-" ∉ s) :
    (getInteger st (some s) default (parseULong · base) = .ok v ↔ Denotes base s v ∧ v < 2 ^ 64) ∧
    (getInteger st (some s) default (parseUInt · base) = .ok v ↔ Denotes base s v ∧ v < 2 ^ 32) := by
  have hneg : ∀ n, ¬ Literal base s true n := by
    rintro n ⟨ws, sign, pfx, ds, rfl, _, hsign, _⟩
    simp at hsign
    subst hsign
    simp at hs
  have hd : Denotes base s v ↔ Literal base s false v := by
    constructor
    · rintro (⟨n, hl, h⟩ | ⟨n, hl, h⟩)
      · have : v = n := by omega
        rwa [this]
      · exact absurd hl (hneg n)
    · intro h; exact Or.inl ⟨v, h, rfl⟩
  have hu : ∀ v : Nat, parseULong s base = some v ↔ Literal base s false v ∧ v < 2 ^ 64 := by
    intro v
    rw [parseULong_iff base h2 hb]
    constructor
    · rintro ⟨neg, n, hl, hn, rfl⟩
      cases neg with
      | true => exact absurd hl (hneg n)
      | false => exact ⟨hl, hn⟩
    · rintro ⟨hl, hv⟩
      exact ⟨false, v, hl, hv, rfl⟩
  rw [hd]
  constructor
  · rw [← hu]
    unfold getInteger
    simp only
    cases parseULong s base with
    | none => simp only [valueError]; split <;> simp
    | some n => simp
  · have : parseUInt s base = some v ↔ Literal base s false v ∧ v < 2 ^ 32 := by
      unfold parseUInt
      cases hp : parseULong s base with
      | none =>
        simp only [reduceCtorEq, false_iff]
        rintro ⟨hl, hv⟩
        have := (hu v).mpr ⟨hl, by omega⟩
        simp [hp] at this
      | some n =>
        have hn := (hu n).mp hp
        simp only
        constructor
        · intro h
          split at h
          · simp at h
          · simp at h; subst h; exact ⟨hn.1, by omega⟩
        · rintro ⟨hl, hv⟩
          have := (hu v).mpr ⟨hl, by omega⟩
          rw [hp] at this; simp at this; subst this
          rw [if_neg (by omega)]
    rw [← this]
    unfold getInteger
    simp only
    cases parseUInt s base with
    | none => simp only [valueError]; split <;> simp
    | some n => simp

/-- C40. In every case a returned number differs from the denoted one by a multiple of 2^64, and a
number of 2^64 or more after the sign is an error. -/
theorem C40_unsigned_congruent (base : Nat) (h2 : 2 ≤ base) (hb : base ≤ 36) (s : Str) (v : Nat)
    (h : parseULong s base = some v) :
    v < 2 ^ 64 ∧ ∃ w : Int, Denotes base s w ∧ (2 ^ 64 : Int) ∣ (v - w) ∧ w.natAbs < 2 ^ 64 := by
  obtain ⟨neg, n, hl, hn, rfl⟩ := (parseULong_iff base h2 hb s v).mp h
  cases neg with
  | false =>
    exact ⟨by simpa using hn, n, Or.inl ⟨n, hl, rfl⟩, by simp, by simpa using hn⟩
  | true =>
    refine ⟨by simp only [if_true]; omega, -(n : Int), Or.inr ⟨n, hl, rfl⟩, ?_, by omega⟩
    simp only [if_true]
    by_cases h0 : n = 0
    · subst h0; simp
    · exact ⟨1, by omega⟩

/-- C40, base 0: the conversion is the one in the base that the number's prefix selects, and a string without such a
prefix is an error. -/
theorem C40_base_zero (st : ParserSettings) (s : Str) (default : Nat) :
    (∀ b, AutoBase s b →
      getInteger st (some s) default (parseULong · 0) = getInteger st (some s) default (parseULong · b) ∧
      getInteger st (some s) default (parseUInt · 0) = getInteger st (some s) default (parseUInt · b)) ∧
    ((∀ b, ¬ AutoBase s b) →
      getInteger st (some s) default (parseULong · 0) = valueError st ∧
      getInteger st (some s) default (parseUInt · 0) = valueError st) := by
  refine ⟨fun b hb => ?_, fun hb => ?_⟩
  · have h : parseULong s 0 = parseULong s b := by
      have hr : 2 ≤ b ∧ b ≤ 36 := by
        obtain ⟨_, _, _, _, _, _, hp⟩ := hb
        cases hp <;> omega
      apply Option.ext
      intro v
      rw [parseULong_raw, parseULong_iff b hr.1 hr.2]
      constructor
      · rintro ⟨neg, n, h1, h2⟩
        obtain ⟨b', hb', hl⟩ := (strtoRaw_auto s neg n).mp h1
        rw [C39_base_unique hb' hb] at hl
        exact ⟨neg, n, hl, h2⟩
      · rintro ⟨neg, n, h1, h2⟩
        exact ⟨neg, n, (strtoRaw_auto s neg n).mpr ⟨b, hb, h1⟩, h2⟩
    simp [getInteger, parseUInt, h]
  · have h : parseULong s 0 = none := by
      cases hp : parseULong s 0 with
      | none => rfl
      | some v =>
        obtain ⟨neg, n, h1, _⟩ := (parseULong_raw 0 s v).mp hp
        obtain ⟨b, hb', _⟩ := (strtoRaw_auto s neg n).mp h1
        exact absurd hb' (hb b)
    simp [getInteger, parseUInt, h]

example : AutoBase b!"0x1F" 16 ∧ getInteger { autoExit := false } (some b!"0x1F") 0 (parseULong · 0) = .ok 31 :=
  ⟨⟨[], [], b!"0x1F", rfl, by simp, Or.inl rfl, .hex (Or.inl (by decide))⟩, by decide⟩

/-- C40 is violated: strings that denote negative numbers are accepted, and the number returned is
another one (here -1 becomes 2^64-1, and as_uint turns -(2^64-1) into 1). -/
theorem C40_violated (st : ParserSettings) :
    getInteger st (some b!"-1") 0 (parseULong · 10) = .ok (2 ^ 64 - 1) ∧ Denotes 10 b!"-1" (-1) ∧
    getInteger st (some b!"-18446744073709551615") 0 (parseUInt · 10) = .ok 1 := by
  refine ⟨?_, ?_, ?_⟩
  · have : parseULong b!"-1" 10 = some (2 ^ 64 - 1) := by decide
    simp [getInteger, this]
  · exact ((parseLong_iff 10 (by omega) (by omega) b!"-1" (-1)).mp (by decide)).1
  · have : parseUInt b!"-18446744073709551615" 10 = some 1 := by decide
    simp [getInteger, this]

example : parseULong b!"18446744073709551615" 10 = some 18446744073709551615 ∧
    parseULong b!"18446744073709551616" 10 = none ∧ parseUInt b!"4294967296" 10 = none ∧
    parseUInt b!"z" 36 = some 35 := by decide

end Argos
