import Verif.Model.Values
import Verif.Spec.Numbers
import Verif.Proofs.Strings

/-! # Lemmas about integer conversion -/

namespace Argos

open Spec

theorem isSpace_table : ∀ n : Fin 256, (isSpaceByte (UInt8.ofNat n) = true ↔ UInt8.ofNat n ∈ whiteSpace) := by
  decide +kernel

theorem isSpace_iff (c : UInt8) : isSpaceByte c = true ↔ c ∈ whiteSpace := by
  have := isSpace_table ⟨c.toNat, c.toNat_lt⟩
  simpa using this

theorem digit_table : ∀ n : Fin 256, ∀ d : Fin 36,
    ((lowerDigits[d.val]? = some (UInt8.ofNat n) ∨ upperDigits[d.val]? = some (UInt8.ofNat n)) ↔
      digitVal (UInt8.ofNat n) = d.val) := by
  decide +kernel

theorem isDigit_iff (c : UInt8) (d : Nat) (hd : d < 36) : IsDigit c d ↔ digitVal c = d := by
  have := digit_table ⟨c.toNat, c.toNat_lt⟩ ⟨d, hd⟩
  simpa [IsDigit] using this

theorem digit_not_space (c : UInt8) (h : digitVal c < 36) :
    isSpaceByte c = false ∧ c ≠ 45 ∧ c ≠ 43 := by
  have key : ∀ n : Fin 256, digitVal (UInt8.ofNat n) < 36 →
      isSpaceByte (UInt8.ofNat n) = false ∧ UInt8.ofNat n ≠ 45 ∧ UInt8.ofNat n ≠ 43 := by
    decide +kernel
  have := key ⟨c.toNat, c.toNat_lt⟩
  simp only [UInt8.ofNat_toNat] at this
  exact this h

/-- The value accumulated from digits. -/
theorem accDigits_append (base : Nat) (ds t : Str) (acc : Nat) (h : ∀ c ∈ ds, digitVal c < base) :
    accDigits base (ds ++ t) acc = accDigits base t (ds.foldl (fun a c => a * base + digitVal c) acc) := by
  induction ds generalizing acc with
  | nil => rfl
  | cons c ds ih =>
    simp only [List.cons_append, accDigits, if_pos (h c (by simp)), List.foldl_cons]
    exact ih _ (fun c hc => h c (by simp [hc]))

theorem accDigits_nil (base : Nat) (s : Str) (acc n : Nat) (h : accDigits base s acc = (n, [])) :
    (∀ c ∈ s, digitVal c < base) ∧ n = s.foldl (fun a c => a * base + digitVal c) acc := by
  induction s generalizing acc with
  | nil => simp [accDigits] at h; simp [h]
  | cons c s ih =>
    simp only [accDigits] at h
    split at h
    · rename_i hc
      obtain ⟨h1, h2⟩ := ih _ h
      exact ⟨by simpa [hc] using h1, by simpa using h2⟩
    · simp at h

theorem numeral_iff (base : Nat) (hb : base ≤ 36) (s : Str) (n : Nat) :
    Numeral base s n ↔
      s ≠ [] ∧ (∀ c ∈ s, digitVal c < base) ∧ n = s.foldl (fun a c => a * base + digitVal c) 0 := by
  constructor
  · intro h
    induction h with
    | single h1 h2 =>
      rw [isDigit_iff _ _ (by omega)] at h1
      simp [h1, h2]
    | snoc h0 h1 h2 ih =>
      rw [isDigit_iff _ _ (by omega)] at h1
      obtain ⟨i1, i2, i3⟩ := ih
      refine ⟨by simp, ?_, ?_⟩
      · intro c hc
        rcases List.mem_append.mp hc with hc | hc
        · exact i2 c hc
        · simp at hc; subst hc; omega
      · simp [List.foldl_append, ← i3, h1]
  · rintro ⟨h1, h2, rfl⟩
    obtain ⟨ds, c, rfl⟩ : ∃ ds c, s = ds ++ [c] := ⟨s.dropLast, s.getLast h1, (List.dropLast_concat_getLast h1).symm⟩
    clear h1
    suffices ∀ ds : Str, ∀ k, ds.length = k → ∀ c, (∀ x ∈ ds ++ [c], digitVal x < base) →
        Numeral base (ds ++ [c]) ((ds ++ [c]).foldl (fun a c => a * base + digitVal c) 0) from
      this ds _ rfl c h2
    intro ds k
    induction k generalizing ds with
    | zero =>
      intro hk c hc
      have : ds = [] := by simpa using hk
      subst this
      have hc' : digitVal c < base := hc c (by simp)
      simpa using Numeral.single ((isDigit_iff c _ (by omega)).mpr rfl) hc'
    | succ k ih =>
      intro hk c hc
      have hne : ds ≠ [] := by intro h; simp [h] at hk
      obtain ⟨es, e, rfl⟩ : ∃ es e, ds = es ++ [e] := ⟨ds.dropLast, ds.getLast hne, (List.dropLast_concat_getLast hne).symm⟩
      have hc' : digitVal c < base := hc c (by simp)
      have := ih es (by simpa using hk) e (fun x hx => hc x (List.mem_append_left _ hx))
      have h3 := Numeral.snoc this ((isDigit_iff c _ (by omega)).mpr rfl) hc'
      simpa [List.foldl_append] using h3

theorem startsWithDigit_of (base : Nat) (s : Str) (h1 : s ≠ []) (h2 : ∀ c ∈ s, digitVal c < base) :
    startsWithDigit base s = true := by
  cases s with
  | nil => exact absurd rfl h1
  | cons c s => simp [startsWithDigit, h2 c (by simp)]

theorem ne_nil_of_startsWithDigit (base : Nat) (s : Str) (h : startsWithDigit base s = true) : s ≠ [] := by
  rintro rfl; simp [startsWithDigit] at h

theorem magnitude_iff (base : Nat) (h2 : 2 ≤ base) (hb : base ≤ 36) (s : Str) (n : Nat) :
    strtoMagnitude base s = some (n, []) ↔
      ∃ pfx ds, s = pfx ++ ds ∧ (pfx = [] ∨ base = 16 ∧ (pfx = b!"0x" ∨ pfx = b!"0X")) ∧ Numeral base ds n := by
  have hplain : ∀ s : Str, (if startsWithDigit base s then some (accDigits base s 0) else none) = some (n, []) ↔
      Numeral base s n := by
    intro s
    rw [numeral_iff base hb]
    constructor
    · intro h
      split at h
      · rename_i hs
        obtain ⟨i1, i2⟩ := accDigits_nil base s 0 n (by simpa using h)
        exact ⟨ne_nil_of_startsWithDigit _ _ hs, i1, i2⟩
      · simp at h
    · rintro ⟨i1, i2, rfl⟩
      rw [if_pos (startsWithDigit_of base s i1 i2)]
      have := accDigits_append base s [] 0 i2
      simp only [List.append_nil] at this
      rw [this]; rfl
  have hb0 : base ≠ 0 := by omega
  by_cases h16 : base = 16
  · -- a prefix is possible
    by_cases hx : ∃ x rest, s = 48 :: x :: rest ∧ (x = 120 ∨ x = 88) ∧ startsWithDigit 16 rest = true
    · obtain ⟨x, rest, rfl, hx, hr⟩ := hx
      have e : strtoMagnitude base (48 :: x :: rest) = some (accDigits base rest 0) := by
        simp [strtoMagnitude, h16, hx, hr]
      rw [e]
      have hp := hplain rest
      rw [if_pos (by rw [h16]; exact hr)] at hp
      rw [hp]
      constructor
      · intro h
        refine ⟨[48, x], rest, rfl, Or.inr ⟨h16, ?_⟩, h⟩
        rcases hx with rfl | rfl <;> simp
      · rintro ⟨pfx, ds, he, hpfx, hn⟩
        rcases hpfx with rfl | ⟨_, hpfx⟩
        · exfalso
          have := (numeral_iff base hb ds n).mp hn
          have hx2 := this.2.1 x (by simp at he; simp [← he])
          rw [h16] at hx2
          rcases hx with rfl | rfl <;> exact absurd hx2 (by decide)
        · have : ds = rest := by rcases hpfx with rfl | rfl <;> simp_all
          rwa [← this]
    · have e : strtoMagnitude base s =
          if startsWithDigit base s then some (accDigits base s 0) else none := by
        unfold strtoMagnitude
        simp only [hb0, h16, false_or, if_true]
        match s, hx with
        | [], _ => simp
        | [a], _ => simp
        | z :: x :: rest, hx =>
          have : ¬ (z = 48 ∧ (x = 120 ∨ x = 88) ∧ startsWithDigit 16 rest = true) := by
            rintro ⟨rfl, h⟩
            exact hx ⟨x, rest, rfl, h⟩
          simp only [this, if_false]
          rfl
      rw [e, hplain]
      constructor
      · intro h; exact ⟨[], s, rfl, Or.inl rfl, h⟩
      · rintro ⟨pfx, ds, rfl, hpfx, hn⟩
        rcases hpfx with rfl | ⟨_, hpfx⟩
        · exact hn
        · exfalso
          have := (numeral_iff base hb ds n).mp hn
          have hd := startsWithDigit_of base ds this.1 this.2.1
          rw [h16] at hd
          rcases hpfx with rfl | rfl
          · exact hx ⟨120, ds, rfl, Or.inl rfl, hd⟩
          · exact hx ⟨88, ds, rfl, Or.inr rfl, hd⟩
  · have e : strtoMagnitude base s =
        if startsWithDigit base s then some (accDigits base s 0) else none := by
      simp [strtoMagnitude, hb0, h16]
    rw [e, hplain]
    constructor
    · intro h; exact ⟨[], s, rfl, Or.inl rfl, h⟩
    · rintro ⟨pfx, ds, rfl, hpfx, hn⟩
      rcases hpfx with rfl | ⟨h, _⟩
      · exact hn
      · exact absurd h h16

/-- The first byte of prefix and digits is a digit. -/
theorem head_digit (base : Nat) (hb : base ≤ 36) (pfx ds : Str) (n : Nat)
    (hpfx : pfx = [] ∨ base = 16 ∧ (pfx = b!"0x" ∨ pfx = b!"0X")) (hn : Numeral base ds n) :
    ∃ c rest, pfx ++ ds = c :: rest ∧ isSpaceByte c = false ∧ c ≠ 45 ∧ c ≠ 43 := by
  obtain ⟨h1, h2, _⟩ := (numeral_iff base hb ds n).mp hn
  rcases hpfx with rfl | ⟨_, rfl | rfl⟩
  · cases ds with
    | nil => exact absurd rfl h1
    | cons c ds => exact ⟨c, ds, rfl, digit_not_space c (by have := h2 c (by simp); omega)⟩
  · exact ⟨48, 120 :: ds, rfl, by decide⟩
  · exact ⟨48, 88 :: ds, rfl, by decide⟩

theorem dropWhile_space (ws t : Str) (hws : ∀ c ∈ ws, c ∈ whiteSpace) :
    (ws ++ t).dropWhile isSpaceByte = t.dropWhile isSpaceByte := by
  induction ws with
  | nil => rfl
  | cons c ws ih =>
    have : isSpaceByte c = true := (isSpace_iff c).mpr (hws c (by simp))
    simp only [List.cons_append, List.dropWhile_cons, this, if_true]
    exact ih (fun c hc => hws c (by simp [hc]))

theorem exists_space_prefix (s : Str) :
    ∃ ws, s = ws ++ s.dropWhile isSpaceByte ∧ ∀ c ∈ ws, c ∈ whiteSpace :=
  ⟨s.takeWhile isSpaceByte, by simp, fun c hc => (isSpace_iff c).mp (List.all_eq_true.mp
    (List.all_takeWhile (p := isSpaceByte) (l := s)) c hc)⟩

theorem strtoRaw_iff (base : Nat) (h2 : 2 ≤ base) (hb : base ≤ 36) (s : Str) (neg : Bool) (n : Nat) :
    strtoRaw base s = some (neg, n, []) ↔ Literal base s neg n := by
  constructor
  · intro h
    obtain ⟨ws, hs, hws⟩ := exists_space_prefix s
    unfold strtoRaw at h
    rw [if_neg (by omega)] at h
    generalize ht : s.dropWhile isSpaceByte = t at *
    cases t with
    | nil => simp at h
    | cons c rest =>
      simp only at h
      split at h
      · rename_i hc
        subst hc
        cases hm : strtoMagnitude base rest with
        | none => simp [hm] at h
        | some p =>
          simp [hm] at h
          obtain ⟨h1, h3, h4⟩ := h
          obtain ⟨m, r⟩ := p
          simp at h3 h4
          subst h3 h4 h1
          obtain ⟨pfx, ds, rfl, hp, hn⟩ := (magnitude_iff base h2 hb rest m).mp hm
          exact ⟨ws, b!"-", pfx, ds, by simp [hs], hws, by simp, hp, hn⟩
      · split at h
        · rename_i _ hc
          subst hc
          cases hm : strtoMagnitude base rest with
          | none => simp [hm] at h
          | some p =>
            simp [hm] at h
            obtain ⟨h1, h3, h4⟩ := h
            obtain ⟨m, r⟩ := p
            simp at h3 h4
            subst h3 h4 h1
            obtain ⟨pfx, ds, rfl, hp, hn⟩ := (magnitude_iff base h2 hb rest m).mp hm
            exact ⟨ws, b!"+", pfx, ds, by simp [hs], hws, by simp, hp, hn⟩
        · cases hm : strtoMagnitude base (c :: rest) with
          | none => simp [hm] at h
          | some p =>
            simp [hm] at h
            obtain ⟨h1, h3, h4⟩ := h
            obtain ⟨m, r⟩ := p
            simp at h3 h4
            subst h3 h4 h1
            obtain ⟨pfx, ds, he, hp, hn⟩ := (magnitude_iff base h2 hb _ m).mp hm
            exact ⟨ws, [], pfx, ds, by simp [hs, he], hws, by simp, hp, hn⟩
  · rintro ⟨ws, sign, pfx, ds, rfl, hws, hsign, hp, hn⟩
    have hm := (magnitude_iff base h2 hb (pfx ++ ds) n).mpr ⟨pfx, ds, rfl, hp, hn⟩
    obtain ⟨c, rest, hc, c1, c2, c3⟩ := head_digit base hb pfx ds n hp hn
    unfold strtoRaw
    rw [if_neg (by omega)]
    rw [List.append_assoc, List.append_assoc, dropWhile_space _ _ hws]
    cases neg with
    | true =>
      simp at hsign
      subst hsign
      have : isSpaceByte 45 = false := by decide
      simp [List.dropWhile_cons, this, hm]
    | false =>
      simp at hsign
      rcases hsign with rfl | rfl
      · simp only [List.nil_append, hc, List.dropWhile_cons, c1]
        rw [hc] at hm
        simp [c2, c3, hm]
      · have : isSpaceByte 43 = false := by decide
        simp [List.dropWhile_cons, this, hm]

theorem Spec.Literal.ne_nil {base : Nat} (hb : base ≤ 36) {s : Str} {neg : Bool} {n : Nat}
    (h : Literal base s neg n) : s ≠ [] := by
  obtain ⟨ws, sign, pfx, ds, rfl, _, _, _, hn⟩ := h
  have := ((numeral_iff base hb ds n).mp hn).1
  simp [this]

/-! ### Base 0 -/

theorem prefixBase_head {body : Str} {b : Nat} (h : PrefixBase body b) :
    ∃ c rest, body = c :: rest ∧ isSpaceByte c = false ∧ c ≠ 45 ∧ c ≠ 43 := by
  cases h with
  | hex h =>
    rcases h with ⟨t, rfl⟩ | ⟨t, rfl⟩
    · exact ⟨48, 120 :: t, rfl, by decide⟩
    · exact ⟨48, 88 :: t, rfl, by decide⟩
  | octal h _ _ =>
    cases body with
    | nil => simp at h
    | cons c rest =>
      simp only [List.head?_cons, Option.some.injEq] at h
      subst h
      exact ⟨_, rest, rfl, by decide⟩
  | @decimal c d h hd _ h10 =>
    cases body with
    | nil => simp at h
    | cons c' rest =>
      simp only [List.head?_cons, Option.some.injEq] at h
      subst h
      have := (isDigit_iff c' d (by omega)).mp hd
      exact ⟨c', rest, rfl, digit_not_space c' (by omega)⟩

theorem strtoRaw_strip (base : Nat) (hbase : ¬ (base = 1 ∨ 36 < base)) {ws sign body : Str} (hws : ∀ c ∈ ws, c ∈ whiteSpace) (hs : sign = [] ∨ sign = b!"+" ∨ sign = b!"-")
    (hb : ∃ c rest, body = c :: rest ∧ isSpaceByte c = false ∧ c ≠ 45 ∧ c ≠ 43) :
    strtoRaw base (ws ++ sign ++ body) = (strtoMagnitude base body).map fun (m, r) => (decide (sign = b!"-"), m, r) := by
  obtain ⟨c, rest, hc, c1, c2, c3⟩ := hb
  unfold strtoRaw
  rw [if_neg hbase, List.append_assoc, dropWhile_space _ _ hws]
  rcases hs with rfl | rfl | rfl
  · simp only [List.nil_append, hc, List.dropWhile_cons, c1]
    simp [c2, c3]
  · have : isSpaceByte 43 = false := by decide
    simp [List.dropWhile_cons, this]
  · have : isSpaceByte 45 = false := by decide
    simp [List.dropWhile_cons, this]

theorem accDigits_stuck (base : Nat) (x : UInt8) (rest : Str) (hx : ¬ digitVal x < base) (h0 : 0 < base) (acc : Nat) :
    (accDigits base (48 :: x :: rest) acc).2 = x :: rest := by
  have : digitVal 48 = 0 := by decide
  simp [accDigits, this, h0, hx]

theorem magnitude_auto {body : Str} {b : Nat} (h : PrefixBase body b) (n : Nat) :
    strtoMagnitude 0 body = some (n, []) ↔ strtoMagnitude b body = some (n, []) := by
  cases h with
  | hex h =>
    obtain ⟨x, rest, rfl, hx⟩ : ∃ x rest, body = 48 :: x :: rest ∧ (x = 120 ∨ x = 88) := by
      rcases h with ⟨t, rfl⟩ | ⟨t, rfl⟩
      · exact ⟨120, t, rfl, Or.inl rfl⟩
      · exact ⟨88, t, rfl, Or.inr rfl⟩
    by_cases hr : startsWithDigit 16 rest = true
    · simp [strtoMagnitude, hx, hr]
    · have hx16 : ¬ digitVal x < 16 := by rcases hx with rfl | rfl <;> decide
      have hx8 : ¬ digitVal x < 8 := by omega
      have hs : ∀ base, 0 < base → startsWithDigit base (48 :: x :: rest) = true := by
        intro base h0
        have : digitVal 48 = 0 := by decide
        simp [startsWithDigit, this, h0]
      have e1 : strtoMagnitude 0 (48 :: x :: rest) = some (accDigits 8 (48 :: x :: rest) 0) := by
        simp [strtoMagnitude, hr, hs]
      have e2 : strtoMagnitude 16 (48 :: x :: rest) = some (accDigits 16 (48 :: x :: rest) 0) := by
        simp [strtoMagnitude, hr, hs]
      rw [e1, e2]
      have s1 := accDigits_stuck 8 x rest hx8 (by omega) 0
      have s2 := accDigits_stuck 16 x rest hx16 (by omega) 0
      constructor
      · intro h
        simp only [Option.some.injEq] at h
        rw [h] at s1
        simp at s1
      · intro h
        simp only [Option.some.injEq] at h
        rw [h] at s2
        simp at s2
  | octal h h1 h2 =>
    have e : strtoMagnitude 0 body = strtoMagnitude 8 body := by
      unfold strtoMagnitude
      match body, h, h1, h2 with
      | [], h, _, _ => simp at h
      | [z], h, _, _ =>
        simp only [List.head?_cons, Option.some.injEq] at h
        subst h
        simp
      | z :: x :: rest, h, h1, h2 =>
        simp only [List.head?_cons, Option.some.injEq] at h
        subst h
        have hx : ¬ (x = 120 ∨ x = 88) := by
          rintro (rfl | rfl)
          · exact h1 ⟨rest, rfl⟩
          · exact h2 ⟨rest, rfl⟩
        simp [hx]
    rw [e]
  | @decimal c d h hd hd1 h10 =>
    have e : strtoMagnitude 0 body = strtoMagnitude 10 body := by
      have hc := (isDigit_iff c d (by omega)).mp hd
      have hc0 : c ≠ 48 := by
        rintro rfl
        have : digitVal 48 = 0 := by decide
        omega
      unfold strtoMagnitude
      match body, h with
      | [], h => simp at h
      | [z], h =>
        simp only [List.head?_cons, Option.some.injEq] at h
        subst h
        simp [hc0]
      | z :: x :: rest, h =>
        simp only [List.head?_cons, Option.some.injEq] at h
        subst h
        simp [hc0]
    rw [e]

theorem magnitude_prefix {body : Str} {p : Nat × Str} (h : strtoMagnitude 0 body = some p) : ∃ b, PrefixBase body b := by
  by_cases h1 : b!"0x" <+: body ∨ b!"0X" <+: body
  · exact ⟨16, .hex h1⟩
  · have h2 : ¬ b!"0x" <+: body := fun h => h1 (Or.inl h)
    have h3 : ¬ b!"0X" <+: body := fun h => h1 (Or.inr h)
    match body with
    | [] => simp [strtoMagnitude, startsWithDigit] at h
    | c :: rest =>
      by_cases h0 : c = 48
      · subst h0
        exact ⟨8, .octal rfl h2 h3⟩
      · have e : strtoMagnitude 0 (c :: rest) = if startsWithDigit 10 (c :: rest) then some (accDigits 10 (c :: rest) 0) else none := by
          unfold strtoMagnitude
          cases rest <;> simp [h0]
        rw [e] at h
        split at h
        · rename_i hs
          simp only [startsWithDigit, decide_eq_true_eq] at hs
          have hd : IsDigit c (digitVal c) := (isDigit_iff c _ (by omega)).mpr rfl
          refine ⟨10, .decimal (c := c) (d := digitVal c) rfl hd ?_ hs⟩
          rcases Nat.eq_zero_or_pos (digitVal c) with hz | hz
          · exfalso
            have : ∀ n : Fin 256, digitVal (UInt8.ofNat n) = 0 → UInt8.ofNat n = 48 := by decide +kernel
            have := this ⟨c.toNat, c.toNat_lt⟩
            simp only [UInt8.ofNat_toNat] at this
            exact h0 (this hz)
          · exact hz
        · simp at h

theorem strtoRaw_auto (s : Str) (neg : Bool) (n : Nat) :
    strtoRaw 0 s = some (neg, n, []) ↔ ∃ b, AutoBase s b ∧ Literal b s neg n := by
  have hb : ∀ {body : Str} {b : Nat}, PrefixBase body b → 2 ≤ b ∧ b ≤ 36 := by
    intro body b h
    cases h <;> omega
  have key : ∀ {ws sign body : Str} {b : Nat}, (∀ c ∈ ws, c ∈ whiteSpace) → (sign = [] ∨ sign = b!"+" ∨ sign = b!"-") → PrefixBase body b →
      (strtoRaw 0 (ws ++ sign ++ body) = some (neg, n, []) ↔ Literal b (ws ++ sign ++ body) neg n) := by
    intro ws sign body b h1 h2 h3
    rw [← strtoRaw_iff b (hb h3).1 (hb h3).2, strtoRaw_strip 0 (by omega) h1 h2 (prefixBase_head h3), strtoRaw_strip b (by have := hb h3; omega) h1 h2 (prefixBase_head h3)]
    have := magnitude_auto h3 n
    constructor
    · intro h
      simp only [Option.map_eq_some_iff, Prod.mk.injEq] at h ⊢
      obtain ⟨⟨m, r⟩, e1, e2, rfl, rfl⟩ := h
      exact ⟨(m, []), this.mp e1, e2, rfl, rfl⟩
    · intro h
      simp only [Option.map_eq_some_iff, Prod.mk.injEq] at h ⊢
      obtain ⟨⟨m, r⟩, e1, e2, rfl, rfl⟩ := h
      exact ⟨(m, []), this.mpr e1, e2, rfl, rfl⟩
  constructor
  · intro h
    have : ∃ ws sign body, s = ws ++ sign ++ body ∧ (∀ c ∈ ws, c ∈ whiteSpace) ∧ (sign = [] ∨ sign = b!"+" ∨ sign = b!"-") ∧
        ∃ p, strtoMagnitude 0 body = some p := by
      obtain ⟨ws, hs, hws⟩ := exists_space_prefix s
      unfold strtoRaw at h
      rw [if_neg (by omega)] at h
      generalize s.dropWhile isSpaceByte = t at *
      cases t with
      | nil => simp at h
      | cons c rest =>
        simp only at h
        split at h
        · rename_i hc
          subst hc
          rw [Option.map_eq_some_iff] at h
          obtain ⟨p, hp, _⟩ := h
          exact ⟨ws, b!"-", rest, by simp [hs], hws, by simp, p, hp⟩
        · split at h
          · rename_i _ hc
            subst hc
            rw [Option.map_eq_some_iff] at h
            obtain ⟨p, hp, _⟩ := h
            exact ⟨ws, b!"+", rest, by simp [hs], hws, by simp, p, hp⟩
          · rw [Option.map_eq_some_iff] at h
            obtain ⟨p, hp, _⟩ := h
            exact ⟨ws, [], c :: rest, by simp [hs], hws, by simp, p, hp⟩
    obtain ⟨ws, sign, body, rfl, hws, hsign, p, hp⟩ := this
    obtain ⟨b, hpb⟩ := magnitude_prefix hp
    exact ⟨b, ⟨ws, sign, body, rfl, hws, hsign, hpb⟩, (key hws hsign hpb).mp h⟩
  · rintro ⟨b, ⟨ws, sign, body, rfl, hws, hsign, hpb⟩, hl⟩
    exact (key hws hsign hpb).mpr hl

/-! ### Decimal rendering -/

theorem digitVal_ofNat (n : Nat) (h : n < 10) : digitVal (UInt8.ofNat (48 + n)) = n := by
  have key : ∀ n : Fin 10, digitVal (UInt8.ofNat (48 + n)) = n := by decide
  exact key ⟨n, h⟩

theorem decimalNat_numeral (n : Nat) : Numeral 10 (decimalNat n) n := by
  induction n using Nat.strongRecOn with
  | ind n ih =>
    unfold decimalNat
    split
    · rename_i h
      exact Numeral.single ((isDigit_iff _ _ (by omega)).mpr (digitVal_ofNat n h)) h
    · have := ih (n / 10) (by omega)
      have h2 := Numeral.snoc this
        ((isDigit_iff (UInt8.ofNat (48 + n % 10)) (n % 10) (by omega)).mpr (digitVal_ofNat _ (by omega)))
        (by omega)
      have e : n / 10 * 10 + n % 10 = n := by omega
      rwa [e] at h2

theorem decimal_denotes (v : Int) : Denotes 10 (decimal v) v := by
  unfold decimal
  split
  · right
    refine ⟨v.natAbs, ⟨[], b!"-", [], decimalNat v.natAbs, by simp, by simp, by simp, by simp,
      decimalNat_numeral _⟩, by omega⟩
  · left
    refine ⟨v.natAbs, ⟨[], [], [], decimalNat v.natAbs, by simp, by simp, by simp, by simp,
      decimalNat_numeral _⟩, by omega⟩

end Argos
