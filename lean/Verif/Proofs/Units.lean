import Verif.Proofs.CodePoints
import Verif.Spec.Text

/-! # Strings as sequences of encoded code points -/

namespace Argos
open Spec

/-- The shape of an encoded code point. -/
def IsUnit (u : Str) : Prop := ∃ l cs, u = l :: cs ∧ getCodePointLength l = cs.length + 1 ∧ ∀ c ∈ cs, isContinuation c = true

/-- A string of encoded code points. -/
def Whole (s : Str) : Prop := ∃ us : List Str, (∀ u ∈ us, IsUnit u) ∧ s = us.flatten

theorem lead_not_cont : ∀ c : UInt8, getCodePointLength c ≠ 0 → isContinuation c = false :=
  forall_byte (by decide +kernel)

theorem glyph_iff : ∀ c : UInt8, decide (c.toNat / 64 ≠ 2) = !isContinuation c :=
  forall_byte (by decide +kernel)

theorem glyphs_append (s t : Str) : glyphs (s ++ t) = glyphs s + glyphs t := List.countP_append ..

theorem glyphs_cons (c : UInt8) (s : Str) : glyphs (c :: s) = glyphs s + if isContinuation c then 0 else 1 := by
  unfold glyphs
  rw [List.countP_cons, glyph_iff c]
  cases isContinuation c <;> rfl

theorem glyphs_nil : glyphs [] = 0 := rfl

theorem glyphs_le_length (s : Str) : glyphs s ≤ s.length := List.countP_le_length

theorem glyphs_spaces (n : Nat) : glyphs (List.replicate n 32) = n := by
  induction n with
  | zero => rfl
  | succ n ih =>
    rw [List.replicate_succ, glyphs_cons, ih]
    rfl

/-- The counting loop counts the leading bytes. -/
theorem countLoop_some (s : Str) : ∀ {count k r : Nat}, countLoop s count k = some r → r = count + glyphs s := by
  induction s with
  | nil => intro count k r h; simp [countLoop] at h; simp [glyphs_nil, h]
  | cons c s ih =>
    intro count k r h
    unfold countLoop at h
    rw [glyphs_cons]
    split at h
    · split at h
      · simp at h
      · rename_i h1
        rw [ih h, lead_not_cont c h1]
        simp only [Bool.false_eq_true, if_false]
        omega
    · split at h
      · rename_i h1
        rw [ih h, h1]
        simp
      · simp at h

theorem glyphs_le_count (s : Str) : glyphs s ≤ countCodePoints s := by
  unfold countCodePoints
  cases h : countLoop s 0 0 with
  | none => exact glyphs_le_length s
  | some r => rw [countLoop_some s h]; simp

theorem count_le_length (s : Str) : countCodePoints s ≤ s.length := by
  unfold countCodePoints
  cases h : countLoop s 0 0 with
  | none => exact Nat.le_refl _
  | some r => rw [countLoop_some s h]; simpa using glyphs_le_length s

theorem count_pos {s : Str} (h : s ≠ []) : 1 ≤ countCodePoints s := by
  cases s with
  | nil => exact absurd rfl h
  | cons c s =>
    unfold countCodePoints
    cases h1 : countLoop (c :: s) 0 0 with
    | none => simp
    | some r =>
      have h2 := countLoop_some _ h1
      unfold countLoop at h1
      simp only [if_true] at h1
      split at h1
      · simp at h1
      · rename_i hc
        rw [glyphs_cons, lead_not_cont c hc] at h2
        simp only [Bool.false_eq_true, if_false] at h2
        simp only [Option.getD_some]
        omega

theorem IsUnit.ne_nil {u : Str} (h : IsUnit u) : u ≠ [] := by
  obtain ⟨l, cs, rfl, _⟩ := h
  simp

theorem IsUnit.length_pos {u : Str} (h : IsUnit u) : 1 ≤ u.length := by
  obtain ⟨l, cs, rfl, _⟩ := h
  simp

theorem countLoop_unit {u : Str} (h : IsUnit u) (s : Str) (count : Nat) : countLoop (u ++ s) count 0 = countLoop s (count + 1) 0 := by
  obtain ⟨l, cs, rfl, hl, hc⟩ := h
  simp only [List.cons_append, countLoop, if_true]
  rw [if_neg (by omega), hl]
  simpa using countLoop_conts cs s (count + 1) hc

theorem countLoop_units (us : List Str) (h : ∀ u ∈ us, IsUnit u) (count : Nat) :
    countLoop us.flatten count 0 = some (count + us.length) := by
  induction us generalizing count with
  | nil => rfl
  | cons u us ih =>
    rw [List.flatten_cons, countLoop_unit (h u (by simp)), ih (fun u hu => h u (by simp [hu]))]
    simp only [List.length_cons]
    congr 1
    omega

theorem count_units {us : List Str} (h : ∀ u ∈ us, IsUnit u) : countCodePoints us.flatten = us.length := by
  simp [countCodePoints, countLoop_units us h]

theorem count_whole {s : Str} (h : Whole s) : countCodePoints s = glyphs s := by
  obtain ⟨us, h, rfl⟩ := h
  have h1 := countLoop_units us h 0
  have h2 := countLoop_some _ h1
  simp [countCodePoints, h1, h2]

theorem Whole.append {s t : Str} (hs : Whole s) (ht : Whole t) : Whole (s ++ t) := by
  obtain ⟨us, h1, rfl⟩ := hs
  obtain ⟨vs, h2, rfl⟩ := ht
  exact ⟨us ++ vs, by simpa [or_imp, forall_and] using ⟨h1, h2⟩, by simp⟩

theorem whole_nil : Whole [] := ⟨[], by simp, rfl⟩

theorem whole_take {us : List Str} (h : ∀ u ∈ us, IsUnit u) (k : Nat) : Whole (us.take k).flatten :=
  ⟨_, fun u hu => h u (List.mem_of_mem_take hu), rfl⟩

theorem whole_drop {us : List Str} (h : ∀ u ∈ us, IsUnit u) (k : Nat) : Whole (us.drop k).flatten :=
  ⟨_, fun u hu => h u (List.mem_of_mem_drop hu), rfl⟩

/-- Two divisions into units agree. -/
theorem unit_prefix {u v s t : Str} (hu : IsUnit u) (hv : IsUnit v) (h : u ++ s = v ++ t) : u = v ∧ s = t := by
  obtain ⟨l, cs, rfl, hl, _⟩ := hu
  obtain ⟨m, ds, rfl, hm, _⟩ := hv
  simp only [List.cons_append, List.cons.injEq] at h
  obtain ⟨rfl, h⟩ := h
  have hlen : cs.length = ds.length := by omega
  obtain ⟨h1, h2⟩ := List.append_inj h hlen
  exact ⟨by rw [h1], h2⟩

/-- What follows a whole beginning of a whole string is whole. -/
theorem Whole.of_append {s t : Str} (hs : Whole s) (h : Whole (s ++ t)) : Whole t := by
  obtain ⟨us, h1, rfl⟩ := hs
  induction us with
  | nil => simpa using h
  | cons u us ih =>
    refine ih (fun u hu => h1 u (by simp [hu])) ?_
    obtain ⟨vs, h2, h3⟩ := h
    cases vs with
    | nil =>
      have := (h1 u (by simp)).ne_nil
      simp at h3
      exact absurd h3.1 this
    | cons v vs =>
      rw [List.flatten_cons, List.flatten_cons, List.append_assoc] at h3
      obtain ⟨_, h4⟩ := unit_prefix (h1 u (by simp)) (h2 v (by simp)) h3
      exact ⟨vs, fun v hv => h2 v (by simp [hv]), h4⟩

/-- A beginning of a whole string is whole if a code point begins after it. -/
theorem Whole.prefix {a b : Str} (h : Whole (a ++ b)) (hb : ∀ c, b.head? = some c → isContinuation c = false) : Whole a := by
  obtain ⟨us, hu, he⟩ := h
  induction us generalizing a with
  | nil =>
    simp at he
    rw [he.1]
    exact whole_nil
  | cons u us ih =>
    cases a with
    | nil => exact whole_nil
    | cons x a =>
      have huu := hu u (by simp)
      obtain ⟨l, cs, rfl, hl, hc⟩ := hu u (by simp)
      rw [List.flatten_cons, List.cons_append, List.cons_append, List.cons.injEq] at he
      obtain ⟨rfl, he⟩ := he
      rcases List.append_eq_append_iff.mp he with ⟨t, h1, h2⟩ | ⟨t, h1, h2⟩
      · -- the unit is longer than the beginning
        cases t with
        | nil =>
          simp only [List.append_nil] at h1
          subst h1
          exact ⟨[x :: cs], by simpa using huu, by simp⟩
        | cons c t =>
          have := hb c (by rw [h2]; rfl)
          rw [hc c (by rw [h1]; simp)] at this
          simp at this
      · obtain ⟨vs, hv, e⟩ := ih (a := t) (fun u h => hu u (by simp [h])) h2.symm
        refine ⟨(x :: cs) :: vs, ?_, by rw [h1, e]; simp⟩
        intro u h
        rcases List.mem_cons.mp h with rfl | h
        · exact huu
        · exact hv u h

theorem Whole.head {b : Str} (h : Whole b) : ∀ c, b.head? = some c → isContinuation c = false := by
  obtain ⟨us, hu, rfl⟩ := h
  intro c hc
  cases us with
  | nil => simp at hc
  | cons u us =>
    obtain ⟨l, cs, rfl, hl, _⟩ := hu u (by simp)
    simp at hc
    subst hc
    exact lead_not_cont l (by omega)

/-- A map that keeps the structure of encoded code points. -/
theorem whole_of_map {g : UInt8 → UInt8} (hg : ∀ c, getCodePointLength (g c) = getCodePointLength c ∧ isContinuation (g c) = isContinuation c)
    {s : Str} (h : Whole (s.map g)) : Whole s := by
  obtain ⟨us, hu, he⟩ := h
  induction us generalizing s with
  | nil => simp at he; rw [he]; exact whole_nil
  | cons u us ih =>
    rw [List.flatten_cons, List.map_eq_append_iff] at he
    obtain ⟨s1, s2, rfl, e1, e2⟩ := he
    refine Whole.append ⟨[s1], ?_, by simp⟩ (ih (fun u h => hu u (by simp [h])) e2)
    intro v hv
    simp only [List.mem_singleton] at hv
    subst hv
    obtain ⟨l, cs, rfl, hl, hc⟩ := hu u (by simp)
    rw [List.map_eq_cons_iff] at e1
    obtain ⟨a, as, rfl, rfl, rfl⟩ := e1
    refine ⟨a, as, rfl, ?_, ?_⟩
    · rw [(hg a).1] at hl; simpa using hl
    · intro c h
      rw [← (hg c).2]
      exact hc _ (List.mem_map_of_mem h)

theorem whole_map {g : UInt8 → UInt8} (hg : ∀ c, getCodePointLength (g c) = getCodePointLength c ∧ isContinuation (g c) = isContinuation c)
    {s : Str} (h : Whole s) : Whole (s.map g) := by
  obtain ⟨us, hu, rfl⟩ := h
  refine ⟨us.map (·.map g), ?_, by rw [List.map_flatten]⟩
  intro u hm
  rw [List.mem_map] at hm
  obtain ⟨v, hv, rfl⟩ := hm
  obtain ⟨l, cs, rfl, hl, hc⟩ := hu v hv
  refine ⟨g l, cs.map g, rfl, by rw [(hg l).1, hl, List.length_map], ?_⟩
  intro c h
  rw [List.mem_map] at h
  obtain ⟨x, hx, rfl⟩ := h
  rw [(hg x).2]
  exact hc x hx

theorem toLowerChar_keeps : ∀ c : UInt8, getCodePointLength (toLowerChar c) = getCodePointLength c ∧ isContinuation (toLowerChar c) = isContinuation c :=
  forall_byte (by decide +kernel)

theorem whole_ascii {s : Str} (h : ∀ c ∈ s, c.toNat < 0x80) : Whole s := by
  refine ⟨s.map fun c => [c], ?_, by rw [← List.flatMap_def, List.flatMap_singleton']⟩
  intro u hu
  rw [List.mem_map] at hu
  obtain ⟨c, hc, rfl⟩ := hu
  refine ⟨c, [], rfl, ?_, by simp⟩
  unfold getCodePointLength
  simp [h c hc]

theorem whole_filter {s : Str} (h : Whole s) : Whole (s.filter (· ≠ c!" ")) := by
  obtain ⟨us, hu, rfl⟩ := h
  rw [List.filter_flatten]
  have key : ∀ u, IsUnit u → Whole (u.filter (· ≠ c!" ")) := by
    intro u h
    by_cases h32 : c!" " ∈ u
    · obtain ⟨l, cs, rfl, hl, hc⟩ := h
      rcases List.mem_cons.mp h32 with h1 | h1
      · subst h1
        have : getCodePointLength 32 = 1 := by decide
        have : cs = [] := List.eq_nil_of_length_eq_zero (by omega)
        subst this
        exact whole_nil
      · have := hc _ h1
        exact absurd this (by decide)
    · rw [List.filter_eq_self.mpr]
      · exact ⟨[u], by simpa using h, by simp⟩
      · intro c hc
        simp only [decide_eq_true_eq]
        rintro rfl
        exact h32 hc
  induction us with
  | nil => exact whole_nil
  | cons u us ih =>
    rw [List.map_cons, List.flatten_cons]
    exact (key u (hu u (by simp))).append (ih (fun u h => hu u (by simp [h])))

theorem whole_byte {c : UInt8} (h : c.toNat < 0x80) : IsUnit [c] := by
  refine ⟨c, [], rfl, ?_, by simp⟩
  unfold getCodePointLength
  simp [h]

theorem whole_utf8 {s : Str} (h : Utf8 s) : Whole s := by
  obtain ⟨cps, ht, rfl⟩ := h
  refine ⟨cps.map encodeUtf8, ?_, by simp [encodeText, List.flatMap_def]⟩
  intro u hu
  rw [List.mem_map] at hu
  obtain ⟨n, hn, rfl⟩ := hu
  obtain ⟨l, cs, e, hl, hc⟩ := encode_shape (ht n hn)
  exact ⟨l, cs, e, hl, hc⟩

/-! ### Finding a code point -/

theorem findNthLoop_cases (n : Nat) (s : Str) : ∀ {i count k p : Nat}, findNthLoop n s i count k = some p → count ≤ n →
    p = n ∨ ∃ (cs : Str) (us : List Str) (post : Str), s = cs ++ us.flatten ++ post ∧ cs.length = k ∧ (∀ c ∈ cs, isContinuation c = true) ∧
      (∀ u ∈ us, IsUnit u) ∧ count + us.length = n ∧ p = i + cs.length + us.flatten.length := by
  induction s with
  | nil =>
    intro i count k p h hc
    simp only [findNthLoop] at h
    split at h
    · simp at h; exact .inl h.symm
    · simp at h
  | cons c s ih =>
    intro i count k p h hc
    unfold findNthLoop at h
    split at h
    · rename_i hk
      subst hk
      split at h
      · rename_i hn
        simp at h
        exact .inr ⟨[], [], c :: s, by simp, rfl, by simp, by simp, by simpa using hn, by simp [h]⟩
      · split at h
        · simp at h; exact .inl h.symm
        · rename_i hn hl
          rcases ih h (by omega) with h1 | ⟨cs, us, post, rfl, h2, h3, h4, h5, h6⟩
          · exact .inl h1
          · right
            refine ⟨[], (c :: cs) :: us, post, by simp, rfl, by simp, ?_, by simp only [List.length_cons]; omega, by simp only [List.length_cons, List.flatten_cons, List.length_append, List.length_nil]; omega⟩
            intro u hu
            rcases List.mem_cons.mp hu with rfl | hu
            · exact ⟨c, cs, rfl, by omega, h3⟩
            · exact h4 u hu
    · split at h
      · rename_i hk hcc
        rcases ih h hc with h1 | ⟨cs, us, post, rfl, h2, h3, h4, h5, h6⟩
        · exact .inl h1
        · right
          refine ⟨c :: cs, us, post, by simp, by simp only [List.length_cons]; omega, ?_, h4, h5, by simp only [List.length_cons]; omega⟩
          intro x hx
          rcases List.mem_cons.mp hx with rfl | hx
          · exact hcc
          · exact h3 x hx
      · simp at h; exact .inl h.symm

/-- The position found is that of the n-th code point, or the n-th byte. -/
theorem findNth_cases {s : Str} {n p : Nat} (h : findNthCodePoint s n = some p) :
    n ≤ p ∧ p < s.length ∧ (p = n ∨ ∃ (us : List Str) (post : Str), s = us.flatten ++ post ∧ (∀ u ∈ us, IsUnit u) ∧ us.length = n ∧ p = us.flatten.length) := by
  have h0 := h
  unfold findNthCodePoint at h
  split at h
  · simp at h
  · rename_i hn
    have hb := findNthLoop_bounds n s 0 0 0 h (by omega) (by omega) (by omega)
    refine ⟨hb.2, by omega, ?_⟩
    rcases findNthLoop_cases n s h (by omega) with h1 | ⟨cs, us, post, rfl, h2, _, h4, h5, h6⟩
    · exact .inl h1
    · have : cs = [] := List.eq_nil_of_length_eq_zero h2
      subst this
      exact .inr ⟨us, post, by simp, h4, by omega, by simpa using h6⟩

theorem findNthLoop_unit {u : Str} (h : IsUnit u) (n : Nat) (s : Str) (i count : Nat) :
    findNthLoop n (u ++ s) i count 0 = if count = n then some i else findNthLoop n s (i + u.length) (count + 1) 0 := by
  obtain ⟨l, cs, rfl, hl, hc⟩ := h
  simp only [List.cons_append, findNthLoop, if_true]
  split
  · rfl
  · rw [if_neg (by omega), hl]
    have := findNthLoop_conts n cs s (i + 1) (count + 1) hc
    simp only [Nat.add_sub_cancel, List.length_cons]
    rw [this]
    congr 1
    omega

theorem findNthLoop_units {us : List Str} (h : ∀ u ∈ us, IsUnit u) (n i count : Nat) (hc : count ≤ n) :
    findNthLoop n us.flatten i count 0 =
      if n - count < us.length then some (i + (us.take (n - count)).flatten.length) else none := by
  induction us generalizing i count with
  | nil => simp [findNthLoop]
  | cons u us ih =>
    rw [List.flatten_cons, findNthLoop_unit (h u (by simp))]
    split
    · rename_i he
      subst he
      simp
    · rename_i hne
      rw [ih (fun u hu => h u (by simp [hu])) _ _ (by omega)]
      have e : n - count = (n - (count + 1)) + 1 := by omega
      rw [e, List.take_succ_cons]
      simp only [List.length_cons, List.flatten_cons, List.length_append, Nat.add_lt_add_iff_right]
      split
      · congr 1; omega
      · rfl

theorem units_length_le {us : List Str} (h : ∀ u ∈ us, IsUnit u) : us.length ≤ us.flatten.length := by
  have := count_le_length us.flatten
  rwa [count_units h] at this

/-- The position found in a whole string. -/
theorem findNth_units {us : List Str} (h : ∀ u ∈ us, IsUnit u) (n : Nat) :
    findNthCodePoint us.flatten n = if n < us.length then some (us.take n).flatten.length else none := by
  unfold findNthCodePoint
  have := units_length_le h
  split
  · rw [if_neg (by omega)]
  · rw [findNthLoop_units h n 0 0 (by omega)]
    simp

/-- Fewer code points than asked for: the string is not longer than that. -/
theorem findNth_none {s : Str} {n : Nat} (h : findNthCodePoint s n = none) : countCodePoints s ≤ n := by
  unfold findNthCodePoint at h
  split at h
  · have := count_le_length s; omega
  · have key : ∀ (s : Str) (i count k : Nat), findNthLoop n s i count k = none → count ≤ n → ∃ r, countLoop s count k = some r ∧ r ≤ n := by
      intro s
      induction s with
      | nil =>
        intro i count k h hc
        exact ⟨count, rfl, hc⟩
      | cons c s ih =>
        intro i count k h hc
        unfold findNthLoop at h
        unfold countLoop
        split at h
        · rename_i hk
          simp only [hk, if_true]
          split at h
          · simp at h
          · split at h
            · simp at h
            · rename_i h1 h2
              rw [if_neg h2]
              exact ih _ _ _ h (by omega)
        · rename_i hk
          rw [if_neg hk]
          split at h
          · rename_i h1
            simp only [h1, if_true]
            exact ih _ _ _ h hc
          · simp at h
    obtain ⟨r, h1, h2⟩ := key s 0 0 0 h (by omega)
    simp [countCodePoints, h1, h2]

end Argos
