import Verif.Proofs.CodePoints

/-!
# Properties of strings and values: C30, C41, C42, C43, C44, C56
-/

namespace Argos

/-! ## C42: case-insensitive equality is ASCII case folding -/

/-- C42. Two strings are equal case-insensitively exactly when they are equal after ASCII case
folding. -/
theorem C42_equal_ci (s t : Str) :
    areEqual s t true = true ↔ Spec.foldCase s = Spec.foldCase t := by
  simp [areEqual, areEqualCi_iff]

/-- C42. The case-insensitive prefix test holds exactly when some beginning of the string is
case-insensitively equal to the prefix. -/
theorem C42_prefix_ci (s p : Str) :
    startsWith s p true = true ↔ ∃ t u, s = t ++ u ∧ Spec.foldCase t = Spec.foldCase p := by
  simp only [startsWith, if_true, startsWithCi_iff]
  constructor
  · rintro ⟨u, hu⟩
    refine ⟨s.take p.length, s.drop p.length, by simp, ?_⟩
    have h := congrArg (List.take p.length) hu
    simp only [Spec.foldCase, List.map_take] at h ⊢
    rw [← h, List.take_left' (by simp)]
  · rintro ⟨t, u, rfl, h⟩
    exact ⟨Spec.foldCase u, by rw [← h]; simp [Spec.foldCase]⟩

/-- C42. Case-insensitive equality is an equivalence relation. -/
theorem C42_equivalence : Equivalence (fun s t : Str => areEqual s t true = true) where
  refl s := by simp [C42_equal_ci]
  symm h := by rw [C42_equal_ci] at *; exact h.symm
  trans h1 h2 := by rw [C42_equal_ci] at *; exact h1.trans h2

/-- C42. `to_lower` performs the folding, and a string is lower case exactly when folding does not
change it. -/
theorem C42_to_lower (s : Str) :
    (toLower s).map UInt8.toNat = Spec.foldCase s ∧ (isLower s = true ↔ toLower s = s) := by
  have key : ∀ c : UInt8, (toLowerChar c).toNat = Spec.foldByte c := by
    intro c
    unfold toLowerChar Spec.foldByte
    split
    · rw [UInt8.toNat_add]; simp; omega
    · rfl
  constructor
  · simp [toLower, Spec.foldCase, key]
  · induction s with
    | nil => simp [isLower, toLower]
    | cons c s ih =>
      have hc : toLowerChar c = c ↔ ¬ (65 ≤ c.toNat ∧ c.toNat ≤ 90) := by
        rw [← UInt8.toNat_inj, key]
        unfold Spec.foldByte
        split <;> omega
      simp only [isLower, toLower, List.map_cons, List.all_cons, Bool.and_eq_true,
        decide_eq_true_eq, List.cons.injEq] at *
      rw [hc, ih]

example : areEqual b!"--Foo_Bar" b!"--fOO_bAR" true = true ∧
    areEqual b!"--foo@" b!"--foo`" true = false ∧ startsWith b!"--Verbose" b!"--vErb" true = true := by
  decide

/-! ## C41: splitting a value is lossless and bounded -/

/-- C41. The parts of `split_string` with at most `max - 1` splits divide the string correctly, and
there are as many parts as separators plus one, limited by `max`. -/
theorem C41_split_string (s : Str) (sep : UInt8) (max : Nat) (hmax : 1 ≤ max) :
    Spec.IsSplit s sep max (splitString s sep (max - 1)) ∧
      (splitString s sep (max - 1)).length = min max (s.count sep + 1) := by
  unfold splitString
  split
  · have : max = 1 := by omega
    subst this
    refine ⟨⟨rfl, by simp, by simp, ?_⟩, by simp⟩
    intro i hi _
    simp at hi ⊢
    exact hi
  · rename_i h
    have hl := splitLoop_length sep [] s (max - 1) (by omega)
    have e : max - 1 + 1 = max := by omega
    rw [e] at hl
    refine ⟨⟨by simpa using splitLoop_join sep [] s (max - 1), splitLoop_ne_nil _ _ _ _, ?_, ?_⟩, hl⟩
    · omega
    · intro i hi hd
      have := splitLoop_separated sep [] s (max - 1) (by omega) (by simp) i hi hd
      omega

/-- C41. `ArgumentValue::split` returns the division of the value, or reports an error exactly when
it has fewer than `min` parts. -/
theorem C41_split_value (st : ParserSettings) (s : Str) (sep : UInt8) (min max : Nat)
    (hmax : 1 ≤ max) :
    ∃ parts, Spec.IsSplit s sep max parts ∧ parts.length = Nat.min max (s.count sep + 1) ∧
      splitValue st (some s) sep min max =
        if parts.length < min then
          (if st.autoExit then .exit st.errorExitCode else .throw b!"Error while parsing arguments.")
        else .ok parts := by
  refine ⟨splitString s sep (max - 1), (C41_split_string s sep max hmax).1,
    (C41_split_string s sep max hmax).2, ?_⟩
  have e : predSize max = max - 1 := by unfold predSize; rw [if_neg (by omega)]
  simp only [splitValue, e, valueError]

/-- C41. `ArgumentValues::split` splits every value in turn, keeping their order and the identity of
the argument each part comes from. -/
theorem C41_split_values (st : ParserSettings) (sep : UInt8) (min max : Nat) (hmax : 1 ≤ max)
    (vs : List (Str × Nat)) :
    splitValues st sep min max vs =
      if ∃ v ∈ vs, Nat.min max (v.1.count sep + 1) < min then
        (if st.autoExit then .exit st.errorExitCode else .throw b!"Error while parsing arguments.")
      else .ok (vs.flatMap fun v => (splitString v.1 sep (max - 1)).map (·, v.2)) := by
  have e : predSize max = max - 1 := by unfold predSize; rw [if_neg (by omega)]
  induction vs with
  | nil => simp [splitValues]
  | cons v vs ih =>
    obtain ⟨v, a⟩ := v
    have hl := (C41_split_string v sep max hmax).2
    have hl' : Nat.min max (v.count sep + 1) = (splitString v sep (max - 1)).length := hl.symm
    simp only [splitValues, e]
    by_cases h : (splitString v sep (max - 1)).length < min
    · rw [if_pos h, if_pos]
      · rfl
      · exact ⟨(v, a), by simp, by rw [hl']; exact h⟩
    · rw [if_neg h, ih]
      by_cases h2 : ∃ w ∈ vs, Nat.min max (w.1.count sep + 1) < min
      · have h3 : ∃ w ∈ (v, a) :: vs, Nat.min max (w.1.count sep + 1) < min := by
          obtain ⟨w, hw, hw2⟩ := h2
          exact ⟨w, by simp [hw], hw2⟩
        rw [if_pos h2, if_pos h3]
        cases st.autoExit <;> rfl
      · rw [if_neg h2, if_neg]
        · simp
        · rintro ⟨w, hw, hw2⟩
          rcases List.mem_cons.mp hw with rfl | hw
          · rw [hl'] at hw2; exact h hw2
          · exact h2 ⟨w, hw, hw2⟩

example : splitValue { autoExit := false } (some b!"a,b,,c") c!"," 2 3 = .ok [b!"a", b!"b", b!",c"] := by
  decide

/-- C41. Without an upper limit (`max_parts` zero, the default) the value is divided at every separator; values are shorter
than the largest `size_t`. -/
theorem C41_unlimited (st : ParserSettings) (s : Str) (sep : UInt8) (min : Nat) (hs : s.length < 2 ^ 64 - 1) :
    ∃ parts, Spec.joinWith sep parts = s ∧ parts.length = s.count sep + 1 ∧ (∀ p ∈ parts, sep ∉ p) ∧
      splitValue st (some s) sep min 0 =
        if s.count sep + 1 < min then
          (if st.autoExit then .exit st.errorExitCode else .throw b!"Error while parsing arguments.")
        else .ok parts := by
  have hc : s.count sep ≤ s.length := List.count_le_length
  obtain ⟨h1, h2⟩ := C41_split_string s sep (2 ^ 64) (by omega)
  have h3 : (splitString s sep (2 ^ 64 - 1)).length = s.count sep + 1 := by rw [h2]; omega
  refine ⟨splitString s sep (2 ^ 64 - 1), h1.join, h3, ?_, ?_⟩
  · intro p hp
    obtain ⟨i, hi, rfl⟩ := List.mem_iff_getElem.mp hp
    intro hmem
    have := h1.separated i hi hmem
    omega
  · have e : predSize 0 = 2 ^ 64 - 1 := rfl
    simp only [splitValue, e, valueError, h3]

/-- C41. `split_n` returns exactly the number of parts asked for (at least one), or reports an error. -/
theorem C41_split_n (st : ParserSettings) (s : Str) (sep : UInt8) (n : Nat) (hn : 1 ≤ n) (parts : List Str)
    (h : splitValue st (some s) sep n n = .ok parts) : parts.length = n ∧ Spec.joinWith sep parts = s := by
  obtain ⟨ps, h1, h2, h3⟩ := C41_split_value st s sep n n hn
  rw [h3] at h
  split at h
  · cases hx : st.autoExit <;> simp [hx] at h
  · rename_i hlt
    cases h
    have : Nat.min n (s.count sep + 1) ≤ n := Nat.min_le_left _ _
    exact ⟨by omega, h1.join⟩

example : splitValue { autoExit := false } (some b!"a,b,,c") c!"," 2 0 = .ok [b!"a", b!"b", [], b!"c"] ∧
    splitValue { autoExit := false } (some b!"a,b,,c") c!"," 2 2 = .ok [b!"a", b!"b,,c"] := by
  decide

/-! ## C43: boolean conversion -/

/-- C43 (what holds). `as_bool` returns the default without a value; for a non-empty value it is true
exactly when the value is neither "0" nor "false". Missing: the documentation promises true also for
the empty value. -/
theorem C43_as_bool_partial (value : Option Str) (default : Bool) :
    (value = none → asBool value default = default) ∧
    (∀ s, value = some s → s ≠ [] →
      (asBool value default = true ↔ s ≠ b!"0" ∧ s ≠ b!"false")) := by
  constructor
  · rintro rfl; rfl
  · rintro s rfl hs
    simp [asBool, hs]

/-- C43 is violated: the empty value (`--flag=`) is neither "0" nor "false" but converts to
false. -/
theorem C43_violated : ∃ s : Str, s ≠ b!"0" ∧ s ≠ b!"false" ∧ asBool (some s) true = false :=
  ⟨[], by decide, by decide, rfl⟩

example : asBool (some b!"yes") false = true ∧ asBool (some b!"false") true = false := by decide

/-! ## C44: code point counting is exact on valid UTF-8 -/

/-- C44. The width of a text is its number of code points. -/
theorem C44_count (cps : List Nat) (h : Spec.IsText cps) :
    countCodePoints (Spec.encodeText cps) = cps.length := by
  simp [countCodePoints, countLoop_text cps h]

/-- C44. The position of the n-th code point of a text is the size of the first n code points; there
is none if the text is shorter. -/
theorem C44_find_nth (cps : List Nat) (h : Spec.IsText cps) (n : Nat) :
    findNthCodePoint (Spec.encodeText cps) n =
      if n < cps.length then some (Spec.encodeText (cps.take n)).length else none := by
  unfold findNthCodePoint
  split
  · rename_i hn
    rw [if_neg]
    have := encodeText_length_le cps
    omega
  · have := findNthLoop_text cps h n 0 0 (by omega)
    simpa using this

/-- C44. For every byte string, valid or not, the count is at most the number of bytes and a
position found lies inside the string, not before byte n. -/
theorem C44_bounds (s : Str) (n : Nat) :
    countCodePoints s ≤ s.length ∧
      ∀ i, findNthCodePoint s n = some i → n ≤ i ∧ i < s.length := by
  constructor
  · unfold countCodePoints
    cases h : countLoop s 0 0 with
    | none => simp
    | some r => have := countLoop_le s 0 0 h; simpa using this
  · intro i h
    unfold findNthCodePoint at h
    split at h
    · simp at h
    · have := findNthLoop_bounds n s 0 0 0 h (by omega) (by omega) (by omega)
      omega

example : Spec.encodeText [0x61, 0xE6, 0x20AC, 0x1F600] = b!"aæ€😀" ∧
    countCodePoints b!"aæ€😀" = 4 ∧ findNthCodePoint b!"aæ€😀" 3 = some 6 := by decide

/-! ## C30: filtering argv -/

theorem filterLoop_sublist (argv us : List Str) (h : us.Sublist argv) : filterLoop argv us = us := by
  induction argv generalizing us with
  | nil => simp at h; subst h; rfl
  | cons a as ih =>
    cases us with
    | nil => rfl
    | cons u us =>
      simp only [filterLoop]
      split
      · rename_i e
        subst e
        rw [ih us]
        exact List.cons_sublist_cons.mp h
      · rename_i e
        apply ih
        cases h with
        | cons _ h => exact h
        | cons_cons _ h => exact absurd rfl e

/-- C30. If the unprocessed arguments occur in order among the arguments, filtering leaves exactly
the program name and the unprocessed arguments. -/
theorem C30_filter (a0 : Str) (as us : List Str) (h : us.Sublist as) :
    filterParsedArguments (a0 :: as) us = a0 :: us := by
  cases as with
  | nil => simp at h; subst h; rfl
  | cons a as =>
    have := filterLoop_sublist (a :: as) us h
    simp only [filterParsedArguments, this]

/-- C30. In any case the result is the program name followed by a beginning of the unprocessed
arguments that occurs in order in argv: nothing else is ever kept. -/
theorem C30_filter_sound (a0 : Str) (as us : List Str) :
    ∃ kept, filterParsedArguments (a0 :: as) us = a0 :: kept ∧ kept <+: us ∧ kept.Sublist as := by
  have key : ∀ as us, filterLoop as us <+: us ∧ (filterLoop as us).Sublist as := by
    intro as
    induction as with
    | nil => intro us; simp [filterLoop]
    | cons a as ih =>
      intro us
      cases us with
      | nil => simp [filterLoop]
      | cons u us =>
        simp only [filterLoop]
        split
        · rename_i e
          subst e
          exact ⟨List.cons_prefix_cons.mpr ⟨rfl, (ih us).1⟩, (ih us).2.cons_cons _⟩
        · exact ⟨(ih _).1, (ih _).2.cons _⟩
  cases as with
  | nil => exact ⟨[], rfl, by simp, by simp⟩
  | cons a as => exact ⟨_, rfl, (key (a :: as) us).1, (key (a :: as) us).2⟩

example : [b!"-x", b!"a", b!"-x"].Sublist [b!"-v", b!"-x", b!"b", b!"a", b!"-x"] ∧
    filterParsedArguments [b!"prog", b!"-v", b!"-x", b!"b", b!"a", b!"-x"] [b!"-x", b!"a", b!"-x"] =
      [b!"prog", b!"-x", b!"a", b!"-x"] := by decide

/-! ## C56: indexing a list of values -/

/-- C56 (what holds). An index within the list returns that value. Missing: the documented error
for an index that is too great. -/
theorem C56_value_at_partial (values : List (Str × Nat)) (i : Nat) (h : i < values.length) :
    valuesAt values i = .ok (some values[i].1, values[i].2) := by
  unfold valuesAt
  rw [if_neg]
  · simp [h]
  · intro he
    simp at he
    subst he
    simp at h

/-- C56 is violated: an index that is too great never ends in the documented error (exit or
ArgosException); it gives `std::out_of_range`, or a value without contents if there are no values. -/
theorem C56_violated (st : ParserSettings) (values : List (Str × Nat)) (i : Nat)
    (h : values.length ≤ i) :
    valuesAt values i ≠ valueError st ∧
      valuesAt values i = if values = [] then .ok (none, 0) else .outOfRange := by
  unfold valuesAt valueError
  by_cases hv : values = []
  · subst hv
    simp
    split <;> simp
  · have : values[i]? = none := by simp [h]
    simp only [this, hv, List.isEmpty_iff, if_false]
    refine ⟨?_, trivial⟩
    split <;> simp

example : valuesAt [(b!"a", 1), (b!"b", 2)] 1 = .ok (some b!"b", 2) := by decide

end Argos
