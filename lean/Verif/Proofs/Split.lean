import Verif.Proofs.Units

/-! # Lemmas about the splitting of words -/

namespace Argos
open Spec

namespace Splitter

theorem retreat_unit {a u b : Str} (hu : IsUnit u) : ∀ {i : Nat}, a.length ≤ i → i < a.length + u.length →
    retreat (a ++ u ++ b) i = .ok a.length := by
  obtain ⟨l, cs, rfl, hl, hc⟩ := hu
  have hlead : (a ++ l :: cs ++ b)[a.length]? = some l := by simp
  have hl0 := lead_not_cont l (by omega)
  intro i
  induction i with
  | zero =>
    intro h1 h2
    have h0 : a.length = 0 := by omega
    unfold retreat
    rw [h0] at hlead
    simp only [hlead, hl0, h0]
    simp
  | succ i ih =>
    intro h1 h2
    unfold retreat
    by_cases he : a.length = i + 1
    · rw [he] at hlead
      simp only [hlead, hl0, he]
      simp
    · have hlt : i + 1 < (a ++ l :: cs ++ b).length := by simp at h2 ⊢; omega
      have hlt2 : i - a.length < cs.length := by simp at h2; omega
      have hget : (a ++ l :: cs ++ b)[i + 1]? = some cs[i - a.length] := by
        rw [List.append_assoc, List.getElem?_append_right (by omega), List.cons_append]
        have e : i + 1 - a.length = (i - a.length) + 1 := by omega
        rw [e, List.getElem?_cons_succ, List.getElem?_append_left hlt2]
        simp [hlt2]
      simp only [hget, hc _ (List.getElem_mem hlt2), if_true]
      exact ih (by omega) (by omega)

/-- The loop of the default rule. -/
theorem splitPoint_ok {word : Str} {ignore : Bool} {minPos : Nat} (pos : Nat → Nat) : ∀ count : Nat,
    (∀ k, minPos ≤ k → k < count → (∃ i, pos (k + 1) = i + 1 ∧ stepBack word ignore i = .ok (pos k)) ∧
      1 ≤ pos k ∧ pos k < word.length) →
    splitPoint word ignore minPos count (pos count) = .ok none ∨
      ∃ k h, minPos ≤ k ∧ k < count ∧ splitPoint word ignore minPos count (pos count) = .ok (some ⟨pos k, h⟩) := by
  intro count
  induction count with
  | zero => intro _; left; rfl
  | succ count ih =>
    intro h
    unfold splitPoint
    split
    · rename_i hgt
      obtain ⟨⟨i, hi, hr⟩, h1, h2⟩ := h count (by omega) (by omega)
      have ih := ih (fun k a b => h k a (by omega))
      rw [hi]
      simp only
      rw [hr]
      simp only [Outcome.bind_ok]
      obtain ⟨j, hj⟩ : ∃ j, pos count = j + 1 := ⟨pos count - 1, by omega⟩
      rw [hj] at ih h2 ⊢
      simp only
      have e1 : word[j]? = some word[j] := by simp
      have e2 : word[j + 1]? = some word[j + 1] := by simp
      rw [e1, e2]
      simp only
      have next : splitPoint word ignore minPos count (j + 1) = .ok none ∨
          ∃ k h, minPos ≤ k ∧ k < count + 1 ∧ splitPoint word ignore minPos count (j + 1) = .ok (some ⟨pos k, h⟩) := by
        rcases ih with ih | ⟨k, hy, a, b, c⟩
        · exact .inl ih
        · exact .inr ⟨k, hy, a, by omega, c⟩
      split
      · exact next
      · split
        · exact .inr ⟨count, false, by omega, by omega, by rw [hj]; rfl⟩
        · split
          · exact .inr ⟨count, true, by omega, by omega, by rw [hj]; rfl⟩
          · exact next
    · left; rfl

/-- What the default rule returns. -/
structure Parts (word : Str) (n : Nat) (first : Str) (hyphen : Bool) (rest : Str) : Prop where
  join : first ++ rest = word
  fits : countCodePoints first + (if hyphen then 1 else 0) ≤ n
  some_ : word ≠ [] → first ≠ []
  whole : Whole word → Whole rest

/-- Splitting at a position given by units. -/
theorem parts_units {us : List Str} {post : Str} (h : ∀ u ∈ us, IsUnit u) {k n : Nat} (hk : k + 1 ≤ n) (h1 : 1 ≤ k) (hl : k ≤ us.length) (hy : Bool) :
    Parts (us.flatten ++ post) n ((us.flatten ++ post).take (us.take k).flatten.length) hy ((us.flatten ++ post).drop (us.take k).flatten.length) := by
  have e : us.flatten ++ post = (us.take k).flatten ++ ((us.drop k).flatten ++ post) := by
    rw [← List.append_assoc, ← List.flatten_append, List.take_append_drop]
  have hu : ∀ u ∈ us.take k, IsUnit u := fun u hu => h u (List.mem_of_mem_take hu)
  rw [e, List.take_left, List.drop_left]
  refine ⟨rfl, ?_, ?_, ?_⟩
  · rw [count_units hu, List.length_take]
    cases hy <;> simp only [Bool.false_eq_true, if_false, if_true] <;> omega
  · intro _ h0
    have := units_length_le hu
    rw [h0, List.length_take] at this
    simp only [List.length_nil] at this
    omega
  · intro hw
    exact (whole_take h k).of_append hw

theorem defaultRule_ok (word : Str) {n : Nat} (hn : n > 2) :
    ∃ first hyphen rest, defaultRule word n = .ok (first, hyphen, rest) ∧ Parts word n first hyphen rest := by
  unfold defaultRule
  rw [if_neg (by omega)]
  cases hf : findNthCodePoint word n with
  | none => exact ⟨word, false, [], rfl, by simp, by simpa using findNth_none hf, fun h => h, fun _ => whole_nil⟩
  | some p =>
    obtain ⟨hnp, hp, hcase⟩ := findNth_cases hf
    simp only
    by_cases hpn : p = n
    · -- bytes
      subst hpn
      simp only [decide_true, stepBack, if_true, Outcome.bind_ok]
      have hparts : ∀ k hy, 1 ≤ k → k + 1 ≤ p → Parts word p (word.take k) hy (word.drop k) := by
        intro k hy h1 h2
        refine ⟨List.take_append_drop .., ?_, ?_, ?_⟩
        · have := count_le_length (word.take k)
          rw [List.length_take] at this
          cases hy <;> simp only [Bool.false_eq_true, if_false, if_true] <;> omega
        · intro _ h0
          have := congrArg List.length h0
          rw [List.length_take] at this
          simp only [List.length_nil] at this
          omega
        · rintro ⟨us, hu, rfl⟩
          rw [findNth_units hu] at hf
          split at hf
          · rename_i hlt
            simp only [Option.some.injEq] at hf
            -- every one of the first units is a byte
            have hall : ∀ k, k ≤ p → (us.take k).flatten.length = k := by
              intro k hk
              have a1 := units_length_le (us := us.take k) (fun u h => hu u (List.mem_of_mem_take h))
              have a2 := units_length_le (us := (us.take p).drop k) (fun u h => hu u (List.mem_of_mem_take (List.mem_of_mem_drop h)))
              have a3 : (us.take p).flatten.length = (us.take k).flatten.length + ((us.take p).drop k).flatten.length := by
                rw [← List.length_append, ← List.flatten_append]
                congr 2
                have : us.take k = (us.take p).take k := by rw [List.take_take, Nat.min_eq_left hk]
                rw [this, List.take_append_drop]
              rw [List.length_take] at a1
              rw [List.length_drop, List.length_take] at a2
              omega
            have e : us.flatten = (us.take k).flatten ++ (us.drop k).flatten := by rw [← List.flatten_append, List.take_append_drop]
            have ek := hall k (by omega)
            rw [e, List.drop_left' ek]
            exact whole_drop hu k
          · simp at hf
      rcases splitPoint_ok (word := word) (ignore := true) (minPos := (p + 2) / 3) (fun k => k) (p - 1) (by
        intro k h1 h2
        exact ⟨⟨k, rfl, rfl⟩, by omega, by omega⟩) with h | ⟨k, hy, h1, h2, h⟩
      · rw [h]
        exact ⟨_, _, _, rfl, hparts (p - 1) true (by omega) (by omega)⟩
      · rw [h]
        exact ⟨_, _, _, rfl, hparts k hy (by omega) (by omega)⟩
    · rcases hcase with h | ⟨us, post, rfl, hu, hlen, hpl⟩
      · exact absurd h hpn
      · simp only [hpn, decide_false, stepBack, Bool.false_eq_true, if_false]
        -- stepping back one unit
        have hstep : ∀ k, k < n → ∃ i, (us.take (k + 1)).flatten.length = i + 1 ∧ retreat (us.flatten ++ post) i = .ok (us.take k).flatten.length := by
          intro k hk
          have hk' : k < us.length := by omega
          have hun := hu _ (List.getElem_mem hk')
          have e1 : us.take (k + 1) = us.take k ++ [us[k]] := by rw [List.take_add_one]; simp [hk']
          have e2 : us.flatten ++ post = (us.take k).flatten ++ us[k] ++ ((us.drop (k + 1)).flatten ++ post) := by
            have : us = us.take k ++ [us[k]] ++ us.drop (k + 1) := by rw [← e1, List.take_append_drop]
            have h3 := congrArg List.flatten this
            rw [List.flatten_append, List.flatten_append] at h3
            rw [h3]
            simp
          have hpos := hun.length_pos
          refine ⟨(us.take k).flatten.length + us[k].length - 1, ?_, ?_⟩
          · rw [e1, List.flatten_append, List.length_append]
            simp only [List.flatten_cons, List.flatten_nil, List.append_nil]
            omega
          · rw [e2]
            exact retreat_unit hun (by omega) (by omega)
        have hmax : retreat (us.flatten ++ post) (p - 1) = .ok (us.take (n - 1)).flatten.length := by
          obtain ⟨i, h1, h2⟩ := hstep (n - 1) (by omega)
          have e : n - 1 + 1 = us.length := by omega
          rw [e, List.take_length, ← hpl] at h1
          rw [show p - 1 = i by omega]
          exact h2
        rw [hmax]
        simp only [Outcome.bind_ok]
        rcases splitPoint_ok (word := us.flatten ++ post) (ignore := false) (minPos := (n + 2) / 3) (fun k => (us.take k).flatten.length) (n - 1) (by
          intro k h1 h2
          obtain ⟨i, a1, a2⟩ := hstep k (by omega)
          refine ⟨⟨i, a1, by simpa [stepBack] using a2⟩, ?_, ?_⟩
          · have := units_length_le (us := us.take k) (fun u h => hu u (List.mem_of_mem_take h))
            rw [List.length_take] at this
            omega
          · have hle : (us.take k).flatten.length ≤ us.flatten.length := by
              have h3 := congrArg (fun l => (List.flatten l).length) (List.take_append_drop k us)
              simp only [List.flatten_append, List.length_append] at h3
              omega
            omega) with h | ⟨k, hy, h1, h2, h⟩
        · rw [h]
          exact ⟨_, _, _, rfl, parts_units hu (by omega) (by omega) (by omega) _⟩
        · rw [h]
          exact ⟨_, _, _, rfl, parts_units hu (by omega) (by omega) (by omega) _⟩

/-! ### Rules -/

/-- The rules are within their words and in order. -/
def Bounded (sp : Splitter) : Prop := ∀ r ∈ sp, r.2.Pairwise (fun a b => a.index ≤ b.index) ∧ ∀ s ∈ r.2, s.index ≤ r.1.length

/-- The rules split between code points. -/
def Clean (sp : Splitter) : Prop := ∀ r ∈ sp, Whole r.1 ∧ ∀ s ∈ r.2, Whole (r.1.take s.index)

theorem splitsOf_bounded (rule : Str) : ∀ {prev : Option UInt8} {n : Nat} {splits : List Split}, splitsOf rule prev n = .ok splits →
    splits.Pairwise (fun a b => a.index ≤ b.index) ∧ ∀ s ∈ splits, n ≤ s.index ∧ s.index ≤ n + (rule.filter (· ≠ c!" ")).length := by
  induction rule with
  | nil =>
    intro prev n splits h
    simp only [splitsOf, Outcome.ok.injEq] at h
    subst h
    simp
  | cons c s ih =>
    intro prev n splits h
    unfold splitsOf at h
    split at h
    · rename_i hc
      subst hc
      split at h
      · simp at h
      · split at h
        · simp at h
        · rw [Outcome.bind_eq_ok] at h
          obtain ⟨rest, h1, h⟩ := h
          simp only [Outcome.pure_eq, Outcome.ok.injEq] at h
          subst h
          obtain ⟨a1, a2⟩ := ih h1
          refine ⟨List.pairwise_cons.mpr ⟨fun x hx => (a2 x hx).1, a1⟩, ?_⟩
          intro x hx
          rcases List.mem_cons.mp hx with rfl | hx
          · simp
          · have := a2 x hx
            simpa using this
    · rename_i hc
      obtain ⟨a1, a2⟩ := ih h
      refine ⟨a1, fun x hx => ?_⟩
      have := a2 x hx
      rw [List.filter_cons_of_pos (by simpa using hc), List.length_cons]
      omega

theorem splitsOf_clean (rule : Str) : ∀ {pre : Str} {prev : Option UInt8} {splits : List Split},
    splitsOf rule prev (pre.filter (· ≠ c!" ")).length = .ok splits → Whole (pre ++ rule) →
    ∀ s ∈ splits, Whole (((pre ++ rule).filter (· ≠ c!" ")).take s.index) := by
  induction rule with
  | nil =>
    intro pre prev splits h hw s hs
    simp only [splitsOf, Outcome.ok.injEq] at h
    subst h
    simp only [List.mem_singleton] at hs
    subst hs
    rw [List.append_nil] at hw ⊢
    rw [List.take_length]
    exact whole_filter hw
  | cons c s ih =>
    intro pre prev splits h hw x hx
    have e : pre ++ c :: s = (pre ++ [c]) ++ s := by simp
    unfold splitsOf at h
    split at h
    · rename_i hc
      subst hc
      split at h
      · simp at h
      · split at h
        · simp at h
        · rw [Outcome.bind_eq_ok] at h
          obtain ⟨rest, h1, h⟩ := h
          simp only [Outcome.pure_eq, Outcome.ok.injEq] at h
          subst h
          rcases List.mem_cons.mp hx with rfl | hx
          · simp only [List.filter_append]
            rw [List.take_left]
            refine whole_filter (hw.prefix ?_)
            intro c hc
            simp only [List.head?_cons, Option.some.injEq] at hc
            subst hc
            decide
          · rw [e]
            refine ih (pre := pre ++ [c!" "]) (prev := some c!" ") (splits := rest) ?_ (by rw [← e]; exact hw) x hx
            rw [List.filter_append]
            simpa using h1
    · rename_i hc
      rw [e]
      refine ih (pre := pre ++ [c]) (prev := some c) ?_ (by rw [← e]; exact hw) x hx
      rw [List.filter_append, List.filter_cons_of_pos (by simpa using hc)]
      simpa using h

theorem addWord_ok {sp sp' : Splitter} {rule : Str} (h : addWord sp rule = .ok sp') :
    sp' = sp ∨ ∃ splits, splitsOf rule none 0 = .ok splits ∧ sp' = sp ++ [(toLower (rule.filter (· ≠ c!" ")), splits)] := by
  unfold addWord at h
  rw [Outcome.bind_eq_ok] at h
  obtain ⟨splits, h1, h⟩ := h
  simp only at h
  split at h
  · simp only [Outcome.pure_eq, Outcome.ok.injEq] at h
    exact .inl h.symm
  · simp only [Outcome.pure_eq, Outcome.ok.injEq] at h
    exact .inr ⟨splits, h1, h.symm⟩

theorem addWord_bounded {sp sp' : Splitter} {rule : Str} (h : addWord sp rule = .ok sp') (hb : Bounded sp) : Bounded sp' := by
  rcases addWord_ok h with rfl | ⟨splits, h1, rfl⟩
  · exact hb
  · intro r hr
    rcases List.mem_append.mp hr with hr | hr
    · exact hb r hr
    · simp only [List.mem_singleton] at hr
      subst hr
      obtain ⟨a1, a2⟩ := splitsOf_bounded rule h1
      refine ⟨a1, fun s hs => ?_⟩
      have := a2 s hs
      simp only [toLower, List.length_map]
      omega

theorem addWord_clean {sp sp' : Splitter} {rule : Str} (h : addWord sp rule = .ok sp') (hc : Clean sp) (hr : Utf8 rule) : Clean sp' := by
  rcases addWord_ok h with rfl | ⟨splits, h1, rfl⟩
  · exact hc
  · intro r hm
    rcases List.mem_append.mp hm with hm | hm
    · exact hc r hm
    · simp only [List.mem_singleton] at hm
      subst hm
      have hw := whole_utf8 hr
      refine ⟨whole_map toLowerChar_keeps (whole_filter hw), fun s hs => ?_⟩
      have := splitsOf_clean rule (pre := []) (prev := none) h1 hw s hs
      simp only [toLower, ← List.map_take]
      exact whole_map toLowerChar_keeps this

theorem addWords_bounded (rules : List Str) : ∀ {sp sp' : Splitter}, addWords sp rules = .ok sp' → Bounded sp → Bounded sp' := by
  induction rules with
  | nil => intro sp sp' h hb; simp [addWords] at h; exact h ▸ hb
  | cons r rs ih =>
    intro sp sp' h hb
    unfold addWords at h
    rw [Outcome.bind_eq_ok] at h
    obtain ⟨sp1, h1, h⟩ := h
    exact ih h (addWord_bounded h1 hb)

theorem addWords_clean (rules : List Str) : ∀ {sp sp' : Splitter}, addWords sp rules = .ok sp' → Clean sp → (∀ r ∈ rules, Utf8 r) → Clean sp' := by
  induction rules with
  | nil => intro sp sp' h hb _; simp [addWords] at h; exact h ▸ hb
  | cons r rs ih =>
    intro sp sp' h hb hr
    unfold addWords at h
    rw [Outcome.bind_eq_ok] at h
    obtain ⟨sp1, h1, h⟩ := h
    exact ih h (addWord_clean h1 hb (hr r (by simp))) (fun r hm => hr r (by simp [hm]))

theorem bounded_nil : Bounded [] := by intro r hr; simp at hr
theorem clean_nil : Clean [] := by intro r hr; simp at hr

/-! ### Splitting by a rule -/

/-- The part of a word between two positions. -/
def slice (word : Str) (a b : Nat) : Str := (word.drop a).take (b - a)

theorem slice_append {word : Str} {a b c : Nat} (h1 : a ≤ b) (h2 : b ≤ c) : slice word a b ++ slice word b c = slice word a c := by
  unfold slice
  have e : c - a = (b - a) + (c - b) := by omega
  rw [e, List.take_add, List.drop_drop]
  congr 3
  omega

theorem slice_self (word : Str) (a : Nat) : slice word a a = [] := by simp [slice]

theorem slice_drop {word : Str} {a b : Nat} (h : a ≤ b) : slice word a b ++ word.drop b = word.drop a := by
  unfold slice
  have : word.drop b = (word.drop a).drop (b - a) := by rw [List.drop_drop]; congr 1; omega
  rw [this, List.take_append_drop]

theorem take_slice {word : Str} {a b : Nat} (h : a ≤ b) : word.take a ++ slice word a b = word.take b := by
  unfold slice
  have : b = a + (b - a) := by omega
  rw [this, List.take_add]
  congr 3
  omega

theorem splitLoop_ok {word : Str} {start maxLength : Nat} (splits : List Split) : ∀ {prev : Split} {length : Nat},
    splits.Pairwise (fun a b => a.index ≤ b.index) → (∀ s ∈ splits, s.index ≤ word.length) →
    (∀ s ∈ splits, start < s.index → prev.index ≤ s.index) → start ≤ prev.index → prev.index ≤ word.length →
    glyphs (slice word start prev.index) ≤ length → glyphs (slice word start prev.index) + (if prev.hyphen then 1 else 0) ≤ maxLength →
    ∃ p, splitLoop word start maxLength splits prev length = .ok p ∧ start ≤ p.index ∧ p.index ≤ word.length ∧ (p = prev ∨ p ∈ splits) ∧
      glyphs (slice word start p.index) + (if p.hyphen then 1 else 0) ≤ maxLength := by
  induction splits with
  | nil =>
    intro prev length _ _ _ h1 h2 _ h4
    exact ⟨prev, rfl, h1, h2, .inl rfl, h4⟩
  | cons s ss ih =>
    intro prev length hp hb hm h1 h2 h3 h4
    have hp2 := (List.pairwise_cons.mp hp).2
    have hb2 : ∀ s ∈ ss, s.index ≤ word.length := fun x hx => hb x (by simp [hx])
    unfold splitLoop
    split
    · rename_i hlt
      obtain ⟨p, a1, a2, a3, a4, a5⟩ := ih hp2 hb2 (fun x hx => hm x (by simp [hx])) h1 h2 h3 h4
      refine ⟨p, a1, a2, a3, ?_, a5⟩
      rcases a4 with h | h
      · exact .inl h
      · exact .inr (by simp [h])
    · rename_i hge
      have hsi := hm s (by simp) (by omega)
      have hsub : substr word prev.index (s.index - prev.index) = .ok (slice word prev.index s.index) := by
        unfold substr
        rw [if_neg (by omega)]
        rfl
      rw [hsub]
      simp only [Outcome.bind_ok]
      by_cases hle : length + countCodePoints (slice word prev.index s.index) + (if s.hyphen then 1 else 0) > maxLength
      · rw [if_pos hle]
        exact ⟨prev, rfl, h1, h2, .inl rfl, h4⟩
      · rw [if_neg hle]
        have hg := glyphs_le_count (slice word prev.index s.index)
        have he : glyphs (slice word start s.index) = glyphs (slice word start prev.index) + glyphs (slice word prev.index s.index) := by
          rw [← glyphs_append, slice_append h1 hsi]
        obtain ⟨p, a1, a2, a3, a4, a5⟩ := ih (prev := s) hp2 hb2 (fun x hx _ => (List.pairwise_cons.mp hp).1 x hx) (by omega) (hb s (by simp))
          (length := length + countCodePoints (slice word prev.index s.index)) (by omega) (by omega)
        refine ⟨p, a1, a2, a3, ?_, a5⟩
        rcases a4 with rfl | h
        · exact .inr (by simp)
        · exact .inr (by simp [h])

theorem removePunctuation_prefix (word : Str) : ∃ p, word = removePunctuation word ++ p ∧ ∀ c ∈ p, c.toNat < 0x80 := by
  refine ⟨(word.reverse.takeWhile fun c => b!".,;:!?()[]{}<>\"'`".contains c).reverse, ?_, ?_⟩
  · unfold removePunctuation
    rw [← List.reverse_append, List.takeWhile_append_dropWhile, List.reverse_reverse]
  · intro c hc
    rw [List.mem_reverse] at hc
    have h1 := (List.all_eq_true.mp (List.all_takeWhile (l := word.reverse))) c hc
    rw [List.contains_iff_mem] at h1
    clear hc
    revert c
    decide

/-- The key of a word is its lower case form without punctuation. -/
theorem key_eq (key : Str) : (if isLower key then key else toLower key) = toLower key := by
  split
  · rename_i h
    unfold isLower at h
    unfold toLower
    rw [List.all_eq_true] at h
    symm
    have : key.map toLowerChar = key.map id := by
      refine List.map_congr_left fun c hc => ?_
      have := h c hc
      unfold toLowerChar
      rw [if_neg (by simp at this ⊢; omega)]
      rfl
    simpa using this
  · rfl

/-- A rule applies to the word. -/
def HasRule (sp : Splitter) (word : Str) : Prop := (sp.lookup (toLower (removePunctuation word))).isSome

theorem mem_of_lookup {α β : Type} [BEq α] [LawfulBEq α] {l : List (α × β)} {k : α} {v : β} (h : l.lookup k = some v) : (k, v) ∈ l := by
  induction l with
  | nil => simp at h
  | cons p l ih =>
    rw [List.lookup_cons] at h
    split at h
    · rename_i hk
      simp only [Option.some.injEq] at h
      subst h
      have := eq_of_beq hk
      subst this
      simp
    · exact List.mem_cons_of_mem _ (ih h)

/-- What `split` returns when it returns a first part. -/
structure Piece (sp : Splitter) (word rem : Str) (n : Nat) (first : Str) (hyphen : Bool) (rest : Str) : Prop where
  join : first ++ rest = rem
  narrow : glyphs first + (if hyphen then 1 else 0) ≤ n
  fits : Clean sp → (HasRule sp word → Whole rem) → countCodePoints first + (if hyphen then 1 else 0) ≤ n
  whole : Clean sp → (HasRule sp word → Whole rem) → HasRule sp word → Whole rest

theorem splitDefault_ok (sp : Splitter) {word : Str} {start n : Nat} (must : Bool) (hs : start ≤ word.length) :
    ∃ first hyphen rest, splitDefault word start n must = .ok (first, hyphen, rest) ∧
      (first ≠ [] → Piece sp word (word.drop start) n first hyphen rest) ∧
      (must = true → n > 2 → word.drop start ≠ [] → first ≠ []) := by
  unfold splitDefault
  cases must with
  | false => exact ⟨[], false, word, rfl, by simp, by simp⟩
  | true =>
    simp only [if_true]
    have : substrFrom word start = .ok (word.drop start) := by
      unfold substrFrom
      rw [if_neg (by omega)]
    rw [this]
    simp only [Outcome.bind_ok]
    by_cases hn : n > 2
    · obtain ⟨first, hy, rest, h1, h2⟩ := defaultRule_ok (word.drop start) hn
      exact ⟨first, hy, rest, h1, fun _ => ⟨h2.join, Nat.le_trans (Nat.add_le_add_right (glyphs_le_count _) _) h2.fits, fun _ _ => h2.fits, fun _ hw hr => h2.whole (hw hr)⟩, fun _ _ hne => h2.some_ hne⟩
    · refine ⟨[], false, word.drop start, ?_, by simp, by omega⟩
      unfold defaultRule
      rw [if_pos (by omega)]

theorem split_ok {sp : Splitter} (hb : Bounded sp) {word : Str} {start n : Nat} (must : Bool) (hs : start ≤ word.length) :
    ∃ first hyphen rest, split sp word start n must = .ok (first, hyphen, rest) ∧
      (first ≠ [] → Piece sp word (word.drop start) n first hyphen rest) ∧
      (must = true → n > 2 → word.drop start ≠ [] → first ≠ []) := by
  unfold split
  simp only [key_eq]
  split
  · rename_i splits hl
    have hmem := mem_of_lookup hl
    obtain ⟨b1, b2⟩ := hb _ hmem
    simp only [toLower, List.length_map] at b2
    obtain ⟨punct, hw, hpu⟩ := removePunctuation_prefix word
    have hlen : (removePunctuation word).length ≤ word.length := by
      have := congrArg List.length hw
      rw [List.length_append] at this
      omega
    obtain ⟨p, a1, a2, a3, a4, a5⟩ := splitLoop_ok (word := word) (start := start) (maxLength := n) splits (prev := ⟨start, false⟩) (length := 0) b1
      (fun s hs => Nat.le_trans (b2 s hs) hlen) (fun s _ h => by simp only; omega) (Nat.le_refl _) hs
      (by simp [slice_self, glyphs_nil]) (by simp [slice_self, glyphs_nil])
    rw [a1]
    simp only [Outcome.bind_ok]
    split
    · rename_i hgt
      have e1 : substr word start (p.index - start) = .ok (slice word start p.index) := by
        unfold substr
        rw [if_neg (by omega)]
        rfl
      have e2 : substrFrom word p.index = .ok (word.drop p.index) := by
        unfold substrFrom
        rw [if_neg (by omega)]
      rw [e1, Outcome.bind_ok, e2, Outcome.bind_ok]
      have hps : p ∈ splits := by
        rcases a4 with rfl | h
        · simp only at hgt; omega
        · exact h
      have clean : Clean sp → Whole (word.take p.index) ∧ Whole (word.drop p.index) := by
        intro hc
        obtain ⟨c1, c2⟩ := hc _ hmem
        have hk : p.index ≤ (removePunctuation word).length := b2 p hps
        have w1 : Whole (removePunctuation word) := whole_of_map toLowerChar_keeps c1
        have w2 : Whole ((removePunctuation word).take p.index) := by
          have := c2 p hps
          simp only [toLower, ← List.map_take] at this
          exact whole_of_map toLowerChar_keeps this
        have e3 : word.take p.index = (removePunctuation word).take p.index := by
          conv => lhs; rw [hw]
          rw [List.take_append_of_le_length hk]
        rw [e3]
        refine ⟨w2, ?_⟩
        have w3 : Whole word := by
          rw [hw]
          exact w1.append (whole_ascii hpu)
        rw [← e3] at w2
        refine w2.of_append ?_
        rw [List.take_append_drop]
        exact w3
      refine ⟨_, _, _, rfl, fun _ => ⟨slice_drop (by omega), a5, ?_, ?_⟩, ?_⟩
      · intro hc hrem
        obtain ⟨w1, w2⟩ := clean hc
        have w3 := hrem (by unfold HasRule; rw [hl]; rfl)
        have w4 : Whole word := by
          rw [← List.take_append_drop p.index word]
          exact w1.append w2
        have w5 : Whole (word.take start) := by
          refine Whole.prefix (b := word.drop start) ?_ w3.head
          rw [List.take_append_drop]
          exact w4
        have w6 : Whole (slice word start p.index) := by
          refine w5.of_append ?_
          rw [take_slice (by omega)]
          exact w1
        rw [count_whole w6]
        exact a5
      · intro hc _ _
        exact (clean hc).2
      · intro _ _ _ h0
        have := congrArg List.length h0
        simp only [slice, List.length_take, List.length_drop, List.length_nil] at this
        omega
    · exact splitDefault_ok sp must hs
  · exact splitDefault_ok sp must hs

end Splitter

end Argos
