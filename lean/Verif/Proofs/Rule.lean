import Verif.Proofs.Split

/-! # Words are split as their rules say -/

namespace Argos
open Spec

theorem foldByte_lower : ∀ c : UInt8, foldByte c = (toLowerChar c).toNat := forall_byte (by decide +kernel)

theorem foldCase_iff (s t : Str) : foldCase s = foldCase t ↔ toLower s = toLower t := by
  have e : ∀ s, foldCase s = (toLower s).map UInt8.toNat := by
    intro s
    unfold foldCase toLower
    rw [List.map_map]
    exact List.map_congr_left fun c _ => foldByte_lower c
  rw [e, e]
  constructor
  · intro h
    exact (List.map_inj_right (fun a b hab => UInt8.toNat_inj.mp hab)).mp h
  · intro h
    rw [h]

theorem removePunctuation_eq {w p : Str} (hp : ∀ c ∈ p, isPunctuation c) (hw : ∀ c, w.getLast? = some c → ¬ isPunctuation c) :
    removePunctuation (w ++ p) = w := by
  unfold removePunctuation
  rw [List.reverse_append]
  have h1 : ∀ c ∈ p.reverse, (b!".,;:!?()[]{}<>\"'`".contains c) = true := by
    intro c hc
    rw [List.contains_iff_mem]
    exact hp c (by simpa using hc)
  rw [List.dropWhile_append_of_pos h1]
  have h2 : w.reverse.dropWhile (fun c => b!".,;:!?()[]{}<>\"'`".contains c) = w.reverse := by
    cases hr : w.reverse with
    | nil => rfl
    | cons c l =>
      rw [List.dropWhile_cons_of_neg]
      intro hc
      rw [List.contains_iff_mem] at hc
      refine hw c ?_ hc
      rw [← List.head?_reverse, hr]
      rfl
  rw [h2, List.reverse_reverse]

theorem ruleFor_iff (rule word : Str) : RuleFor rule word ↔ toLower (unbroken rule) = toLower (removePunctuation word) := by
  constructor
  · rintro ⟨w, p, rfl, h1, h2, h3⟩
    rw [removePunctuation_eq h1 h2]
    exact (foldCase_iff ..).mp h3
  · intro h
    refine ⟨removePunctuation word, (word.reverse.takeWhile fun c => b!".,;:!?()[]{}<>\"'`".contains c).reverse, ?_, ?_, ?_, (foldCase_iff ..).mpr h⟩
    · unfold removePunctuation
      rw [← List.reverse_append, List.takeWhile_append_dropWhile, List.reverse_reverse]
    · intro c hc
      rw [List.mem_reverse] at hc
      have h1 := (List.all_eq_true.mp (List.all_takeWhile (l := word.reverse))) c hc
      rwa [List.contains_iff_mem] at h1
    · intro c hc hp
      unfold removePunctuation at hc
      rw [List.getLast?_reverse] at hc
      have := List.head?_dropWhile_not (fun c => b!".,;:!?()[]{}<>\"'`".contains c) word.reverse
      rw [hc] at this
      simp only at this
      rw [← Bool.not_eq_true, List.contains_iff_mem] at this
      exact this hp

namespace Splitter

theorem getLast?_or_cons (c : UInt8) (a : Str) (prev : Option UInt8) : (c :: a).getLast?.or prev = a.getLast?.or (some c) := by
  cases a with
  | nil => rfl
  | cons x a =>
    rw [List.getLast?_cons_cons]
    cases h : (x :: a).getLast? with
    | none => simp at h
    | some y => rfl

theorem splitsOf_mem (rule : Str) : ∀ {prev : Option UInt8} {n : Nat} {splits : List Split}, splitsOf rule prev n = .ok splits → ∀ s : Split,
    s ∈ splits ↔ (∃ a b, rule = a ++ 32 :: b ∧ s.index = n + (unbroken a).length ∧ s.hyphen = decide (a.getLast?.or prev ≠ some 45)) ∨
      s = ⟨n + (unbroken rule).length, false⟩ := by
  induction rule with
  | nil =>
    intro prev n splits h s
    simp only [splitsOf, Outcome.ok.injEq] at h
    subst h
    simp [unbroken]
  | cons c rule ih =>
    intro prev n splits h s
    unfold splitsOf at h
    split at h
    · rename_i hc
      subst hc
      split at h
      · simp at h
      · rename_i p
        split at h
        · simp at h
        · rw [Outcome.bind_eq_ok] at h
          obtain ⟨rest, h1, h⟩ := h
          simp only [Outcome.pure_eq, Outcome.ok.injEq] at h
          subst h
          rw [List.mem_cons, ih h1 s]
          have e : unbroken (c!" " :: rule) = unbroken rule := by simp [unbroken]
          rw [e]
          constructor
          · rintro (rfl | ⟨a, b, rfl, h2, h3⟩ | h)
            · refine .inl ⟨[], rule, rfl, by simp [unbroken], ?_⟩
              simp
            · refine .inl ⟨c!" " :: a, b, rfl, by simpa [unbroken] using h2, ?_⟩
              rw [h3, getLast?_or_cons]
            · exact .inr h
          · rintro (⟨a, b, h2, h3, h4⟩ | h)
            · cases a with
              | nil =>
                left
                simp only [unbroken, List.filter_nil, List.length_nil, Nat.add_zero, List.getLast?_nil, Option.none_or] at h3 h4
                cases s
                simp_all
              | cons x a =>
                simp only [List.cons_append, List.cons.injEq] at h2
                obtain ⟨rfl, rfl⟩ := h2
                refine .inr (.inl ⟨a, b, rfl, by simpa [unbroken] using h3, ?_⟩)
                rw [h4, getLast?_or_cons]
            · exact .inr (.inr h)
    · rename_i hc
      rw [ih h s]
      have e : ∀ a : Str, unbroken (c :: a) = c :: unbroken a := by
        intro a
        unfold unbroken
        rw [List.filter_cons_of_pos]
        simpa using hc
      constructor
      · rintro (⟨a, b, rfl, h2, h3⟩ | h)
        · refine .inl ⟨c :: a, b, rfl, by rw [h2, e, List.length_cons]; omega, ?_⟩
          rw [h3, getLast?_or_cons]
        · refine .inr ?_
          rw [h, e, List.length_cons]
          simp only [Split.mk.injEq, and_true]
          omega
      · rintro (⟨a, b, h2, h3, h4⟩ | h)
        · cases a with
          | nil =>
            simp only [List.nil_append, List.cons.injEq] at h2
            exact absurd h2.1 hc
          | cons x a =>
            simp only [List.cons_append, List.cons.injEq] at h2
            obtain ⟨rfl, rfl⟩ := h2
            rw [e, List.length_cons] at h3
            refine .inl ⟨a, b, rfl, by omega, ?_⟩
            rw [h4, getLast?_or_cons]
        · refine .inr ?_
          rw [h, e, List.length_cons]
          simp only [Split.mk.injEq, and_true]
          omega

theorem splitsOf_maySplit {rule : Str} {splits : List Split} (h : splitsOf rule none 0 = .ok splits) (n : Nat) (hy : Bool) :
    MaySplit rule n hy ↔ ⟨n, hy⟩ ∈ splits := by
  rw [splitsOf_mem rule h]
  simp only [Nat.zero_add, Split.mk.injEq]
  constructor
  · rintro (⟨h1⟩ | _)
    · exact .inl ⟨_, _, h1, rfl, by simp⟩
    · exact .inr ⟨rfl, rfl⟩
  · rintro (⟨a, b, h1, rfl, rfl⟩ | ⟨rfl, rfl⟩)
    · have := MaySplit.space h1
      simpa using this
    · exact .atEnd

theorem splitsOf_strict (rule : Str) : ∀ {prev : Option UInt8} {n : Nat} {splits : List Split}, splitsOf rule prev n = .ok splits →
    rule.getLast? ≠ some 32 → splits.Pairwise (fun a b => a.index < b.index) := by
  induction rule with
  | nil =>
    intro prev n splits h _
    simp only [splitsOf, Outcome.ok.injEq] at h
    subst h
    simp
  | cons c rule ih =>
    intro prev n splits h hl
    unfold splitsOf at h
    split at h
    · rename_i hc
      subst hc
      split at h
      · simp at h
      · split at h
        · simp at h
        · rw [Outcome.bind_eq_ok] at h
          obtain ⟨rest, h1, h⟩ := h
          simp only [Outcome.pure_eq, Outcome.ok.injEq] at h
          subst h
          cases rule with
          | nil => simp at hl
          | cons c' rule =>
            rw [List.getLast?_cons_cons] at hl
            refine List.pairwise_cons.mpr ⟨?_, ih h1 hl⟩
            intro x hx
            unfold splitsOf at h1
            split at h1
            · simp at h1
            · have := (splitsOf_bounded rule h1).2 x hx
              simp only
              omega
    · refine ih h ?_
      cases rule with
      | nil => simp
      | cons c' rule => rwa [List.getLast?_cons_cons] at hl

theorem glyphs_pos {s : Str} (h : Whole s) (hs : s ≠ []) : 1 ≤ glyphs s := by
  rw [← count_whole h]
  exact count_pos hs

/-- The loop finds the last split that fits. -/
theorem splitLoop_best {word : Str} {start maxLength : Nat} (hstart : Whole (word.take start)) (splits : List Split) : ∀ {prev : Split} {length : Nat},
    splits.Pairwise (fun a b => a.index < b.index) → (∀ s ∈ splits, s.index ≤ word.length ∧ Whole (word.take s.index)) →
    (∀ s ∈ splits, start < s.index → prev.index < s.index) → start ≤ prev.index → prev.index ≤ word.length → Whole (word.take prev.index) →
    glyphs (slice word start prev.index) = length →
    ∃ p, splitLoop word start maxLength splits prev length = .ok p ∧
      (p = prev ∨ p ∈ splits ∧ start < p.index ∧ glyphs (slice word start p.index) + (if p.hyphen then 1 else 0) ≤ maxLength) ∧
      ∀ s ∈ splits, p.index < s.index → maxLength < glyphs (slice word start s.index) + (if s.hyphen then 1 else 0) := by
  induction splits with
  | nil =>
    intro prev length _ _ _ h1 h2 _ h4
    exact ⟨prev, rfl, .inl rfl, by simp⟩
  | cons s ss ih =>
    intro prev length hp hb hm h1 h2 hw h3
    have hp1 := (List.pairwise_cons.mp hp).1
    have hp2 := (List.pairwise_cons.mp hp).2
    have hb2 : ∀ s ∈ ss, s.index ≤ word.length ∧ Whole (word.take s.index) := fun x hx => hb x (by simp [hx])
    unfold splitLoop
    split
    · rename_i hlt
      obtain ⟨p, a1, a2, a3⟩ := ih hp2 hb2 (fun x hx => hm x (by simp [hx])) h1 h2 hw h3
      refine ⟨p, a1, ?_, ?_⟩
      · rcases a2 with h | ⟨h, h'⟩
        · exact .inl h
        · exact .inr ⟨by simp [h], h'⟩
      · intro x hx hlt'
        rcases List.mem_cons.mp hx with rfl | hx
        · have : start ≤ p.index := by
            rcases a2 with rfl | ⟨_, h, _⟩ <;> omega
          omega
        · exact a3 x hx hlt'
    · rename_i hge
      have hsi := hm s (by simp) (by omega)
      have hsub : substr word prev.index (s.index - prev.index) = .ok (slice word prev.index s.index) := by
        unfold substr
        rw [if_neg (by omega)]
        rfl
      rw [hsub]
      simp only [Outcome.bind_ok]
      have hslice : ∀ {a b : Nat}, a ≤ b → Whole (word.take a) → Whole (word.take b) → Whole (slice word a b) := by
        intro a b hab ha hb
        refine ha.of_append ?_
        rwa [take_slice hab]
      have hcount : countCodePoints (slice word prev.index s.index) = glyphs (slice word prev.index s.index) :=
        count_whole (hslice (by omega) hw (hb s (by simp)).2)
      have he : glyphs (slice word start s.index) = length + countCodePoints (slice word prev.index s.index) := by
        rw [hcount, ← h3, ← glyphs_append, slice_append h1 (by omega)]
      by_cases hle : length + countCodePoints (slice word prev.index s.index) + (if s.hyphen then 1 else 0) > maxLength
      · rw [if_pos hle]
        refine ⟨prev, rfl, .inl rfl, ?_⟩
        intro x hx hlt
        rcases List.mem_cons.mp hx with rfl | hx
        · omega
        · have hsx := hp1 x hx
          have e2 : glyphs (slice word start x.index) = glyphs (slice word start s.index) + glyphs (slice word s.index x.index) := by
            rw [← glyphs_append, slice_append (by omega) (by omega)]
          have : 1 ≤ glyphs (slice word s.index x.index) := by
            refine glyphs_pos (hslice (by omega) (hb s (by simp)).2 (hb2 x hx).2) ?_
            intro h0
            have := congrArg List.length h0
            have hxl := (hb2 x hx).1
            simp only [slice, List.length_take, List.length_drop, List.length_nil] at this
            omega
          split at hle <;> split <;> omega
      · rw [if_neg hle]
        obtain ⟨p, a1, a2, a3⟩ := ih (prev := s) hp2 hb2 (fun x hx _ => hp1 x hx) (by omega) (hb s (by simp)).1 (hb s (by simp)).2 he
        refine ⟨p, a1, ?_, ?_⟩
        · rcases a2 with rfl | ⟨h, h'⟩
          · exact .inr ⟨by simp, by omega, by omega⟩
          · exact .inr ⟨by simp [h], h'⟩
        · intro x hx hlt
          rcases List.mem_cons.mp hx with rfl | hx
          · rcases a2 with rfl | ⟨h, h'⟩
            · omega
            · have := hp1 p h
              omega
          · exact a3 x hx hlt

theorem lookup_append {α β : Type} [BEq α] (l l' : List (α × β)) (k : α) : (l ++ l').lookup k = (l.lookup k).or (l'.lookup k) := by
  induction l with
  | nil => simp
  | cons p l ih =>
    rw [List.cons_append, List.lookup_cons, List.lookup_cons]
    cases k == p.1 <;> simp [ih]

/-- The rule found for a word is the first one for it. -/
theorem addWords_lookup (rules : List Str) : ∀ {sp sp' : Splitter}, addWords sp rules = .ok sp' → ∀ {key : Str}, sp.lookup key = none →
    ∀ {before after : List Str} {rule : Str}, rules = before ++ rule :: after → (∀ r ∈ before, toLower (unbroken r) ≠ key) → toLower (unbroken rule) = key →
    ∃ splits, splitsOf rule none 0 = .ok splits ∧ sp'.lookup key = some splits := by
  induction rules with
  | nil => intro sp sp' _ key _ before after rule h; simp at h
  | cons r rs ih =>
    intro sp sp' h key hk before after rule hr hb he
    simp only [addWords, Outcome.bind_eq_ok] at h
    obtain ⟨sp1, h1, h2⟩ := h
    have keep : ∀ (rs : List Str) {sp sp' : Splitter} {v : List Split}, addWords sp rs = .ok sp' → sp.lookup key = some v → sp'.lookup key = some v := by
      intro rs
      induction rs with
      | nil => intro sp sp' v h hv; simp [addWords] at h; exact h ▸ hv
      | cons r rs ih =>
        intro sp sp' v h hv
        simp only [addWords, Outcome.bind_eq_ok] at h
        obtain ⟨sp1, h1, h2⟩ := h
        refine ih h2 ?_
        rcases addWord_ok h1 with rfl | ⟨splits, _, rfl⟩
        · exact hv
        · rw [lookup_append, hv]
          rfl
    cases before with
    | nil =>
      simp only [List.nil_append, List.cons.injEq] at hr
      obtain ⟨rfl, rfl⟩ := hr
      have h3 := h1
      unfold addWord at h3
      rw [Outcome.bind_eq_ok] at h3
      obtain ⟨splits, h4, h3⟩ := h3
      refine ⟨splits, h4, keep _ h2 ?_⟩
      have ek : toLower (r.filter (· ≠ c!" ")) = key := he
      simp only [ek, hk, Option.isSome_none, Bool.false_eq_true, if_false, Outcome.pure_eq, Outcome.ok.injEq] at h3
      rw [← h3, lookup_append, hk]
      simp
    | cons b before =>
      simp only [List.cons_append, List.cons.injEq] at hr
      obtain ⟨rfl, rfl⟩ := hr
      refine ih h2 ?_ rfl (fun x hx => hb x (by simp [hx])) he
      rcases addWord_ok h1 with rfl | ⟨splits, _, rfl⟩
      · exact hk
      · rw [lookup_append, hk]
        have : ¬ key = toLower (r.filter (· ≠ c!" ")) := fun e => hb r (by simp) e.symm
        rw [List.lookup_cons, beq_eq_false_iff_ne.mpr this]
        rfl

end Splitter

end Argos
