import Verif.Proofs.Decide
import Verif.Proofs.Rule
import Verif.Proofs.CodePoints
import Verif.Proofs.Format

/-!
# C45-C49: word splitting and text formatting

Sequences of operations (`FormatOp`) on a new formatter stand for everything that can be written with it. The widths are
counted in `Spec.glyphs`, which for valid UTF-8 is the number of code points.
-/

namespace Argos

open Spec Formatter

/-- The width of a line in valid UTF-8 is its number of code points. -/
theorem glyphs_encode (cps : List Nat) (h : IsText cps) : glyphs (encodeText cps) = cps.length := by
  rw [← count_whole (whole_utf8 ⟨cps, h, rfl⟩)]
  simp [countCodePoints, countLoop_text cps h]

/-! ### C45: Splitting a word loses no text and each piece fits -/

/-- C45: `split` throws nothing. When it returns a first part, this is followed by the rest in the remaining word and fits
with its hyphen. When it must split for a width above 2, it returns a first part. This holds for all byte strings.

Missing from the full statement: when no first part is returned, the "rest" is the whole word even if only a part of it
remained (`C45_violated`). -/
theorem C45_split_partial (rules : List Str) (sp : Splitter) (hsp : Splitter.addWords [] rules = .ok sp) (word : Str) (start width : Nat) (must : Bool)
    (hs : start ≤ word.length) :
    ∃ first hyphen rest, sp.split word start width must = .ok (first, hyphen, rest) ∧
      (first ≠ [] → first ++ rest = word.drop start ∧ glyphs first + (if hyphen then 1 else 0) ≤ width) ∧
      (must = true → width > 2 → start < word.length → first ≠ []) := by
  obtain ⟨first, hyphen, rest, h1, h2, h3⟩ := Splitter.split_ok (Splitter.addWords_bounded rules hsp Splitter.bounded_nil) (n := width) must hs
  refine ⟨first, hyphen, rest, h1, fun h => ⟨(h2 h).join, (h2 h).narrow⟩, fun hm hw hl => h3 hm hw ?_⟩
  intro h0
  have := congrArg List.length h0
  simp only [List.length_drop, List.length_nil] at this
  omega

/-- C45 with a rule, and without one. -/
example : ∃ sp, Splitter.addWords [] [b!"hy phen ation"] = .ok sp ∧
    sp.split b!"Hyphenation," 0 6 true = .ok (b!"Hy", true, b!"phenation,") ∧
    sp.split b!"Hyphenation," 2 6 false = .ok (b!"phen", true, b!"ation,") ∧
    sp.split b!"Straightforward" 0 6 true = .ok (b!"Strai", true, b!"ghtforward") := by
  decide +kernel

/-- C45: a word is split as its rule says. The rule is the first one about the word, whatever the case of its letters and the punctuation behind it.
The part returned ends at the last place of the rule where it fits, with the hyphen of that place. If there is no such place behind the
next byte, the word is split as if there were no rule.

Missing from the full statement: rules that end with a space or aren't UTF-8 (C47). -/
theorem C45_rule_partial (before after : List Str) (rule : Str) (sp : Splitter) (hsp : Splitter.addWords [] (before ++ rule :: after) = .ok sp)
    (hu : Utf8 rule) (hl : rule.getLast? ≠ some 32) (word : Str) (hr : RuleFor rule word) (hb : ∀ r ∈ before, ¬ RuleFor r word)
    (start : Nat) (hs : start = 0 ∨ ∃ h, MaySplit rule start h) (width : Nat) (must : Bool) :
    (∃ n hyphen, sp.split word start width must = .ok ((word.take n).drop start, hyphen, word.drop n) ∧ start + 1 < n ∧
      MaySplit rule n hyphen ∧ partWidth word start n hyphen ≤ width ∧ ∀ m h, MaySplit rule m h → n < m → width < partWidth word start m h) ∨
    ((∀ n h, MaySplit rule n h → start + 1 < n → width < partWidth word start n h) ∧
      sp.split word start width must = Splitter.split [] word start width must) := by
  rw [ruleFor_iff] at hr
  obtain ⟨splits, h1, h2⟩ := Splitter.addWords_lookup _ hsp (key := toLower (removePunctuation word)) rfl rfl
    (fun r hm => by have := hb r hm; rwa [ruleFor_iff] at this) hr
  obtain ⟨punct, hw, hpu⟩ := Splitter.removePunctuation_prefix word
  have hlen : (unbroken rule).length = (removePunctuation word).length := by
    have := congrArg List.length hr
    simpa [toLower] using this
  have hlen2 : (removePunctuation word).length ≤ word.length := by
    have := congrArg List.length hw
    rw [List.length_append] at this
    omega
  have hplace : ∀ s ∈ splits, s.index ≤ word.length ∧ Whole (word.take s.index) := by
    intro s hm
    have hi := ((Splitter.splitsOf_bounded rule h1).2 s hm).2
    have hi' : s.index ≤ (unbroken rule).length := by simpa [unbroken] using hi
    refine ⟨by omega, ?_⟩
    have hc := Splitter.splitsOf_clean rule (pre := []) h1 (by simpa using whole_utf8 hu) s hm
    have hc' : Whole ((toLower (unbroken rule)).take s.index) := by
      rw [toLower, ← List.map_take]
      exact whole_map toLowerChar_keeps (by simpa [unbroken] using hc)
    rw [hr, toLower, ← List.map_take] at hc'
    have e3 : word.take s.index = (removePunctuation word).take s.index := by
      conv => lhs; rw [hw]
      rw [List.take_append_of_le_length (by omega)]
    rw [e3]
    exact whole_of_map toLowerChar_keeps hc'
  have hst : start ≤ word.length ∧ Whole (word.take start) := by
    rcases hs with rfl | ⟨h, hm⟩
    · exact ⟨by omega, by simpa using whole_nil⟩
    · exact hplace _ ((Splitter.splitsOf_maySplit h1 _ _).mp hm)
  have hpart : ∀ n h, partWidth word start n h = glyphs (Splitter.slice word start n) + if h then 1 else 0 := by
    intro n h
    unfold partWidth Splitter.slice
    rw [List.drop_take]
  obtain ⟨p, a1, a2, a3⟩ := Splitter.splitLoop_best (word := word) (start := start) (maxLength := width) hst.2 splits (prev := ⟨start, false⟩) (length := 0)
    (Splitter.splitsOf_strict rule h1 hl) hplace (fun s _ h => h) (Nat.le_refl _) hst.1 hst.2 (by simp [Splitter.slice_self, glyphs_nil])
  have hsplit : sp.split word start width must =
      if p.index > start + 1 then (do
        let first ← substr word start (p.index - start)
        let rest ← substrFrom word p.index
        pure (first, p.hyphen, rest))
      else Splitter.splitDefault word start width must := by
    unfold Splitter.split
    simp only [Splitter.key_eq, h2, a1, Outcome.bind_ok]
  by_cases hgt : p.index > start + 1
  · left
    rcases a2 with rfl | ⟨b1, b2, b3⟩
    · simp only at hgt; omega
    · refine ⟨p.index, p.hyphen, ?_, hgt, (Splitter.splitsOf_maySplit h1 _ _).mpr b1, by rw [hpart]; exact b3, ?_⟩
      · have e1 : substr word start (p.index - start) = .ok ((word.take p.index).drop start) := by
          unfold substr
          rw [if_neg (by omega), List.drop_take]
        have e2 : substrFrom word p.index = .ok (word.drop p.index) := by
          unfold substrFrom
          have := (hplace p b1).1
          rw [if_neg (by omega)]
        rw [hsplit, if_pos hgt, e1, Outcome.bind_ok, e2]
        rfl
      · intro m h hm hlt
        rw [hpart]
        exact a3 ⟨m, h⟩ ((Splitter.splitsOf_maySplit h1 _ _).mp hm) hlt
  · right
    refine ⟨?_, ?_⟩
    · intro n h hm hlt
      rw [hpart]
      exact a3 ⟨n, h⟩ ((Splitter.splitsOf_maySplit h1 _ _).mp hm) (by simp only; omega)
    · rw [hsplit, if_neg hgt]
      rfl

-- A rule that applies: `Well-` needs no hyphen of its own; the last place that fits is taken.
example : ∃ sp, Splitter.addWords [] [b!"oth er", b!"well- be ing"] = .ok sp ∧ toLower (unbroken b!"well- be ing") = toLower (removePunctuation b!"Well-being.") ∧
    sp.split b!"Well-being." 0 6 false = .ok (b!"Well-", false, b!"being.") ∧
    sp.split b!"Well-being." 0 8 false = .ok (b!"Well-be", true, b!"ing.") ∧
    sp.split b!"Well-being." 5 4 false = .ok (b!"be", true, b!"ing.") ∧
    sp.split b!"Well-being." 0 4 false = .ok ([], false, b!"Well-being.") := by
  decide +kernel

/-- C45 is violated: a word that need not be split is returned as a whole, also when only the end of it was asked for.
(`append_word` doesn't use this result.) -/
theorem C45_violated : Splitter.split [] b!"abc" 1 2 false = .ok ([], false, b!"abc") := by decide

/-! ### C46: Formatting terminates and lines fit the line width -/

/-- C46: whatever is done with a new formatter, for all rules, texts and widths above 2, no loop runs forever, no memory
outside a text is read, and no exception is thrown but for texts ending with a carriage return in `write_lines` (see C49) and
for `pop_indentation` calls without a `push_indentation`. Every line that was written fits the line width unless the
indentation leaves two columns or less. -/
theorem C46_lines_fit (rules : List Str) (sp : Splitter) (hsp : Splitter.addWords [] rules = .ok sp) (width : Nat) (hw : 2 < width) (ops : List FormatOp) :
    match FormatOp.run (fresh width sp) ops with
    | .ok f => ∀ l ∈ linesOf f.written, LineFits width l
    | .outOfRange => ∃ text, .lines text ∈ ops ∧ text.getLast? = some 13
    | .throw _ => .pop ∈ ops
    | .exit _ => False
    | .ub => False
    | .diverges => False := by
  rcases run_ok ops (ready_fresh hw (Splitter.addWords_bounded rules hsp Splitter.bounded_nil)) with ⟨f', h1, h2, h3, _⟩ | ⟨h1, h2⟩ | ⟨h1, m, h2⟩
  · rw [h1]
    have e : f'.writer.lineWidth = width := h3.width
    intro l hl
    have := h2.fits l hl
    rw [e] at this
    exact this
  · rw [h1]
    exact h2
  · rw [h2]
    exact h1

/-- C46: a rule, a list with indentation, a long word. -/
example : ∃ sp, Splitter.addWords [] [b!"for mat ting"] = .ok sp ∧ ∃ f, FormatOp.run (fresh 16 sp) [.push 4, .words b!"Formatting text:\n - a list\n - Donaudampfschiff formatting", .newline, .pop, .lines b!"a\r\nb\n"] = .ok f ∧
    f.written = b!"    Formatting\n    text:\n     - a list\n     -\n       Donaudam-\n       pfschiff\n       format-\n       ting\na\nb\n" := by
  decide +kernel

/-- C46: the exception for indentations that leave two columns. -/
example : ∃ f, FormatOp.run (fresh 6 []) [.push 4, .words b!"ab cde"] = .ok f ∧ f.written = b!"    ab\n    cde" := by
  decide +kernel

/-! ### C47: Formatting loses no words -/

/-- C47: with rules in valid UTF-8, what has been written is all the text that was given, in order, up to white space
and hyphens inserted at ends of lines.

Missing from the full statement: rules that are no valid UTF-8; see `C47_violated`. -/
theorem C47_nothing_lost_partial (rules : List Str) (sp : Splitter) (hsp : Splitter.addWords [] rules = .ok sp) (hr : ∀ r ∈ rules, Utf8 r) (width : Nat) (hw : 2 < width)
    (ops : List FormatOp) (f : Formatter) (h : FormatOp.run (fresh width sp) ops = .ok f) : Reflow (ops.flatMap FormatOp.text) f.written := by
  rcases run_ok ops (ready_fresh hw (Splitter.addWords_bounded rules hsp Splitter.bounded_nil)) with ⟨f', h1, h2, h3, h4⟩ | ⟨h1, _⟩ | ⟨_, m, h1⟩
  · rw [h] at h1
    simp only [Outcome.ok.injEq] at h1
    subst h1
    obtain ⟨added, a1, a2⟩ := h4 (Splitter.addWords_clean rules hsp Splitter.clean_nil hr)
    rw [a1]
    exact a2
  · rw [h] at h1; simp at h1
  · rw [h] at h1; simp at h1

/-- What is left of a text without white space and hyphens. -/
def essence (s : Str) : Str := s.filter fun c => ¬ (c = 32 ∨ c = 9 ∨ c = 10 ∨ c = 13 ∨ c = c!"-")

theorem essence_reflow {s t : Str} (h : Reflow s t) : essence t = essence s := by
  unfold essence
  induction h with
  | nil => rfl
  | keep c _ ih =>
    rw [List.filter_cons, List.filter_cons]
    split
    · rw [ih]
    · exact ih
  | drop hb _ ih =>
    rw [ih, List.filter_cons_of_neg]
    rcases hb with h | h | h | h <;> simp [h]
  | add hb _ ih =>
    rw [← ih, List.filter_cons_of_neg]
    rcases hb with h | h | h | h <;> simp [h]
  | hyphen _ ih =>
    rw [← ih]
    rfl

/-- C47: in particular the other characters are the same ones. -/
theorem C47_same_characters_partial (rules : List Str) (sp : Splitter) (hsp : Splitter.addWords [] rules = .ok sp) (hr : ∀ r ∈ rules, Utf8 r) (width : Nat)
    (hw : 2 < width) (ops : List FormatOp) (f : Formatter) (h : FormatOp.run (fresh width sp) ops = .ok f) :
    essence f.written = essence (ops.flatMap FormatOp.text) :=
  essence_reflow (C47_nothing_lost_partial rules sp hsp hr width hw ops f h)

theorem utf8_ascii (s : Str) (h : s.all (fun c => c.toNat < 128) = true) : Utf8 s := by
  refine ⟨s.map UInt8.toNat, ?_, ?_⟩
  · intro c hc
    obtain ⟨x, hx, rfl⟩ := List.mem_map.mp hc
    have := List.all_eq_true.mp h x hx
    simp only [decide_eq_true_eq] at this
    omega
  · unfold encodeText
    rw [List.flatMap_map]
    induction s with
    | nil => rfl
    | cons c s ih =>
      rw [List.all_cons, Bool.and_eq_true] at h
      have hc : c.toNat < 128 := by simpa using h.1
      rw [List.flatMap_cons, ← ih h.2]
      simp [encodeUtf8, hc]

/-- C47: hypotheses met. -/
example : ∃ sp, Splitter.addWords [] [b!"for mat ting"] = .ok sp ∧ (∀ r ∈ [b!"for mat ting"], Utf8 r) ∧
    ∃ f, FormatOp.run (fresh 8 sp) [.words b!"Re- formatting it"] = .ok f ∧ f.written = b!"Re- for-\nmatting\nit" := by
  have h : ∃ sp, Splitter.addWords [] [b!"for mat ting"] = .ok sp ∧ ∃ f, FormatOp.run (fresh 8 sp) [.words b!"Re- formatting it"] = .ok f ∧
      f.written = b!"Re- for-\nmatting\nit" := by
      decide +kernel
  obtain ⟨sp, h1, h2⟩ := h
  refine ⟨sp, h1, ?_, h2⟩
  intro r hr
  simp only [List.mem_singleton] at hr
  subst hr
  exact utf8_ascii _ (by decide)

/-- C47 is violated by a rule that isn't valid UTF-8 (a truncated character, then `aa`): the parts of the word are counted as
two and one characters, but a part of it is wider than it was said to be; `append_word` doesn't see that it was refused, and
the whole word is lost. -/
theorem C47_violated : ∃ sp, Splitter.addWords [] [[226, 130, 32, 97, 97]] = .ok sp ∧
    ∃ f, FormatOp.run (fresh 3 sp) [.words [226, 130, 97, 97]] = .ok f ∧ f.written = [10] := by
  decide +kernel

/-! ### C48: Writing text leaves the indentation as it was -/

/-- C48: `write_words` never fails, whatever was done with the formatter before and whatever the text. If the lines of the
text are indented with spaces or with a single tab, the indentation is the same afterwards.

Missing from the full statement: lines that begin with several tabs or with spaces and tabs (`C48_violated`), and rules that are
no valid UTF-8. The indentation before the call has to be the one that was pushed last, i.e. this was less than the line width. -/
theorem C48_indentation_partial (rules : List Str) (sp : Splitter) (hsp : Splitter.addWords [] rules = .ok sp) (width : Nat) (hw : 2 < width)
    (ops : List FormatOp) (f : Formatter) (h : FormatOp.run (fresh width sp) ops = .ok f) (text : Str) :
    ∃ f', f.writeWords text = .ok f' ∧
      ((∀ r ∈ rules, Utf8 r) → Tidy text → f.indents.head? = some f.writer.indent → f'.indents = f.indents ∧ f'.writer.indent = f.writer.indent) := by
  rcases run_ok ops (ready_fresh hw (Splitter.addWords_bounded rules hsp Splitter.bounded_nil)) with ⟨f1, h1, h2, h3, h4⟩ | ⟨h1, _⟩ | ⟨_, m, h1⟩
  · rw [h] at h1
    simp only [Outcome.ok.injEq] at h1
    subst h1
    obtain ⟨f', a1, a2, a3, a4, _, a5⟩ := writeWords_ok h2 text
    refine ⟨f', a1, fun hr ht hi => ?_⟩
    have hc : f.splitter.Clean := by
      rw [h3.splitter]
      exact Splitter.addWords_clean rules hsp Splitter.clean_nil hr
    cases hind : f.indents with
    | nil => exact absurd hind h2.some_
    | cons n rest =>
      rw [hind] at hi
      simp only [List.head?_cons, Option.some.injEq] at hi
      have := a5 hc ht n rest (by rw [hi]; exact h2.sane.indented) hind hi.symm
      exact ⟨this.1, by rw [this.2, hi]⟩
  · rw [h] at h1; simp at h1
  · rw [h] at h1; simp at h1

/-- Whether a text is tidy, for the examples. -/
theorem tidy_of_no_tabs {text : Str} (h : 9 ∉ text) : Tidy text := by
  intro a b e _
  left
  intro c hc
  unfold leading at hc
  have h1 := List.all_eq_true.mp (List.all_takeWhile (l := b)) c hc
  have h2 : c ∈ text := by rw [e]; exact List.mem_append_right _ ((List.takeWhile_prefix _).subset hc)
  simp only [decide_eq_true_eq] at h1
  rcases h1 with h1 | h1
  · exact h1
  · exact absurd (h1 ▸ h2) h

/-- C48: a text with two lists in an indented formatter. -/
example : Tidy b!"  two:\n   - a b c d e f\n- g" ∧ ∃ f, FormatOp.run (fresh 12 []) [.push 2] = .ok f ∧ f.indents.head? = some f.writer.indent ∧
    ∃ f', f.writeWords b!"  two:\n   - a b c d e f\n- g" = .ok f' ∧ f'.written = b!"    two:\n     - a b c\n       d e f\n  - g" ∧ f'.writer.indent = 2 := by
  refine ⟨tidy_of_no_tabs (by decide), ?_⟩
  decide +kernel

/-- C48 is violated: a line that begins with spaces and a tab pushes two indentations and pops one, so that the following text
is indented by two columns. -/
theorem C48_violated : ∃ f, FormatOp.run (fresh 20 []) [.words b!"  \tfoo"] = .ok f ∧ f.indents = [2, 0] ∧ f.writer.indent = 2 ∧
    ∃ f', FormatOp.run f [.newline, .words b!"bar"] = .ok f' ∧ f'.written = b!"    foo\n  bar" := by
  decide +kernel

/-- C48 for two tabs. -/
example : ∃ f, FormatOp.run (fresh 20 []) [.words b!"\t\tfoo", .newline, .words b!"bar"] = .ok f ∧ f.written = b!"        foo\n    bar" := by
  decide +kernel

/-! ### C49: Writing preformatted lines never fails -/

/-- C49: `write_lines` accepts all texts that don't end with a carriage return. At the beginning of a line, it writes the lines of a text that fit the
line width on lines of their own, with the indentation.

Missing from the full statement: texts ending with a carriage return (`C49_violated`). -/
theorem C49_lines_partial (rules : List Str) (sp : Splitter) (hsp : Splitter.addWords [] rules = .ok sp) (width : Nat) (hw : 2 < width)
    (ops : List FormatOp) (f : Formatter) (h : FormatOp.run (fresh width sp) ops = .ok f) (text : Str) (hcr : text.getLast? ≠ some 13) :
    ∃ f', f.writeLines text = .ok f' ∧ f'.indents = f.indents ∧ f'.writer.indent = f.writer.indent ∧
      (f.writer.line = [] → f.writer.spaces = 0 → (∀ l ∈ textLines text, f.writer.indent + countCodePoints l ≤ width) →
        f'.written = f.written ++ joinLines ((textLines text).map (indented f.writer.indent))) := by
  rcases run_ok ops (ready_fresh hw (Splitter.addWords_bounded rules hsp Splitter.bounded_nil)) with ⟨f1, h1, h2, h3, h4⟩ | ⟨h1, _⟩ | ⟨_, m, h1⟩
  · rw [h] at h1
    simp only [Outcome.ok.injEq] at h1
    subst h1
    obtain ⟨f', a1, a2, a3, a4, a5⟩ := writeLines_ok h2 hcr
    refine ⟨f', a1, a3.indents, a3.indent, fun b1 b2 b3 => ?_⟩
    have e : f.writer.lineWidth = width := h3.width
    exact a5 b1 b2 (by rw [e]; exact b3)
  · rw [h] at h1; simp at h1
  · rw [h] at h1; simp at h1

/-- C49: all three ends of lines, an empty line and an indentation. -/
example : ∃ f, FormatOp.run (fresh 20 []) [.words b!"x", .newline, .push 2] = .ok f ∧ f.writer.line = [] ∧ f.writer.spaces = 0 ∧ f.writer.indent = 2 ∧
    (textLines b!"a  b\r\n\rc\n" = [b!"a  b", [], b!"c", []]) ∧ (∀ l ∈ textLines b!"a  b\r\n\rc\n", f.writer.indent + countCodePoints l ≤ 20) ∧
    ∃ f', f.writeLines b!"a  b\r\n\rc\n" = .ok f' ∧ f'.written = b!"x\n  a  b\n\n  c\n" := by
  decide +kernel

/-- C49 is violated by every text that ends with a carriage return: `next_line` calls `substr` with a position behind the end, and
`std::out_of_range` leaves the library. -/
theorem C49_violated (rules : List Str) (sp : Splitter) (hsp : Splitter.addWords [] rules = .ok sp) (width : Nat) (hw : 2 < width)
    (ops : List FormatOp) (f : Formatter) (h : FormatOp.run (fresh width sp) ops = .ok f) (text : Str) (hcr : text.getLast? = some 13) :
    f.writeLines text = .outOfRange := by
  rcases run_ok ops (ready_fresh hw (Splitter.addWords_bounded rules hsp Splitter.bounded_nil)) with ⟨f1, h1, h2, _⟩ | ⟨h1, _⟩ | ⟨_, m, h1⟩
  · rw [h] at h1
    simp only [Outcome.ok.injEq] at h1
    subst h1
    exact writeLines_cr h2 hcr
  · rw [h] at h1; simp at h1
  · rw [h] at h1; simp at h1

/-- C49: a witness. -/
example : FormatOp.run (fresh 80 []) [.lines b!"a\nb\r"] = .outOfRange := by decide +kernel

end Argos
