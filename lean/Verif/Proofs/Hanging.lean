import Verif.Proofs.HelpLayout
import Verif.Spec.Results

/-! # Indented lines -/

namespace Argos
open Spec

/-- The writer has written indented lines behind `start`. -/
structure Writer.Inked (n k : Nat) (start : Str) (w : Writer) : Prop where
  added : ∃ s, w.all = start ++ s ∧ Hangs n s
  open_ : 10 ∉ w.line
  empty : w.line = [] → w.cur = 0
  indent : n ≤ w.indent
  first : (w.all = start ∧ w.cur + k ≤ n) ∨ ∃ s, w.all = start ++ s ∧ (s.head? = some 10 ∨ Spec.spaces k <+: s)

theorem Writer.first_append {s t : Str} {k : Nat} (h : s.head? = some 10 ∨ Spec.spaces k <+: s) : (s ++ t).head? = some 10 ∨ Spec.spaces k <+: s ++ t := by
  rcases h with h | h
  · left
    cases s with
    | nil => simp at h
    | cons c s => simpa using h
  · exact .inr (h.trans (List.prefix_append s t))

namespace Writer

theorem Inked.append {n k : Nat} {start s : Str} {w : Writer} (h : w.Inked n k start) (hs : 10 ∉ s) : (w.append s).Inked n k start := by
  obtain ⟨t, t1, t2⟩ := h.added
  have hcur : w.cur ≤ w.currentWidth := by unfold currentWidth; omega
  have hind := h.indent
  refine ⟨⟨t ++ (List.replicate (w.currentWidth - w.cur) 32 ++ s), ?_, ?_⟩, ?_, ?_, h.indent, ?_⟩
  · rw [append_all, t1]
    simp
  · intro a b e
    have hmem : 10 ∉ List.replicate (w.currentWidth - w.cur) (32 : UInt8) ++ s := by
      simp only [List.mem_append, List.mem_replicate, not_or]
      exact ⟨fun h => absurd h.2 (by decide), hs⟩
    rw [List.append_eq_append_iff] at e
    rcases e with ⟨c, e1, e2⟩ | ⟨c, e1, e2⟩
    · exact absurd (by rw [e2]; simp) hmem
    · cases c with
      | nil =>
        rw [List.nil_append] at e2
        exact absurd (by rw [← e2]; simp) hmem
      | cons x c =>
        rw [List.cons_append, List.cons.injEq] at e2
        obtain ⟨rfl, rfl⟩ := e2
        rcases t2 a c e1 with rfl | h1 | ⟨r, h1⟩
        · -- the line is empty
          have hl : w.line = [] := by
            have hall : w.all = w.out ++ w.line := rfl
            cases hx : w.line.getLast? with
            | none => exact List.getLast?_eq_none_iff.mp hx
            | some y =>
              have h2 : w.all.getLast? = some y := by rw [hall, List.getLast?_append, hx]; rfl
              rw [t1, e1, List.getLast?_append, List.getLast?_append] at h2
              simp only [List.getLast?_singleton, Option.some_or, Option.some.injEq] at h2
              subst h2
              exact absurd (List.mem_of_getLast? hx) h.open_
          have hc := h.empty hl
          refine .inr (.inr ?_)
          have : w.currentWidth - w.cur = n + (w.currentWidth - w.cur - n) := by
            have : n ≤ w.currentWidth := by unfold currentWidth; omega
            omega
          rw [this, ← List.replicate_append_replicate]
          exact ⟨List.replicate (w.currentWidth - w.cur - n) 32 ++ s, by rw [List.nil_append, List.append_assoc]; rfl⟩
        · refine .inr (.inl ?_)
          cases c with
          | nil => simp at h1
          | cons y c => simpa using h1
        · refine .inr (.inr ⟨r ++ (List.replicate (w.currentWidth - w.cur) 32 ++ s), ?_⟩)
          rw [← h1]
          simp
  · show 10 ∉ w.line ++ List.replicate (w.currentWidth - w.cur) 32 ++ s
    simp only [List.mem_append, List.mem_replicate, not_or]
    exact ⟨⟨h.open_, fun h => absurd h.2 (by decide)⟩, hs⟩
  · intro hl
    have hl : w.line ++ List.replicate (w.currentWidth - w.cur) 32 ++ s = [] := hl
    simp only [List.append_eq_nil_iff, List.replicate_eq_nil_iff] at hl
    obtain ⟨⟨l1, l2⟩, rfl⟩ := hl
    have := h.empty l1
    show w.cur + (w.currentWidth - w.cur + countCodePoints []) = 0
    have : countCodePoints [] = 0 := rfl
    omega
  · right
    rcases h.first with ⟨f1, f2⟩ | ⟨t', f1, f2⟩
    · refine ⟨List.replicate (w.currentWidth - w.cur) 32 ++ s, ?_, .inr ?_⟩
      · rw [append_all, f1]
      · have : w.currentWidth - w.cur = k + (w.currentWidth - w.cur - k) := by
          have : n ≤ w.currentWidth := by unfold currentWidth; omega
          omega
        rw [this, ← List.replicate_append_replicate]
        exact ⟨List.replicate (w.currentWidth - w.cur - k) 32 ++ s, by rw [List.append_assoc]; rfl⟩
    · refine ⟨t' ++ (List.replicate (w.currentWidth - w.cur) 32 ++ s), ?_, first_append f2⟩
      rw [append_all, f1]
      simp

theorem Inked.write {n k : Nat} {start s : Str} {w : Writer} (h : w.Inked n k start) (hs : 10 ∉ s) : (w.write s).2.Inked n k start := by
  unfold Writer.write
  split
  · exact h
  · exact h.append hs

theorem Inked.newline {n k : Nat} {start : Str} {w : Writer} (h : w.Inked n k start) : w.newline.Inked n k start := by
  obtain ⟨t, t1, t2⟩ := h.added
  refine ⟨⟨t ++ [10], by rw [show w.newline.all = (w.newline.setSpaces 0).all from rfl, newline_all, t1, List.append_assoc], ?_⟩, by simp [Writer.newline, flush], fun _ => rfl, h.indent, ?_⟩
  rotate_left
  · right
    have hall : w.newline.all = w.all ++ [10] := newline_all w
    rcases h.first with ⟨f1, f2⟩ | ⟨t', f1, f2⟩
    · exact ⟨[10], by rw [hall, f1], .inl rfl⟩
    · exact ⟨t' ++ [10], by rw [hall, f1, List.append_assoc], first_append f2⟩
  intro a b e
  rw [List.append_eq_append_iff] at e
  rcases e with ⟨c, e1, e2⟩ | ⟨c, e1, e2⟩
  · cases c with
    | nil => simp at e2; exact .inl e2
    | cons x c => simp at e2
  · cases c with
    | nil =>
      rw [List.nil_append] at e2
      simp at e2
      exact .inl e2
    | cons x c =>
      rw [List.cons_append, List.cons.injEq] at e2
      obtain ⟨rfl, rfl⟩ := e2
      rcases t2 a c e1 with rfl | h1 | ⟨r, h1⟩
      · exact .inr (.inl rfl)
      · refine .inr (.inl ?_)
        cases c with
        | nil => simp at h1
        | cons y c => simpa using h1
      · refine .inr (.inr ⟨r ++ [10], ?_⟩)
        rw [← h1]
        simp

theorem Inked.setSpaces {n k : Nat} {start : Str} {w : Writer} (h : w.Inked n k start) (m : Nat) : (w.setSpaces m).Inked n k start :=
  ⟨h.added, h.open_, h.empty, h.indent, h.first⟩

theorem Inked.setIndentation {n k : Nat} {start : Str} {w : Writer} (h : w.Inked n k start) {m : Nat} (hk : n ≤ m) : (w.setIndentation m).Inked n k start := by
  unfold Writer.setIndentation
  split
  · exact h
  · exact ⟨h.added, h.open_, h.empty, hk, h.first⟩

end Writer

namespace Formatter

/-- The formatter has written indented lines behind `start`, and its indentations are at least `n` down to a certain one. -/
structure Hung (n k : Nat) (start : Str) (rest : List Nat) (f : Formatter) : Prop where
  ink : f.writer.Inked n k start
  stack : ∃ top, f.indents = top ++ n :: rest ∧ (∀ x ∈ top, n ≤ x) ∧ (f.Aligning → top ≠ [])

theorem appendLoop_inked {n k : Nat} {start word : Str} (hword : 10 ∉ word) (fuel : Nat) : ∀ {f f' : Formatter} {rem : Str}, f.splitter.Bounded → rem <:+ word →
    appendLoop word fuel f rem = .ok f' → f.writer.Inked n k start → f'.writer.Inked n k start := by
  induction fuel with
  | zero => intro f f' rem _ _ h; simp [appendLoop] at h
  | succ fuel ih =>
    intro f f' rem hb hsuf h hi
    have hrem : 10 ∉ rem := fun hm => hword (hsuf.subset hm)
    unfold appendLoop at h
    unfold Writer.write at h
    split at h
    · rename_i w heq
      split at heq
      · simp at heq
      · simp only [Prod.mk.injEq, true_and] at heq
        subst heq
        simp only [Outcome.ok.injEq] at h
        subst h
        exact hi.append hrem
    · rename_i heq
      split at heq
      · clear heq
        obtain ⟨first, hyphen, rest, e, hp, _⟩ := Splitter.split_ok (n := f.writer.remainingWidth) hb f.writer.line.isEmpty
          (word := word) (start := word.length - rem.length) (by omega)
        rw [suffix_drop hsuf] at hp
        rw [e] at h
        simp only [Outcome.bind_ok] at h
        split at h
        · rename_i hf
          have hp := hp hf
          have h10 : 10 ∉ first := fun hm => hrem (by rw [← hp.join]; simp [hm])
          refine ih (by exact hb) (List.IsSuffix.trans ⟨first, hp.join⟩ hsuf) h ?_
          refine Writer.Inked.setSpaces (Writer.Inked.newline ?_) 0
          show Writer.Inked n k start (if hyphen then ((f.writer.write first).2.write [c!"-"]).2 else (f.writer.write first).2)
          split
          · exact (hi.write h10).write (by decide)
          · exact hi.write h10
        · split at h
          · split at h
            · exact ih (by exact hb) hsuf h (hi.setSpaces 0)
            · simp only [Outcome.pure_eq, Outcome.ok.injEq] at h
              subst h
              exact hi.append hrem
          · exact ih (by exact hb) hsuf h (hi.newline.setSpaces 0)
      · simp at heq

theorem hung_same {n k : Nat} {start : Str} {rest : List Nat} {f f' : Formatter} (h : Hung n k start rest f) (hi : f'.writer.Inked n k start)
    (h1 : f'.indents = f.indents) (h2 : f'.Aligning → f.Aligning) : Hung n k start rest f' := by
  obtain ⟨top, t1, t2, t3⟩ := h.stack
  exact ⟨hi, top, h1.trans t1, t2, fun ha => t3 (h2 ha)⟩

theorem hung_push {n k : Nat} {start : Str} {rest : List Nat} {f : Formatter} (h : Hung n k start rest f) (st : AlignState) :
    Hung n k start rest { f.pushCurrent with state := st } := by
  obtain ⟨top, t1, t2, _⟩ := h.stack
  have hcw : n ≤ f.writer.currentWidth := by
    have := h.ink.indent
    unfold Writer.currentWidth
    omega
  refine ⟨(h.ink.setSpaces 0).setIndentation hcw, f.writer.currentWidth :: top, ?_, ?_, fun _ => by simp⟩
  · show f.writer.currentWidth :: f.indents = _
    rw [t1]
    rfl
  · intro x hx
    rcases List.mem_cons.mp hx with rfl | hx
    · exact hcw
    · exact t2 x hx

theorem hung_pop {n k : Nat} {start : Str} {rest : List Nat} {f f' : Formatter} (h : Hung n k start rest f) (ha : f.Aligning) (hp : f.popIndentation = .ok f') (st : AlignState)
    (hst : ¬ ({ f' with state := st } : Formatter).Aligning) : Hung n k start rest { f' with state := st } ∧ n ≤ f'.writer.indent := by
  obtain ⟨top, t1, t2, t3⟩ := h.stack
  cases top with
  | nil => exact absurd rfl (t3 ha)
  | cons x top =>
    obtain ⟨y, ys, hy, hny⟩ : ∃ y ys, top ++ n :: rest = y :: ys ∧ n ≤ y := by
      cases top with
      | nil => exact ⟨n, rest, rfl, Nat.le_refl _⟩
      | cons y top => exact ⟨y, _, rfl, t2 y (by simp)⟩
    unfold popIndentation at hp
    rw [t1, List.cons_append, hy] at hp
    simp only [Outcome.ok.injEq] at hp
    subst hp
    have hi := h.ink.setIndentation hny
    refine ⟨⟨hi, top, hy.symm, fun z hz => t2 z (by simp [hz]), fun h0 => absurd h0 hst⟩, hi.indent⟩

theorem hung_begin {n k : Nat} {start : Str} {rest : List Nat} {f f' : Formatter} (h : Hung n k start rest f) (hb : f.beginAlignment = .ok f') : Hung n k start rest f' := by
  unfold beginAlignment at hb
  split at hb
  · simp only [Outcome.ok.injEq] at hb
    subst hb
    exact hung_push h _
  · split at hb
    · rename_i hs
      obtain ⟨g, g1, g2⟩ := Outcome.bind_eq_ok.mp hb
      simp only [Outcome.pure_eq, Outcome.ok.injEq] at g2
      subst g2
      have hg := (hung_pop h (.inr hs) g1 .noAlignment (by simp [Aligning])).1
      have := hung_push hg .alignment
      exact this
    · simp only [Outcome.ok.injEq] at hb
      subst hb
      exact h

theorem hung_end {n k : Nat} {start : Str} {rest : List Nat} {f f' : Formatter} (h : Hung n k start rest f) (hb : f.endAlignment = .ok f') : Hung n k start rest f' := by
  unfold endAlignment at hb
  split at hb
  · rename_i hs
    obtain ⟨g, g1, g2⟩ := Outcome.bind_eq_ok.mp hb
    simp only [Outcome.pure_eq, Outcome.ok.injEq] at g2
    subst g2
    exact (hung_pop h hs g1 .noAlignment (by simp [Aligning])).1
  · simp only [Outcome.ok.injEq] at hb
    subst hb
    exact h

theorem writeToken_hung {n k : Nat} {start : Str} {rest : List Nat} {f f' : Formatter} (h : Hung n k start rest f) (hf : Fine f) {type : TokenType} {token : Str}
    (ht : type = .word → 10 ∉ token) (hne : token ≠ []) (hb : f.writeToken type token = .ok f') : Hung n k start rest f' := by
  unfold writeToken at hb
  cases type with
  | tab =>
    have hs : Hung n k start rest { f with writer := f.writer.tab } := hung_same h (h.ink.setSpaces _) rfl id
    exact hung_begin hs hb
  | space =>
    have hs : Hung n k start rest { f with writer := f.writer.setSpaces token.length } := hung_same h (h.ink.setSpaces _) rfl id
    exact hung_begin hs hb
  | newline =>
    obtain ⟨g, g1, g2⟩ := Outcome.bind_eq_ok.mp hb
    simp only [Outcome.pure_eq, Outcome.ok.injEq] at g2
    subst g2
    have hg := hung_end h g1
    exact hung_same hg (hg.ink.newline.setSpaces 0) rfl id
  | word =>
    have hw := ht rfl
    simp only at hb
    have hsame := updateAlignment_same f token
    have hb2 : (f.updateAlignment token).splitter.Bounded := by rw [hsame.2.2]; exact hf.bounded
    have hink : f'.writer.Inked n k start := appendLoop_inked hw _ hb2 List.suffix_rfl hb (by rw [hsame.1]; exact h.ink)
    obtain ⟨f2, a1, _, _, a4, _⟩ := appendWord_ok hb2 (by rw [hsame.1]; exact hf.sane) hw hne
    rw [a1] at hb
    simp only [Outcome.ok.injEq] at hb
    subst hb
    refine hung_same h hink (a4.indents.trans hsame.2.1) fun ha => updateAlignment_aligning (token := token) ?_
    unfold Aligning at ha ⊢
    rw [← a4.state]
    exact ha

theorem wordsLoop_hung {n k : Nat} {start : Str} {rest : List Nat} (fuel : Nat) : ∀ {f f' : Formatter} {text : Str}, Hung n k start rest f → Fine f →
    wordsLoop fuel f text = .ok f' → Hung n k start rest f' := by
  induction fuel with
  | zero =>
    intro f f' text h hf hb
    cases text with
    | nil =>
      unfold wordsLoop at hb
      exact hung_end h hb
    | cons c t => simp [wordsLoop] at hb
  | succ fuel ih =>
    intro f f' text h hf hb
    cases text with
    | nil =>
      unfold wordsLoop at hb
      exact hung_end h hb
    | cons c text =>
      unfold wordsLoop at hb
      obtain ⟨type, token, rem, e⟩ : ∃ type token rem, nextToken c text = (type, token, rem) := ⟨_, _, _, rfl⟩
      have ht := nextToken_ok c text e
      simp only [e] at hb
      obtain ⟨f1, b1, b2⟩ := writeToken_ok hf ht
      rw [b1] at hb
      simp only [Outcome.bind_ok] at hb
      exact ih (writeToken_hung h hf ht.word ht.some_ b1) b2.fine hb

theorem hangs_cons {n : Nat} {s : Str} (h : Hangs n s) (h1 : s = [] ∨ s.head? = some 10 ∨ Spec.spaces n <+: s) : Hangs n (10 :: s) := by
  intro a b e
  cases a with
  | nil =>
    simp only [List.nil_append, List.cons.injEq, true_and] at e
    subst e
    exact h1
  | cons c a =>
    simp only [List.cons_append, List.cons.injEq] at e
    exact h a b e.2

/-- A tidy text is written in lines with the indentation. -/
theorem writeWords_hangs {base : List Nat} {n k : Nat} {f : Formatter} {t : Str} (hi : f.indents = n :: base) (hn : f.writer.indent = n) (hp : Prepared f)
    (hw : n < f.writer.lineWidth) (ht : Tidy t) (hk : f.writer.cur + k ≤ n ∨ k = 0) :
    ∃ f' s, f.writeWords t = .ok f' ∧ Prepared f' ∧ f'.writer.lineWidth = f.writer.lineWidth ∧ f'.indents = n :: base ∧ f'.writer.indent = n ∧
      f'.writer.all = f.writer.all ++ s ∧ Reflow t s ∧ Hangs n s ∧ (s = [] ∨ s.head? = some 10 ∨ Spec.spaces k <+: s) := by
  obtain ⟨f', a1, a2, a3, a4, _, a5⟩ := writeWords_ok hp.toReady t
  obtain ⟨i1, i2⟩ := a5 hp.clean ht n base hw hi hn
  obtain ⟨s, s1, s2⟩ := a4 hp.clean
  have h0 : Hung n k f.writer.all base f := by
    refine ⟨⟨⟨[], by simp, ?_⟩, hp.sane.open_, hp.sane.empty, by omega, ?_⟩, [], hi, by simp, fun h => absurd h hp.ready⟩
    · intro a b e
      simp at e
    · rcases hk with hk | rfl
      · exact .inl ⟨rfl, hk⟩
      · exact .inr ⟨[], by simp, .inr List.prefix_rfl⟩
  have h1 := wordsLoop_hung _ h0 hp.toFine a1
  obtain ⟨s', t1, t2⟩ := h1.ink.added
  have e : s' = s := List.append_cancel_left (t1.symm.trans s1)
  subst e
  refine ⟨f', s', a1, ⟨a2, by rw [a3.splitter]; exact hp.clean⟩, a3.width, i1, i2, s1, s2, t2, ?_⟩
  rcases h1.ink.first with ⟨f1, _⟩ | ⟨s'', f1, f2⟩
  · rw [s1] at f1
    exact .inl (by simpa using f1)
  · have : s'' = s' := List.append_cancel_left (f1.symm.trans s1)
    subst this
    exact .inr f2

/-- An entry in two columns, with any text. -/
theorem writeEntry_columns_hangs {base : List Nat} {f : Formatter} (h : Calm base 2 f) (hp : Prepared f) {col : Nat} {e : Str × Str} (hcol : col ≠ 0) (h1 : OneLine e.1)
    (hu : Argos.Whole e.1) (h2 : Tidy e.2) (hw1 : e.1.length + 3 ≤ col) (hw2 : col + e.2.length ≤ f.writer.lineWidth) :
    ∃ f' s, writeEntry col e f = .ok f' ∧ Prepared f' ∧ Writes base 2 f f' ([32, 32] ++ e.1 ++ s ++ [10]) ∧ Reflow e.2 s ∧ Hangs col s ∧
      (s = [] ∨ s.head? = some 10 ∨ Spec.spaces (col - (2 + glyphs e.1)) <+: s) := by
  obtain ⟨fl, q1, q2⟩ := writeEntry_lays hp col e
  suffices hs : ∃ f' s, writeEntry col e f = .ok f' ∧ Writes base 2 f f' ([32, 32] ++ e.1 ++ s ++ [10]) ∧ Reflow e.2 s ∧ Hangs col s ∧
      (s = [] ∨ s.head? = some 10 ∨ Spec.spaces (col - (2 + glyphs e.1)) <+: s) by
    obtain ⟨f', s, a1, a2⟩ := hs
    refine ⟨f', s, a1, ?_, a2⟩
    rw [q1] at a1
    simp only [Outcome.ok.injEq] at a1
    exact a1 ▸ q2.ready
  obtain ⟨f1, a1, a2, a3⟩ := writeWords_whole h h1 (by omega)
  have p1 : Prepared f1 := by
    obtain ⟨g, g1, g2⟩ := goes_words hp e.1
    rw [a1] at g1
    simp only [Outcome.ok.injEq] at g1
    exact g1 ▸ g2.ready
  unfold writeEntry
  rw [a1, Outcome.bind_ok]
  unfold writeEntryText
  by_cases hne : e.2 = []
  · rw [hne, if_pos rfl, Outcome.bind_ok]
    exact ⟨_, [], rfl, by simpa using a3, .nil, fun a b h => by simp at h, .inl rfl⟩
  · have hlen := List.length_pos_iff.mpr hne
    rw [if_neg hne, if_pos hcol]
    have hhigh := a2.high
    have hex := a2.exact_ hu
    rw [calm_currentWidth h] at hhigh hex
    have hcw1 : f1.writer.currentWidth = f1.writer.cur := by
      unfold Writer.currentWidth
      rw [a2.indent, a2.spaces]
      omega
    rw [if_neg (by omega)]
    simp only [Outcome.bind_ok]
    have pp := (goes_push p1 col).ready
    have hpush : f1.pushIndentation col = { f1 with indents := col :: 2 :: base, writer := { f1.writer with indent := col } } := by
      unfold pushIndentation
      rw [setIndentation_lt (by rw [a2.width]; omega), a2.indents]
    rw [hpush] at pp ⊢
    obtain ⟨f2, hf2⟩ : ∃ f2 : Formatter, f2 = { f1 with indents := col :: 2 :: base, writer := { f1.writer with indent := col } } := ⟨_, rfl⟩
    rw [← hf2] at pp ⊢
    have hlw : f2.writer.lineWidth = f.writer.lineWidth := by rw [hf2]; exact a2.width
    obtain ⟨f3, s, b1, b2, b3, b4, b5, b6, b7, b8, b9⟩ := writeWords_hangs (f := f2) (n := col) (k := col - (2 + glyphs e.1)) (base := 2 :: base) (t := e.2)
      (by rw [hf2]) (by rw [hf2]) pp (by omega) h2 (.inl (by rw [hf2]; show f1.writer.cur + _ ≤ _; omega))
    rw [b1, Outcome.bind_ok, pop_push b4 (by rw [b3, hlw]; have := h.narrow; omega), Outcome.bind_ok]
    refine ⟨_, s, rfl, ⟨⟨rfl, rfl, rfl, rfl, rfl, b2.ready, ?_⟩, ?_, b3.trans hlw⟩, b7, b8, b9⟩
    · show 2 < f3.writer.lineWidth
      rw [b3, hlw]
      exact h.narrow
    · show f3.writer.out ++ (f3.writer.line ++ [10]) = _
      have b6 : f3.writer.out ++ f3.writer.line = f2.writer.out ++ f2.writer.line ++ s := b6
      rw [← List.append_assoc, b6, hf2]
      show f1.writer.out ++ f1.writer.line ++ s ++ [10] = _
      rw [a2.out, a2.line, h.line, calm_currentWidth h, h.cur]
      simp

/-- An entry with any text below the label. -/
theorem writeEntry_stacked_hangs {base : List Nat} {f : Formatter} (h : Calm base 2 f) (hp : Prepared f) {e : Str × Str} (h1 : OneLine e.1)
    (h2 : Tidy e.2) (hw1 : 2 + e.1.length ≤ f.writer.lineWidth) (hw2 : e.2 ≠ [] → 8 < f.writer.lineWidth) :
    ∃ f' s, writeEntry 0 e f = .ok f' ∧ Prepared f' ∧ Writes base 2 f f' ([32, 32] ++ e.1 ++ s ++ [10]) ∧ Reflow e.2 s ∧ Hangs 8 s ∧
      (e.2 ≠ [] → s.head? = some 10) := by
  obtain ⟨fl, q1, q2⟩ := writeEntry_lays hp 0 e
  suffices hs : ∃ f' s, writeEntry 0 e f = .ok f' ∧ Writes base 2 f f' ([32, 32] ++ e.1 ++ s ++ [10]) ∧ Reflow e.2 s ∧ Hangs 8 s ∧ (e.2 ≠ [] → s.head? = some 10) by
    obtain ⟨f', s, a1, a2⟩ := hs
    refine ⟨f', s, a1, ?_, a2⟩
    rw [q1] at a1
    simp only [Outcome.ok.injEq] at a1
    exact a1 ▸ q2.ready
  obtain ⟨f1, a1, a2, a3⟩ := writeWords_whole h h1 (by omega)
  have p1 : Prepared f1 := by
    obtain ⟨g, g1, g2⟩ := goes_words hp e.1
    rw [a1] at g1
    simp only [Outcome.ok.injEq] at g1
    exact g1 ▸ g2.ready
  unfold writeEntry
  rw [a1, Outcome.bind_ok]
  unfold writeEntryText
  by_cases hne : e.2 = []
  · rw [hne, if_pos rfl, Outcome.bind_ok]
    exact ⟨_, [], rfl, by simpa using a3, .nil, fun a b h => by simp at h, by simp⟩
  · have hw2 := hw2 hne
    rw [if_neg hne, if_neg (by simp)]
    have pn := (goes_newline p1).ready
    obtain ⟨g, hg⟩ : ∃ g, f1.newline = g := ⟨_, rfl⟩
    rw [hg] at a3 pn ⊢
    have c := a3.calm
    have hlw := a3.width
    have pp := (goes_push pn 8).ready
    have hpush : g.pushIndentation 8 = { g with indents := 8 :: 2 :: base, writer := { g.writer with indent := 8 } } := by
      unfold pushIndentation
      rw [setIndentation_lt (by omega), c.indents]
    rw [hpush] at pp ⊢
    obtain ⟨f2, hf2⟩ : ∃ f2 : Formatter, f2 = { g with indents := 8 :: 2 :: base, writer := { g.writer with indent := 8 } } := ⟨_, rfl⟩
    rw [← hf2] at pp ⊢
    have hlw2 : f2.writer.lineWidth = f.writer.lineWidth := by rw [hf2]; exact hlw
    obtain ⟨f3, s, b1, b2, b3, b4, b5, b6, b7, b8, b9⟩ := writeWords_hangs (f := f2) (n := 8) (k := 8) (base := 2 :: base) (t := e.2)
      (by rw [hf2]) (by rw [hf2]) pp (by omega) h2 (.inl (by rw [hf2]; show g.writer.cur + _ ≤ _; rw [c.cur]; omega))
    rw [b1, Outcome.bind_ok, pop_push b4 (by rw [b3, hlw2]; have := h.narrow; omega), Outcome.bind_ok]
    refine ⟨_, 10 :: s, rfl, ⟨⟨rfl, rfl, rfl, rfl, rfl, b2.ready, ?_⟩, ?_, b3.trans hlw2⟩, .add (.inr (.inr (.inl rfl))) b7, hangs_cons b8 b9, fun _ => rfl⟩
    · show 2 < f3.writer.lineWidth
      rw [b3, hlw2]
      exact h.narrow
    · show f3.writer.out ++ (f3.writer.line ++ [10]) = _
      have b6 : f3.writer.out ++ f3.writer.line = f2.writer.out ++ f2.writer.line ++ s := b6
      rw [← List.append_assoc, b6, hf2]
      show g.writer.out ++ g.writer.line ++ s ++ [10] = _
      rw [a3.out, c.line]
      simp

theorem forEach_steady {α : Type} {base : List Nat} {n : Nat} {act : α → Formatter → Outcome Formatter} (R : α → Str → Prop) (w : Nat) (xs : List α) :
    (∀ x ∈ xs, ∀ f, Calm base n f → Prepared f → f.writer.lineWidth = w → ∃ f' s, act x f = .ok f' ∧ Prepared f' ∧ Writes base n f f' s ∧ R x s) →
    ∀ {f : Formatter}, Calm base n f → Prepared f → f.writer.lineWidth = w →
      ∃ f' ss, forEach act xs f = .ok f' ∧ Prepared f' ∧ Writes base n f f' ss.flatten ∧ Each R xs ss := by
  induction xs with
  | nil => intro _ f h hp _; exact ⟨f, [], rfl, hp, .refl h, .nil⟩
  | cons x xs ih =>
    intro hx f h hp hw
    obtain ⟨f1, s, a1, a2, a3, a4⟩ := hx x (by simp) f h hp hw
    obtain ⟨f', ss, b1, b2, b3, b4⟩ := ih (fun y hy => hx y (by simp [hy])) a3.calm a2 (a3.width.trans hw)
    refine ⟨f', s :: ss, ?_, b2, ?_, .cons a4 b4⟩
    · unfold forEach
      rw [a1, Outcome.bind_ok, b1]
    · rw [List.flatten_cons]
      exact a3.trans b3

end Formatter

end Argos
