import Verif.Proofs.Help
import Verif.Spec.Layout

/-! # The layout of the help list -/

namespace Argos
open Spec

namespace Formatter

/-- A text is being written on the current line: `t` is still to come, the indentations are `n :: base` apart from the one of the alignment. -/
structure Runs (base : List Nat) (n : Nat) (f : Formatter) (t : Str) : Prop where
  level : (¬ f.Aligning ∧ f.indents = n :: base ∧ f.writer.indent = n) ∨ (f.state = .alignment ∧ ∃ m, f.indents = m :: n :: base)
  narrow : n < f.writer.lineWidth
  room : f.writer.currentWidth + t.length ≤ f.writer.lineWidth
  blank : t.head? = some 32 → f.writer.line ≠ [] ∧ f.writer.spaces = 0
  stop : t = [] → f.writer.spaces = 0 ∧ f.writer.indent ≤ f.writer.cur ∧ n ≤ f.writer.cur
  low : n ≤ f.writer.currentWidth

/-- No list marker is left behind when the text has been written. -/
def Quietly (f : Formatter) (t : Str) : Prop :=
  (f.state ≠ .unalignedMarker ∧ (f.writer.line = [] → isListMarker t = false)) ∨ (f.state = .unalignedMarker ∧ t.head? = some 32)

/-- The text has been written on the current line. -/
structure Ran (base : List Nat) (n : Nat) (f f' : Formatter) (t : Str) : Prop where
  out : f'.writer.out = f.writer.out
  line : f'.writer.line = f.writer.line ++ List.replicate (f.writer.currentWidth - f.writer.cur) 32 ++ t
  indents : f'.indents = n :: base
  indent : f'.writer.indent = n
  state : ¬ f'.Aligning
  spaces : f'.writer.spaces = 0
  width : f'.writer.lineWidth = f.writer.lineWidth
  splitter : f'.splitter = f.splitter
  low : f.writer.currentWidth ≤ f'.writer.cur
  high : f'.writer.cur ≤ f.writer.currentWidth + t.length
  exact_ : Argos.Whole t → f'.writer.cur = f.writer.currentWidth + glyphs t
  quiet : Quietly f t → f'.state = .noAlignment

theorem drop_takeWhile_head {p : UInt8 → Bool} (t : Str) {c : UInt8} (h : (t.drop (t.takeWhile p).length).head? = some c) : p c = false := by
  induction t with
  | nil => simp at h
  | cons x t ih =>
    rw [List.takeWhile_cons] at h
    split at h
    · exact ih (by simpa using h)
    · rename_i hx
      simp only [List.length_nil, List.drop_zero, List.head?_cons, Option.some.injEq] at h
      subst h
      simpa using hx

theorem runs_space {base : List Nat} {n k : Nat} {f : Formatter} {token r : Str} (ht : token.length = k) (h : Runs base n f (List.replicate k 32 ++ r))
    (hk : 0 < k) (hr : r ≠ []) (hr2 : r.head? ≠ some 32) :
    ∃ f1, f.writeToken .space token = .ok f1 ∧ Runs base n f1 r ∧ f1.writer.currentWidth = f.writer.currentWidth + k ∧ f1.writer.cur = f.writer.cur ∧
      f1.writer.line = f.writer.line ∧ f1.writer.out = f.writer.out ∧ f1.writer.lineWidth = f.writer.lineWidth ∧ f1.splitter = f.splitter ∧
      f1.state ≠ .unalignedMarker := by
  obtain ⟨hl, hs⟩ := h.blank (by cases k with | zero => omega | succ k => rfl)
  have hroom := h.room
  have hlow := h.low
  have hp := List.length_pos_iff.mpr hr
  rw [List.length_append, List.length_replicate] at hroom
  have hcw : (f.writer.setSpaces k).currentWidth = f.writer.currentWidth + k := by
    unfold Writer.currentWidth Writer.setSpaces
    simp only
    omega
  unfold writeToken
  simp only [ht]
  unfold beginAlignment
  have hle : f.writer.line.isEmpty = false := by
    cases hx : f.writer.line with
    | nil => exact absurd hx hl
    | cons _ _ => rfl
  have e1 : ({ f with writer := f.writer.setSpaces k } : Formatter).writer.line.isEmpty = false := hle
  simp only [e1, Bool.false_or, decide_eq_true_eq]
  by_cases hu : f.state = .unalignedMarker
  · rw [if_pos hu]
    have hind : f.indents = n :: base := by
      rcases h.level with ⟨_, b, _⟩ | ⟨a, _⟩
      · exact b
      · rw [hu] at a; simp at a
    have hset : ((f.writer.setSpaces k).setSpaces 0).setIndentation (f.writer.currentWidth + k) = { f.writer with spaces := 0, indent := f.writer.currentWidth + k } := by
      unfold Writer.setIndentation Writer.setSpaces
      simp only
      rw [if_neg (by omega)]
    have hcw2 : ({ f.writer with spaces := 0, indent := f.writer.currentWidth + k } : Writer).currentWidth = f.writer.currentWidth + k := by
      have : f.writer.cur ≤ f.writer.currentWidth := by unfold Writer.currentWidth; omega
      show max f.writer.cur (f.writer.currentWidth + k) + 0 = _
      omega
    refine ⟨_, rfl, ?_⟩
    unfold pushCurrent
    simp only [hcw, hset, hind]
    refine ⟨⟨.inr ⟨rfl, _, rfl⟩, h.narrow, ?_, fun h0 => absurd h0 hr2, fun h0 => absurd h0 hr, ?_⟩, hcw2, by simp⟩
    · simp only [hcw2]
      omega
    · simp only [hcw2]
      omega
  · rw [if_neg hu]
    have hnm : ¬ f.state = .alignedMarker := by
      rcases h.level with ⟨a, _⟩ | ⟨a, _⟩
      · exact fun h0 => a (.inr h0)
      · rw [a]; simp
    rw [if_neg hnm]
    refine ⟨_, rfl, ⟨?_, h.narrow, ?_, fun h0 => absurd h0 hr2, fun h0 => absurd h0 hr, ?_⟩, hcw, rfl, rfl, rfl, rfl, rfl, hu⟩
    · rcases h.level with ⟨a, b, c⟩ | ⟨a, b⟩
      · exact .inl ⟨a, b, c⟩
      · exact .inr ⟨a, b⟩
    · simp only [hcw]
      show _ ≤ f.writer.lineWidth
      omega
    · simp only [hcw]
      omega

theorem runs_word {base : List Nat} {n : Nat} {f : Formatter} {word r : Str} (h : Runs base n f (word ++ r)) (hw : word ≠ []) (hfirst : f.writer.line = [] → ¬ f.Aligning) :
    ∃ f1, f.writeToken .word word = .ok f1 ∧ Runs base n f1 r ∧ f1.writer.line = f.writer.line ++ List.replicate (f.writer.currentWidth - f.writer.cur) 32 ++ word ∧
      f1.writer.out = f.writer.out ∧ f1.writer.lineWidth = f.writer.lineWidth ∧ f1.splitter = f.splitter ∧
      f1.writer.cur = f.writer.currentWidth + countCodePoints word ∧ f1.writer.currentWidth = f1.writer.cur ∧
      f1.state = (f.updateAlignment word).state := by
  have hroom := h.room
  have hlow := h.low
  rw [List.length_append] at hroom
  have hcount := count_le_length word
  have hcur : f.writer.cur ≤ f.writer.currentWidth := by unfold Writer.currentWidth; omega
  have hind : f.writer.indent ≤ f.writer.currentWidth := by unfold Writer.currentWidth; omega
  obtain ⟨g, hg⟩ : ∃ g, f.updateAlignment word = g := ⟨_, rfl⟩
  have hgw : g.writer = f.writer ∧ g.indents = f.indents ∧ g.splitter = f.splitter := by
    rw [← hg]
    exact updateAlignment_same f word
  have hgl : (¬ g.Aligning ∧ g.indents = n :: base ∧ g.writer.indent = n) ∨ (g.state = .alignment ∧ ∃ m, g.indents = m :: n :: base) := by
    rw [hgw.1, hgw.2.1]
    by_cases hl : f.writer.line = []
    · have ha := hfirst hl
      rcases h.level with ⟨_, b, c⟩ | ⟨a, _⟩
      · refine .inl ⟨?_, b, c⟩
        rw [← hg]
        unfold updateAlignment
        split
        · have : f.state ≠ .alignment := fun h0 => ha (.inl h0)
          simp [Aligning, this]
        · exact ha
      · exact absurd (.inl a) ha
    · have hst : g.state = f.state := by
        rw [← hg]
        unfold updateAlignment
        rw [if_neg (by simp [hl])]
      have : g.Aligning ↔ f.Aligning := by unfold Aligning; rw [hst]
      rw [this, hst]
      exact h.level
  unfold writeToken
  simp only [hg]
  have hap : g.appendWord word = .ok { g with writer := f.writer.append word } := by
    unfold appendWord
    rw [show 3 * word.length + 3 = (3 * word.length + 2) + 1 from rfl]
    unfold appendLoop
    unfold Writer.write
    rw [hgw.1, if_neg (by omega)]
  have hc : (f.writer.append word).cur = f.writer.currentWidth + countCodePoints word := by
    unfold Writer.append
    simp only
    omega
  have hcw : (f.writer.append word).currentWidth = (f.writer.append word).cur := by
    show max (f.writer.append word).cur f.writer.indent + 0 = _
    omega
  refine ⟨_, hap, ⟨?_, h.narrow, ?_, fun _ => ⟨?_, rfl⟩, fun _ => ⟨rfl, ?_, ?_⟩, ?_⟩, rfl, rfl, rfl, hgw.2.2, hc, hcw, rfl⟩
  · rcases hgl with ⟨a, b, c⟩ | a
    · refine .inl ⟨a, b, ?_⟩
      rw [hgw.1] at c
      exact c
    · exact .inr a
  · simp only [hcw, hc]
    show _ ≤ f.writer.lineWidth
    omega
  · simp [Writer.append, hw]
  · simp only [hc]
    show f.writer.indent ≤ _
    omega
  · simp only [hc]
    omega
  · simp only [hcw, hc]
    omega

theorem wordsLoop_runs (base : List Nat) (n fuel : Nat) : ∀ {f : Formatter} {t : Str}, Runs base n f t → t.length ≤ fuel →
    (∀ c ∈ t, c ≠ 9 ∧ c ≠ 10 ∧ c ≠ 13) → t.getLast? ≠ some 32 → (f.writer.line = [] → ¬ f.Aligning) → ∃ f', wordsLoop fuel f t = .ok f' ∧ Ran base n f f' t := by
  have done : ∀ {f : Formatter}, Runs base n f [] → ∃ f', f.endAlignment = .ok f' ∧ Ran base n f f' [] := by
    intro f h
    obtain ⟨s1, s2, s3⟩ := h.stop rfl
    have hn := h.narrow
    have hcw : f.writer.currentWidth = f.writer.cur := by unfold Writer.currentWidth; omega
    unfold endAlignment
    rcases h.level with ⟨a, b, c⟩ | ⟨a, m, b⟩
    · rw [if_neg (by exact a)]
      refine ⟨f, rfl, rfl, by simp [hcw], b, c, a, s1, rfl, rfl, by omega, by simp [hcw], fun _ => by simp [hcw, glyphs_nil], fun hq => ?_⟩
      rcases hq with ⟨hq, _⟩ | ⟨_, hq⟩
      · unfold Aligning at a
        cases hst : f.state <;> simp_all
      · simp at hq
    · rw [if_pos (.inl a)]
      unfold popIndentation
      rw [b]
      simp only [Outcome.bind_ok, Outcome.pure_eq]
      have hs : f.writer.setIndentation n = { f.writer with indent := n } := by
        unfold Writer.setIndentation
        rw [if_neg (by omega)]
      rw [hs]
      exact ⟨_, rfl, rfl, by simp [hcw], rfl, rfl, by simp [Aligning], s1, rfl, rfl, by simp [hcw], by simp [hcw], fun _ => by simp [hcw, glyphs_nil], fun _ => rfl⟩
  induction fuel with
  | zero =>
    intro f t h hlen _ _ _
    have : t = [] := List.length_eq_zero_iff.mp (by omega)
    subst this
    unfold wordsLoop
    exact done h
  | succ fuel ih =>
    intro f t h hlen hb hlast hfirst
    cases t with
    | nil =>
      unfold wordsLoop
      exact done h
    | cons c t =>
      have hc := hb c (by simp)
      unfold wordsLoop
      by_cases h32 : c = 32
      · -- spaces
        subst h32
        have e : nextToken 32 t = (.space, 32 :: t.takeWhile (· = 32), t.drop (t.takeWhile (· = 32)).length) := by
          unfold nextToken
          simp
        simp only [e]
        obtain ⟨token, htok⟩ : ∃ token, (32 :: t.takeWhile (· = 32) : Str) = token := ⟨_, rfl⟩
        obtain ⟨r, hr⟩ : ∃ r, t.drop (t.takeWhile (· = 32)).length = r := ⟨_, rfl⟩
        have hrep : token = List.replicate token.length 32 := by
          refine List.eq_replicate_iff.mpr ⟨rfl, fun x hx => ?_⟩
          rw [← htok] at hx
          rcases List.mem_cons.mp hx with hx | hx
          · exact hx
          · have := List.all_eq_true.mp (List.all_takeWhile (l := t)) x hx
            simpa using this
        have hjoin : (32 :: t : Str) = List.replicate token.length 32 ++ r := by
          rw [← hrep, ← hr, ← htok, List.cons_append, takeWhile_join]
        have hpos : 0 < token.length := by rw [← htok]; simp
        have hrne : r ≠ [] := by
          rintro rfl
          rw [hjoin, List.append_nil, List.getLast?_replicate, if_neg (by omega)] at hlast
          exact hlast rfl
        have hr2 : r.head? ≠ some 32 := by
          intro h0
          rw [← hr] at h0
          have := drop_takeWhile_head t h0
          simp at this
        rw [htok, hr]
        rw [hjoin] at h hb hlast hlen ⊢
        obtain ⟨f1, a1, a2, a3, a4, a5, a6, a7, a8, a9⟩ := runs_space rfl h hpos hrne hr2
        rw [a1, Outcome.bind_ok]
        rw [List.length_append, List.length_replicate] at hlen
        obtain ⟨f', b1, b2⟩ := ih a2 (by omega) (fun x hx => hb x (by simp [hx])) (by
          rw [List.getLast?_append] at hlast
          cases hx : r.getLast? with
          | none => simp
          | some y => rw [hx] at hlast; simpa using hlast) (fun h0 => absurd (a5 ▸ h0) (h.blank (by rw [← hjoin]; rfl)).1)
        have hcur : f.writer.cur ≤ f.writer.currentWidth := by unfold Writer.currentWidth; omega
        refine ⟨f', b1, b2.out.trans a6, ?_, b2.indents, b2.indent, b2.state, b2.spaces, b2.width.trans a7, b2.splitter.trans a8, ?_, ?_, ?_, fun _ => b2.quiet (.inl ⟨a9, fun h0 => absurd (a5 ▸ h0) (h.blank (by rw [← hjoin]; rfl)).1⟩)⟩
        · rw [b2.line, a5, a3, a4, show f.writer.currentWidth + token.length - f.writer.cur = (f.writer.currentWidth - f.writer.cur) + token.length by omega,
            ← List.replicate_append_replicate]
          simp only [List.append_assoc]
        · have := b2.low; omega
        · have := b2.high
          rw [List.length_append, List.length_replicate]
          omega
        · intro hwh
          have hw1 : Argos.Whole (List.replicate token.length 32 : Str) := whole_ascii fun x hx => by
            have := (List.mem_replicate.mp hx).2
            subst this
            decide
          rw [b2.exact_ (hw1.of_append hwh), a3, glyphs_append, glyphs_spaces]
          omega
      · -- a word
        obtain ⟨token, htok⟩ : ∃ token, (c :: t.takeWhile (fun c => c ≠ 9 ∧ c ≠ 13 ∧ c ≠ 10 ∧ c ≠ 32) : Str) = token := ⟨_, rfl⟩
        obtain ⟨r, hr⟩ : ∃ r, t.drop (t.takeWhile (fun c => c ≠ 9 ∧ c ≠ 13 ∧ c ≠ 10 ∧ c ≠ 32)).length = r := ⟨_, rfl⟩
        have e : nextToken c t = (.word, token, r) := by
          unfold nextToken
          rw [if_neg hc.1, if_neg hc.2.2, if_neg hc.2.1, if_neg h32, ← htok, ← hr]
        have hjoin : (c :: t : Str) = token ++ r := by
          rw [← hr, ← htok, List.cons_append, takeWhile_join]
        have htne : token ≠ [] := by rw [← htok]; simp
        simp only [e]
        rw [hjoin] at h hb hlast hlen ⊢
        have hr2 : r = [] ∨ r.head? = some 32 := by
          cases hx : r with
          | nil => exact .inl rfl
          | cons y r' =>
            have h1 : (t.drop (t.takeWhile (fun c => c ≠ 9 ∧ c ≠ 13 ∧ c ≠ 10 ∧ c ≠ 32)).length).head? = some y := by rw [hr, hx]; rfl
            have h2 := drop_takeWhile_head t h1
            have h3 := hb y (by simp [hx])
            have h4 : y = 32 := by
              by_cases h5 : y = 32
              · exact h5
              · simp [h3, h5] at h2
            exact .inr (by rw [h4]; rfl)
        obtain ⟨f1, a1, a2, a3, a4, a5, a6, a7, a8, a9⟩ := runs_word h htne hfirst
        rw [a1, Outcome.bind_ok]
        have hp := List.length_pos_iff.mpr htne
        rw [List.length_append] at hlen
        have hne1 : f1.writer.line ≠ [] := by rw [a3]; simp [htne]
        obtain ⟨f', b1, b2⟩ := ih a2 (by omega) (fun x hx => hb x (by simp [hx])) (by
          rw [List.getLast?_append] at hlast
          cases hx : r.getLast? with
          | none => simp
          | some y => rw [hx] at hlast; simpa using hlast) (fun h0 => absurd h0 hne1)
        refine ⟨f', b1, b2.out.trans a4, ?_, b2.indents, b2.indent, b2.state, b2.spaces, b2.width.trans a5, b2.splitter.trans a6, ?_, ?_, ?_, fun hq => b2.quiet ?_⟩
        · rw [b2.line, a3, a8, Nat.sub_self]
          simp
        · have := b2.low; omega
        · have := b2.high
          have := count_le_length token
          rw [List.length_append]
          omega
        · intro hwh
          have hw1 : Argos.Whole token := Argos.Whole.prefix (b := r) hwh fun x hx => by
            rcases hr2 with h0 | h0
            · rw [h0] at hx; simp at hx
            · rw [h0] at hx
              simp only [Option.some.injEq] at hx
              subst hx
              decide
          rw [b2.exact_ (hw1.of_append hwh), a8, a7, count_whole hw1, glyphs_append]
          omega
        · rcases hq with ⟨q1, q2⟩ | ⟨_, q2⟩
          · unfold updateAlignment at a9
            split at a9
            · rename_i hm
              simp only [Bool.and_eq_true, List.isEmpty_iff] at hm
              have q3 := q2 hm.1
              have hna : f.state ≠ .alignment := fun h0 => hfirst hm.1 (.inl h0)
              rcases hr2 with h0 | h0
              · rw [h0, List.append_nil, hm.2] at q3
                simp at q3
              · refine .inr ⟨?_, h0⟩
                rw [a9]
                simp [hna]
            · exact .inl ⟨by rw [a9]; exact q1, fun h0 => absurd h0 hne1⟩
          · rw [← hjoin] at q2
            simp only [List.head?_cons, Option.some.injEq] at q2
            exact absurd q2 h32

/-- A formatter at the beginning of a line, with the indentation `n`. -/
structure Calm (base : List Nat) (n : Nat) (f : Formatter) : Prop where
  line : f.writer.line = []
  cur : f.writer.cur = 0
  spaces : f.writer.spaces = 0
  indents : f.indents = n :: base
  indent : f.writer.indent = n
  state : ¬ f.Aligning
  narrow : n < f.writer.lineWidth

/-- The formatter has written whole lines. -/
structure Writes (base : List Nat) (n : Nat) (f f' : Formatter) (s : Str) : Prop where
  calm : Calm base n f'
  out : f'.writer.out = f.writer.out ++ s
  width : f'.writer.lineWidth = f.writer.lineWidth

theorem Writes.trans {base : List Nat} {n : Nat} {f g h : Formatter} {s t : Str} (a : Writes base n f g s) (b : Writes base n g h t) : Writes base n f h (s ++ t) :=
  ⟨b.calm, by rw [b.out, a.out, List.append_assoc], b.width.trans a.width⟩

theorem Writes.refl {base : List Nat} {n : Nat} {f : Formatter} (h : Calm base n f) : Writes base n f f [] := ⟨h, by simp, rfl⟩

theorem writeWords_line {base : List Nat} {n : Nat} {f : Formatter} {t : Str} (hi : f.indents = n :: base) (hn : f.writer.indent = n)
    (ha : ¬ f.Aligning) (hw : n < f.writer.lineWidth) (ht : OneLine t) (hroom : f.writer.currentWidth + t.length ≤ f.writer.lineWidth) :
    ∃ f', f.writeWords t = .ok f' ∧ Ran base n f f' t := by
  obtain ⟨t1, t2, t3, t4⟩ := ht
  refine wordsLoop_runs base n _ ⟨.inl ⟨ha, hi, hn⟩, hw, hroom, fun h => absurd h t3, fun h => absurd h t1, ?_⟩ (Nat.le_refl _) t2 t4 (fun _ => ha)
  unfold Writer.currentWidth
  omega

/-- The line that was begun ends. -/
theorem Ran.newline {base : List Nat} {n : Nat} {f f' : Formatter} {t : Str} (a : Ran base n f f' t) (hn : n < f.writer.lineWidth) :
    Writes base n f f'.newline (f.writer.line ++ List.replicate (f.writer.currentWidth - f.writer.cur) 32 ++ t ++ [10]) := by
  refine ⟨⟨rfl, rfl, rfl, a.indents, a.indent, a.state, ?_⟩, ?_, a.width⟩
  · show n < f'.writer.lineWidth
    rw [a.width]
    exact hn
  · show f'.writer.out ++ (f'.writer.line ++ [10]) = _
    rw [a.out, a.line]

theorem calm_currentWidth {base : List Nat} {n : Nat} {f : Formatter} (h : Calm base n f) : f.writer.currentWidth = n := by
  unfold Writer.currentWidth
  rw [h.cur, h.spaces, h.indent]
  omega

/-- A line of its own. -/
theorem writeWords_whole {base : List Nat} {n : Nat} {f : Formatter} {t : Str} (h : Calm base n f) (ht : OneLine t) (hroom : n + t.length ≤ f.writer.lineWidth) :
    ∃ f', f.writeWords t = .ok f' ∧ Ran base n f f' t ∧ Writes base n f f'.newline (List.replicate n 32 ++ t ++ [10]) := by
  obtain ⟨f', a1, a2⟩ := writeWords_line h.indents h.indent h.state h.narrow ht (by rw [calm_currentWidth h]; exact hroom)
  refine ⟨f', a1, a2, ?_⟩
  have := a2.newline h.narrow
  rw [h.line, calm_currentWidth h, h.cur] at this
  simpa using this

theorem pop_push {base : List Nat} {n m : Nat} {f : Formatter} (hi : f.indents = m :: n :: base) (hn : n < f.writer.lineWidth) :
    f.popIndentation = .ok { f with indents := n :: base, writer := { f.writer with indent := n } } := by
  unfold popIndentation
  rw [hi]
  simp only
  unfold Writer.setIndentation
  rw [if_neg (by omega)]

theorem setIndentation_lt {w : Writer} {n : Nat} (h : n < w.lineWidth) : w.setIndentation n = { w with indent := n } := by
  unfold Writer.setIndentation
  rw [if_neg (by omega)]

/-- An entry in two columns. -/
theorem writeEntry_columns {base : List Nat} {f : Formatter} (h : Calm base 2 f) {col : Nat} {e : Str × Str} (hcol : col ≠ 0) (h1 : OneLine e.1) (hu : Argos.Whole e.1)
    (h2 : e.2 = [] ∨ OneLine e.2) (hw1 : e.1.length + 3 ≤ col) (hw2 : col + e.2.length ≤ f.writer.lineWidth) :
    ∃ f', writeEntry col e f = .ok f' ∧
      Writes base 2 f f' ([32, 32] ++ e.1 ++ (if e.2 = [] then [] else List.replicate (col - (2 + glyphs e.1)) 32 ++ e.2) ++ [10]) := by
  obtain ⟨f1, a1, a2, a3⟩ := writeWords_whole h h1 (by omega)
  unfold writeEntry
  rw [a1, Outcome.bind_ok]
  unfold writeEntryText
  rcases h2 with h2 | h2
  · rw [h2, if_pos rfl, if_pos rfl, Outcome.bind_ok]
    exact ⟨_, rfl, by simpa using a3⟩
  · have hne := h2.1
    have hp := List.length_pos_iff.mpr hne
    rw [if_neg hne, if_neg hne, if_pos hcol]
    have hhigh := a2.high
    have hex := a2.exact_ hu
    rw [calm_currentWidth h] at hhigh hex
    have hcw1 : f1.writer.currentWidth = f1.writer.cur := by
      unfold Writer.currentWidth
      rw [a2.indent, a2.spaces]
      omega
    rw [if_neg (by omega)]
    simp only [Outcome.bind_ok]
    have hpush : f1.pushIndentation col = { f1 with indents := col :: 2 :: base, writer := { f1.writer with indent := col } } := by
      unfold pushIndentation
      rw [setIndentation_lt (by rw [a2.width]; omega), a2.indents]
    rw [hpush]
    obtain ⟨f2, hf2⟩ : ∃ f2 : Formatter, f2 = { f1 with indents := col :: 2 :: base, writer := { f1.writer with indent := col } } := ⟨_, rfl⟩
    rw [← hf2]
    have hcw2 : f2.writer.currentWidth = col := by
      rw [hf2]
      unfold Writer.currentWidth
      simp only [a2.spaces]
      omega
    have hlw : f2.writer.lineWidth = f.writer.lineWidth := by rw [hf2]; exact a2.width
    obtain ⟨f3, b1, b2⟩ := writeWords_line (f := f2) (n := col) (base := 2 :: base) (t := e.2) (by rw [hf2]) (by rw [hf2])
      (by rw [hf2]; exact a2.state) (by omega) h2 (by omega)
    rw [b1, Outcome.bind_ok, pop_push b2.indents (by rw [b2.width, hlw]; have := h.narrow; omega), Outcome.bind_ok]
    refine ⟨_, rfl, ⟨rfl, rfl, rfl, rfl, rfl, b2.state, ?_⟩, ?_, b2.width.trans hlw⟩
    · show 2 < f3.writer.lineWidth
      rw [b2.width, hlw]
      exact h.narrow
    · show f3.writer.out ++ (f3.writer.line ++ [10]) = _
      rw [b2.out, b2.line, hcw2]
      have e1 : f2.writer.out = f.writer.out := by rw [hf2]; exact a2.out
      have e2 : f2.writer.line = f1.writer.line := by rw [hf2]
      have e3 : f2.writer.cur = f1.writer.cur := by rw [hf2]
      rw [e1, e2, e3, a2.line, h.line, calm_currentWidth h, h.cur, hex]
      simp

/-- An entry with the text below the label. -/
theorem writeEntry_stacked {base : List Nat} {f : Formatter} (h : Calm base 2 f) {e : Str × Str} (h1 : OneLine e.1)
    (h2 : e.2 = [] ∨ OneLine e.2) (hw1 : 2 + e.1.length ≤ f.writer.lineWidth) (hw2 : e.2 ≠ [] → 8 + e.2.length ≤ f.writer.lineWidth) :
    ∃ f', writeEntry 0 e f = .ok f' ∧
      Writes base 2 f f' ([32, 32] ++ e.1 ++ [10] ++ (if e.2 = [] then [] else List.replicate 8 32 ++ e.2 ++ [10])) := by
  obtain ⟨f1, a1, a2, a3⟩ := writeWords_whole h h1 (by omega)
  unfold writeEntry
  rw [a1, Outcome.bind_ok]
  unfold writeEntryText
  rcases h2 with h2 | h2
  · rw [h2, if_pos rfl, if_pos rfl, Outcome.bind_ok]
    exact ⟨_, rfl, by simpa using a3⟩
  · have hne := h2.1
    have hp := List.length_pos_iff.mpr hne
    have hw2 := hw2 hne
    rw [if_neg hne, if_neg hne, if_neg (by simp)]
    obtain ⟨g, hg⟩ : ∃ g, f1.newline = g := ⟨_, rfl⟩
    rw [hg] at a3 ⊢
    have c := a3.calm
    have hlw := a3.width
    have hpush : g.pushIndentation 8 = { g with indents := 8 :: 2 :: base, writer := { g.writer with indent := 8 } } := by
      unfold pushIndentation
      rw [setIndentation_lt (by omega), c.indents]
    rw [hpush]
    obtain ⟨f2, hf2⟩ : ∃ f2 : Formatter, f2 = { g with indents := 8 :: 2 :: base, writer := { g.writer with indent := 8 } } := ⟨_, rfl⟩
    rw [← hf2]
    have hc2 : Calm (2 :: base) 8 f2 := by
      rw [hf2]
      exact ⟨c.line, c.cur, c.spaces, rfl, rfl, c.state, by show 8 < g.writer.lineWidth; omega⟩
    have hlw2 : f2.writer.lineWidth = g.writer.lineWidth := by rw [hf2]
    obtain ⟨f3, b1, b2, b3⟩ := writeWords_whole hc2 h2 (by omega)
    rw [b1, Outcome.bind_ok, pop_push b2.indents (by rw [b2.width]; have := h.narrow; omega), Outcome.bind_ok]
    refine ⟨_, rfl, ⟨rfl, rfl, rfl, rfl, rfl, b2.state, ?_⟩, ?_, (b2.width.trans hlw2).trans hlw⟩
    · show 2 < f3.writer.lineWidth
      rw [b2.width, hlw2, hlw]
      exact h.narrow
    · show f3.newline.writer.out = _
      rw [b3.out, hf2]
      show g.writer.out ++ _ = _
      rw [a3.out]
      simp

end Formatter

end Argos
