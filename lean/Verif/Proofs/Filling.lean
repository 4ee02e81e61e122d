import Verif.Proofs.HelpLayout
import Verif.Proofs.Rule
import Verif.Spec.Filling

/-! # How texts are set -/

namespace Argos
open Spec

/-! ### The words of a line -/

/-- The words with the spaces before them. -/
def rendered (ws : List (Nat × Str)) : Str := ws.flatMap fun x => spaces x.1 ++ x.2

/-- Words of a line: without blanks, with spaces between them. -/
def WordList : List (Nat × Str) → Prop
  | [] => True
  | x :: ws => (x.2 ≠ [] ∧ ∀ c ∈ x.2, ¬ isBlank c) ∧ (∀ y ∈ ws, 0 < y.1 ∧ y.2 ≠ [] ∧ ∀ c ∈ y.2, ¬ isBlank c)

theorem spaces_succ (k : Nat) : spaces (k + 1) = 32 :: spaces k := List.replicate_succ

theorem spaces_add (j k : Nat) : spaces (j + k) = spaces j ++ spaces k := by
  unfold spaces
  rw [List.replicate_append_replicate]

/-- A line consists of its words and of spaces. -/
theorem wordsIn_line (l : Str) (h : ∀ c ∈ l, c ≠ 9 ∧ c ≠ 10 ∧ c ≠ 13) : WordList (wordsIn l) ∧ ∃ j, l = rendered (wordsIn l) ++ spaces j := by
  induction l with
  | nil => exact ⟨trivial, 0, rfl⟩
  | cons c l ih =>
    obtain ⟨i1, j, i2⟩ := ih fun x hx => h x (by simp [hx])
    have hc := h c (by simp)
    unfold wordsIn
    by_cases h32 : c = 32
    · subst h32
      rw [if_pos rfl]
      cases hw : wordsIn l with
      | nil =>
        rw [hw] at i2
        refine ⟨trivial, j + 1, ?_⟩
        rw [spaces_succ, i2]
        rfl
      | cons x ws =>
        rw [hw] at i1 i2
        obtain ⟨k, w⟩ := x
        refine ⟨i1, j, ?_⟩
        simp only
        rw [i2]
        simp [rendered, spaces_succ]
    · rw [if_neg h32]
      have hb : ¬ isBlank c := by
        unfold isBlank
        simp [h32, hc]
      cases hw : wordsIn l with
      | nil =>
        rw [hw] at i2
        refine ⟨⟨⟨by simp, by simpa using hb⟩, by simp⟩, j, ?_⟩
        rw [i2]
        rfl
      | cons x ws =>
        rw [hw] at i1 i2
        obtain ⟨k, w⟩ := x
        cases k with
        | zero =>
          refine ⟨⟨⟨by simp, ?_⟩, i1.2⟩, j, ?_⟩
          · intro x hx
            rcases List.mem_cons.mp hx with rfl | hx
            · exact hb
            · exact i1.1.2 x hx
          · simp only
            rw [i2]
            simp [rendered, spaces]
        | succ k =>
          refine ⟨⟨⟨by simp, by simpa using hb⟩, ?_⟩, j, ?_⟩
          · intro y hy
            rcases List.mem_cons.mp hy with rfl | hy
            · exact ⟨by omega, i1.1⟩
            · exact i1.2 y hy
          · simp only
            rw [i2]
            simp [rendered, spaces]

namespace Formatter

/-! ### Tokens -/

theorem takeWhile_exact {p : UInt8 → Bool} (w r : Str) (h1 : ∀ c ∈ w, p c = true) (h2 : ∀ c, r.head? = some c → p c = false) : (w ++ r).takeWhile p = w := by
  induction w with
  | nil =>
    cases r with
    | nil => rfl
    | cons c r => rw [List.nil_append, List.takeWhile_cons, if_neg (by simp [h2 c rfl])]
  | cons c w ih => rw [List.cons_append, List.takeWhile_cons, if_pos (h1 c (by simp)), ih fun x hx => h1 x (by simp [hx])]

/-- Spaces are a token. -/
theorem loop_space {k fuel : Nat} {f f1 : Formatter} {r : Str} (hk : 0 < k) (hr : r.head? ≠ some 32) (hfuel : (spaces k ++ r).length ≤ fuel)
    (ht : f.writeToken .space (spaces k) = .ok f1) : ∃ fuel', wordsLoop fuel f (spaces k ++ r) = wordsLoop fuel' f1 r ∧ r.length ≤ fuel' := by
  obtain ⟨k, rfl⟩ : ∃ m, k = m + 1 := ⟨k - 1, by omega⟩
  rw [spaces_succ] at ht hfuel ⊢
  simp only [List.cons_append, List.length_cons, List.length_append] at hfuel
  obtain ⟨fuel, rfl⟩ : ∃ m, fuel = m + 1 := ⟨fuel - 1, by omega⟩
  refine ⟨fuel, ?_, by omega⟩
  have e : nextToken 32 (spaces k ++ r) = (.space, 32 :: spaces k, r) := by
    unfold nextToken
    have : (spaces k ++ r).takeWhile (fun c => decide (c = 32)) = spaces k := by
      refine takeWhile_exact _ _ ?_ ?_
      · intro c hc
        simp [(List.mem_replicate.mp hc).2]
      · intro c hc
        rw [hc] at hr
        simpa using hr
    simp [this]
  rw [List.cons_append]
  conv => lhs; unfold wordsLoop
  simp only [e]
  rw [ht, Outcome.bind_ok]

/-- A word is a token. -/
theorem loop_word {fuel : Nat} {f f1 : Formatter} {w r : Str} (hw : w ≠ []) (hb : ∀ c ∈ w, ¬ isBlank c) (hr : ∀ c, r.head? = some c → isBlank c)
    (hfuel : (w ++ r).length ≤ fuel) (ht : f.writeToken .word w = .ok f1) : ∃ fuel', wordsLoop fuel f (w ++ r) = wordsLoop fuel' f1 r ∧ r.length ≤ fuel' := by
  cases w with
  | nil => exact absurd rfl hw
  | cons c w =>
    simp only [List.cons_append, List.length_cons, List.length_append] at hfuel
    obtain ⟨fuel, rfl⟩ : ∃ m, fuel = m + 1 := ⟨fuel - 1, by omega⟩
    refine ⟨fuel, ?_, by omega⟩
    have hc := hb c (by simp)
    simp only [isBlank, not_or] at hc
    have e : nextToken c (w ++ r) = (.word, c :: w, r) := by
      unfold nextToken
      rw [if_neg hc.2.1, if_neg hc.2.2.2, if_neg hc.2.2.1, if_neg hc.1]
      have : (w ++ r).takeWhile (fun c => decide (c ≠ 9 ∧ c ≠ 13 ∧ c ≠ 10 ∧ c ≠ 32)) = w := by
        refine takeWhile_exact _ _ ?_ ?_
        · intro c hc
          have := hb c (by simp [hc])
          simp only [isBlank, not_or] at this
          simp [this]
        · intro c hc
          rcases hr c hc with rfl | rfl | rfl | rfl <;> rfl
      simp only [this, List.drop_left]
    rw [List.cons_append]
    conv => lhs; unfold wordsLoop
    simp only [e]
    rw [ht, Outcome.bind_ok]

/-- Ends of lines are tokens. -/
theorem loop_newline {fuel : Nat} {f f1 : Formatter} {c : UInt8} {t r : Str} (hc : (c = 13 ∧ t = 10 :: r) ∨ (c = 13 ∧ t = r ∧ r.head? ≠ some 10) ∨ (c = 10 ∧ t = r))
    (hfuel : (c :: t).length ≤ fuel) (ht : f.endAlignment = .ok f1) : ∃ fuel', wordsLoop fuel f (c :: t) = wordsLoop fuel' f1.newline r ∧ r.length ≤ fuel' := by
  simp only [List.length_cons] at hfuel
  obtain ⟨fuel, rfl⟩ : ∃ m, fuel = m + 1 := ⟨fuel - 1, by omega⟩
  have e : ∃ token, nextToken c t = (.newline, token, r) := by
    rcases hc with ⟨rfl, rfl⟩ | ⟨rfl, rfl, h⟩ | ⟨rfl, rfl⟩
    · exact ⟨_, rfl⟩
    · unfold nextToken
      rw [if_neg (by decide), if_pos rfl]
      split
      · simp at h
      · exact ⟨_, rfl⟩
    · exact ⟨_, rfl⟩
  refine ⟨fuel, ?_, ?_⟩
  · obtain ⟨token, e⟩ := e
    conv => lhs; unfold wordsLoop
    simp only [e]
    have : f.writeToken .newline token = .ok f1.newline := by
      unfold writeToken
      simp only
      rw [ht, Outcome.bind_ok]
      rfl
    rw [this, Outcome.bind_ok]
  · rcases hc with ⟨rfl, rfl⟩ | ⟨rfl, rfl, h⟩ | ⟨rfl, rfl⟩
    · simp only [List.length_cons] at hfuel
      omega
    · omega
    · omega

/-! ### Within a line -/

/-- A line has been begun: `s` has been written, up to the column `col`, and `k` spaces are due. -/
structure At (sp : Splitter) (w : Nat) (base : List Nat) (n : Nat) (st : AlignState) (s : Str) (col k : Nat) (f : Formatter) : Prop where
  written : f.writer.out ++ f.writer.line = s
  begun : f.writer.line ≠ []
  indents : f.indents = n :: base
  indent : f.writer.indent = n
  state : f.state = st
  cur : f.writer.cur = col
  gap : f.writer.currentWidth = col + k
  width : f.writer.lineWidth = w
  splitter : f.splitter = sp
  narrow : n < w
  solid : s.getLast? ≠ some 10

/-- At the beginning of a line: `s` has been written. -/
structure Begins (sp : Splitter) (w : Nat) (base : List Nat) (n : Nat) (s : Str) (f : Formatter) : Prop where
  out : f.writer.out = s
  line : f.writer.line = []
  cur : f.writer.cur = 0
  spaces : f.writer.spaces = 0
  indents : f.indents = n :: base
  indent : f.writer.indent = n
  state : f.state = .noAlignment
  width : f.writer.lineWidth = w
  splitter : f.splitter = sp
  narrow : n < w

/-- No rule is found for the word. -/
def Unruled (sp : Splitter) (w : Str) : Prop := sp.lookup (if isLower (removePunctuation w) then removePunctuation w else toLower (removePunctuation w)) = none

theorem unruled_of {rules : List Str} {sp : Splitter} (h : Splitter.addWords [] rules = .ok sp) {w : Str} (hw : NoRule rules w) : Unruled sp w := by
  have hkey : ∀ (rules : List Str) {sp sp' : Splitter}, Splitter.addWords sp rules = .ok sp' → ∀ key, sp.lookup key = none → (∀ r ∈ rules, toLower (unbroken r) ≠ key) →
      sp'.lookup key = none := by
    intro rules
    induction rules with
    | nil => intro sp sp' h key hk _; simp [Splitter.addWords] at h; exact h ▸ hk
    | cons r rs ih =>
      intro sp sp' h key hk hr
      simp only [Splitter.addWords, Outcome.bind_eq_ok] at h
      obtain ⟨sp1, h1, h2⟩ := h
      refine ih h2 key ?_ fun x hx => hr x (by simp [hx])
      rcases Splitter.addWord_ok h1 with rfl | ⟨splits, _, rfl⟩
      · exact hk
      · rw [Splitter.lookup_append, hk]
        have : ¬ key = toLower (unbroken r) := fun h0 => hr r (by simp) h0.symm
        have h5 : (key == toLower (r.filter (· ≠ c!" "))) = false := by
          simpa [unbroken] using this
        simp only [List.lookup_cons, h5, List.lookup_nil, Option.or]
  unfold Unruled
  rw [Splitter.key_eq]
  refine hkey rules h _ rfl fun r hr h0 => hw r hr ?_
  rw [ruleFor_iff, h0]

theorem At.currentWidth_le {sp : Splitter} {w : Nat} {base : List Nat} {n : Nat} {st : AlignState} {s : Str} {col k : Nat} {f : Formatter}
    (h : At sp w base n st s col k f) : n ≤ col + k := by
  rw [← h.gap, ← h.indent]
  unfold Writer.currentWidth
  omega

/-- A word is appended to a line, or it begins the next one. -/
theorem at_append {sp : Splitter} {w : Nat} {base : List Nat} {n : Nat} {st : AlignState} {s t : Str} {col k : Nat} {f : Formatter}
    (h : At sp w base n st s col k f) (ht : t ≠ []) (h10 : 10 ∉ t) (hwh : Argos.Whole t) (hroom : n + glyphs t ≤ w) (hr : Unruled sp t) :
    ∃ f', f.appendWord t = .ok f' ∧ f'.writer.spaces = 0 ∧
      if col + k + glyphs t ≤ w then At sp w base n st (s ++ (spaces k ++ t)) (col + k + glyphs t) 0 f'
      else At sp w base n st (s ++ ([10] ++ spaces n ++ t)) (n + glyphs t) 0 f' := by
  have hn := h.currentWidth_le
  have hg := h.gap
  have hwd := h.width
  have hcnt := count_whole hwh
  have hpos := Splitter.glyphs_pos hwh ht
  have hlast : ∀ a : Str, (a ++ t).getLast? ≠ some 10 := by
    intro a h0
    rw [List.getLast?_append] at h0
    cases hx : t.getLast? with
    | none =>
      rw [List.getLast?_eq_none_iff] at hx
      exact ht hx
    | some y =>
      rw [hx] at h0
      simp only [Option.some_or, Option.some.injEq] at h0
      exact h10 (h0 ▸ List.mem_of_getLast? hx)
  unfold appendWord
  rw [show 3 * t.length + 3 = (3 * t.length + 1) + 1 + 1 from rfl]
  by_cases hfit : col + k + glyphs t ≤ w
  · simp only [if_pos hfit]
    unfold appendLoop Writer.write
    rw [if_neg (by omega)]
    refine ⟨_, rfl, rfl, ?_, by simp [Writer.append, ht], h.indents, h.indent, h.state, ?_, ?_, h.width, h.splitter, h.narrow, ?_⟩
    · show f.writer.out ++ (f.writer.line ++ List.replicate (f.writer.currentWidth - f.writer.cur) 32 ++ t) = _
      rw [← h.written, hg, h.cur, Nat.add_sub_cancel_left]
      simp [spaces]
    · show f.writer.cur + (f.writer.currentWidth - f.writer.cur + countCodePoints t) = _
      rw [hg, h.cur, hcnt]
      omega
    · show max (f.writer.cur + (f.writer.currentWidth - f.writer.cur + countCodePoints t)) f.writer.indent + 0 = _
      rw [hg, h.cur, hcnt, h.indent]
      omega
    · rw [← List.append_assoc]
      exact hlast _
  · simp only [if_neg hfit]
    unfold appendLoop
    have e1 : f.writer.write t = (false, f.writer) := by
      unfold Writer.write
      rw [if_pos (by omega)]
    have hle : f.writer.line.isEmpty = false := by
      cases hx : f.writer.line with
      | nil => exact absurd hx h.begun
      | cons _ _ => rfl
    have e2 : f.splitter.split t (t.length - t.length) f.writer.remainingWidth f.writer.line.isEmpty = .ok ([], false, t) := by
      unfold Splitter.split
      have hr' := hr
      unfold Unruled at hr'
      rw [h.splitter]
      simp only [hr']
      unfold Splitter.splitDefault
      rw [hle, if_neg (by simp)]
    simp only [e1]
    rw [e2, Outcome.bind_ok]
    simp only [hle]
    rw [if_neg (by simp), if_neg (by simp)]
    unfold appendLoop
    have hcw : f.newline.writer.currentWidth = n := by
      show max 0 f.writer.indent + 0 = n
      rw [h.indent]
      omega
    have hw2 : f.newline.writer.lineWidth = w := h.width
    have e3 : f.newline.writer.write t = (true, f.newline.writer.append t) := by
      unfold Writer.write
      rw [if_neg (by omega)]
    simp only [e3]
    have hcur0 : f.newline.writer.cur = 0 := rfl
    refine ⟨_, rfl, rfl, ?_, by simp [Writer.append, ht], h.indents, h.indent, h.state, ?_, ?_, h.width, h.splitter, h.narrow, ?_⟩
    · show f.newline.writer.out ++ (f.newline.writer.line ++ List.replicate (f.newline.writer.currentWidth - f.newline.writer.cur) 32 ++ t) = _
      rw [hcw, hcur0]
      show (f.writer.out ++ (f.writer.line ++ [10])) ++ ([] ++ List.replicate (n - 0) 32 ++ t) = _
      rw [← h.written]
      simp [spaces]
    · show f.newline.writer.cur + (f.newline.writer.currentWidth - f.newline.writer.cur + countCodePoints t) = _
      rw [hcw, hcur0, hcnt]
      omega
    · show max (f.newline.writer.cur + (f.newline.writer.currentWidth - f.newline.writer.cur + countCodePoints t)) f.writer.indent + 0 = _
      rw [hcw, hcur0, hcnt, h.indent]
      omega
    · rw [← List.append_assoc]
      exact hlast _

theorem at_empty {sp : Splitter} {w : Nat} {base : List Nat} {n : Nat} {st : AlignState} {s : Str} {col k : Nat} {f : Formatter}
    (h : At sp w base n st s col k f) : f.writer.line.isEmpty = false := by
  cases hx : f.writer.line with
  | nil => exact absurd hx h.begun
  | cons _ _ => rfl

theorem at_word {sp : Splitter} {w : Nat} {base : List Nat} {n : Nat} {st : AlignState} {s : Str} {col k : Nat} {f : Formatter}
    (h : At sp w base n st s col k f) (t : Str) : f.writeToken .word t = f.appendWord t := by
  unfold writeToken updateAlignment
  simp [at_empty h]

/-- Spaces within a line. -/
theorem at_space {sp : Splitter} {w : Nat} {base : List Nat} {n : Nat} {st : AlignState} {s : Str} {col k j : Nat} {f : Formatter}
    (h : At sp w base n st s col k f) (h0 : f.writer.spaces = 0) (hst : st = .noAlignment ∨ st = .alignment) :
    ∃ f', f.writeToken .space (spaces j) = .ok f' ∧ At sp w base n st s col (k + j) f' := by
  have hg := h.gap
  unfold writeToken beginAlignment
  have e1 : ({ f with writer := f.writer.setSpaces (spaces j).length } : Formatter).writer.line.isEmpty = false := by
    show f.writer.line.isEmpty = false
    exact at_empty h
  have hl : (spaces j).length = j := List.length_replicate
  simp only [e1, Bool.false_or, decide_eq_true_eq, h.state]
  rw [if_neg (by rcases hst with rfl | rfl <;> simp), if_neg (by rcases hst with rfl | rfl <;> simp), hl]
  refine ⟨_, rfl, h.written, h.begun, h.indents, h.indent, rfl, h.cur, ?_, h.width, h.splitter, h.narrow, h.solid⟩
  unfold Writer.currentWidth at hg
  show max f.writer.cur f.writer.indent + j = _
  omega

theorem fill_cons_fit {w n col k : Nat} {t : Str} {ws : List (Nat × Str)} (h : col + k + glyphs t ≤ w) :
    fill w n col ((k, t) :: ws) = spaces k ++ t ++ fill w n (col + k + glyphs t) ws := by rw [fill, if_pos h]

theorem fill_cons_wrap {w n col k : Nat} {t : Str} {ws : List (Nat × Str)} (h : ¬ col + k + glyphs t ≤ w) :
    fill w n col ((k, t) :: ws) = [10] ++ spaces n ++ t ++ fill w n (n + glyphs t) ws := by rw [fill, if_neg h]

/-- The conditions on the words behind the first one. -/
def Settable (sp : Splitter) (w n : Nat) (t : Str) : Prop := Argos.Whole t ∧ n + glyphs t ≤ w ∧ Unruled sp t

/-- The column behind the words. -/
def fillEnd (width hang : Nat) : (column : Nat) → List (Nat × Str) → Nat
  | column, [] => column
  | column, (k, w) :: ws =>
    if column + k + glyphs w ≤ width then fillEnd width hang (column + k + glyphs w) ws else fillEnd width hang (hang + glyphs w) ws

theorem fillEnd_cons_fit {w n col k : Nat} {t : Str} {ws : List (Nat × Str)} (h : col + k + glyphs t ≤ w) :
    fillEnd w n col ((k, t) :: ws) = fillEnd w n (col + k + glyphs t) ws := by rw [fillEnd, if_pos h]

theorem fillEnd_cons_wrap {w n col k : Nat} {t : Str} {ws : List (Nat × Str)} (h : ¬ col + k + glyphs t ≤ w) :
    fillEnd w n col ((k, t) :: ws) = fillEnd w n (n + glyphs t) ws := by rw [fillEnd, if_neg h]

theorem fill_append (w n : Nat) (ws vs : List (Nat × Str)) : ∀ col, fill w n col (ws ++ vs) = fill w n col ws ++ fill w n (fillEnd w n col ws) vs ∧
    fillEnd w n col (ws ++ vs) = fillEnd w n (fillEnd w n col ws) vs := by
  induction ws with
  | nil => intro col; exact ⟨rfl, rfl⟩
  | cons x ws ih =>
    obtain ⟨k, t⟩ := x
    intro col
    by_cases h : col + k + glyphs t ≤ w
    · rw [List.cons_append, fill_cons_fit h, fill_cons_fit h, fillEnd_cons_fit h, fillEnd_cons_fit h, (ih _).1, (ih _).2]
      simp
    · rw [List.cons_append, fill_cons_wrap h, fill_cons_wrap h, fillEnd_cons_wrap h, fillEnd_cons_wrap h, (ih _).1, (ih _).2]
      simp

theorem after_zero (ws : List (Nat × Str)) : after 0 ws = ws := by
  cases ws with
  | nil => rfl
  | cons y ws => simp [after]

/-- The rest of a line, and then something else. -/
theorem at_run {sp : Splitter} {w : Nat} {base : List Nat} {n : Nat} {st : AlignState} (hst : st = .noAlignment ∨ st = .alignment) {j : Nat}
    (ws : List (Nat × Str)) : WordList ws → (∀ x ∈ ws, Settable sp w n x.2) →
    ∀ {s : Str} {col k : Nat} {f : Formatter}, At sp w base n st s col k f → f.writer.spaces = 0 ∨ ((∀ x ∈ ws.head?, x.1 = 0) ∧ (ws = [] → j = 0)) →
    ∃ f', At sp w base n st (s ++ fill w n col (after k ws)) (fillEnd w n col (after k ws)) ((if ws = [] then k else 0) + j) f' ∧
      ∀ (r : Str) (fuel : Nat), r.head? ≠ some 32 → (j = 0 → ∀ c, r.head? = some c → isBlank c) → (rendered ws ++ spaces j ++ r).length ≤ fuel →
        ∃ fuel', wordsLoop fuel f (rendered ws ++ spaces j ++ r) = wordsLoop fuel' f' r ∧ r.length ≤ fuel' := by
  induction ws with
  | nil =>
    intro _ _ s col k f h h0
    rcases Nat.eq_zero_or_pos j with rfl | hj
    · refine ⟨f, by simpa [after, fill, fillEnd] using h, fun r fuel hr32 _ hfuel => ?_⟩
      exact ⟨fuel, rfl, by simpa [rendered, spaces] using hfuel⟩
    · have h0 : f.writer.spaces = 0 := by
        rcases h0 with h0 | ⟨_, h0⟩
        · exact h0
        · have := h0 rfl
          omega
      obtain ⟨f1, a1, a2⟩ := at_space (j := j) h h0 hst
      refine ⟨f1, by simpa [after, fill, fillEnd] using a2, fun r fuel hr32 _ hfuel => ?_⟩
      obtain ⟨fuel', b1, b2⟩ := loop_space (f := f) (f1 := f1) (r := r) hj hr32 (by simpa [rendered] using hfuel) a1
      exact ⟨fuel', by simpa [rendered] using b1, b2⟩
  | cons x ws ih =>
    obtain ⟨g, t⟩ := x
    intro hws hgo s col k f h h0
    obtain ⟨⟨t1, t2⟩, t3⟩ := hws
    obtain ⟨g1, g2, g3⟩ := hgo (g, t) (by simp)
    simp only at t1 t2 g1 g2 g3
    have hws' : WordList ws := by
      cases ws with
      | nil => trivial
      | cons y ws => exact ⟨(t3 y (by simp)).2, fun z hz => t3 z (by simp [hz])⟩
    have e : ∀ r, rendered ((g, t) :: ws) ++ spaces j ++ r = spaces g ++ (t ++ (rendered ws ++ spaces j ++ r)) := by
      intro r
      simp [rendered]
    have hthead : ∀ r, (t ++ (rendered ws ++ spaces j ++ r)).head? ≠ some 32 := by
      intro r
      cases t with
      | nil => exact absurd rfl t1
      | cons c t =>
        simp only [List.cons_append, List.head?_cons, ne_eq, Option.some.injEq]
        intro h0
        exact t2 c (by simp) (.inl h0)
    -- the spaces
    obtain ⟨f1, a3, a4⟩ : ∃ f1, At sp w base n st s col (k + g) f1 ∧ ∀ r fuel, (spaces g ++ (t ++ (rendered ws ++ spaces j ++ r))).length ≤ fuel →
        ∃ fuel1, wordsLoop fuel f (spaces g ++ (t ++ (rendered ws ++ spaces j ++ r))) = wordsLoop fuel1 f1 (t ++ (rendered ws ++ spaces j ++ r)) ∧
        (t ++ (rendered ws ++ spaces j ++ r)).length ≤ fuel1 := by
      rcases Nat.eq_zero_or_pos g with rfl | hg
      · exact ⟨f, h, fun r fuel hfuel => ⟨fuel, rfl, by simpa [spaces] using hfuel⟩⟩
      · have h0 : f.writer.spaces = 0 := by
          rcases h0 with h0 | ⟨h0, _⟩
          · exact h0
          · have := h0 (g, t) (by simp)
            simp only at this
            omega
        obtain ⟨f1, b1, b2⟩ := at_space (j := g) h h0 hst
        refine ⟨f1, b2, fun r fuel hfuel => ?_⟩
        exact loop_space (f := f) (f1 := f1) hg (hthead r) hfuel b1
    -- the word
    obtain ⟨f2, b1, b2, b3⟩ := at_append a3 t1 (fun h0 => t2 10 h0 (by simp [isBlank])) g1 g2 g3
    have hnext : ∀ r : Str, (j = 0 → ∀ c, r.head? = some c → isBlank c) → ∀ c, (rendered ws ++ spaces j ++ r).head? = some c → isBlank c := by
      intro r hblank c hc
      cases ws with
      | nil =>
        cases j with
        | zero => exact hblank rfl c (by simpa [rendered, spaces] using hc)
        | succ j =>
          simp only [rendered, List.flatMap_nil, List.nil_append, spaces_succ, List.cons_append, List.head?_cons, Option.some.injEq] at hc
          exact .inl hc.symm
      | cons y ws =>
        obtain ⟨i, u⟩ := y
        have := (t3 (i, u) (by simp)).1
        obtain ⟨i, rfl⟩ : ∃ m, i = m + 1 := ⟨i - 1, by simp only at this; omega⟩
        simp only [rendered, List.flatMap_cons, spaces_succ, List.cons_append, List.head?_cons, Option.some.injEq] at hc
        exact .inl hc.symm
    obtain ⟨s', col', hs', hc'⟩ : ∃ s' col', At sp w base n st s' col' 0 f2 ∧
        (s' ++ fill w n col' ws = s ++ fill w n col (after k ((g, t) :: ws)) ∧ fillEnd w n col' ws = fillEnd w n col (after k ((g, t) :: ws))) := by
      by_cases hfit : col + (k + g) + glyphs t ≤ w
      · rw [if_pos hfit] at b3
        refine ⟨_, _, b3, ?_⟩
        simp only [after]
        rw [fill_cons_fit hfit, fillEnd_cons_fit hfit]
        simp
      · rw [if_neg hfit] at b3
        refine ⟨_, _, b3, ?_⟩
        simp only [after]
        rw [fill_cons_wrap hfit, fillEnd_cons_wrap hfit]
        simp
    obtain ⟨f', d3, d4⟩ := ih hws' (fun x hx => hgo x (by simp [hx])) hs' (.inl b2)
    rw [after_zero, hc'.1, hc'.2] at d3
    refine ⟨f', ?_, fun r fuel hr32 hblank hfuel => ?_⟩
    · simpa using d3
    · rw [e] at hfuel ⊢
      obtain ⟨fuel1, a1, a2⟩ := a4 r fuel hfuel
      obtain ⟨fuel2, c1, c2⟩ := loop_word (f := f1) (f1 := f2) t1 t2 (hnext r hblank) a2 (by rw [at_word a3]; exact b1)
      obtain ⟨fuel', d1, d2⟩ := d4 r fuel2 hr32 hblank c2
      exact ⟨fuel', by rw [a1, c1, d1], d2⟩

/-- The rest of a line. -/
theorem at_rest {sp : Splitter} {w : Nat} {base : List Nat} {n : Nat} {st : AlignState} (hst : st = .noAlignment ∨ st = .alignment) {j : Nat} {r : Str}
    (hr : ∀ c, r.head? = some c → c = 10 ∨ c = 13) (ws : List (Nat × Str)) (hws : WordList ws) (hgo : ∀ x ∈ ws, Settable sp w n x.2)
    {s : Str} {col k : Nat} {f : Formatter} {fuel : Nat} (h : At sp w base n st s col k f) (h0 : f.writer.spaces = 0 ∨ ((∀ x ∈ ws.head?, x.1 = 0) ∧ (ws = [] → j = 0)))
    (hfuel : (rendered ws ++ spaces j ++ r).length ≤ fuel) : ∃ f' fuel' col' k', wordsLoop fuel f (rendered ws ++ spaces j ++ r) = wordsLoop fuel' f' r ∧ r.length ≤ fuel' ∧
      At sp w base n st (s ++ fill w n col (after k ws)) col' k' f' := by
  obtain ⟨f', a1, a2⟩ := at_run (j := j) hst ws hws hgo h h0
  obtain ⟨fuel', b1, b2⟩ := a2 r fuel (fun h0 => by rcases hr 32 h0 with h | h <;> simp at h)
    (fun _ c hc => by rcases hr c hc with rfl | rfl <;> simp [isBlank]) hfuel
  exact ⟨f', fuel', _, _, b1, b2, a1⟩

/-! ### Whole lines -/

/-- The end of a line: the alignment ends. -/
theorem at_end {sp : Splitter} {w : Nat} {base : List Nat} {n m : Nat} {st : AlignState} {base' : List Nat} {s : Str} {col k : Nat} {f : Formatter}
    (h : At sp w base' m st s col k f) (hb : (st = .noAlignment ∧ m = n ∧ base' = base) ∨ (st = .alignment ∧ base' = n :: base)) (hn : n < w) :
    ∃ f' k', f.endAlignment = .ok f' ∧ At sp w base n .noAlignment s col k' f' := by
  unfold endAlignment
  have hcc : f.writer.cur ≤ f.writer.currentWidth := by unfold Writer.currentWidth; omega
  rcases hb with ⟨rfl, rfl, rfl⟩ | ⟨rfl, rfl⟩
  · rw [if_neg (by rw [h.state]; simp)]
    exact ⟨f, k, rfl, h⟩
  · rw [if_pos (by rw [h.state]; simp), pop_push h.indents (by rw [h.width]; exact hn)]
    have hc : f.writer.cur ≤ max f.writer.cur n + f.writer.spaces := by omega
    refine ⟨_, max f.writer.cur n + f.writer.spaces - f.writer.cur, rfl, h.written, h.begun, rfl, rfl, rfl, h.cur, ?_, h.width, h.splitter, hn, h.solid⟩
    show max f.writer.cur n + f.writer.spaces = _
    rw [h.cur] at hc ⊢
    omega

/-- A line feed ends the line. -/
theorem at_newline {sp : Splitter} {w : Nat} {base : List Nat} {n : Nat} {s : Str} {col k : Nat} {f : Formatter}
    (h : At sp w base n .noAlignment s col k f) : Begins sp w base n (s ++ [10]) f.newline := by
  refine ⟨?_, rfl, rfl, rfl, h.indents, h.indent, h.state, h.width, h.splitter, h.narrow⟩
  show f.writer.out ++ (f.writer.line ++ [10]) = _
  rw [← h.written, List.append_assoc]

theorem begins_newline {sp : Splitter} {w : Nat} {base : List Nat} {n : Nat} {s : Str} {f : Formatter}
    (h : Begins sp w base n s f) : Begins sp w base n (s ++ [10]) f.newline := by
  refine ⟨?_, rfl, rfl, rfl, h.indents, h.indent, h.state, h.width, h.splitter, h.narrow⟩
  show f.writer.out ++ (f.writer.line ++ [10]) = _
  rw [h.out, h.line, List.nil_append]

theorem begins_end {sp : Splitter} {w : Nat} {base : List Nat} {n : Nat} {s : Str} {f : Formatter}
    (h : Begins sp w base n s f) : f.endAlignment = .ok f := by
  unfold endAlignment
  rw [if_neg (by rw [h.state]; simp)]

theorem begins_currentWidth {sp : Splitter} {w : Nat} {base : List Nat} {n : Nat} {s : Str} {f : Formatter}
    (h : Begins sp w base n s f) : f.writer.currentWidth = n := by
  unfold Writer.currentWidth
  rw [h.cur, h.spaces, h.indent]
  omega

/-- A formatter whose line is empty, and whose current column is `col`. -/
structure Blank (sp : Splitter) (w : Nat) (inds : List Nat) (st : AlignState) (s : Str) (col : Nat) (f : Formatter) : Prop where
  out : f.writer.out = s
  line : f.writer.line = []
  cur : f.writer.cur = 0
  spaces : f.writer.spaces = 0
  indents : f.indents = inds
  indent : f.writer.indent = col
  state : f.state = st
  width : f.writer.lineWidth = w
  splitter : f.splitter = sp

/-- The first word of a line. -/
theorem blank_word {sp : Splitter} {w : Nat} {base : List Nat} {st : AlignState} {s t : Str} {col : Nat} {f : Formatter}
    (h : Blank sp w (col :: base) st s col f) (ht : t ≠ []) (h10 : 10 ∉ t) (hwh : Argos.Whole t) (hroom : col + glyphs t ≤ w)
    (hst : st = .noAlignment ∨ st = .alignment) :
    ∃ f', f.writeToken .word t = .ok f' ∧ f'.writer.spaces = 0 ∧ At sp w base col
      (if Marker t then (if st = .alignment then .alignedMarker else .unalignedMarker) else st) (s ++ (Spec.spaces col ++ t)) (col + glyphs t) 0 f' := by
  have hcw : f.writer.currentWidth = col := by
    unfold Writer.currentWidth
    rw [h.cur, h.spaces, h.indent]
    omega
  have hcnt := count_whole hwh
  have hpos := Splitter.glyphs_pos hwh ht
  have hwd := h.width
  obtain ⟨g, hg⟩ : ∃ g, f.updateAlignment t = g := ⟨_, rfl⟩
  have hgw : g.writer = f.writer ∧ g.indents = f.indents ∧ g.splitter = f.splitter := by
    rw [← hg]
    exact updateAlignment_same f t
  have hgs : g.state = if Marker t then (if st = .alignment then .alignedMarker else .unalignedMarker) else st := by
    rw [← hg]
    unfold updateAlignment
    have e : f.writer.line.isEmpty = true := by rw [h.line]; rfl
    by_cases hm : Marker t
    · rw [if_pos hm, if_pos (by rw [e, (isListMarker_iff t).mpr hm]; rfl)]
      simp only [h.state]
    · have : isListMarker t = false := by rw [← Bool.not_eq_true, isListMarker_iff]; exact hm
      rw [if_neg hm, if_neg (by rw [this, Bool.and_false]; simp)]
      exact h.state
  have hlast : ∀ a : Str, (a ++ t).getLast? ≠ some 10 := by
    intro a h0
    rw [List.getLast?_append] at h0
    cases hx : t.getLast? with
    | none =>
      rw [List.getLast?_eq_none_iff] at hx
      exact ht hx
    | some y =>
      rw [hx] at h0
      simp only [Option.some_or, Option.some.injEq] at h0
      exact h10 (h0 ▸ List.mem_of_getLast? hx)
  unfold writeToken
  simp only [hg]
  have hap : g.appendWord t = .ok { g with writer := f.writer.append t } := by
    unfold appendWord
    rw [show 3 * t.length + 3 = (3 * t.length + 2) + 1 from rfl]
    unfold appendLoop
    unfold Writer.write
    rw [hgw.1, if_neg (by omega)]
  refine ⟨_, hap, rfl, ?_, by simp [Writer.append, ht], hgw.2.1.trans h.indents, h.indent, hgs, ?_, ?_, h.width, hgw.2.2.trans h.splitter, by omega, ?_⟩
  · show f.writer.out ++ (f.writer.line ++ List.replicate (f.writer.currentWidth - f.writer.cur) 32 ++ t) = _
    rw [hcw, h.cur, h.out, h.line]
    simp [Spec.spaces]
  · show f.writer.cur + (f.writer.currentWidth - f.writer.cur + countCodePoints t) = _
    rw [hcw, h.cur, hcnt]
    omega
  · show max (f.writer.cur + (f.writer.currentWidth - f.writer.cur + countCodePoints t)) f.writer.indent + 0 = _
    rw [hcw, h.cur, hcnt, h.indent]
    omega
  · rw [← List.append_assoc]
    exact hlast _

/-- The spaces at the beginning of a line. -/
theorem begins_space {sp : Splitter} {w : Nat} {base : List Nat} {n : Nat} {s : Str} {f : Formatter} (h : Begins sp w base n s f) (k : Nat) (hk : n + k < w) :
    ∃ f', f.writeToken .space (Spec.spaces k) = .ok f' ∧ Blank sp w ((n + k) :: n :: base) .alignment s (n + k) f' := by
  have hl : (Spec.spaces k).length = k := List.length_replicate
  unfold writeToken beginAlignment
  have e1 : ({ f with writer := f.writer.setSpaces (Spec.spaces k).length } : Formatter).writer.line.isEmpty = true := by
    show f.writer.line.isEmpty = true
    rw [h.line]
    rfl
  simp only [e1, Bool.true_or, if_true]
  have hcw : (f.writer.setSpaces k).currentWidth = n + k := by
    show max f.writer.cur f.writer.indent + k = _
    rw [h.cur, h.indent]
    omega
  refine ⟨_, rfl, ?_⟩
  unfold pushCurrent
  rw [hl]
  simp only [hcw]
  rw [setIndentation_lt (by show n + k < f.writer.lineWidth; rw [h.width]; exact hk), h.indents]
  exact ⟨h.out, h.line, h.cur, rfl, rfl, rfl, rfl, h.width, h.splitter⟩

/-- Spaces only, of any number. -/
theorem begins_spaces_end {sp : Splitter} {w : Nat} {base : List Nat} {n : Nat} {s : Str} {f : Formatter} (h : Begins sp w base n s f) (k : Nat) :
    ∃ f' f'', f.writeToken .space (Spec.spaces k) = .ok f' ∧ f'.endAlignment = .ok f'' ∧ Begins sp w base n s f'' := by
  have hl : (Spec.spaces k).length = k := List.length_replicate
  unfold writeToken beginAlignment
  have e1 : ({ f with writer := f.writer.setSpaces (Spec.spaces k).length } : Formatter).writer.line.isEmpty = true := by
    show f.writer.line.isEmpty = true
    rw [h.line]
    rfl
  simp only [e1, Bool.true_or, if_true]
  unfold pushCurrent
  simp only [hl, h.indents]
  obtain ⟨m, hm⟩ : ∃ m, (f.writer.setSpaces k).currentWidth = m := ⟨_, rfl⟩
  simp only [hm]
  obtain ⟨i, hi⟩ : ∃ i, ((f.writer.setSpaces k).setSpaces 0).setIndentation m = { f.writer with spaces := 0, indent := i } := by
    unfold Writer.setIndentation Writer.setSpaces
    by_cases h0 : m ≥ f.writer.lineWidth
    · exact ⟨f.writer.indent, by rw [if_pos (by exact h0)]⟩
    · exact ⟨m, by rw [if_neg (by exact h0)]⟩
  simp only [hi]
  have hpop : ∀ g : Formatter, g.state = .alignment → g.indents = m :: n :: base → n < g.writer.lineWidth →
      g.endAlignment = .ok { g with indents := n :: base, writer := { g.writer with indent := n }, state := .noAlignment } := by
    intro g h1 h2 h3
    unfold endAlignment
    rw [if_pos (.inl h1), pop_push h2 h3]
    rfl
  refine ⟨_, _, rfl, hpop _ rfl rfl ?_, h.out, h.line, h.cur, rfl, rfl, rfl, rfl, h.width, h.splitter, h.narrow⟩
  show n < f.writer.lineWidth
  rw [h.width]
  exact h.narrow

/-- Spaces behind a list marker. -/
theorem marker_space {sp : Splitter} {w : Nat} {base base' : List Nat} {n m : Nat} {st : AlignState} {s : Str} {col j : Nat} {f : Formatter}
    (h : At sp w base' m st s col 0 f) (h0 : f.writer.spaces = 0)
    (hb : (st = .unalignedMarker ∧ base' = base ∧ m = n) ∨ (st = .alignedMarker ∧ base' = n :: base)) (hn : n ≤ col) (hj : col + j < w) :
    ∃ f', f.writeToken .space (Spec.spaces j) = .ok f' ∧ f'.writer.spaces = 0 ∧ At sp w (n :: base) (col + j) .alignment s col j f' := by
  have hl : (Spec.spaces j).length = j := List.length_replicate
  have hcur := h.cur
  have hwd := h.width
  have hg := h.gap
  have hm : m ≤ col := h.currentWidth_le
  have e1 : (f.writer.setSpaces j).line.isEmpty = false := by
    show f.writer.line.isEmpty = false
    exact at_empty h
  unfold writeToken beginAlignment
  simp only [hl, e1, Bool.false_or, decide_eq_true_eq]
  have key : ∀ g : Formatter, g.indents = n :: base → g.splitter = sp → g.writer = { f.writer with spaces := j, indent := g.writer.indent } → g.writer.indent ≤ col →
      ({ g.pushCurrent with state := .alignment } : Formatter).writer.spaces = 0 ∧
      At sp w (n :: base) (col + j) .alignment s col j { g.pushCurrent with state := .alignment } := by
    intro g g1 g2 g3 g4
    have hcw : g.writer.currentWidth = col + j := by
      unfold Writer.currentWidth
      have a1 : g.writer.cur = col := by rw [g3]; exact hcur
      have a2 : g.writer.spaces = j := by rw [g3]
      omega
    have hlw : g.writer.lineWidth = w := by rw [g3]; exact hwd
    have hset : (g.writer.setSpaces 0).setIndentation (col + j) = { f.writer with spaces := 0, indent := col + j } := by
      rw [setIndentation_lt (by show col + j < g.writer.lineWidth; omega), g3]
      rfl
    unfold pushCurrent
    rw [hcw, hset, g1]
    refine ⟨rfl, h.written, h.begun, rfl, rfl, rfl, hcur, ?_, hwd, g2, hj, h.solid⟩
    show max f.writer.cur (col + j) + 0 = col + j
    omega
  rcases hb with ⟨rfl, rfl, rfl⟩ | ⟨rfl, rfl⟩
  · rw [if_pos h.state]
    exact ⟨_, rfl, key { f with writer := f.writer.setSpaces j } h.indents h.splitter rfl (by show f.writer.indent ≤ col; rw [h.indent]; exact hm)⟩
  · rw [if_neg (by rw [h.state]; simp), if_pos h.state, pop_push (f := { f with writer := f.writer.setSpaces j }) h.indents (by show n < f.writer.lineWidth; omega), Outcome.bind_ok]
    exact ⟨_, rfl, key { f with indents := n :: base, writer := { f.writer.setSpaces j with indent := n } } rfl h.splitter rfl hn⟩

/-- The words of a valid text are valid. -/
theorem whole_words (ws : List (Nat × Str)) : WordList ws → ∀ {t : Str}, Argos.Whole (rendered ws ++ t) → (∀ c, t.head? = some c → isBlank c) →
    (∀ x ∈ ws, Argos.Whole x.2) ∧ Argos.Whole t := by
  have notcont : ∀ c : UInt8, isBlank c → isContinuation c = false := by
    intro c hc
    rcases hc with rfl | rfl | rfl | rfl <;> decide
  have hsp : ∀ k, Argos.Whole (spaces k) := fun k => whole_ascii fun x hx => by
    have := (List.mem_replicate.mp hx).2
    subst this
    decide
  induction ws with
  | nil => intro _ t ht _; exact ⟨by simp, by simpa [rendered] using ht⟩
  | cons x ws ih =>
    obtain ⟨g, u⟩ := x
    intro hws t ht hb
    obtain ⟨⟨t1, t2⟩, t3⟩ := hws
    have hws' : WordList ws := by
      cases ws with
      | nil => trivial
      | cons y ws => exact ⟨(t3 y (by simp)).2, fun z hz => t3 z (by simp [hz])⟩
    have e : rendered ((g, u) :: ws) ++ t = spaces g ++ (u ++ (rendered ws ++ t)) := by simp [rendered]
    rw [e] at ht
    have h1 := (hsp g).of_append ht
    have h2 : Argos.Whole u := Argos.Whole.prefix (b := rendered ws ++ t) h1 fun c hc => by
      refine notcont c ?_
      cases ws with
      | nil => exact hb c (by simpa [rendered] using hc)
      | cons y ws =>
        obtain ⟨i, v⟩ := y
        have := (t3 (i, v) (by simp)).1
        obtain ⟨i, rfl⟩ : ∃ m, i = m + 1 := ⟨i - 1, by simp only at this; omega⟩
        simp only [rendered, List.flatMap_cons, spaces_succ, List.cons_append, List.head?_cons, Option.some.injEq] at hc
        exact .inl hc.symm
    obtain ⟨h3, h4⟩ := ih hws' (h2.of_append h1) hb
    refine ⟨fun x hx => ?_, h4⟩
    rcases List.mem_cons.mp hx with rfl | hx
    · exact h2
    · exact h3 x hx

/-- A line has been written, or there is nothing on it. -/
def EndsAt (sp : Splitter) (w : Nat) (base : List Nat) (n : Nat) (s t : Str) (f : Formatter) : Prop :=
  ((t = [] ∨ t.getLast? = some 10) ∧ Begins sp w base n (s ++ t) f) ∨ (t ≠ [] ∧ ∃ col k, At sp w base n .noAlignment (s ++ t) col k f)

/-- A line of a text. -/
theorem line_set {rules : List Str} {sp : Splitter} (hsp : Splitter.addWords [] rules = .ok sp) {w : Nat} {base : List Nat} {n : Nat} {s l r : Str} {f : Formatter} {fuel : Nat}
    (h : Begins sp w base n s f) (hl : ∀ c ∈ l, c ≠ 9 ∧ c ≠ 10 ∧ c ≠ 13) (hwh : Argos.Whole l) (hf : LineFills rules w n l)
    (hr : ∀ c, r.head? = some c → c = 10 ∨ c = 13) (hfuel : (l ++ r).length ≤ fuel) :
    ∃ f' fuel' f'', wordsLoop fuel f (l ++ r) = wordsLoop fuel' f' r ∧ r.length ≤ fuel' ∧ f'.endAlignment = .ok f'' ∧ EndsAt sp w base n s (setLine w n l) f'' := by
  have hr32 : r.head? ≠ some 32 := fun h0 => by
    rcases hr 32 h0 with h | h <;> simp at h
  have hblank : ∀ c, r.head? = some c → isBlank c := fun c hc => by
    rcases hr c hc with rfl | rfl <;> simp [isBlank]
  obtain ⟨hwl, j, hj⟩ := wordsIn_line l hl
  have hwords : ∀ x ∈ wordsIn l, Argos.Whole x.2 := by
    rw [hj] at hwh
    refine (whole_words _ hwl hwh fun c hc => ?_).1
    cases j with
    | zero => simp [spaces] at hc
    | succ j =>
      rw [spaces_succ] at hc
      simp only [List.head?_cons, Option.some.injEq] at hc
      exact .inl hc.symm
  unfold LineFills at hf
  unfold setLine
  cases hw : wordsIn l with
  | nil =>
    rw [hw] at hj
    simp only [rendered, List.flatMap_nil, List.nil_append] at hj
    rw [hj] at hfuel ⊢
    rcases Nat.eq_zero_or_pos j with rfl | hjp
    · exact ⟨f, fuel, f, rfl, by simpa [spaces] using hfuel, begins_end h, .inl ⟨.inl rfl, by simpa using h⟩⟩
    · obtain ⟨f1, f2, a1, a2, a3⟩ := begins_spaces_end h j
      obtain ⟨fuel', b1, b2⟩ := loop_space hjp hr32 hfuel a1
      exact ⟨f1, fuel', f2, b1, b2, a2, .inl ⟨.inl rfl, by simpa using a3⟩⟩
  | cons x ws =>
    obtain ⟨k, t⟩ := x
    rw [hw] at hj hwl hwords hf
    simp only at hf ⊢
    obtain ⟨f1, f2, f3⟩ := hf
    obtain ⟨⟨t1, t2⟩, t3⟩ := hwl
    have htw := hwords (k, t) (by simp)
    simp only at t1 t2 htw
    have htp := Splitter.glyphs_pos htw t1
    have hws' : WordList ws := by
      cases ws with
      | nil => trivial
      | cons y ws => exact ⟨(t3 y (by simp)).2, fun z hz => t3 z (by simp [hz])⟩
    have h10 : 10 ∉ t := fun h0 => t2 10 h0 (by simp [isBlank])
    obtain ⟨hang, hhang⟩ : ∃ hang, hangOf n ((k, t) :: ws) = hang := ⟨_, rfl⟩
    rw [hhang] at f2 ⊢
    have hset : ∀ x ∈ ws, Settable sp w hang x.2 := fun x hx => ⟨hwords x (by simp [hx]), (f2 x hx).1, unruled_of hsp (f2 x hx).2⟩
    have e : l ++ r = spaces k ++ (t ++ (rendered ws ++ spaces j ++ r)) := by
      rw [hj]
      simp [rendered]
    rw [e] at hfuel ⊢
    have hthead : (t ++ (rendered ws ++ spaces j ++ r)).head? ≠ some 32 := by
      cases t with
      | nil => exact absurd rfl t1
      | cons c t =>
        simp only [List.cons_append, List.head?_cons, ne_eq, Option.some.injEq]
        intro h0
        exact t2 c (by simp) (.inl h0)
    have hnext : ∀ c, (rendered ws ++ spaces j ++ r).head? = some c → isBlank c := by
      intro c hc
      cases ws with
      | nil =>
        cases j with
        | zero => exact hblank c (by simpa [rendered, spaces] using hc)
        | succ j =>
          simp only [rendered, List.flatMap_nil, List.nil_append, spaces_succ, List.cons_append, List.head?_cons, Option.some.injEq] at hc
          exact .inl hc.symm
      | cons y ws =>
        obtain ⟨i, u⟩ := y
        have := (t3 (i, u) (by simp)).1
        obtain ⟨i, rfl⟩ : ∃ m, i = m + 1 := ⟨i - 1, by simp only at this; omega⟩
        simp only [rendered, List.flatMap_cons, spaces_succ, List.cons_append, List.head?_cons, Option.some.injEq] at hc
        exact .inl hc.symm
    -- the indentation
    obtain ⟨g1, fuel1, base1, st1, a1, a2, a3, a4, a5⟩ : ∃ g1 fuel1 base1 st1,
        wordsLoop fuel f (spaces k ++ (t ++ (rendered ws ++ spaces j ++ r))) = wordsLoop fuel1 g1 (t ++ (rendered ws ++ spaces j ++ r)) ∧
        (t ++ (rendered ws ++ spaces j ++ r)).length ≤ fuel1 ∧ Blank sp w ((n + k) :: base1) st1 s (n + k) g1 ∧
        ((st1 = .noAlignment ∧ n + k = n ∧ base1 = base) ∨ (st1 = .alignment ∧ base1 = n :: base)) ∧ (st1 = .noAlignment ∨ st1 = .alignment) := by
      rcases Nat.eq_zero_or_pos k with rfl | hk
      · exact ⟨f, fuel, base, .noAlignment, rfl, by simpa [spaces] using hfuel, ⟨h.out, h.line, h.cur, h.spaces, h.indents, h.indent, h.state, h.width, h.splitter⟩,
          .inl ⟨rfl, rfl, rfl⟩, .inl rfl⟩
      · obtain ⟨g1, b1, b2⟩ := begins_space h k (by omega)
        obtain ⟨fuel', c1, c2⟩ := loop_space hk hthead hfuel b1
        exact ⟨g1, fuel', n :: base, .alignment, c1, c2, b2, .inr ⟨rfl, rfl⟩, .inr rfl⟩
    rw [a1]
    -- the first word
    obtain ⟨g2, b1, b2, b3⟩ := blank_word a3 t1 h10 htw f1 a5
    obtain ⟨fuel2, c1, c2⟩ := loop_word t1 t2 hnext a2 b1
    rw [c1]
    have hafter : after 0 ws = ws := by
      cases ws with
      | nil => rfl
      | cons y ws => simp [after]
    by_cases hm : Marker t
    · -- an item of a list
      rw [if_pos hm] at b3
      cases hws : ws with
      | nil => exact absurd hws (f3 hm)
      | cons y ws2 =>
        obtain ⟨i, u⟩ := y
        rw [hws] at hset t3 c2 hws' hhang
        have hi := (t3 (i, u) (by simp)).1
        simp only at hi
        have hh : hang = n + k + glyphs t + i := by
          rw [← hhang]
          simp only [hangOf]
          rw [if_pos hm]
        obtain ⟨q1, q2, q3⟩ := hset (i, u) (by simp)
        simp only at q1 q2 q3
        have hu := (t3 (i, u) (by simp)).2.1
        have hup := Splitter.glyphs_pos q1 hu
        obtain ⟨g3, d1, d2, d3⟩ := marker_space (n := n) (base := base) (j := i) b3 b2 (by
          rcases a4 with ⟨rfl, h1, rfl⟩ | ⟨rfl, rfl⟩
          · exact .inl ⟨by simp, rfl, h1⟩
          · exact .inr ⟨by simp, rfl⟩) (by omega) (by omega)
        have e2 : rendered ((i, u) :: ws2) ++ spaces j ++ r = spaces i ++ (rendered ((0, u) :: ws2) ++ spaces j ++ r) := by
          simp [rendered, spaces]
        rw [e2] at c2 ⊢
        have huhead : (rendered ((0, u) :: ws2) ++ spaces j ++ r).head? ≠ some 32 := by
          cases u with
          | nil => exact absurd rfl hu
          | cons c u =>
            simp only [rendered, List.flatMap_cons, spaces, List.replicate_zero, List.nil_append, List.cons_append, List.head?_cons, ne_eq, Option.some.injEq]
            intro h0
            exact (t3 (i, c :: u) (by simp)).2.2 c (by simp) (.inl h0)
        obtain ⟨fuel3, k1, k2⟩ := loop_space hi huhead c2 d1
        rw [← hh] at d3
        obtain ⟨g4, fuel4, col', k', m1, m2, m3⟩ := at_rest (j := j) (r := r) (.inr rfl) hr ((0, u) :: ws2) ⟨(t3 (i, u) (by simp)).2, hws'.2⟩
          (fun x hx => by
            rcases List.mem_cons.mp hx with rfl | hx
            · exact ⟨q1, q2, q3⟩
            · exact hset x (by simp [hx])) d3 (.inl d2) k2
        obtain ⟨g5, k5, n1, n2⟩ := at_end (n := n) (base := base) m3 (.inr ⟨rfl, rfl⟩) h.narrow
        refine ⟨g4, fuel4, g5, by rw [k1, m1], m2, n1, .inr ⟨by simp [t1], col', k5, ?_⟩⟩
        simpa [after] using n2
    · rw [if_neg hm] at b3
      have hh : hang = n + k := by
        rw [← hhang]
        cases ws with
        | nil => rfl
        | cons y ws2 =>
          obtain ⟨i, u⟩ := y
          simp only [hangOf]
          rw [if_neg hm]
      subst hh
      obtain ⟨g4, fuel4, col', k', m1, m2, m3⟩ := at_rest (j := j) (r := r) a5 hr ws hws' hset b3 (.inl b2) c2
      obtain ⟨g5, k5, n1, n2⟩ := at_end (n := n) (base := base) m3 a4 h.narrow
      refine ⟨g4, fuel4, g5, m1, m2, n1, .inr ⟨by simp [t1], col', k5, ?_⟩⟩
      rw [hafter] at n2
      simpa using n2

/-- The first line of a text. -/
theorem first_line (text : Str) : ∃ l : Str, (∀ c ∈ l, c ≠ 10 ∧ c ≠ 13) ∧ ((text = l ∧ textLines text = [l]) ∨
    ∃ c t r, text = l ++ c :: t ∧ ((c = 13 ∧ t = 10 :: r) ∨ (c = 13 ∧ t = r ∧ r.head? ≠ some 10) ∨ (c = 10 ∧ t = r)) ∧ textLines text = l :: textLines r) := by
  fun_induction textLines text with
  | case1 => exact ⟨[], by simp, .inl ⟨rfl, rfl⟩⟩
  | case2 s ih => exact ⟨[], by simp, .inr ⟨13, 10 :: s, s, rfl, .inl ⟨rfl, rfl⟩, rfl⟩⟩
  | case3 c s hno hc ih =>
    refine ⟨[], by simp, .inr ⟨c, s, s, rfl, ?_, rfl⟩⟩
    rcases hc with rfl | rfl
    · exact .inr (.inr ⟨rfl, rfl⟩)
    · refine .inr (.inl ⟨rfl, rfl, fun h => ?_⟩)
      cases s with
      | nil => simp at h
      | cons d s =>
        simp only [List.head?_cons, Option.some.injEq] at h
        exact hno s rfl (by rw [h])
  | case4 c s hno hc h0 ih => exact absurd h0 (textLines_ne s)
  | case5 c s hno hc l ls h0 ih =>
    obtain ⟨m, i1, i2⟩ := ih
    refine ⟨c :: m, fun x hx => ?_, ?_⟩
    · rcases List.mem_cons.mp hx with rfl | hx
      · exact ⟨fun h => hc (.inl h), fun h => hc (.inr h)⟩
      · exact i1 x hx
    · rcases i2 with ⟨e1, e2⟩ | ⟨d, t, r, e1, e2, e3⟩
      · rw [e2] at h0
        simp only [List.cons.injEq] at h0
        exact .inl ⟨by rw [e1], by rw [← h0.1, ← h0.2]⟩
      · rw [e3] at h0
        simp only [List.cons.injEq] at h0
        exact .inr ⟨d, t, r, by rw [e1]; rfl, e2, by rw [← h0.1, ← h0.2]⟩

theorem joinLines_cons (l : Str) {ls : List Str} (h : ls ≠ []) : joinLines (l :: ls) = l ++ 10 :: joinLines ls := by
  cases ls with
  | nil => exact absurd rfl h
  | cons m ls => rfl

/-- The text behind a line. -/
theorem whole_line {l t r : Str} {c : UInt8} (hl : ∀ c ∈ l, c ≠ 10 ∧ c ≠ 13) (hw : Argos.Whole (l ++ c :: t))
    (hc : (c = 13 ∧ t = 10 :: r) ∨ (c = 13 ∧ t = r ∧ r.head? ≠ some 10) ∨ (c = 10 ∧ t = r)) : Argos.Whole l ∧ Argos.Whole r := by
  have h1 : Argos.Whole l := Argos.Whole.prefix hw fun d hd => by
    simp only [List.head?_cons, Option.some.injEq] at hd
    subst hd
    rcases hc with ⟨rfl, _⟩ | ⟨rfl, _⟩ | ⟨rfl, _⟩ <;> decide
  refine ⟨h1, ?_⟩
  have h2 := h1.of_append hw
  have ha : ∀ c : UInt8, c = 10 ∨ c = 13 → Argos.Whole [c] := by
    intro c hc
    refine whole_ascii fun x hx => ?_
    simp only [List.mem_singleton] at hx
    subst hx
    rcases hc with rfl | rfl <;> decide
  rcases hc with ⟨rfl, rfl⟩ | ⟨rfl, rfl, _⟩ | ⟨rfl, rfl⟩
  · have h3 : Argos.Whole (10 :: r) := (ha 13 (.inr rfl)).of_append (t := 10 :: r) h2
    exact (ha 10 (.inl rfl)).of_append (t := r) h3
  · exact (ha 13 (.inr rfl)).of_append (t := t) h2
  · exact (ha 10 (.inl rfl)).of_append (t := t) h2

theorem wordsLoop_nil (fuel : Nat) (f : Formatter) : wordsLoop fuel f [] = f.endAlignment := by
  cases fuel <;> rfl

theorem ends_line {sp : Splitter} {w : Nat} {base : List Nat} {n : Nat} {s t u : Str} {f : Formatter} (h : EndsAt sp w base n (s ++ t ++ [10]) u f) :
    EndsAt sp w base n s (t ++ 10 :: u) f := by
  have e : s ++ t ++ [10] ++ u = s ++ (t ++ 10 :: u) := by simp
  rcases h with ⟨e0, h⟩ | ⟨_, col, k, h⟩
  · rw [e] at h
    refine .inl ⟨.inr ?_, h⟩
    rcases e0 with rfl | e0
    · simp
    · rw [List.getLast?_append, List.getLast?_cons, e0]
      rfl
  · rw [e] at h
    exact .inr ⟨by simp, col, k, h⟩

/-- Texts that begin on a line of their own. -/
theorem lines_set {rules : List Str} {sp : Splitter} (hsp : Splitter.addWords [] rules = .ok sp) {w : Nat} {base : List Nat} {n : Nat} :
    ∀ (m : Nat) (text : Str), text.length ≤ m → 9 ∉ text → Argos.Whole text → (∀ l ∈ textLines text, LineFills rules w n l) → ∀ {s : Str} {f : Formatter} {fuel : Nat},
    Begins sp w base n s f → text.length ≤ fuel → ∃ f', wordsLoop fuel f text = .ok f' ∧ EndsAt sp w base n s (Spec.setText w n text) f' := by
  intro m
  induction m with
  | zero =>
    intro text hm _ _ _ s f fuel h _
    have : text = [] := by simpa using hm
    subst this
    exact ⟨f, by rw [wordsLoop_nil, begins_end h], .inl ⟨.inl rfl, by simpa [Spec.setText, textLines, joinLines, setLine, wordsIn] using h⟩⟩
  | succ m ih =>
    intro text hm h9 hwh hls s f fuel h hfuel
    obtain ⟨l, hl, ht⟩ := first_line text
    have hl' : ∀ c ∈ l, c ∈ text → c ≠ 9 ∧ c ≠ 10 ∧ c ≠ 13 := fun c hc hct => ⟨fun h => h9 (h ▸ hct), hl c hc⟩
    rcases ht with ⟨rfl, e⟩ | ⟨c, t, r, rfl, hc, e⟩
    · obtain ⟨g, fuel', g', a1, a2, a3, a4⟩ := line_set hsp (r := []) h (fun c hc => hl' c hc hc) hwh (hls _ (by rw [e]; simp)) (by simp) (by simpa using hfuel)
      rw [List.append_nil] at a1
      refine ⟨g', by rw [a1, wordsLoop_nil, a3], ?_⟩
      unfold Spec.setText
      rw [e]
      simpa [joinLines] using a4
    · obtain ⟨w1, w2⟩ := whole_line hl hwh hc
      have hc' : c = 10 ∨ c = 13 := by
        rcases hc with ⟨rfl, _⟩ | ⟨rfl, _⟩ | ⟨rfl, _⟩ <;> simp
      obtain ⟨g, fuel', g', a1, a2, a3, a4⟩ := line_set hsp (r := c :: t) h (fun c hc => hl' c hc (by simp [hc])) w1 (hls _ (by rw [e]; simp))
        (fun d hd => by
          simp only [List.head?_cons, Option.some.injEq] at hd
          exact hd ▸ hc') hfuel
      obtain ⟨fuel2, b1, b2⟩ := loop_newline hc a2 a3
      have hrsub : ∀ d ∈ r, d ∈ l ++ c :: t := by
        rcases hc with ⟨_, rfl⟩ | ⟨_, rfl, _⟩ | ⟨_, rfl⟩ <;> intro d hd <;> simp [hd]
      have hrlen : r.length ≤ m := by
        have : r.length < (l ++ c :: t).length := by
          rcases hc with ⟨_, rfl⟩ | ⟨_, rfl, _⟩ | ⟨_, rfl⟩ <;> simp only [List.length_append, List.length_cons] <;> omega
        omega
      have hb : Begins sp w base n (s ++ setLine w n l ++ [10]) g'.newline := by
        rcases a4 with ⟨e0, a4⟩ | ⟨_, col, k, a4⟩
        · exact begins_newline a4
        · exact at_newline a4
      obtain ⟨f', c1, c2⟩ := ih r hrlen (fun h => h9 (hrsub 9 h)) w2 (fun l' hl' => hls l' (by rw [e]; simp [hl'])) hb b2
      refine ⟨f', by rw [a1, b1, c1], ?_⟩
      have e2 : Spec.setText w n (l ++ c :: t) = setLine w n l ++ 10 :: Spec.setText w n r := by
        unfold Spec.setText
        rw [e, List.map_cons, joinLines_cons _ (by simp [textLines_ne])]
      rw [e2]
      exact ends_line c2

/-- Texts that begin behind something else. -/
theorem from_set {rules : List Str} {sp : Splitter} (hsp : Splitter.addWords [] rules = .ok sp) {w : Nat} {base : List Nat} {n : Nat} {text : Str} (h9 : 9 ∉ text) (hwh : Argos.Whole text)
    (hls : ∀ l ls, textLines text = l :: ls → (∀ x ∈ wordsIn l, n + glyphs x.2 ≤ w ∧ NoRule rules x.2) ∧ ∀ l ∈ ls, LineFills rules w n l)
    {s : Str} {col k : Nat} {f : Formatter} {fuel : Nat} (h : At sp w base n .noAlignment s col k f) (h0 : f.writer.spaces = 0 ∨ text.head? ≠ some 32) (hfuel : text.length ≤ fuel) :
    ∃ f', wordsLoop fuel f text = .ok f' ∧ ((Begins sp w base n (s ++ setFrom w n col k text) f' ∧ (setFrom w n col k text).getLast? = some 10) ∨
      ∃ col' k', At sp w base n .noAlignment (s ++ setFrom w n col k text) col' k' f') := by
  obtain ⟨l, hl, ht⟩ := first_line text
  have hl' : ∀ c ∈ l, c ∈ text → c ≠ 9 ∧ c ≠ 10 ∧ c ≠ 13 := fun c hc hct => ⟨fun h => h9 (h ▸ hct), hl c hc⟩
  have line : ∀ {r : Str}, text = l ++ r → (∀ c ∈ l, c ∈ text) → Argos.Whole l → (∀ x ∈ wordsIn l, n + glyphs x.2 ≤ w ∧ NoRule rules x.2) → (∀ c, r.head? = some c → c = 10 ∨ c = 13) →
      (l ++ r).length ≤ fuel → ∃ f' fuel' f'', wordsLoop fuel f (l ++ r) = wordsLoop fuel' f' r ∧ r.length ≤ fuel' ∧ f'.endAlignment = .ok f'' ∧
        ∃ col' k', At sp w base n .noAlignment (s ++ fill w n col (after k (wordsIn l))) col' k' f'' := by
    intro r htext hsub hwl hfit hr hf
    obtain ⟨hws, j, hj⟩ := wordsIn_line l fun c hc => hl' c hc (hsub c hc)
    have hwords : ∀ x ∈ wordsIn l, Argos.Whole x.2 := by
      rw [hj] at hwl
      refine (whole_words _ hws hwl fun c hc => ?_).1
      cases j with
      | zero => simp [spaces] at hc
      | succ j =>
        rw [spaces_succ] at hc
        simp only [List.head?_cons, Option.some.injEq] at hc
        exact .inl hc.symm
    have el : l ++ r = rendered (wordsIn l) ++ spaces j ++ r := by rw [← hj]
    have h0' : f.writer.spaces = 0 ∨ ((∀ x ∈ (wordsIn l).head?, x.1 = 0) ∧ (wordsIn l = [] → j = 0)) := by
      refine h0.imp_right fun h0 => ?_
      rw [htext, el] at h0
      cases hwi : wordsIn l with
      | nil =>
        rw [hwi] at h0
        cases j with
        | zero => simp
        | succ j => simp [rendered, spaces_succ] at h0
      | cons x ws =>
        obtain ⟨g, t⟩ := x
        rw [hwi] at h0
        cases g with
        | zero => simp
        | succ g => simp [rendered, spaces_succ] at h0
    rw [el] at hf ⊢
    obtain ⟨f', fuel', col', k', a1, a2, a3⟩ := at_rest (.inl rfl) hr (wordsIn l) hws (fun x hx => ⟨hwords x hx, (hfit x hx).1, unruled_of hsp (hfit x hx).2⟩) h h0' hf
    obtain ⟨f'', k'', b1, b2⟩ := at_end a3 (.inl ⟨rfl, rfl, rfl⟩) h.narrow
    exact ⟨f', fuel', f'', a1, a2, b1, col', k'', b2⟩
  rcases ht with ⟨rfl, e⟩ | ⟨c, t, r, rfl, hc, e⟩
  · obtain ⟨f1, fuel', f2, a1, a2, a3, col', k', a4⟩ := line (r := []) (by simp) (fun c hc => hc) hwh (hls _ _ e).1 (by simp) (by simpa using hfuel)
    rw [List.append_nil] at a1
    refine ⟨f2, by rw [a1, wordsLoop_nil, a3], .inr ⟨col', k', ?_⟩⟩
    unfold setFrom
    rw [e]
    simpa [joinLines] using a4
  · obtain ⟨w1, w2⟩ := whole_line hl hwh hc
    have hc' : c = 10 ∨ c = 13 := by
      rcases hc with ⟨rfl, _⟩ | ⟨rfl, _⟩ | ⟨rfl, _⟩ <;> simp
    obtain ⟨f1, fuel', f2, a1, a2, a3, col', k', a4⟩ := line (r := c :: t) rfl (fun c hc => by simp [hc]) w1 (hls _ _ e).1 (fun d hd => by
      simp only [List.head?_cons, Option.some.injEq] at hd
      exact hd ▸ hc') hfuel
    obtain ⟨fuel2, b1, b2⟩ := loop_newline hc a2 a3
    have hrsub : ∀ d ∈ r, d ∈ l ++ c :: t := by
      rcases hc with ⟨_, rfl⟩ | ⟨_, rfl, _⟩ | ⟨_, rfl⟩ <;> intro d hd <;> simp [hd]
    obtain ⟨f', c1, c2⟩ := lines_set hsp r.length r (Nat.le_refl _) (fun h => h9 (hrsub 9 h)) w2 (hls _ _ e).2 (at_newline a4) b2
    refine ⟨f', by rw [a1, b1, c1], ?_⟩
    have e2 : setFrom w n col k (l ++ c :: t) = fill w n col (after k (wordsIn l)) ++ 10 :: Spec.setText w n r := by
      unfold setFrom Spec.setText
      rw [e]
      simp only
      rw [joinLines_cons _ (by simp [textLines_ne])]
    rw [e2]
    rcases ends_line c2 with ⟨e0, c2⟩ | ⟨_, col, k, c2⟩
    · refine .inl ⟨c2, ?_⟩
      rcases e0 with e0 | e0
      · simp at e0
      · exact e0
    · exact .inr ⟨col, k, c2⟩

end Formatter
end Argos
