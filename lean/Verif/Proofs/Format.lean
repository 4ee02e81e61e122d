import Verif.Proofs.Split

/-! # The text formatter: termination, width of lines and text -/

namespace Argos

open Spec

/-! ### Reflowed text -/

theorem Reflow.refl (s : Str) : Reflow s s := by
  induction s with
  | nil => exact .nil
  | cons c s ih => exact .keep c ih

theorem Reflow.append {a b c d : Str} (h : Reflow a b) (h' : Reflow c d) : Reflow (a ++ c) (b ++ d) := by
  induction h with
  | nil => exact h'
  | keep c _ ih => exact .keep c ih
  | drop hb _ ih => exact .drop hb ih
  | add hb _ ih => exact .add hb ih
  | hyphen _ ih => exact .hyphen ih

theorem Reflow.spaces (n : Nat) : Reflow [] (List.replicate n 32) := by
  induction n with
  | zero => exact .nil
  | succ n ih => exact .add (.inl rfl) ih

theorem Reflow.newline : Reflow [] [10] := .add (.inr (.inr (.inl rfl))) .nil

theorem Reflow.blanks {s : Str} (h : ∀ c ∈ s, isBlank c) : Reflow s [] := by
  induction s with
  | nil => exact .nil
  | cons c s ih => exact .drop (h c (by simp)) (ih fun x hx => h x (by simp [hx]))

/-! ### The writer -/

namespace Writer

/-- Complete lines have been passed on, they fit, and the line in the buffer fits as well. -/
structure Sane (w : Writer) : Prop where
  wide : w.lineWidth > 2
  indented : w.indent < w.lineWidth
  done : ∃ ls : List Str, w.out = (ls.map (· ++ [10])).flatten ∧ ∀ l ∈ ls, 10 ∉ l ∧ LineFits w.lineWidth l
  open_ : 10 ∉ w.line
  counted : glyphs w.line ≤ w.cur
  within : w.cur ≤ w.lineWidth ∨ ∃ t, w.line = List.replicate (w.lineWidth - 2) 32 ++ t
  empty : w.line = [] → w.cur = 0

theorem Sane.fits {w : Writer} (h : w.Sane) : LineFits w.lineWidth w.line := by
  rcases h.within with h1 | h1
  · exact .inl (Nat.le_trans h.counted h1)
  · exact .inr h1

theorem Sane.append {w : Writer} (h : w.Sane) {s : Str} (hs : 10 ∉ s)
    (hw : w.currentWidth + countCodePoints s ≤ w.lineWidth ∨ (w.line = [] ∧ w.spaces = 0 ∧ w.lineWidth ≤ w.indent + 2)) : (w.append s).Sane := by
  have hcw : w.cur ≤ w.currentWidth := by unfold currentWidth; omega
  refine ⟨h.wide, h.indented, h.done, ?_, ?_, ?_, ?_⟩
  · simp only [Writer.append, List.mem_append, not_or]
    exact ⟨⟨h.open_, fun hm => by simp at hm⟩, hs⟩
  · have e := glyphs_spaces (w.currentWidth - w.cur)
    have g := glyphs_le_count s
    have c := h.counted
    simp only [Writer.append, glyphs_append]
    omega
  · simp only [Writer.append]
    rcases hw with hw | ⟨h1, h2, h3⟩
    · exact .inl (by omega)
    · right
      have hc := h.empty h1
      have e : w.currentWidth = w.indent := by unfold currentWidth; omega
      rw [h1, hc, e]
      refine ⟨List.replicate (w.indent - (w.lineWidth - 2)) 32 ++ s, ?_⟩
      rw [← List.append_assoc, List.replicate_append_replicate]
      simp only [List.nil_append, Nat.sub_zero]
      congr 2
      omega
  · simp only [Writer.append, List.append_eq_nil_iff, List.replicate_eq_nil_iff]
    rintro ⟨⟨h1, h2⟩, h3⟩
    have := h.empty h1
    subst h3
    have : countCodePoints [] = 0 := rfl
    omega

theorem Sane.write {w : Writer} (h : w.Sane) {s : Str} (hs : 10 ∉ s) (hne : s ≠ [] ∨ w.currentWidth ≤ w.lineWidth) : (w.write s).2.Sane := by
  unfold Writer.write
  split
  · exact h
  · rename_i hle
    refine h.append hs (.inl ?_)
    rcases hne with hne | hne
    · have := count_pos hne
      omega
    · omega

theorem Sane.newline {w : Writer} (h : w.Sane) : (w.newline.setSpaces 0).Sane := by
  obtain ⟨ls, h1, h2⟩ := h.done
  refine ⟨h.wide, h.indented, ⟨ls ++ [w.line], ?_, ?_⟩, by simp [Writer.newline, flush, setSpaces], by simp [Writer.newline, flush, setSpaces, glyphs_nil],
    .inl (by simp [Writer.newline, flush, setSpaces]), fun _ => rfl⟩
  · simp [Writer.newline, flush, setSpaces, h1]
  · intro l hl
    rcases List.mem_append.mp hl with hl | hl
    · exact h2 l hl
    · simp only [List.mem_singleton] at hl
      subst hl
      exact ⟨h.open_, h.fits⟩

theorem Sane.setSpaces {w : Writer} (h : w.Sane) (n : Nat) : (w.setSpaces n).Sane :=
  ⟨h.wide, h.indented, h.done, h.open_, h.counted, h.within, h.empty⟩

theorem Sane.tab {w : Writer} (h : w.Sane) : w.tab.Sane := h.setSpaces _

theorem Sane.setIndentation {w : Writer} (h : w.Sane) (n : Nat) : (w.setIndentation n).Sane := by
  unfold Writer.setIndentation
  split
  · exact h
  · exact ⟨h.wide, by simp only; omega, h.done, h.open_, h.counted, h.within, h.empty⟩

theorem write_same (w : Writer) (s : Str) : (w.write s).2.lineWidth = w.lineWidth ∧ (w.write s).2.indent = w.indent := by
  unfold Writer.write
  split <;> exact ⟨rfl, rfl⟩

/-- What was given to the writer. -/
def all (w : Writer) : Str := w.out ++ w.line

theorem append_all (w : Writer) (s : Str) : (w.append s).all = w.all ++ (List.replicate (w.currentWidth - w.cur) 32 ++ s) := by
  simp [all, append]

theorem newline_all (w : Writer) : (w.newline.setSpaces 0).all = w.all ++ [10] := by
  simp [all, newline, flush, setSpaces]

theorem append_line {w : Writer} {s : Str} (h : s ≠ []) : (w.append s).line ≠ [] := by
  simp [append, h]

end Writer

/-! ### One word -/

namespace Formatter

/-- Only the contents of the writer differ. -/
structure Same (f f' : Formatter) : Prop where
  indents : f'.indents = f.indents
  splitter : f'.splitter = f.splitter
  state : f'.state = f.state
  width : f'.writer.lineWidth = f.writer.lineWidth
  indent : f'.writer.indent = f.writer.indent

theorem Same.trans {f g h : Formatter} (a : Same f g) (b : Same g h) : Same f h :=
  ⟨b.indents.trans a.indents, b.splitter.trans a.splitter, b.state.trans a.state, b.width.trans a.width, b.indent.trans a.indent⟩

theorem Same.after {f g h : Formatter} (b : Same g h) (a : Same f g) : Same f h := a.trans b

theorem suffix_drop {rem word : Str} (h : rem <:+ word) : word.drop (word.length - rem.length) = rem := by
  obtain ⟨t, rfl⟩ := h
  rw [List.length_append, Nat.add_sub_cancel, List.drop_left]

/-- What one word adds. -/
structure Added (sp : Splitter) (word rem : Str) (f f' : Formatter) : Prop where
  text : sp.Clean → (sp.HasRule word → Whole rem) → ∃ added, f'.writer.all = f.writer.all ++ added ∧ Reflow rem added
  line : sp.Clean → (sp.HasRule word → Whole rem) → rem ≠ [] → f'.writer.line ≠ []

theorem appendLoop_ok {word : Str} (hword : 10 ∉ word) (fuel : Nat) : ∀ {f : Formatter} {rem : Str}, f.splitter.Bounded → f.writer.Sane → rem <:+ word →
    (rem ≠ [] ∨ f.writer.line = [] ∧ f.writer.spaces = 0) →
    3 * rem.length + (if f.writer.line ≠ [] then 2 else if f.writer.spaces ≠ 0 then 1 else 0) + 1 ≤ fuel →
    ∃ f', appendLoop word fuel f rem = .ok f' ∧ f'.writer.Sane ∧ f'.writer.spaces = 0 ∧ Same f f' ∧ Added f.splitter word rem f f' := by
  induction fuel with
  | zero => intro f rem _ _ _ _ h; omega
  | succ fuel ih =>
    intro f rem hb hs hsuf hne hfuel
    have hcw : f.writer.cur ≤ f.writer.currentWidth := by unfold Writer.currentWidth; omega
    have hrem : 10 ∉ rem := fun hm => hword (hsuf.subset hm)
    unfold appendLoop
    unfold Writer.write
    split
    · rename_i w heq
      split at heq
      · simp at heq
      · rename_i hle
        simp only [Prod.mk.injEq, true_and] at heq
        subst heq
        refine ⟨_, rfl, hs.append hrem (.inl ?_), rfl, ⟨rfl, rfl, rfl, rfl, rfl⟩, ⟨fun _ _ => ⟨_, Writer.append_all _ _, ?_⟩, fun _ _ h => Writer.append_line h⟩⟩
        · rcases hne with hne | ⟨h1, h2⟩
          · have := count_pos hne
            omega
          · have := hs.empty h1
            have := hs.indented
            have : f.writer.currentWidth = f.writer.indent := by unfold Writer.currentWidth; omega
            omega
        · exact Reflow.append (Reflow.spaces _) (Reflow.refl rem)
    · rename_i heq
      split at heq
      · rename_i hgt
        clear heq
        have hrne : rem ≠ [] := by
          rintro rfl
          have : countCodePoints [] = 0 := rfl
          omega
        obtain ⟨first, hyphen, rest, e, hp, hmust⟩ := Splitter.split_ok (n := f.writer.remainingWidth) hb f.writer.line.isEmpty
          (word := word) (start := word.length - rem.length) (by omega)
        rw [suffix_drop hsuf] at hp hmust
        rw [e]
        simp only [Outcome.bind_ok]
        split
        · rename_i hf
          have hp := hp hf
          have hflen : first.length > 0 := List.length_pos_iff.mpr hf
          have hlen := congrArg List.length hp.join
          rw [List.length_append] at hlen
          have h10 : 10 ∉ first := fun hm => hrem (by rw [← hp.join]; simp [hm])
          have s1 := hs.write h10 (.inl hf)
          have s2 : (if hyphen then ((f.writer.write first).2.write [c!"-"]).2 else (f.writer.write first).2).Sane := by
            split
            · exact s1.write (by decide) (.inl (by simp))
            · exact s1
          have same2 : (if hyphen then ((f.writer.write first).2.write [c!"-"]).2 else (f.writer.write first).2).lineWidth = f.writer.lineWidth ∧
              (if hyphen then ((f.writer.write first).2.write [c!"-"]).2 else (f.writer.write first).2).indent = f.writer.indent := by
            have a := Writer.write_same f.writer first
            have b := Writer.write_same (f.writer.write first).2 [c!"-"]
            split
            · exact ⟨b.1.trans a.1, b.2.trans a.2⟩
            · exact a
          have text2 : f.splitter.Clean → (f.splitter.HasRule word → Whole rem) →
              ∃ t, (if hyphen then ((f.writer.write first).2.write [c!"-"]).2 else (f.writer.write first).2).all = f.writer.all ++ t ∧ Reflow first (t ++ [10]) := by
            intro hc hw
            have hfit := hp.fits hc hw
            have e1 : f.writer.write first = (true, f.writer.append first) := by
              unfold Writer.write
              rw [if_neg]
              unfold Writer.remainingWidth at hfit
              omega
            rw [e1]
            cases hyphen with
            | false =>
              refine ⟨_, Writer.append_all _ _, ?_⟩
              have := Reflow.append (Reflow.append (Reflow.spaces (f.writer.currentWidth - f.writer.cur)) (Reflow.refl first)) Reflow.newline
              simpa using this
            | true =>
              have e2 : (f.writer.append first).write [c!"-"] = (true, (f.writer.append first).append [c!"-"]) := by
                have c1 : countCodePoints [c!"-"] = 1 := by decide
                have cw : (f.writer.append first).currentWidth = f.writer.currentWidth + countCodePoints first := by
                  simp only [Writer.currentWidth, Writer.append]
                  omega
                have lw : (f.writer.append first).lineWidth = f.writer.lineWidth := rfl
                unfold Writer.write
                rw [if_neg]
                rw [c1, cw, lw]
                unfold Writer.remainingWidth at hfit
                simp only [if_true] at hfit
                omega
              simp only [e2, if_true, Writer.append_all]
              refine ⟨_, List.append_assoc _ _ _, ?_⟩
              have c0 : (f.writer.append first).currentWidth - (f.writer.append first).cur = 0 := by
                simp only [Writer.currentWidth, Writer.append]
                omega
              rw [c0]
              have := Reflow.append (Reflow.append (Reflow.spaces (f.writer.currentWidth - f.writer.cur)) (Reflow.refl first)) (Reflow.hyphen .nil)
              simpa using this
          obtain ⟨f', r1, r2, r3, r4, r5⟩ := ih (f := newline { f with writer := if hyphen then ((f.writer.write first).2.write [c!"-"]).2 else (f.writer.write first).2 })
            (rem := rest) hb s2.newline (List.IsSuffix.trans ⟨first, hp.join⟩ hsuf) (.inr ⟨rfl, rfl⟩) (by
              simp only [newline, Writer.newline, Writer.flush, Writer.setSpaces]
              simp only [ne_eq, not_true_eq_false, if_false]
              omega)
          refine ⟨f', ?_, r2, r3, r4.after ⟨rfl, rfl, rfl, same2.1, same2.2⟩, ⟨?_, ?_⟩⟩
          · exact r1
          · intro hc hw
            obtain ⟨t, t1, t2⟩ := text2 hc hw
            obtain ⟨added, a1, a2⟩ := r5.text hc (hp.whole hc hw)
            refine ⟨t ++ [10] ++ added, ?_, ?_⟩
            · rw [a1]
              simp only [newline, Writer.newline_all]
              rw [t1]
              simp
            · rw [← hp.join]
              exact Reflow.append t2 a2
          · intro hc hw _
            refine r5.line hc (hp.whole hc hw) ?_
            rintro rfl
            have hfit := hp.fits hc hw
            have := hp.join
            rw [List.append_nil] at this
            subst this
            unfold Writer.remainingWidth at hfit
            omega
        · rename_i hf
          simp only [ne_eq, Decidable.not_not] at hf
          split
          · rename_i hl
            have hl' : f.writer.line = [] := by simpa using hl
            split
            · rename_i hsp
              obtain ⟨f', r1, r2, r3, r4, r5⟩ := ih (f := { f with writer := f.writer.setSpaces 0 }) (rem := rem) hb (hs.setSpaces 0) hsuf (.inl hrne) (by
                simp only [Writer.setSpaces]
                simp only [hl', hsp, ne_eq, not_true_eq_false, not_false_eq_true, if_false, if_true] at hfuel ⊢
                omega)
              exact ⟨f', r1, r2, r3, r4.after ⟨rfl, rfl, rfl, rfl, rfl⟩, ⟨r5.text, r5.line⟩⟩
            · rename_i hsp
              have hsp : f.writer.spaces = 0 := by simpa using hsp
              have h2 : ¬ f.writer.remainingWidth > 2 := fun hgt => hmust hl hgt hrne hf
              refine ⟨_, rfl, hs.append hrem (.inr ⟨hl', hsp, ?_⟩), rfl, ⟨rfl, rfl, rfl, rfl, rfl⟩,
                ⟨fun _ _ => ⟨_, Writer.append_all _ _, Reflow.append (Reflow.spaces _) (Reflow.refl rem)⟩, fun _ _ h => Writer.append_line h⟩⟩
              have := hs.empty hl'
              unfold Writer.remainingWidth Writer.currentWidth at h2
              omega
          · rename_i hl
            have hl' : f.writer.line ≠ [] := by simpa using hl
            obtain ⟨f', r1, r2, r3, r4, r5⟩ := ih (f := f.newline) (rem := rem) hb hs.newline hsuf (.inl hrne) (by
              simp only [newline, Writer.newline, Writer.flush, Writer.setSpaces]
              simp only [hl', ne_eq, not_true_eq_false, not_false_eq_true, if_false, if_true] at hfuel ⊢
              omega)
            refine ⟨f', r1, r2, r3, r4.after ⟨rfl, rfl, rfl, rfl, rfl⟩, ⟨fun hc hw => ?_, r5.line⟩⟩
            obtain ⟨added, a1, a2⟩ := r5.text hc hw
            refine ⟨[10] ++ added, ?_, Reflow.append Reflow.newline a2⟩
            rw [a1]
            simp only [newline, Writer.newline_all, List.append_assoc]
      · simp at heq

theorem appendWord_ok {f : Formatter} {word : Str} (hb : f.splitter.Bounded) (hs : f.writer.Sane) (hword : 10 ∉ word) (hne : word ≠ []) :
    ∃ f', f.appendWord word = .ok f' ∧ f'.writer.Sane ∧ f'.writer.spaces = 0 ∧ Same f f' ∧ Added f.splitter word word f f' := by
  refine appendLoop_ok hword _ hb hs List.suffix_rfl (.inl hne) ?_
  split
  · omega
  · split <;> omega

end Formatter

theorem Splitter.hasRule_whole {sp : Splitter} {word : Str} (hc : sp.Clean) (h : sp.HasRule word) : Whole word := by
  unfold Splitter.HasRule at h
  obtain ⟨splits, hl⟩ := Option.isSome_iff_exists.mp h
  obtain ⟨punct, hw, hpu⟩ := Splitter.removePunctuation_prefix word
  have := (hc _ (Splitter.mem_of_lookup hl)).1
  rw [hw]
  exact (whole_of_map toLowerChar_keeps this).append (whole_ascii hpu)

/-! ### Tokens -/

/-- What `nextToken` returns. -/
structure Token (text : Str) (type : TokenType) (token rem : Str) : Prop where
  join : token ++ rem = text
  some_ : token ≠ []
  blank : type ≠ .word → ∀ c ∈ token, isBlank c
  word : type = .word → 10 ∉ token
  space : type = .space → token = text.takeWhile (· = 32) ∧ rem.head? ≠ some 32
  tab : type = .tab → token = [9]
  newline : type = .newline → token.getLast? = some 10 ∨ token.getLast? = some 13
  first : ∀ c, text.head? = some c → (type = .tab ↔ c = 9) ∧ (type = .space ↔ c = 32)

theorem takeWhile_join {p : UInt8 → Bool} (s : Str) : s.takeWhile p ++ s.drop (s.takeWhile p).length = s := by
  induction s with
  | nil => rfl
  | cons c s ih =>
    rw [List.takeWhile_cons]
    split
    · simp [ih]
    · simp

theorem drop_takeWhile_head {p : UInt8 → Bool} (s : Str) : ∀ c, (s.drop (s.takeWhile p).length).head? = some c → p c = false := by
  induction s with
  | nil => intro c h; simp at h
  | cons d s ih =>
    intro c h
    rw [List.takeWhile_cons] at h
    split at h
    · exact ih c (by simpa using h)
    · rename_i hd
      simp only [List.length_nil, List.drop_zero, List.head?_cons, Option.some.injEq] at h
      subst h
      simpa using hd

theorem nextToken_ok (c : UInt8) (text : Str) {type : TokenType} {token rem : Str} (h : nextToken c text = (type, token, rem)) :
    Token (c :: text) type token rem := by
  unfold nextToken at h
  split at h
  · rename_i hc
    subst hc
    obtain ⟨rfl, rfl, rfl⟩ := h
    exact ⟨rfl, by simp, by simp [isBlank], by simp, by simp, by simp, by simp, by simp⟩
  · rename_i h9
    split at h
    · rename_i hc
      subst hc
      split at h
      · obtain ⟨rfl, rfl, rfl⟩ := h
        exact ⟨rfl, by simp, by simp [isBlank], by simp, by simp, by simp, by simp, by simp⟩
      · obtain ⟨rfl, rfl, rfl⟩ := h
        exact ⟨rfl, by simp, by simp [isBlank], by simp, by simp, by simp, by simp, by simp⟩
    · rename_i h13
      split at h
      · rename_i hc
        subst hc
        obtain ⟨rfl, rfl, rfl⟩ := h
        exact ⟨rfl, by simp, by simp [isBlank], by simp, by simp, by simp, by simp, by simp⟩
      · rename_i h10
        split at h
        · rename_i hc
          subst hc
          obtain ⟨rfl, rfl, rfl⟩ := h
          refine ⟨?_, by simp, ?_, by simp, fun _ => ⟨by simp, ?_⟩, by simp, by simp, by simp⟩
          · rw [List.cons_append, takeWhile_join]
          · intro _ x hx
            rcases List.mem_cons.mp hx with rfl | hx
            · exact .inl rfl
            · have := List.all_eq_true.mp (List.all_takeWhile (l := text)) x hx
              exact .inl (by simpa using this)
          · intro hh
            have := drop_takeWhile_head text 32 hh
            simp at this
        · rename_i h32
          obtain ⟨rfl, rfl, rfl⟩ := h
          refine ⟨?_, by simp, by simp, ?_, by simp, by simp, by simp, ?_⟩
          · rw [List.cons_append, takeWhile_join]
          · intro _ hx
            rcases List.mem_cons.mp hx with hx | hx
            · exact h10 hx.symm
            · have := List.all_eq_true.mp (List.all_takeWhile (l := text)) 10 hx
              simp at this
          · intro x hx
            simp only [List.head?_cons, Option.some.injEq] at hx
            subst hx
            simp [h9, h32]

namespace Formatter

/-- Between `begin_alignment` and `end_alignment`. -/
def Aligning (f : Formatter) : Prop := f.state = .alignment ∨ f.state = .alignedMarker

/-- What holds of every formatter, also while it writes words. -/
structure Fine (f : Formatter) : Prop where
  sane : f.writer.Sane
  bounded : f.splitter.Bounded
  some_ : f.indents ≠ []
  two : f.Aligning → 2 ≤ f.indents.length

/-- What holds of every formatter between two operations. -/
structure Ready (f : Formatter) : Prop extends Fine f where
  ready : ¬ f.Aligning

/-- The text that a step adds. -/
def Adds (f f' : Formatter) (text : Str) : Prop := f.splitter.Clean → ∃ added, f'.written = f.written ++ added ∧ Reflow text added

theorem written_all (f : Formatter) : f.written = f.writer.all := rfl

theorem pushCurrent_fine {f : Formatter} (h1 : f.writer.Sane) (h2 : f.splitter.Bounded) (h3 : f.indents ≠ []) (st : AlignState) :
    Fine { f.pushCurrent with state := st } := by
  refine ⟨(h1.setSpaces 0).setIndentation _, h2, by simp [pushCurrent], fun _ => ?_⟩
  have := List.length_pos_iff.mpr h3
  simp only [pushCurrent, List.length_cons]
  omega

theorem setIndentation_all (w : Writer) (n : Nat) : (w.setIndentation n).all = w.all := by
  unfold Writer.setIndentation
  split <;> rfl

theorem setIndentation_line (w : Writer) (n : Nat) : (w.setIndentation n).line = w.line := by
  unfold Writer.setIndentation
  split <;> rfl

theorem setIndentation_width (w : Writer) (n : Nat) : (w.setIndentation n).lineWidth = w.lineWidth := by
  unfold Writer.setIndentation
  split <;> rfl

theorem popIndentation_ok {f : Formatter} (h2 : 2 ≤ f.indents.length) :
    ∃ a b rest, f.indents = a :: b :: rest ∧ f.popIndentation = .ok { f with indents := b :: rest, writer := f.writer.setIndentation b } := by
  unfold popIndentation
  match hi : f.indents, h2 with
  | a :: b :: rest, _ => exact ⟨a, b, rest, rfl, rfl⟩

/-- The formatter is at the level `base`, or one above it while it aligns. -/
def Level (base : List Nat) (f : Formatter) : Prop :=
  (f.Aligning ∧ ∃ n, f.indents = n :: base) ∨ (¬ f.Aligning ∧ f.indents = base ∧ some f.writer.indent = base.head?)

/-- There are at least `k` indentations, not counting the one of the alignment. -/
def Above (k : Nat) (f : Formatter) : Prop := k ≤ f.indents.length ∧ (f.Aligning → k + 1 ≤ f.indents.length)

/-- What the steps of `write_words` keep. -/
structure Keeps (f f' : Formatter) : Prop where
  splitter : f'.splitter = f.splitter
  width : f'.writer.lineWidth = f.writer.lineWidth

theorem beginAlignment_ok {f : Formatter} (h : Fine f) :
    ∃ f', f.beginAlignment = .ok f' ∧ Fine f' ∧ Keeps f f' ∧ f'.writer.all = f.writer.all ∧ f'.writer.line = f.writer.line ∧
      (∀ k, Above k f → Above k f') ∧ ∀ base, Level base f → ¬ (f.writer.line = [] ∧ f.Aligning) → Level base f' := by
  unfold beginAlignment
  split
  · rename_i hc
    refine ⟨_, rfl, pushCurrent_fine h.sane h.bounded h.some_ _, ⟨rfl, setIndentation_width _ _⟩, ?_, setIndentation_line _ _, ?_, ?_⟩
    · simp only [pushCurrent, setIndentation_all]; rfl
    · intro k hk
      have := hk.1
      refine ⟨?_, fun _ => ?_⟩ <;> simp only [pushCurrent, List.length_cons] <;> omega
    · intro base hl hn
      rcases hl with ⟨h1, n, h2⟩ | ⟨h1, h2, h3⟩
      · exfalso
        refine hn ⟨?_, h1⟩
        rcases h1 with h1 | h1 <;> simpa [h1] using hc
      · exact .inl ⟨.inl rfl, _, by simp only [pushCurrent]; rw [h2]⟩
  · split
    · rename_i hst
      obtain ⟨a, b, rest, h1, h2⟩ := popIndentation_ok (h.two (.inr hst))
      rw [h2]
      refine ⟨_, rfl, pushCurrent_fine (f := { f with indents := b :: rest, writer := f.writer.setIndentation b })
        (h.sane.setIndentation b) h.bounded (by simp) _, ⟨rfl, ?_⟩, ?_, ?_, ?_, ?_⟩
      · simp only [pushCurrent, setIndentation_width]
        exact setIndentation_width _ _
      · simp only [pushCurrent, setIndentation_all]
        exact setIndentation_all f.writer b
      · simp only [pushCurrent, setIndentation_line]
        exact setIndentation_line f.writer b
      · intro k hk
        have := hk.2 (.inr hst)
        rw [h1] at this
        simp only [List.length_cons] at this
        refine ⟨?_, fun _ => ?_⟩ <;> simp only [pushCurrent, List.length_cons] <;> omega
      · intro base hl _
        rcases hl with ⟨h3, n, h4⟩ | ⟨h3, h4, h5⟩
        · rw [h1] at h4
          simp only [List.cons.injEq] at h4
          exact .inl ⟨.inl rfl, _, by simp only [pushCurrent]; rw [h4.2]⟩
        · exact absurd (.inr hst) h3
    · rename_i hc hst
      refine ⟨_, rfl, h, ⟨rfl, rfl⟩, rfl, rfl, fun _ hk => hk, fun _ hl _ => hl⟩

theorem endAlignment_ok {f : Formatter} (h : Fine f) :
    ∃ f', f.endAlignment = .ok f' ∧ Ready f' ∧ Keeps f f' ∧ f'.writer.all = f.writer.all ∧ f'.writer.line = f.writer.line ∧
      (∀ k, Above k f → Above k f') ∧ ∀ n rest, n < f.writer.lineWidth → Level (n :: rest) f → Level (n :: rest) f' := by
  unfold endAlignment
  split
  · rename_i hst
    obtain ⟨a, b, rest, h1, h2⟩ := popIndentation_ok (h.two hst)
    rw [h2]
    have hr : ¬ Aligning { f with indents := b :: rest, writer := f.writer.setIndentation b, state := .noAlignment } := by
      unfold Aligning
      simp
    refine ⟨_, rfl, ⟨⟨h.sane.setIndentation b, h.bounded, by simp, fun hal => absurd hal hr⟩, hr⟩, ⟨rfl, setIndentation_width _ _⟩, setIndentation_all _ _, setIndentation_line _ _, ?_, ?_⟩
    · intro k hk
      have := hk.2 hst
      rw [h1] at this
      exact ⟨by simpa using this, fun hal => absurd hal hr⟩
    intro n rest' hn hl
    rcases hl with ⟨h3, m, h4⟩ | ⟨h3, _⟩
    · rw [h1] at h4
      simp only [List.cons.injEq] at h4
      obtain ⟨_, rfl, rfl⟩ := h4
      refine .inr ⟨hr, rfl, ?_⟩
      simp only [Writer.setIndentation]
      rw [if_neg (by omega)]
      rfl
    · exact absurd hst h3
  · rename_i hst
    exact ⟨f, rfl, ⟨h, hst⟩, ⟨rfl, rfl⟩, rfl, rfl, fun _ hk => hk, fun _ _ _ hl => hl⟩

theorem updateAlignment_aligning {f : Formatter} {token : Str} (h : (f.updateAlignment token).Aligning) : f.Aligning := by
  unfold updateAlignment at h
  split at h
  · revert h
    unfold Aligning
    cases f.state <;> simp
  · exact h

theorem updateAlignment_aligning' {f : Formatter} {token : Str} (hm : f.state = .alignedMarker → f.writer.line ≠ []) :
    (f.updateAlignment token).Aligning ↔ f.Aligning := by
  refine ⟨updateAlignment_aligning, ?_⟩
  unfold updateAlignment
  split
  · rename_i hl
    have hl : f.writer.line = [] := by
      rw [Bool.and_eq_true] at hl
      simpa using hl.1
    rintro (h | h)
    · exact .inr (by simp [h])
    · exact absurd hl (hm h)
  · exact id

theorem updateAlignment_same (f : Formatter) (token : Str) :
    (f.updateAlignment token).writer = f.writer ∧ (f.updateAlignment token).indents = f.indents ∧ (f.updateAlignment token).splitter = f.splitter := by
  unfold updateAlignment
  split <;> exact ⟨rfl, rfl, rfl⟩

/-- The state before the text `t` is written, for tidy texts. -/
structure Start (f : Formatter) (t : Str) : Prop where
  inside : ∀ a b : Str, t = a ++ b → (a.getLast? = some 10 ∨ a.getLast? = some 13) → (∀ c ∈ leading b, c = 32) ∨ leading b = [9]
  after : f.writer.line = [] → f.Aligning → ∀ c, t.head? = some c → c ≠ 32 ∧ c ≠ 9
  before : f.writer.line = [] → ¬ f.Aligning → (∀ c ∈ leading t, c = 32) ∨ leading t = [9]
  marker : f.state = .alignedMarker → f.writer.line ≠ []

/-- What a step of `write_words` does. -/
structure Stepped (f f' : Formatter) (text rem : Str) : Prop where
  fine : Fine f'
  keeps : Keeps f f'
  adds : f.splitter.Clean → ∃ added, f'.writer.all = f.writer.all ++ added ∧ Reflow text added
  above : ∀ k, Above k f → Above k f'
  level : f.splitter.Clean → ∀ n rest, n < f.writer.lineWidth → Level (n :: rest) f → Start f (text ++ rem) → Level (n :: rest) f' ∧ Start f' rem

theorem inside_of_append {token rem : Str}
    (h : ∀ a b : Str, token ++ rem = a ++ b → (a.getLast? = some 10 ∨ a.getLast? = some 13) → (∀ c ∈ leading b, c = 32) ∨ leading b = [9]) :
    ∀ a b : Str, rem = a ++ b → (a.getLast? = some 10 ∨ a.getLast? = some 13) → (∀ c ∈ leading b, c = 32) ∨ leading b = [9] := by
  intro a b hr ha
  refine h (token ++ a) b (by rw [hr]; simp) ?_
  have : a ≠ [] := by rintro rfl; simp at ha
  rw [List.getLast?_append]
  rcases ha with ha | ha <;> simp [ha]

theorem blank_step {f f1 f' : Formatter} {token rem : Str} (hfine : Fine f') (hk : Keeps f1 f') (hall : f'.writer.all = f.writer.all)
    (hline : f'.writer.line = f.writer.line) (hf1 : f1.splitter = f.splitter ∧ f1.writer.lineWidth = f.writer.lineWidth ∧ f1.writer.line = f.writer.line ∧
      f1.indents = f.indents ∧ f1.state = f.state ∧ f1.writer.indent = f.writer.indent)
    (habove : ∀ k, Above k f1 → Above k f') (hblank : ∀ c ∈ token, isBlank c) (hlevel : ∀ base, Level base f1 → ¬ (f1.writer.line = [] ∧ f1.Aligning) → Level base f')
    (hal : f.writer.line = [] → f'.state = .alignment)
    (hfirst : ∀ c, (token ++ rem).head? = some c → c = 32 ∨ c = 9)
    (hnext : ((∀ c ∈ leading (token ++ rem), c = 32) ∨ leading (token ++ rem) = [9]) → ∀ c, rem.head? = some c → c ≠ 32 ∧ c ≠ 9) (hne : token ≠ []) :
    Stepped f f' token rem := by
  obtain ⟨g1, g2, g3, g4, g5, g6⟩ := hf1
  have hAl : f1.Aligning ↔ f.Aligning := by unfold Aligning; rw [g5]
  refine ⟨hfine, ⟨hk.splitter.trans g1, hk.width.trans g2⟩, fun _ => ⟨[], by simp [hall], Reflow.blanks hblank⟩, ?_, ?_⟩
  · intro k hk
    refine habove k ?_
    unfold Above at hk ⊢
    rw [hAl, g4]
    exact hk
  intro _ n rest hn hl hst
  have hnot : ¬ (f.writer.line = [] ∧ f.Aligning) := by
    rintro ⟨h1, h2⟩
    obtain ⟨c, hc⟩ : ∃ c, (token ++ rem).head? = some c := by
      cases token with
      | nil => exact absurd rfl hne
      | cons c s => exact ⟨c, rfl⟩
    have a := hst.after h1 h2 c hc
    rcases hfirst c hc with b | b
    · exact a.1 b
    · exact a.2 b
  refine ⟨hlevel _ ?_ ?_, inside_of_append hst.inside, ?_, ?_, ?_⟩
  · unfold Level at hl ⊢
    rw [hAl, g4, g6]
    exact hl
  · rw [g3, hAl]; exact hnot
  · intro h1 _
    rw [hline] at h1
    exact hnext (hst.before h1 fun h2 => hnot ⟨h1, h2⟩)
  · intro h1 h2
    rw [hline] at h1
    exact absurd (.inl (hal h1)) h2
  · intro h1 h2
    rw [hline] at h2
    rw [hal h2] at h1
    simp at h1

theorem beginAlignment_aligning {f f' : Formatter} (h : f.beginAlignment = .ok f') (hl : f.writer.line = []) : f'.state = .alignment := by
  unfold beginAlignment at h
  rw [if_pos (by simp [hl])] at h
  simp only [Outcome.ok.injEq] at h
  subst h
  rfl

theorem writeToken_ok {f : Formatter} (h : Fine f) {text : Str} {type : TokenType} {token rem : Str} (ht : Token text type token rem) :
    ∃ f', f.writeToken type token = .ok f' ∧ Stepped f f' token rem := by
  have hhead : ∃ c, text.head? = some c ∧ token.head? = some c := by
    have := ht.some_
    rw [← ht.join]
    cases token with
    | nil => exact absurd rfl this
    | cons c s => exact ⟨c, rfl, rfl⟩
  cases type with
  | tab =>
    unfold writeToken
    simp only
    have hf : Fine { f with writer := f.writer.tab } := ⟨h.sane.tab, h.bounded, h.some_, h.two⟩
    obtain ⟨f', a1, a2, a3, a4, a5, a7, a6⟩ := beginAlignment_ok hf
    refine ⟨f', a1, blank_step a2 a3 a4 a5 ⟨rfl, rfl, rfl, rfl, rfl, rfl⟩ a7 (ht.blank (by simp)) a6
      (fun hl => beginAlignment_aligning a1 hl) ?_ ?_ ht.some_⟩
    · rw [ht.join]
      intro c hc
      exact .inr (((ht.first c hc).1).mp rfl)
    · rw [ht.tab rfl]
      intro hlead c hc
      cases rem with
      | nil => simp at hc
      | cons d rem =>
        simp only [List.head?_cons, Option.some.injEq] at hc
        subst hc
        rcases hlead with hlead | hlead
        · have := hlead 9 (by simp [leading])
          simp at this
        · have e : leading ([9] ++ d :: rem) = 9 :: leading (d :: rem) := by simp [leading]
          rw [e] at hlead
          simp only [List.cons.injEq, true_and] at hlead
          unfold leading at hlead
          rw [List.takeWhile_cons] at hlead
          split at hlead
          · simp at hlead
          · rename_i hd
            simpa using hd
  | space =>
    unfold writeToken
    simp only
    have hf : Fine { f with writer := f.writer.setSpaces token.length } := ⟨h.sane.setSpaces _, h.bounded, h.some_, h.two⟩
    obtain ⟨f', a1, a2, a3, a4, a5, a7, a6⟩ := beginAlignment_ok hf
    obtain ⟨t1, t2⟩ := ht.space rfl
    refine ⟨f', a1, blank_step a2 a3 a4 a5 ⟨rfl, rfl, rfl, rfl, rfl, rfl⟩ a7 (ht.blank (by simp)) a6
      (fun hl => beginAlignment_aligning a1 hl) ?_ ?_ ht.some_⟩
    · rw [ht.join]
      intro c hc
      exact .inl (((ht.first c hc).2).mp rfl)
    · intro hlead c hc
      refine ⟨fun h32 => t2 (by rw [hc, h32]), ?_⟩
      rintro rfl
      have hall : ∀ x ∈ token, x = 32 := by
        rw [t1]
        intro x hx
        have := List.all_eq_true.mp (List.all_takeWhile (l := text)) x hx
        simpa using this
      have h9 : 9 ∈ leading (token ++ rem) := by
        unfold leading
        rw [List.takeWhile_append_of_pos (by intro x hx; simp [hall x hx])]
        cases rem with
        | nil => simp at hc
        | cons d rem =>
          simp only [List.head?_cons, Option.some.injEq] at hc
          subst hc
          simp
      rcases hlead with hlead | hlead
      · have := hlead 9 h9
        simp at this
      · cases token with
        | nil => exact ht.some_ rfl
        | cons x xs =>
          have := hall x (by simp)
          subst this
          simp [leading] at hlead
  | newline =>
    unfold writeToken
    simp only
    obtain ⟨f', a1, a2, a3, a4, a5, a7, a6⟩ := endAlignment_ok h
    rw [a1]
    simp only [Outcome.bind_ok, Outcome.pure_eq]
    have hal : f'.newline.Aligning ↔ f'.Aligning := Iff.rfl
    refine ⟨_, rfl, ⟨a2.sane.newline, a2.bounded, a2.some_, a2.two⟩, ⟨a3.splitter, a3.width⟩, ?_, fun k hk => a7 k hk, ?_⟩
    · intro _
      refine ⟨[10], ?_, ?_⟩
      · simp only [newline, Writer.newline_all, a4]
      · have := Reflow.append (Reflow.blanks (ht.blank (by simp))) Reflow.newline
        simpa using this
    · intro _ n rest hn hl hst
      refine ⟨?_, inside_of_append hst.inside, ?_, ?_, fun h2 => absurd (.inr h2) a2.ready⟩
      · exact a6 n rest hn hl
      · intro _ h2
        exact absurd h2 a2.ready
      · intro _ _
        exact hst.inside token rem rfl (ht.newline rfl)
  | word =>
    unfold writeToken
    simp only
    obtain ⟨u1, u2, u3⟩ := updateAlignment_same f token
    obtain ⟨f', a1, a2, a3, a4, a5⟩ := appendWord_ok (f := f.updateAlignment token) (word := token) (by rw [u3]; exact h.bounded)
      (by rw [u1]; exact h.sane) (ht.word rfl) ht.some_
    have u5 : f'.Aligning ↔ (f.updateAlignment token).Aligning := by
      unfold Aligning
      rw [a4.state]
    refine ⟨f', a1, ⟨a2, ?_, ?_, ?_⟩, ⟨?_, ?_⟩, ?_, ?_, ?_⟩
    · rw [a4.splitter, u3]; exact h.bounded
    · rw [a4.indents, u2]; exact h.some_
    · rw [a4.indents, u2, u5]; exact fun h' => h.two (updateAlignment_aligning h')
    · rw [a4.splitter, u3]
    · rw [a4.width, u1]
    · intro hc
      rw [← u1]
      exact a5.text (by rw [u3]; exact hc) (fun hr => Splitter.hasRule_whole (by rw [u3]; exact hc) hr)
    · intro k hk
      unfold Above
      rw [a4.indents, u2, u5]
      exact ⟨hk.1, fun h' => hk.2 (updateAlignment_aligning h')⟩
    · intro hc n rest hn hl hst
      have hline := a5.line (by rw [u3]; exact hc) (fun hr => Splitter.hasRule_whole (by rw [u3]; exact hc) hr) ht.some_
      refine ⟨?_, inside_of_append hst.inside, fun h0 => absurd h0 hline, fun h0 => absurd h0 hline, fun _ => hline⟩
      unfold Level at hl ⊢
      rw [u5, updateAlignment_aligning' hst.marker, a4.indents, a4.indent, u1, u2]
      exact hl

theorem wordsLoop_ok (fuel : Nat) : ∀ {f : Formatter} {text : Str}, Fine f → text.length ≤ fuel →
    ∃ f', wordsLoop fuel f text = .ok f' ∧ Ready f' ∧ Keeps f f' ∧
      (f.splitter.Clean → ∃ added, f'.writer.all = f.writer.all ++ added ∧ Reflow text added) ∧
      (∀ k, Above k f → Above k f') ∧
      (f.splitter.Clean → ∀ n rest, n < f.writer.lineWidth → Level (n :: rest) f → Start f text → Level (n :: rest) f') := by
  induction fuel with
  | zero =>
    intro f text h hlen
    have : text = [] := List.length_eq_zero_iff.mp (by omega)
    subst this
    unfold wordsLoop
    obtain ⟨f', a1, a2, a3, a4, a5, a7, a6⟩ := endAlignment_ok h
    exact ⟨f', a1, a2, a3, fun _ => ⟨[], by simp [a4], .nil⟩, a7, fun _ n rest hn hl _ => a6 n rest hn hl⟩
  | succ fuel ih =>
    intro f text h hlen
    cases text with
    | nil =>
      unfold wordsLoop
      obtain ⟨f', a1, a2, a3, a4, a5, a7, a6⟩ := endAlignment_ok h
      exact ⟨f', a1, a2, a3, fun _ => ⟨[], by simp [a4], .nil⟩, a7, fun _ n rest hn hl _ => a6 n rest hn hl⟩
    | cons c text =>
      unfold wordsLoop
      obtain ⟨type, token, rem, e⟩ : ∃ type token rem, nextToken c text = (type, token, rem) := ⟨_, _, _, rfl⟩
      have ht := nextToken_ok c text e
      simp only [e]
      obtain ⟨f1, b1, b2⟩ := writeToken_ok h ht
      rw [b1]
      simp only [Outcome.bind_ok]
      have hl := congrArg List.length ht.join
      have hp := List.length_pos_iff.mpr ht.some_
      rw [List.length_append] at hl
      obtain ⟨f', a1, a2, a3, a4, a7, a5⟩ := ih (f := f1) (text := rem) b2.fine (by omega)
      refine ⟨f', a1, a2, ⟨a3.splitter.trans b2.keeps.splitter, a3.width.trans b2.keeps.width⟩, ?_, fun k hk => a7 k (b2.above k hk), ?_⟩
      · intro hc
        obtain ⟨x, x1, x2⟩ := b2.adds hc
        obtain ⟨y, y1, y2⟩ := a4 (by rw [b2.keeps.splitter]; exact hc)
        refine ⟨x ++ y, by rw [y1, x1, List.append_assoc], ?_⟩
        rw [← ht.join]
        exact Reflow.append x2 y2
      · intro hc n rest hn hl hst
        rw [← ht.join] at hst
        obtain ⟨l1, l2⟩ := b2.level hc n rest hn hl hst
        exact a5 (by rw [b2.keeps.splitter]; exact hc) n rest (by rw [b2.keeps.width]; exact hn) l1 l2

theorem writeWords_ok {f : Formatter} (h : Ready f) (text : Str) :
    ∃ f', f.writeWords text = .ok f' ∧ Ready f' ∧ Keeps f f' ∧
      (f.splitter.Clean → ∃ added, f'.writer.all = f.writer.all ++ added ∧ Reflow text added) ∧
      f.indents.length ≤ f'.indents.length ∧
      (f.splitter.Clean → Tidy text → ∀ n rest, n < f.writer.lineWidth → f.indents = n :: rest → f.writer.indent = n →
        f'.indents = n :: rest ∧ f'.writer.indent = n) := by
  obtain ⟨f', a1, a2, a3, a4, a7, a5⟩ := wordsLoop_ok text.length h.toFine (Nat.le_refl _)
  refine ⟨f', a1, a2, a3, a4, (a7 _ ⟨Nat.le_refl _, fun hal => absurd hal h.ready⟩).1, fun hc ht n rest hn hi hw => ?_⟩
  have := a5 hc n rest hn (.inr ⟨h.ready, hi, by rw [hw]; rfl⟩)
    ⟨fun a b e hab => ht a b e (.inr hab), fun _ hal => absurd hal h.ready, fun _ _ => ht [] text rfl (.inl rfl), fun hm => absurd (.inr hm) h.ready⟩
  rcases this with ⟨hal, _⟩ | ⟨_, h1, h2⟩
  · exact absurd hal a2.ready
  · exact ⟨h1, by simpa using h2⟩

end Formatter

/-! ### Preformatted lines -/

/-- What `nextLine` returns. -/
structure Cut (text line sep rem : Str) : Prop where
  join : line ++ sep ++ rem = text
  plain : ∀ c ∈ line, c ≠ 10 ∧ c ≠ 13
  sep : (sep = [] ∧ rem = []) ∨ sep = [10] ∨ (sep = [13] ∧ rem ≠ [] ∧ rem.head? ≠ some 10) ∨ sep = [13, 10]

theorem nextLine_ok {text : Str} (h : text.getLast? ≠ some 13) : ∃ line sep rem, nextLine text = .ok (line, rem) ∧ Cut text line sep rem := by
  have hj := takeWhile_join (p := fun c => decide (c ≠ 10 ∧ c ≠ 13)) text
  have hp : ∀ c ∈ text.takeWhile (fun c => decide (c ≠ 10 ∧ c ≠ 13)), c ≠ 10 ∧ c ≠ 13 := by
    intro c hc
    have := List.all_eq_true.mp (List.all_takeWhile (l := text)) c hc
    simpa using this
  have hh := drop_takeWhile_head (p := fun c => decide (c ≠ 10 ∧ c ≠ 13)) text
  unfold nextLine
  simp only
  split
  · rename_i hd
    rw [hd, List.append_nil] at hj
    refine ⟨text, [], [], rfl, ⟨by simp, ?_, .inl ⟨rfl, rfl⟩⟩⟩
    rw [← hj]
    exact hp
  · rename_i c rest hd
    have hc := hh c (by rw [hd]; rfl)
    split
    · rename_i hc
      subst hc
      exact ⟨_, [10], rest, rfl, ⟨by rw [List.append_assoc, List.singleton_append, ← hd]; exact hj, hp, .inr (.inl rfl)⟩⟩
    · rename_i hc10
      have hc13 : c = 13 := by
        simp only [decide_eq_false_iff_not] at hc
        exact Decidable.not_not.mp fun h13 => hc ⟨hc10, h13⟩
      subst hc13
      split
      · rw [hd] at hj
        exfalso
        apply h
        rw [← hj]
        simp
      · rename_i c' rest' 
        split
        · rename_i h10
          exact ⟨_, [13], c' :: rest', rfl, ⟨by rw [List.append_assoc, List.singleton_append, ← hd]; exact hj, hp, .inr (.inr (.inl ⟨rfl, by simp, by simpa using h10⟩))⟩⟩
        · rename_i h10
          have h10 : c' = 10 := by simpa using h10
          subst h10
          exact ⟨_, [13, 10], rest', rfl, ⟨by rw [hd] at hj; rw [List.append_assoc]; exact hj, hp, .inr (.inr (.inr rfl))⟩⟩

theorem textLines_ne (s : Str) : textLines s ≠ [] := by
  fun_cases textLines s <;> simp [*]

theorem textLines_plain (line : Str) (h : ∀ c ∈ line, c ≠ 10 ∧ c ≠ 13) (s : Str) :
    ∃ l ls, textLines s = l :: ls ∧ textLines (line ++ s) = (line ++ l) :: ls := by
  induction line with
  | nil =>
    cases hs : textLines s with
    | nil => exact absurd hs (textLines_ne s)
    | cons l ls => exact ⟨l, ls, rfl, by simp [hs]⟩
  | cons c line ih =>
    obtain ⟨l, ls, h1, h2⟩ := ih fun x hx => h x (by simp [hx])
    obtain ⟨hc1, hc2⟩ := h c (by simp)
    refine ⟨l, ls, h1, ?_⟩
    rw [List.cons_append]
    rw [textLines.eq_3 _ _ (by intro s' h13 _; exact hc2 h13)]
    rw [if_neg (by simp [hc1, hc2]), h2]
    rfl

theorem Cut.lines {text line sep rem : Str} (h : Cut text line sep rem) : textLines text = if sep = [] then [line] else line :: textLines rem := by
  rcases h.sep with ⟨h1, h2⟩ | h1 | ⟨h1, h2, h3⟩ | h1
  · subst h1 h2
    have := h.join
    simp only [List.append_nil] at this
    subst this
    obtain ⟨l, ls, e1, e2⟩ := textLines_plain line h.plain []
    simp only [textLines, List.cons.injEq] at e1
    obtain ⟨rfl, rfl⟩ := e1
    simpa using e2
  · subst h1
    obtain ⟨l, ls, e1, e2⟩ := textLines_plain line h.plain (10 :: rem)
    have : textLines (10 :: rem) = [] :: textLines rem := by
      rw [textLines.eq_3 _ _ (by intro s' h13 _; simp at h13)]
      simp
    rw [this] at e1
    simp only [List.cons.injEq] at e1
    obtain ⟨rfl, rfl⟩ := e1
    rw [← h.join]
    simpa using e2
  · subst h1
    obtain ⟨l, ls, e1, e2⟩ := textLines_plain line h.plain (13 :: rem)
    have : textLines (13 :: rem) = [] :: textLines rem := by
      rw [textLines.eq_3 _ _ (by intro s' _ h10; subst h10; simp at h3)]
      simp
    rw [this] at e1
    simp only [List.cons.injEq] at e1
    obtain ⟨rfl, rfl⟩ := e1
    rw [← h.join]
    simpa using e2
  · subst h1
    obtain ⟨l, ls, e1, e2⟩ := textLines_plain line h.plain (13 :: 10 :: rem)
    have : textLines (13 :: 10 :: rem) = [] :: textLines rem := by simp [textLines]
    rw [this] at e1
    simp only [List.cons.injEq] at e1
    obtain ⟨rfl, rfl⟩ := e1
    rw [← h.join]
    simpa using e2

theorem joinLines_cons {l : Str} {ls : List Str} (h : ls ≠ []) : joinLines (l :: ls) = l ++ 10 :: joinLines ls := by
  cases ls with
  | nil => exact absurd rfl h
  | cons a ls => rfl

theorem nextLine_cr {text : Str} (h : text.getLast? = some 13) :
    nextLine text = .outOfRange ∨ ∃ line rem, nextLine text = .ok (line, rem) ∧ 10 ∉ line ∧ rem.getLast? = some 13 ∧ rem.length < text.length := by
  have hj := takeWhile_join (p := fun c => decide (c ≠ 10 ∧ c ≠ 13)) text
  have hp : ∀ c ∈ text.takeWhile (fun c => decide (c ≠ 10 ∧ c ≠ 13)), c ≠ 10 ∧ c ≠ 13 := by
    intro c hc
    have := List.all_eq_true.mp (List.all_takeWhile (l := text)) c hc
    simpa using this
  have last : ∀ sep rest : Str, text.takeWhile (fun c => decide (c ≠ 10 ∧ c ≠ 13)) ++ (sep ++ rest) = text → sep.getLast? = some 10 ∨ rest ≠ [] → sep ≠ [] →
      rest.getLast? = some 13 ∧ rest.length < text.length := by
    intro sep rest e hs hne
    have hl := congrArg List.length e
    have := List.length_pos_iff.mpr hne
    simp only [List.length_append] at hl
    rw [← e, ← List.append_assoc, List.getLast?_append] at h
    refine ⟨?_, by omega⟩
    cases hr : rest.getLast? with
    | some x =>
      rw [hr] at h
      simpa using h
    | none =>
      rw [List.getLast?_eq_none_iff] at hr
      subst hr
      rcases hs with hs | hs
      · simp [List.getLast?_append, hs] at h
      · exact absurd rfl hs
  unfold nextLine
  simp only
  split
  · rename_i hd
    rw [hd, List.append_nil] at hj
    rw [← hj] at h
    exact absurd rfl (hp 13 (List.mem_of_getLast? h)).2
  · rename_i c rest hd
    rw [hd] at hj
    split
    · rename_i hc
      subst hc
      exact .inr ⟨_, _, rfl, fun hm => (hp 10 hm).1 rfl, last [10] rest hj (.inl rfl) (by simp)⟩
    · split
      · exact .inl rfl
      · rename_i c' rest'
        split
        · exact .inr ⟨_, _, rfl, fun hm => (hp 10 hm).1 rfl, last [c] (c' :: rest') hj (.inr (by simp)) (by simp)⟩
        · rename_i h10
          have h10 : c' = 10 := by simpa using h10
          subst h10
          exact .inr ⟨_, _, rfl, fun hm => (hp 10 hm).1 rfl, last [c, 10] rest' hj (.inl rfl) (by simp)⟩

namespace Formatter

theorem Same.fine {f f' : Formatter} (h : Same f f') (hs : f'.writer.Sane) (hr : Ready f) : Ready f' := by
  refine ⟨⟨hs, by rw [h.splitter]; exact hr.bounded, by rw [h.indents]; exact hr.some_, ?_⟩, ?_⟩
  · intro hal
    refine absurd ?_ hr.ready
    unfold Aligning at hal ⊢
    rw [h.state] at hal
    exact hal
  · have := hr.ready
    unfold Aligning at this ⊢
    rw [h.state]
    exact this

theorem newline_same (f : Formatter) : Same f f.newline := ⟨rfl, rfl, rfl, rfl, rfl⟩

/-- A word that fits on the empty line. -/
theorem appendWord_fits {f : Formatter} (hs : f.writer.Sane) {word : Str} (hl : f.writer.line = []) (hsp : f.writer.spaces = 0)
    (hfit : f.writer.indent + countCodePoints word ≤ f.writer.lineWidth) :
    f.appendWord word = .ok { f with writer := f.writer.append word } ∧ (f.writer.append word).all = f.writer.all ++ (List.replicate f.writer.indent 32 ++ word) := by
  have h0 := hs.empty hl
  have hcw : f.writer.currentWidth = f.writer.indent := by unfold Writer.currentWidth; omega
  constructor
  · unfold appendWord
    rw [show 3 * word.length + 3 = (3 * word.length + 2) + 1 from rfl]
    unfold appendLoop
    unfold Writer.write
    rw [if_neg (by omega)]
  · rw [Writer.append_all, hcw, h0]
    rfl

theorem line_ok {f : Formatter} (h : Ready f) {line : Str} (h10 : 10 ∉ line) :
    ∃ f', f.appendLine line = .ok f' ∧ Ready f' ∧ Same f f' ∧
      (f.splitter.Clean → ∃ added, f'.writer.all = f.writer.all ++ added ∧ Reflow line added) ∧
      (f.writer.line = [] → f.writer.spaces = 0 → f.writer.indent + countCodePoints line ≤ f.writer.lineWidth →
        f'.writer.all = f.writer.all ++ indented f.writer.indent line) := by
  unfold appendLine
  by_cases hl : line = []
  · subst hl
    exact ⟨f, rfl, h, ⟨rfl, rfl, rfl, rfl, rfl⟩, fun _ => ⟨[], by simp, .nil⟩, fun _ _ _ => by simp [indented]⟩
  · rw [if_pos hl]
    obtain ⟨f', a1, a2, a3, a4, a5⟩ := appendWord_ok h.bounded h.sane h10 hl
    refine ⟨f', a1, a4.fine a2 h, a4, fun hc => a5.text hc fun hr => Splitter.hasRule_whole hc hr, fun h1 h2 h3 => ?_⟩
    obtain ⟨b1, b2⟩ := appendWord_fits h.sane h1 h2 h3
    rw [b1] at a1
    simp only [Outcome.ok.injEq] at a1
    subst a1
    unfold indented
    rw [if_neg hl]
    exact b2

theorem linesLoop_ok (fuel : Nat) : ∀ {f : Formatter} {text : Str}, Ready f → text.getLast? ≠ some 13 → text.length ≤ fuel →
    ∃ f', linesLoop fuel f text = .ok f' ∧ Ready f' ∧ Same f f' ∧
      (f.splitter.Clean → ∃ added, f'.writer.all = f.writer.all ++ added ∧ Reflow text added) ∧
      (f.writer.line = [] → f.writer.spaces = 0 → (∀ l ∈ textLines text, f.writer.indent + countCodePoints l ≤ f.writer.lineWidth) →
        ∃ body, f'.writer.all = f.writer.all ++ body ∧ body ++ (if text.getLast? = some 10 then [10] else []) = joinLines ((textLines text).map (indented f.writer.indent))) := by
  induction fuel with
  | zero =>
    intro f text h hcr hlen
    have : text = [] := List.length_eq_zero_iff.mp (by omega)
    subst this
    unfold linesLoop
    exact ⟨f, rfl, h, ⟨rfl, rfl, rfl, rfl, rfl⟩, fun _ => ⟨[], by simp, .nil⟩, fun _ _ _ => ⟨[], by simp, by simp [textLines, joinLines, indented]⟩⟩
  | succ fuel ih =>
    intro f text h hcr hlen
    cases htext : text with
    | nil =>
      unfold linesLoop
      exact ⟨f, rfl, h, ⟨rfl, rfl, rfl, rfl, rfl⟩, fun _ => ⟨[], by simp, .nil⟩, fun _ _ _ => ⟨[], by simp, by simp [textLines, joinLines, indented]⟩⟩
    | cons c0 text0 =>
      rw [← htext]
      have hne : text ≠ [] := by simp [htext]
      obtain ⟨line, sep, rem, e, hcut⟩ := nextLine_ok hcr
      rw [linesLoop.eq_3 _ _ _ hne, e]
      simp only [Outcome.bind_ok]
      obtain ⟨f1, a1, a2, a3, a4, a5⟩ := line_ok h (line := line) (fun hm => (hcut.plain _ hm).1 rfl)
      rw [a1, Outcome.bind_ok]
      have hjoin := hcut.join
      have hlines := hcut.lines
      have hlen' := congrArg List.length hjoin
      simp only [List.length_append] at hlen'
      by_cases hrem : rem = []
      · subst hrem
        have hend : linesLoop fuel (if ([] : Str) ≠ [] then f1.newline else f1) [] = .ok f1 := by
          unfold linesLoop
          rfl
        rw [hend]
        rw [List.append_nil] at hjoin
        refine ⟨f1, rfl, a2, a3, ?_, ?_⟩
        · intro hc
          obtain ⟨x, x1, x2⟩ := a4 hc
          refine ⟨x, x1, ?_⟩
          rw [← hjoin]
          have hb : ∀ c ∈ sep, isBlank c := by
            rcases hcut.sep with ⟨h1, _⟩ | h1 | ⟨h1, _⟩ | h1 <;> subst h1 <;> simp [isBlank]
          have := Reflow.append x2 (Reflow.blanks hb)
          simpa using this
        · intro h1 h2 h3
          have hm : line ∈ textLines text := by
            rw [hlines]
            split <;> simp
          refine ⟨_, a5 h1 h2 (h3 line hm), ?_⟩
          rw [hlines]
          rcases hcut.sep with ⟨h1, _⟩ | h1 | ⟨_, h1, _⟩ | h1
          · subst h1
            rw [List.append_nil] at hjoin
            rw [← hjoin]
            rw [if_neg]
            · simp [joinLines]
            · intro hl
              exact (hcut.plain 10 (List.mem_of_getLast? hl)).1 rfl
          · subst h1
            rw [← hjoin]
            simp [textLines, joinLines, indented]
          · exact absurd rfl h1
          · subst h1
            rw [← hjoin]
            simp [textLines, joinLines, indented]
      · have hsep : sep ≠ [] := by
          rintro rfl
          rcases hcut.sep with ⟨_, h1⟩ | h1 | ⟨h1, _⟩ | h1
          · exact hrem h1
          all_goals simp at h1
        have hsp := List.length_pos_iff.mpr hsep
        have hlast : text.getLast? = rem.getLast? := by
          rw [← hjoin, List.getLast?_append]
          cases hr : rem.getLast? with
          | none => rw [List.getLast?_eq_none_iff] at hr; exact absurd hr hrem
          | some x => rfl
        have s1 : Ready f1.newline := (newline_same f1).fine a2.sane.newline a2
        obtain ⟨f', b1, b2, b3, b4, b5⟩ := ih (f := f1.newline) (text := rem) s1 (by rw [← hlast]; exact hcr) (by omega)
        rw [if_pos hrem]
        refine ⟨f', b1, b2, b3.after ((newline_same f1).after a3), ?_, ?_⟩
        · intro hc
          obtain ⟨x, x1, x2⟩ := a4 hc
          obtain ⟨y, y1, y2⟩ := b4 (by rw [(newline_same f1).splitter, a3.splitter]; exact hc)
          refine ⟨x ++ [10] ++ y, ?_, ?_⟩
          · rw [y1]
            simp only [newline, Writer.newline_all]
            rw [x1]
            simp
          · rw [← hjoin]
            have hb : ∀ c ∈ sep, isBlank c := by
              rcases hcut.sep with ⟨h1, _⟩ | h1 | ⟨h1, _⟩ | h1 <;> subst h1 <;> simp [isBlank]
            have hn := Reflow.append (Reflow.blanks hb) Reflow.newline
            rw [List.append_nil, List.nil_append] at hn
            exact Reflow.append (Reflow.append x2 hn) y2
        · intro h1 h2 h3
          rw [hlines, if_neg hsep] at h3 ⊢
          obtain ⟨body, c1, c2⟩ := b5 rfl rfl (by
            intro l hl
            have := h3 l (by simp [hl])
            rw [(newline_same f1).indent, a3.indent, (newline_same f1).width, a3.width]
            exact this)
          refine ⟨indented f.writer.indent line ++ 10 :: body, ?_, ?_⟩
          · rw [c1]
            simp only [newline, Writer.newline_all]
            rw [a5 h1 h2 (h3 line (by simp))]
            simp
          · rw [List.map_cons, joinLines_cons (by simp [textLines_ne]), hlast]
            rw [(newline_same f1).indent, a3.indent] at c2
            rw [← c2]
            simp

theorem writeLines_ok {f : Formatter} (h : Ready f) {text : Str} (hcr : text.getLast? ≠ some 13) :
    ∃ f', f.writeLines text = .ok f' ∧ Ready f' ∧ Same f f' ∧
      (f.splitter.Clean → ∃ added, f'.writer.all = f.writer.all ++ added ∧ Reflow text added) ∧
      (f.writer.line = [] → f.writer.spaces = 0 → (∀ l ∈ textLines text, f.writer.indent + countCodePoints l ≤ f.writer.lineWidth) →
        f'.writer.all = f.writer.all ++ joinLines ((textLines text).map (indented f.writer.indent))) := by
  obtain ⟨f', a1, a2, a3, a4, a5⟩ := linesLoop_ok text.length h hcr (Nat.le_refl _)
  unfold writeLines
  rw [a1]
  simp only [Outcome.bind_ok, Outcome.pure_eq]
  by_cases h10 : text.getLast? = some 10
  · rw [if_pos (.inl h10)]
    refine ⟨_, rfl, (newline_same f').fine a2.sane.newline a2, (newline_same f').after a3, ?_, ?_⟩
    · intro hc
      obtain ⟨x, x1, x2⟩ := a4 hc
      refine ⟨x ++ [10], ?_, ?_⟩
      · simp only [newline, Writer.newline_all]
        rw [x1, List.append_assoc]
      · have := Reflow.append x2 Reflow.newline
        simpa using this
    · intro h1 h2 h3
      obtain ⟨body, c1, c2⟩ := a5 h1 h2 h3
      simp only [newline, Writer.newline_all]
      rw [c1, ← c2, if_pos h10, List.append_assoc]
  · rw [if_neg (by rintro (h | h); exact h10 h; exact hcr h)]
    refine ⟨_, rfl, a2, a3, a4, ?_⟩
    intro h1 h2 h3
    obtain ⟨body, c1, c2⟩ := a5 h1 h2 h3
    rw [c1, ← c2, if_neg h10, List.append_nil]

/-- Text that ends with a carriage return. -/
theorem linesLoop_cr (fuel : Nat) : ∀ {f : Formatter} {text : Str}, Ready f → text.getLast? = some 13 → text.length ≤ fuel →
    linesLoop fuel f text = .outOfRange := by
  induction fuel with
  | zero =>
    intro f text _ hcr hlen
    have : text = [] := List.length_eq_zero_iff.mp (by omega)
    subst this
    simp at hcr
  | succ fuel ih =>
    intro f text h hcr hlen
    have hne : text ≠ [] := by rintro rfl; simp at hcr
    rw [linesLoop.eq_3 _ _ _ hne]
    rcases nextLine_cr hcr with e | ⟨line, rem, e, h10, hl, hlt⟩
    · rw [e]
      rfl
    · rw [e]
      simp only [Outcome.bind_ok]
      obtain ⟨f1, a1, a2, a3, _⟩ := line_ok h h10
      rw [a1, Outcome.bind_ok]
      refine ih ?_ hl (by omega)
      split
      · exact (newline_same f1).fine a2.sane.newline a2
      · exact a2

theorem writeLines_cr {f : Formatter} (h : Ready f) {text : Str} (hcr : text.getLast? = some 13) : f.writeLines text = .outOfRange := by
  unfold writeLines
  rw [linesLoop_cr _ h hcr (Nat.le_refl _)]
  rfl

/-! ### Sequences of operations -/

theorem ready_fresh {lineWidth : Nat} {sp : Splitter} (hw : 2 < lineWidth) (hb : sp.Bounded) : Ready (fresh lineWidth sp) := by
  have hn : ¬ (fresh lineWidth sp).Aligning := by unfold Aligning; simp [fresh]
  refine ⟨⟨⟨hw, by simp [fresh]; omega, ⟨[], rfl, by simp⟩, by simp [fresh], by simp [fresh, glyphs_nil], .inl (by simp [fresh]), fun _ => rfl⟩, hb,
    by simp [fresh], fun hal => absurd hal hn⟩, hn⟩

/-- The outcome of an operation: a ready formatter or one of the two exceptions. -/
theorem exec_ok {f : Formatter} (h : Ready f) (op : FormatOp) :
    (∃ f', op.exec f = .ok f' ∧ Ready f' ∧ Keeps f f' ∧ Adds f f' op.text) ∨
    (∃ text, op = .lines text ∧ text.getLast? = some 13 ∧ op.exec f = .outOfRange) ∨
    (op = .pop ∧ f.indents.length = 1 ∧ ∃ m, op.exec f = .throw m) := by
  cases op with
  | words text =>
    obtain ⟨f', a1, a2, a3, a4, _⟩ := writeWords_ok h text
    exact .inl ⟨f', a1, a2, a3, a4⟩
  | lines text =>
    by_cases hcr : text.getLast? = some 13
    · exact .inr (.inl ⟨text, rfl, hcr, writeLines_cr h hcr⟩)
    · obtain ⟨f', a1, a2, a3, a4, _⟩ := writeLines_ok h hcr
      exact .inl ⟨f', a1, a2, ⟨a3.splitter, a3.width⟩, a4⟩
  | newline =>
    exact .inl ⟨_, rfl, (newline_same f).fine h.sane.newline h, ⟨rfl, rfl⟩, fun _ => ⟨[10], Writer.newline_all _, Reflow.newline⟩⟩
  | push n =>
    refine .inl ⟨_, rfl, ⟨⟨h.sane.setIndentation n, h.bounded, by simp [pushIndentation], fun hal => absurd hal h.ready⟩, h.ready⟩, ⟨rfl, setIndentation_width _ _⟩, fun _ => ⟨[], ?_, .nil⟩⟩
    rw [List.append_nil]
    exact setIndentation_all _ _
  | pushCurrent =>
    refine .inl ⟨_, rfl, ⟨⟨(h.sane.setSpaces 0).setIndentation _, h.bounded, by simp [pushCurrent], fun hal => absurd hal h.ready⟩, h.ready⟩, ⟨rfl, setIndentation_width _ _⟩, fun _ => ⟨[], ?_, .nil⟩⟩
    rw [List.append_nil]
    exact setIndentation_all _ _
  | pop =>
    by_cases h2 : 2 ≤ f.indents.length
    · obtain ⟨a, b, rest, h1, h3⟩ := popIndentation_ok h2
      refine .inl ⟨_, h3, ⟨⟨h.sane.setIndentation b, h.bounded, by simp, fun hal => absurd hal h.ready⟩, h.ready⟩, ⟨rfl, setIndentation_width _ _⟩, fun _ => ⟨[], ?_, .nil⟩⟩
      rw [List.append_nil]
      exact setIndentation_all _ _
    · have := List.length_pos_iff.mpr h.some_
      refine .inr (.inr ⟨rfl, by omega, b!"No more indentations to pop.", ?_⟩)
      simp only [FormatOp.exec, popIndentation]
      split
      · rename_i e
        rw [e] at h2
        simp at h2
      · rfl

theorem run_ok (ops : List FormatOp) : ∀ {f : Formatter}, Ready f →
    (∃ f', FormatOp.run f ops = .ok f' ∧ Ready f' ∧ Keeps f f' ∧ Adds f f' (ops.flatMap FormatOp.text)) ∨
    (FormatOp.run f ops = .outOfRange ∧ ∃ text, .lines text ∈ ops ∧ text.getLast? = some 13) ∨
    (.pop ∈ ops ∧ ∃ m, FormatOp.run f ops = .throw m) := by
  induction ops with
  | nil => intro f h; exact .inl ⟨f, rfl, h, ⟨rfl, rfl⟩, fun _ => ⟨[], by simp, .nil⟩⟩
  | cons op ops ih =>
    intro f h
    unfold FormatOp.run
    rcases exec_ok h op with ⟨f1, a1, a2, a3, a4⟩ | ⟨text, a1, a2, a3⟩ | ⟨a1, a2, m, a3⟩
    · rw [a1, Outcome.bind_ok]
      rcases ih a2 with ⟨f', b1, b2, b3, b4⟩ | ⟨b1, text, b2, b3⟩ | ⟨b1, m, b2⟩
      · refine .inl ⟨f', b1, b2, ⟨b3.splitter.trans a3.splitter, b3.width.trans a3.width⟩, fun hc => ?_⟩
        obtain ⟨x, x1, x2⟩ := a4 hc
        obtain ⟨y, y1, y2⟩ := b4 (by rw [a3.splitter]; exact hc)
        exact ⟨x ++ y, by rw [y1, x1, List.append_assoc], by rw [List.flatMap_cons]; exact Reflow.append x2 y2⟩
      · exact .inr (.inl ⟨b1, text, by simp [b2], b3⟩)
      · exact .inr (.inr ⟨by simp [b1], m, b2⟩)
    · rw [a3]
      exact .inr (.inl ⟨rfl, text, by simp [a1], a2⟩)
    · rw [a3]
      exact .inr (.inr ⟨by simp [a1], m, rfl⟩)

theorem linesOf_append (a b : Str) (ha : 10 ∉ a) : linesOf (a ++ 10 :: b) = a :: linesOf b := by
  induction a with
  | nil => simp [linesOf]
  | cons c a ih =>
    have hc : c ≠ 10 := fun h => ha (by simp [h])
    rw [List.cons_append, linesOf, if_neg hc, ih fun h => ha (by simp [h])]

theorem linesOf_plain (a : Str) (ha : 10 ∉ a) : linesOf a = [a] := by
  induction a with
  | nil => rfl
  | cons c a ih =>
    have hc : c ≠ 10 := fun h => ha (by simp [h])
    unfold linesOf
    rw [if_neg hc, ih fun h => ha (by simp [h])]

theorem linesOf_flatten (ls : List Str) (h : ∀ l ∈ ls, 10 ∉ l) (last : Str) (hl : 10 ∉ last) :
    linesOf ((ls.map (· ++ [10])).flatten ++ last) = ls ++ [last] := by
  induction ls with
  | nil => exact linesOf_plain last hl
  | cons l ls ih =>
    have := linesOf_append l ((ls.map (· ++ [10])).flatten ++ last) (h l (by simp))
    rw [ih fun x hx => h x (by simp [hx])] at this
    simpa using this

theorem Ready.fits {f : Formatter} (h : Ready f) : ∀ l ∈ linesOf f.written, LineFits f.writer.lineWidth l := by
  obtain ⟨ls, h1, h2⟩ := h.sane.done
  unfold written
  rw [h1, linesOf_flatten ls (fun l hl => (h2 l hl).1) _ h.sane.open_]
  intro l hl
  rcases List.mem_append.mp hl with hl | hl
  · exact (h2 l hl).2
  · simp only [List.mem_singleton] at hl
    subst hl
    exact h.sane.fits

end Formatter

end Argos
