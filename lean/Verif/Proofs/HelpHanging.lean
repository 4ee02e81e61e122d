import Verif.Proofs.Hanging

/-! # The layout of the help text, for texts of any length -/

namespace Argos
open Spec

namespace Formatter

theorem setIndentation_spaces (w : Writer) (n : Nat) : (w.setIndentation n).spaces = w.spaces := by
  unfold Writer.setIndentation
  split <;> rfl

theorem endAlignment_spaces {f f' : Formatter} (h : f.endAlignment = .ok f') : f'.writer.spaces = f.writer.spaces := by
  unfold endAlignment at h
  split at h
  · obtain ⟨g, g1, g2⟩ := Outcome.bind_eq_ok.mp h
    simp only [Outcome.pure_eq, Outcome.ok.injEq] at g2
    subst g2
    unfold popIndentation at g1
    split at g1
    · simp only [Outcome.ok.injEq] at g1
      subst g1
      exact setIndentation_spaces _ _
    · simp at g1
  · simp only [Outcome.ok.injEq] at h
    subst h
    rfl

theorem writeToken_spaces {f f' : Formatter} (hf : Fine f) {type : TokenType} {token : Str} (ht : type = .word → 10 ∉ token) (hne : token ≠ [])
    (h1 : type ≠ .tab) (h2 : type ≠ .space) (hb : f.writeToken type token = .ok f') : f'.writer.spaces = 0 := by
  unfold writeToken at hb
  cases type with
  | tab => exact absurd rfl h1
  | space => exact absurd rfl h2
  | newline =>
    obtain ⟨g, g1, g2⟩ := Outcome.bind_eq_ok.mp hb
    simp only [Outcome.pure_eq, Outcome.ok.injEq] at g2
    subst g2
    rfl
  | word =>
    have hsame := updateAlignment_same f token
    obtain ⟨f2, a1, _, a3, _, _⟩ := appendWord_ok (f := f.updateAlignment token) (word := token) (by rw [hsame.2.2]; exact hf.bounded) (by rw [hsame.1]; exact hf.sane) (ht rfl) hne
    simp only at hb
    rw [a1] at hb
    simp only [Outcome.ok.injEq] at hb
    exact hb ▸ a3

/-- A text that doesn't end with a space leaves no spaces behind. -/
theorem wordsLoop_spaces (fuel : Nat) : ∀ {f f' : Formatter} {text : Str}, Fine f → (text = [] → f.writer.spaces = 0) → text.getLast? ≠ some 32 → text.getLast? ≠ some 9 →
    wordsLoop fuel f text = .ok f' → f'.writer.spaces = 0 := by
  induction fuel with
  | zero =>
    intro f f' text hf hs _ _ hb
    cases text with
    | nil =>
      unfold wordsLoop at hb
      rw [endAlignment_spaces hb]
      exact hs rfl
    | cons c t => simp [wordsLoop] at hb
  | succ fuel ih =>
    intro f f' text hf hs h1 h2 hb
    cases text with
    | nil =>
      unfold wordsLoop at hb
      rw [endAlignment_spaces hb]
      exact hs rfl
    | cons c text =>
      unfold wordsLoop at hb
      obtain ⟨type, token, rem, e⟩ : ∃ type token rem, nextToken c text = (type, token, rem) := ⟨_, _, _, rfl⟩
      have ht := nextToken_ok c text e
      simp only [e] at hb
      obtain ⟨f1, b1, b2⟩ := writeToken_ok hf ht
      rw [b1] at hb
      simp only [Outcome.bind_ok] at hb
      have hj := ht.join
      by_cases hr : rem = []
      · subst hr
        rw [List.append_nil] at hj
        refine ih b2.fine (fun _ => ?_) (by simp) (by simp) hb
        refine writeToken_spaces hf ht.word ht.some_ ?_ ?_ b1
        · intro hty
          rw [← hj, ht.tab hty] at h2
          exact h2 rfl
        · intro hty
          have hsp := (ht.space hty).1
          rw [← hj] at h1 hsp
          cases hl : token.getLast? with
          | none => exact ht.some_ (List.getLast?_eq_none_iff.mp hl)
          | some x =>
            have hm := List.mem_of_getLast? hl
            rw [hsp] at hm
            have := List.all_eq_true.mp (List.all_takeWhile (l := token)) x hm
            simp only [decide_eq_true_eq] at this
            rw [this] at hl
            exact h1 hl
      · have hlast : (c :: text).getLast? = rem.getLast? := by
          rw [← hj, List.getLast?_append]
          cases hl : rem.getLast? with
          | none => exact absurd (List.getLast?_eq_none_iff.mp hl) hr
          | some x => rfl
        rw [hlast] at h1 h2
        exact ih b2.fine (fun h => absurd h hr) h1 h2 hb

theorem prepared_ite {f : Formatter} (h : Prepared f) (b : Bool) : Prepared (if b then f.newline else f) := by
  cases b
  · exact h
  · exact (goes_newline h).ready

/-- A custom text of any length. -/
theorem writeCustomText_set {f : Formatter} (h : Calm [] 0 f) (hp : Prepared f) (texts : Nat → Str) (cmd : Command) (id : TextId) (b : Bool)
    (ht : Neat ((custom texts cmd id).getD [])) :
    ∃ f' ps, writeCustomText texts cmd id b f = .ok f' ∧ Prepared f' ∧ Writes [] 0 f f' (lead b ps) ∧ SetParagraph ((custom texts cmd id).getD []) ps := by
  unfold writeCustomText
  rw [customText_eq]
  cases hc : custom texts cmd id with
  | none => exact ⟨f, [], rfl, hp, .refl h, .inl ⟨rfl, rfl⟩⟩
  | some text =>
    rw [hc] at ht
    simp only [Option.getD_some] at ht ⊢
    by_cases hne : text = []
    · rw [if_pos hne]
      exact ⟨f, [], rfl, hp, .refl h, .inl ⟨hne, rfl⟩⟩
    rw [if_neg hne]
    have a := calm_ite h b
    have hp0 := prepared_ite hp b
    obtain ⟨f0, hf0⟩ : ∃ f0, (if b then f.newline else f) = f0 := ⟨_, rfl⟩
    rw [hf0] at a hp0
    rw [hf0]
    have c0 := a.calm
    obtain ⟨f1, s, b1, b2, b3, b4, b5, b6, b7, _⟩ := writeWords_hangs (k := 0) c0.indents c0.indent hp0 c0.narrow ht.1 (.inr rfl)
    have hsp := wordsLoop_spaces _ hp0.toFine (fun _ => c0.spaces) ht.2.1 ht.2.2 b1
    rw [b1]
    simp only [Outcome.bind_ok, Outcome.pure_eq]
    have hout : f1.writer.out ++ f1.writer.line = f0.writer.out ++ s := by
      have : f1.writer.out ++ f1.writer.line = f0.writer.out ++ f0.writer.line ++ s := b6
      rw [c0.line, List.append_nil] at this
      exact this
    have hw : f1.writer.lineWidth = f.writer.lineWidth := b3.trans a.width
    by_cases hline : f1.writer.line = []
    · rw [if_neg (by simp [hline])]
      refine ⟨f1, [s], rfl, b2, ⟨⟨hline, b2.sane.empty hline, hsp, b4, b5, b2.ready, by rw [hw]; have := h.narrow; omega⟩, ?_, hw⟩, .inr ⟨hne, s, b7, ?_, rfl⟩⟩
      · rw [hline, List.append_nil] at hout
        rw [hout, a.out]
        cases b <;> simp [lead, separated]
      · rw [hline, List.append_nil] at hout
        by_cases hs : s = []
        · exact .inl hs
        · right
          obtain ⟨ls, l1, _⟩ := b2.sane.done
          have hlast : s.getLast? = f1.writer.out.getLast? := by
            rw [hout, List.getLast?_append]
            cases hl : s.getLast? with
            | none => exact absurd (List.getLast?_eq_none_iff.mp hl) hs
            | some x => rfl
          rw [hlast, l1]
          rcases List.eq_nil_or_concat ls with rfl | ⟨ls, l, rfl⟩
          · rw [l1] at hout
            simp at hout
            exact absurd hout.2 hs
          · simp
    · rw [if_pos hline]
      refine ⟨f1.newline, [s ++ [10]], rfl, (goes_newline b2).ready, ⟨⟨rfl, rfl, rfl, b4, b5, b2.ready, by show 0 < f1.writer.lineWidth; rw [hw]; have := h.narrow; omega⟩, ?_, hw⟩,
        .inr ⟨hne, s ++ [10], ?_, .inr (by simp), rfl⟩⟩
      · show f1.writer.out ++ (f1.writer.line ++ [10]) = _
        rw [← List.append_assoc, hout, a.out]
        cases b <;> simp [lead, separated]
      · have := Reflow.append b7 Reflow.newline
        rw [List.append_nil] at this
        exact this

theorem set_isEmpty {s : Str} {ps : List Str} (h : SetParagraph s ps) : ps.isEmpty = (paragraph s).isEmpty := by
  rcases h with ⟨rfl, rfl⟩ | ⟨h1, t, _, _, rfl⟩
  · rfl
  · simp [paragraph, h1]

theorem writeUsage_set {f : Formatter} (h : Calm [] 0 f) (hp : Prepared f) (texts : Nat → Str) {cmd : Command} (hf : Flagged cmd) (hcr : Endless cmd) (b : Bool)
    (ht : FitsOn f.writer.lineWidth (usageTitle texts cmd)) (hc : ∀ s, custom texts cmd .usage = some s → Neat s)
    (hg : custom texts cmd .usage = none → UsageFits f.writer.lineWidth cmd ∧ f.state = .noAlignment ∧ ¬ Marker (usageTitle texts cmd)) :
    ∃ f' ps, writeUsage texts cmd b f = .ok f' ∧ Prepared f' ∧ Writes [] 0 f f' (lead b ps) ∧ SetUsage texts cmd ps ∧ ps.isEmpty = (usageParagraphs texts cmd).isEmpty := by
  have hprep : ∀ {f'}, writeUsage texts cmd b f = .ok f' → Prepared f' := by
    intro f' e
    obtain ⟨g, g1, g2⟩ := writeUsage_lays hp h.line texts hf hcr b
    rw [g1] at e
    simp only [Outcome.ok.injEq] at e
    exact e ▸ g2.ready
  cases hcu : custom texts cmd .usage with
  | none =>
    obtain ⟨f', a1, a2⟩ := writeUsage_writes h texts hf b ht (fun s hs => by rw [hcu] at hs; simp at hs) hg
    exact ⟨f', _, a1, hprep a1, a2, by unfold SetUsage; rw [hcu], rfl⟩
  | some t =>
    have hnt := hc t hcu
    by_cases hne : t = []
    · subst hne
      refine ⟨f, [], ?_, hp, .refl h, by unfold SetUsage; rw [hcu]; exact .inl ⟨rfl, rfl⟩, by unfold usageParagraphs; rw [hcu]; rfl⟩
      unfold writeUsage
      rw [customText_eq, hcu, if_pos rfl]
    · suffices hs : ∃ f' ps, writeUsage texts cmd b f = .ok f' ∧ Writes [] 0 f f' (lead b ps) ∧ SetUsage texts cmd ps ∧ ps.isEmpty = (usageParagraphs texts cmd).isEmpty by
        obtain ⟨f', ps, a1, a2⟩ := hs
        exact ⟨f', ps, a1, hprep a1, a2⟩
      obtain ⟨f1, a1, a2, _⟩ := writeUsageTitle_writes h texts cmd b ht
      have p1 : Prepared f1 := by
        unfold writeUsageTitle at a1
        rw [customText_eq] at a1
        cases hct : custom texts cmd .usageTitle with
        | some t =>
          rw [hct] at a1
          simp only at a1
          obtain ⟨g, g1, g2⟩ := writeCustomText_lays hp h.line texts cmd .usageTitle b
          rw [g1] at a1
          simp only [Outcome.ok.injEq] at a1
          exact a1 ▸ g2.ready
        | none =>
          rw [hct] at a1
          simp only at a1
          obtain ⟨g, g1, g2⟩ := goes_words (prepared_ite hp b) b!"USAGE"
          rw [g1, Outcome.bind_ok] at a1
          simp only [Outcome.pure_eq, Outcome.ok.injEq] at a1
          exact a1 ▸ (goes_newline g2.ready).ready
      obtain ⟨b', hb'⟩ : ∃ b', (b && (custom texts cmd .usageTitle == some [])) = b' := ⟨_, rfl⟩
      have hlead := lead_usageTitle texts cmd hb'
      obtain ⟨f2, ps, b1, b2, b3, b4⟩ := writeCustomText_set a2.calm p1 texts cmd .usage b' (by rw [hcu]; exact hnt)
      rw [hcu] at b4
      rcases b4 with ⟨e, _⟩ | ⟨_, u, u1, u2, rfl⟩
      · exact absurd e hne
      refine ⟨f2, [lineOf (usageTitle texts cmd) ++ u], ?_, (a2.trans b3).cast ?_, ?_, ?_⟩
      · unfold writeUsage
        simp only [customText_eq, hcu]
        rw [if_neg (by simpa using hne), a1, Outcome.bind_ok, hb']
        exact b1
      · rw [← hlead]
        congr 1
      · unfold SetUsage
        rw [hcu]
        exact .inr ⟨hne, u, u1, u2, rfl⟩
      · unfold usageParagraphs
        rw [hcu]
        simp [hne]

theorem writeAbout_set {f : Formatter} (h : Calm [] 0 f) (hp : Prepared f) (texts : Nat → Str) (cmd : Command) (b : Bool) (ht : Neat (aboutText texts cmd)) :
    ∃ f' ps, writeAbout texts cmd b f = .ok f' ∧ Prepared f' ∧ Writes [] 0 f f' (lead b ps) ∧ SetParagraph (aboutText texts cmd) ps := by
  unfold writeAbout
  rw [customText_eq]
  unfold aboutText at ht ⊢
  by_cases ha : (custom texts cmd .about).getD [] = []
  · rw [if_pos ha] at ht ⊢
    obtain ⟨f1, a1, a2, _⟩ := writeCustomText_writes h texts cmd .about b (.inl ha)
    obtain ⟨g, g1, g2⟩ := writeCustomText_lays hp h.line texts cmd .about b
    have p1 : Prepared f1 := by
      rw [a1] at g1
      simp only [Outcome.ok.injEq] at g1
      exact g1 ▸ g2.ready
    rw [a1, Outcome.bind_ok]
    have he : isEmptyText (custom texts cmd .about) = true := by rw [isEmptyText_eq, ha]; rfl
    simp only [he, Bool.not_true, Bool.false_eq_true, if_false]
    obtain ⟨f2, ps, b1, b2, b3, b4⟩ := writeCustomText_set a2.calm p1 texts cmd .help b ht
    refine ⟨f2, ps, b1, b2, (a2.trans b3).cast ?_, b4⟩
    rw [ha]
    rfl
  · rw [if_neg ha] at ht ⊢
    obtain ⟨f1, ps, a1, a2, a3, a4⟩ := writeCustomText_set h hp texts cmd .about b ht
    rw [a1, Outcome.bind_ok]
    have he : isEmptyText (custom texts cmd .about) = false := by rw [isEmptyText_eq]; simp [paragraph, ha]
    simp only [he, Bool.not_false, if_true]
    exact ⟨f1, ps, rfl, a2, a3, a4⟩

theorem writeSection_set {f : Formatter} (h : Calm [] 0 f) (hp : Prepared f) (h2 : 2 < f.writer.lineWidth) (col : Nat) (b : Bool) (title : Str) (es : List Entry) (R : Entry → Str → Prop)
    (ht : FitsOn f.writer.lineWidth title)
    (he : ∀ e ∈ es, ∀ f1, Calm [0] 2 f1 → Prepared f1 → f1.writer.lineWidth = f.writer.lineWidth →
      ∃ f' s, writeEntry col (e.label, e.text) f1 = .ok f' ∧ Prepared f' ∧ Writes [0] 2 f1 f' s ∧ R e s) :
    ∃ f' outs, writeSection col b (title, es.map fun e => (e.label, e.text)) f = .ok f' ∧ Prepared f' ∧
      Writes [] 0 f f' ((if b then [10] else []) ++ (title ++ [10] ++ outs.flatten)) ∧ Each R es outs := by
  obtain ⟨fl, q1, q2⟩ := writeSection_lays hp h.line col b (title, es.map fun e => (e.label, e.text))
  suffices hs : ∃ f' outs, writeSection col b (title, es.map fun e => (e.label, e.text)) f = .ok f' ∧
      Writes [] 0 f f' ((if b then [10] else []) ++ (title ++ [10] ++ outs.flatten)) ∧ Each R es outs by
    obtain ⟨f', outs, a1, a2, a3⟩ := hs
    refine ⟨f', outs, a1, ?_, a2, a3⟩
    rw [q1] at a1
    simp only [Outcome.ok.injEq] at a1
    exact a1 ▸ q2.ready
  unfold writeSection
  have a := calm_ite h b
  have hp0 := prepared_ite hp b
  obtain ⟨f0, hf0⟩ : ∃ f0, (if b then f.newline else f) = f0 := ⟨_, rfl⟩
  rw [hf0] at a hp0
  simp only [hf0]
  obtain ⟨f1, b1, b2⟩ := writeWords_title (t := title) a.calm (by
    rcases ht with h1 | ⟨h1, h2⟩
    · exact .inl h1
    · exact .inr ⟨h1, by rw [a.width]; omega⟩)
  have p1 : Prepared f1 := by
    obtain ⟨g, g1, g2⟩ := goes_words hp0 title
    rw [b1] at g1
    simp only [Outcome.ok.injEq] at g1
    exact g1 ▸ g2.ready
  rw [b1, Outcome.bind_ok]
  have hw : f1.newline.writer.lineWidth = f.writer.lineWidth := b2.width.trans a.width
  have c := calm_push (m := 2) b2.calm (by rw [hw]; exact h2)
  have p2 := (goes_push (goes_newline p1).ready 2).ready
  obtain ⟨f2, outs, d1, d2, d3, d4⟩ := forEach_steady (act := fun e : Entry => writeEntry col (e.label, e.text)) R f.writer.lineWidth es he c.calm p2 (c.width.trans hw)
  rw [forEach_map, d1, Outcome.bind_ok]
  obtain ⟨f3, e1, e2⟩ := calm_pop d3.calm (by rw [d3.width, c.width, hw]; omega)
  refine ⟨f3, outs, e1, ⟨e2.calm, ?_, ?_⟩, d4⟩
  · rw [e2.out, d3.out, c.out, b2.out, a.out]
    by_cases h0 : title = [] <;> simp [h0]
  · rw [e2.width, d3.width, c.width, hw]

theorem Each.prefix_ {α : Type} {R : α → Str → Prop} {p : Str} {xs : List α} {ss : List Str} (h : Each (fun x s => ∃ t, s = p ++ t ∧ R x t) xs ss) :
    ∃ ts, ss = ts.map (p ++ ·) ∧ Each R xs ts := by
  induction h with
  | nil => exact ⟨[], rfl, .nil⟩
  | cons h _ ih =>
    obtain ⟨t, rfl, h⟩ := h
    obtain ⟨ts, rfl, ih⟩ := ih
    exact ⟨t :: ts, rfl, .cons h ih⟩

/-- The help list, with texts of any length. -/
theorem writeSections_set {f : Formatter} (h : Calm [] 0 f) (hp : Prepared f) (h2 : 2 < f.writer.lineWidth) (b : Bool) (es : List Entry)
    (hhead : ∀ e ∈ es, FitsOn f.writer.lineWidth e.heading) (hlab : ∀ e ∈ es, OneLine e.label ∧ 2 + e.label.length ≤ f.writer.lineWidth)
    (hval : TwoColumns f.writer.lineWidth es → ∀ e ∈ es, Utf8 e.label)
    (htext : ∀ e ∈ es, Tidy e.text ∧ (TwoColumns f.writer.lineWidth es ∨ 8 < f.writer.lineWidth)) :
    ∃ f' ps, writeSections b (sectionsOf es) f = .ok f' ∧ Prepared f' ∧ Writes [] 0 f f' (lead b ps) ∧ Each (SetSection f.writer.lineWidth es) (sections es) ps := by
  obtain ⟨col, hcol⟩ : ∃ col, labelWidth f.writer.lineWidth (sectionsOf es) = col := ⟨_, rfl⟩
  have hentry : ∀ e ∈ es, ∀ f1, Calm [0] 2 f1 → Prepared f1 → f1.writer.lineWidth = f.writer.lineWidth →
      ∃ f' s, writeEntry col (e.label, e.text) f1 = .ok f' ∧ Prepared f' ∧ Writes [0] 2 f1 f' s ∧ SetEntry f.writer.lineWidth es e s := by
    intro e he f1 c hp1 hw
    have l := hlab e he
    have t := htext e he
    rw [labelWidth_eq] at hcol
    by_cases h2 : TwoColumns f.writer.lineWidth es
    · rw [if_pos h2] at hcol
      subst hcol
      have w1 : e.label.length ≤ greatest (es.map (·.label.length)) := le_greatest (List.mem_map_of_mem he)
      have w2 : e.text.length ≤ greatest (es.map (·.text.length)) := le_greatest (List.mem_map_of_mem he)
      have w3 := h2.2
      obtain ⟨f', s, a1, a2, a3, a4, a5, a6⟩ := writeEntry_columns_hangs c hp1 (e := (e.label, e.text)) (col := textColumn es) (by unfold textColumn; omega) l.1
        (whole_utf8 (hval h2 e he)) t.1 (by show e.label.length + 3 ≤ textColumn es; unfold textColumn; omega)
        (by show textColumn es + e.text.length ≤ f1.writer.lineWidth; omega)
      exact ⟨f', _, a1, a2, a3, s, rfl, a4, fun _ => ⟨a5, a6⟩, fun hn => absurd h2 hn⟩
    · rw [if_neg h2] at hcol
      subst hcol
      obtain ⟨f', s, a1, a2, a3, a4, a5, a6⟩ := writeEntry_stacked_hangs c hp1 (e := (e.label, e.text)) l.1 t.1
        (by show 2 + e.label.length ≤ f1.writer.lineWidth; omega) (fun _ => by
          rcases t.2 with t | t
          · exact absurd t h2
          · omega)
      exact ⟨f', _, a1, a2, a3, s, rfl, a4, fun hn => absurd hn h2, fun _ => ⟨a5, a6⟩⟩
  have hsection : ∀ s ∈ sections es, ∀ b f1, Calm [] 0 f1 → Prepared f1 → f1.writer.lineWidth = f.writer.lineWidth →
      ∃ f' out, writeSection col b (s.1, s.2.map fun e => (e.label, e.text)) f1 = .ok f' ∧ Prepared f' ∧
        Writes [] 0 f1 f' ((if b then [10] else []) ++ out) ∧ SetSection f.writer.lineWidth es s out := by
    intro s hs b f1 c hp1 hw
    obtain ⟨t, ht, rfl⟩ := List.mem_map.mp hs
    obtain ⟨f', outs, a1, a2, a3, a4⟩ := writeSection_set c hp1 (by omega) col b t (es.filter (·.heading = t)) (SetEntry f.writer.lineWidth es) (by
        obtain ⟨e, he, rfl⟩ := List.mem_map.mp (List.mem_eraseDups.mp ht)
        rw [hw]
        exact hhead e he) (by
        intro e he f2 c2 hp2 hw2
        exact hentry e ((List.mem_filter.mp he).1) f2 c2 hp2 (hw2.trans hw))
    exact ⟨f', _, a1, a2, a3, outs, a4, rfl⟩
  unfold writeSections
  have hso : sectionsOf es = (sections es).map fun s => (s.1, s.2.map fun e => (e.label, e.text)) := rfl
  cases hss : sections es with
  | nil =>
    rw [hso, hss]
    exact ⟨f, [], rfl, hp, .refl h, .nil⟩
  | cons s ss =>
    rw [hso, hss] at hcol ⊢
    simp only [List.map_cons] at hcol ⊢
    rw [hcol]
    rw [hss] at hsection
    obtain ⟨f1, out, a1, a2, a3, a4⟩ := hsection s (by simp) b f h hp rfl
    rw [a1, Outcome.bind_ok]
    obtain ⟨f2, outs, b1, b2, b3, b4⟩ := forEach_steady (act := fun s : Str × List Entry => writeSection col true (s.1, s.2.map fun e => (e.label, e.text)))
      (fun s o => ∃ t, o = [10] ++ t ∧ SetSection f.writer.lineWidth es s t) f.writer.lineWidth ss (by
        intro s hs f1 c hp1 hw
        obtain ⟨f', o, c1, c2, c3, c4⟩ := hsection s (by simp [hs]) true f1 c hp1 hw
        exact ⟨f', _, c1, c2, c3, o, rfl, c4⟩) a3.calm a2 a3.width
    obtain ⟨ts, rfl, b5⟩ := Each.prefix_ b4
    refine ⟨f2, out :: ts, ?_, b2, (a3.trans b3).cast ?_, .cons a4 b5⟩
    · rw [forEach_map]
      exact b1
    · have := lead_append b [out] ts
      simp only [List.isEmpty_cons, Bool.not_false, Bool.or_true, lead_true] at this
      rw [show out :: ts = [out] ++ ts from rfl, ← this, List.flatMap_def]
      simp [lead, separated]

/-- The help text, with texts of any length. -/
theorem writeHelpText_set {console : Nat} (texts : Nat → Str) {d : ParserData} {cmd : Command} (hc : 2 < console)
    (hw : d.helpSettings.lineWidth = 0 ∨ 2 < d.helpSettings.lineWidth) {sp : Splitter} (hsp : Splitter.addWords [] d.helpSettings.wordSplitRules = .ok sp)
    (hr : ∀ r ∈ d.helpSettings.wordSplitRules, Utf8 r) (hf : Flagged cmd) (hcr : Endless cmd)
    (ht : TitlesFit (if d.helpSettings.lineWidth ≠ 0 then d.helpSettings.lineWidth else console) texts cmd) :
    ∃ f, writeHelpText console texts d cmd = .ok f ∧
      SetHelp (if d.helpSettings.lineWidth ≠ 0 then d.helpSettings.lineWidth else console) texts cmd f.written := by
  obtain ⟨w, hwd⟩ : ∃ w, (if d.helpSettings.lineWidth ≠ 0 then d.helpSettings.lineWidth else console) = w := ⟨_, rfl⟩
  have hw2 : 2 < w := by
    rw [← hwd]
    split <;> omega
  unfold writeHelpText
  rw [makeFormatter_ok hc hw hsp, Outcome.bind_ok]
  rw [hwd] at ht ⊢
  have h0 : Calm [] 0 (fresh w sp) := fresh_calm hw2
  have q0 := prepared_fresh hw2 hsp hr
  simp only [customText_eq, isEmptyText_eq, usageResult_eq]
  obtain ⟨f1, a1, a2, a3⟩ := writeCustomText_writes h0 texts cmd .initialText false ht.initial
  have q1 : Prepared f1 := by
    obtain ⟨g, g1, g2⟩ := writeCustomText_lays q0 h0.line texts cmd .initialText false
    rw [a1] at g1
    simp only [Outcome.ok.injEq] at g1
    exact g1 ▸ g2.ready
  rw [a1, Outcome.bind_ok]
  have w1 : f1.writer.lineWidth = w := a2.width
  obtain ⟨p1, hp1⟩ : ∃ p, paragraph ((custom texts cmd .initialText).getD []) = p := ⟨_, rfl⟩
  rw [hp1] at a2 ⊢
  obtain ⟨f2, p2, b1, q2, b2, b3, b4⟩ := writeUsage_set a2.calm q1 texts hf hcr (!p1.isEmpty) (by rw [w1]; exact ht.title) ht.usage
    (fun hg => ⟨by rw [w1]; exact (ht.generated hg).1, a3 (ht.generated hg).2.1 rfl, (ht.generated hg).2.2⟩)
  rw [b1, Outcome.bind_ok, ← b4]
  have w2 : f2.writer.lineWidth = w := b2.width.trans w1
  obtain ⟨f3, p3, c1, q3, c2, c3⟩ := writeAbout_set b2.calm q2 texts cmd (!p2.isEmpty || !p1.isEmpty) ht.about
  rw [c1, Outcome.bind_ok]
  have w3 : f3.writer.lineWidth = w := c2.width.trans w2
  have hb : (!(paragraph ((custom texts cmd .about).getD [])).isEmpty || !(paragraph ((custom texts cmd .help).getD [])).isEmpty || (!p2.isEmpty || !p1.isEmpty)) =
      (!p1.isEmpty || !p2.isEmpty || !p3.isEmpty) := by
    rw [set_isEmpty c3]
    unfold aboutText
    by_cases ha : (custom texts cmd .about).getD [] = []
    · rw [if_pos ha, ha]
      cases (paragraph ((custom texts cmd .help).getD [])).isEmpty <;> cases p1.isEmpty <;> cases p2.isEmpty <;> rfl
    · rw [if_neg ha]
      have : (paragraph ((custom texts cmd .about).getD [])).isEmpty = false := by simp [paragraph, ha]
      rw [this]
      cases (paragraph ((custom texts cmd .help).getD [])).isEmpty <;> cases p1.isEmpty <;> cases p2.isEmpty <;> rfl
  rw [hb]
  obtain ⟨f4, p4, d1, q4, d2, d3⟩ := writeSections_set c2.calm q3 (by omega) (!p1.isEmpty || !p2.isEmpty || !p3.isEmpty) (entries texts cmd)
    (by rw [w3]; exact ht.headings) (by rw [w3]; exact ht.labels) (by rw [w3]; exact ht.valid) (by rw [w3]; exact ht.list)
  unfold writeArgumentSections
  rw [argumentSections_eq texts hf, Outcome.bind_ok, d1, Outcome.bind_ok]
  have w4 : f4.writer.lineWidth = w := d2.width.trans w3
  obtain ⟨f5, p5, e1, _, e2, e3⟩ := writeCustomText_set d2.calm q4 texts cmd .finalText true ht.final
  rw [w3] at d3
  refine ⟨f5, e1, p2, p3, p4, p5, b3, c3, d3, e3, ?_⟩
  have hwr : f5.written = f5.writer.out ++ f5.writer.line := rfl
  rw [hwr, e2.calm.line, List.append_nil, e2.out, d2.out, c2.out, b2.out, a2.out, hp1, lead_true]
  congr 1
  have o0 : (fresh w sp).writer.out = [] := rfl
  rw [o0, List.nil_append]
  have l1 := lead_append false p1 p2
  have l2 := lead_append false (p1 ++ p2) p3
  have l3 := lead_append false (p1 ++ p2 ++ p3) p4
  have i1 : (false || !(p1 ++ p2).isEmpty) = (!p2.isEmpty || !p1.isEmpty) := by
    cases p1 <;> cases p2 <;> rfl
  have i2 : (false || !(p1 ++ p2 ++ p3).isEmpty) = (!p1.isEmpty || !p2.isEmpty || !p3.isEmpty) := by
    cases p1 <;> cases p2 <;> cases p3 <;> rfl
  rw [Bool.false_or] at l1
  rw [i1] at l2
  rw [i2] at l3
  rw [l1, l2, l3]
  unfold lead
  split
  · rename_i hn
    rw [hn]
    rfl
  · simp

end Formatter

end Argos
