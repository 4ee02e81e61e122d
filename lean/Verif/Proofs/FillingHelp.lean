import Verif.Proofs.Filling

/-!
# How the help text is set
-/

namespace Argos
namespace Formatter
open Spec

theorem getLast_behind {s t : Str} (h : t ≠ []) : (s ++ t).getLast? = t.getLast? := by
  rw [List.getLast?_append]
  cases ht : t.getLast? with
  | none => exact absurd (List.getLast?_eq_none_iff.mp ht) h
  | some c => rfl

theorem Begins.calm {sp : Splitter} {w : Nat} {base : List Nat} {n : Nat} {s : Str} {f : Formatter} (h : Begins sp w base n s f) : Calm base n f :=
  ⟨h.line, h.cur, h.spaces, h.indents, h.indent, by unfold Aligning; rw [h.state]; simp, by rw [h.width]; exact h.narrow⟩

theorem Begins.cast {sp : Splitter} {w : Nat} {base : List Nat} {n : Nat} {s t : Str} {f : Formatter} (h : Begins sp w base n s f) (e : s = t) : Begins sp w base n t f := e ▸ h

theorem begins_ite {sp : Splitter} {w : Nat} {base : List Nat} {n : Nat} {s : Str} {f : Formatter} (h : Begins sp w base n s f) (b : Bool) :
    Begins sp w base n (s ++ if b then [10] else []) (if b then f.newline else f) := by
  cases b
  · simpa using h
  · exact begins_newline h

theorem EndsAt.newline {sp : Splitter} {w : Nat} {base : List Nat} {n : Nat} {s t : Str} {f : Formatter} (h : EndsAt sp w base n s t f) :
    Begins sp w base n (s ++ t ++ [10]) f.newline := by
  rcases h with ⟨_, h⟩ | ⟨_, _, _, h⟩
  · exact begins_newline h
  · exact at_newline h

/-- The line ends unless it is empty. -/
theorem EndsAt.closed {sp : Splitter} {w : Nat} {base : List Nat} {n : Nat} {s t : Str} {f : Formatter} (h : EndsAt sp w base n s t f) :
    Begins sp w base n (s ++ Spec.closed t) (if f.writer.line ≠ [] then f.newline else f) := by
  unfold Spec.closed
  rcases h with ⟨h0, h⟩ | ⟨h0, _, _, h⟩
  · rw [if_pos h0, if_neg (by rw [h.line]; simp)]
    exact h
  · have hl : t.getLast? ≠ some 10 := by
      have := h.solid
      rwa [getLast_behind h0] at this
    rw [if_neg (by simp [h0, hl]), if_pos h.begun]
    exact (at_newline h).cast (by simp)

theorem begins_push {sp : Splitter} {w : Nat} {base : List Nat} {n m : Nat} {s : Str} {f : Formatter} (h : Begins sp w base n s f) (hm : m < w) :
    Begins sp w (n :: base) m s (f.pushIndentation m) := by
  unfold pushIndentation
  rw [setIndentation_lt (by rw [h.width]; exact hm), h.indents]
  exact ⟨h.out, h.line, h.cur, h.spaces, rfl, rfl, h.state, h.width, h.splitter, hm⟩

theorem begins_pop {sp : Splitter} {w : Nat} {base : List Nat} {n m : Nat} {s : Str} {f : Formatter} (h : Begins sp w (n :: base) m s f) (hn : n < w) :
    ∃ f', f.popIndentation = .ok f' ∧ Begins sp w base n s f' := by
  rw [pop_push h.indents (by rw [h.width]; exact hn)]
  exact ⟨_, rfl, h.out, h.line, h.cur, h.spaces, rfl, rfl, h.state, h.width, h.splitter, hn⟩

theorem at_pop {sp : Splitter} {w : Nat} {base : List Nat} {n m : Nat} {s : Str} {col k : Nat} {f : Formatter} (h : At sp w (n :: base) m .noAlignment s col k f) (hn : n < w) :
    ∃ f' k', f.popIndentation = .ok f' ∧ At sp w base n .noAlignment s col k' f' := by
  rw [pop_push h.indents (by rw [h.width]; exact hn)]
  have hc : f.writer.cur ≤ max f.writer.cur n + f.writer.spaces := by omega
  rw [h.cur] at hc
  refine ⟨_, max col n + f.writer.spaces - col, rfl, h.written, h.begun, rfl, rfl, h.state, h.cur, ?_, h.width, h.splitter, hn, h.solid⟩
  show max f.writer.cur n + f.writer.spaces = _
  rw [h.cur]
  omega

/-- A text on lines of its own. -/
theorem words_set {rules : List Str} {sp : Splitter} (hsp : Splitter.addWords [] rules = .ok sp) {w : Nat} {base : List Nat} {n : Nat} {s text : Str} {f : Formatter}
    (h : Begins sp w base n s f) (ht : Fills rules w n text) : ∃ f', f.writeWords text = .ok f' ∧ EndsAt sp w base n s (Spec.setText w n text) f' :=
  lines_set hsp text.length text (Nat.le_refl _) ht.1 (whole_utf8 ht.2.1) ht.2.2 h (Nat.le_refl _)

/-- A label at the beginning of a line. -/
theorem label_set {sp : Splitter} {w : Nat} {base : List Nat} {n : Nat} {s t : Str} {f : Formatter} (h : Begins sp w base n s f) (ht : OneLine t) (hu : Utf8 t) (hm : ¬ Marker t)
    (hroom : n + t.length ≤ w) : ∃ f', f.writeWords t = .ok f' ∧ f'.writer.spaces = 0 ∧ At sp w base n .noAlignment (s ++ (spaces n ++ t)) (n + glyphs t) 0 f' := by
  obtain ⟨f', a1, a2, _⟩ := writeWords_whole h.calm ht (by rw [h.width]; exact hroom)
  have hcw := begins_currentWidth h
  refine ⟨f', a1, a2.spaces, ?_, ?_, a2.indents, a2.indent, ?_, ?_, ?_, a2.width.trans h.width, a2.splitter.trans h.splitter, h.narrow, ?_⟩
  · rw [a2.out, a2.line, h.line, h.out, hcw, h.cur]
    rfl
  · rw [a2.line]
    simp [ht.1]
  · refine a2.quiet (.inl ⟨by rw [h.state]; simp, fun _ => ?_⟩)
    cases hx : isListMarker t with
    | false => rfl
    | true => exact absurd ((isListMarker_iff t).mp hx) hm
  · rw [a2.exact_ (whole_utf8 hu), hcw]
  · unfold Writer.currentWidth
    rw [a2.indent, a2.spaces, a2.exact_ (whole_utf8 hu), hcw]
    omega
  · rw [← List.append_assoc, getLast_behind ht.1]
    intro h10
    exact (ht.2.1 10 (List.mem_of_getLast? h10)).2.1 rfl

/-- An entry of a list with two columns. -/
theorem entry_columns {rules : List Str} {sp : Splitter} (hsp : Splitter.addWords [] rules = .ok sp) {w : Nat} {base : List Nat} {s : Str} {f : Formatter}
    (h : Begins sp w base 2 s f) {col : Nat} {e : Entry} (hl : OneLine e.label ∧ Utf8 e.label ∧ ¬ Marker e.label) (ht : e.text = [] ∨ FillsFrom rules w col e.text)
    (hcol : e.label.length + 3 ≤ col) (hroom : col + e.text.length ≤ w) :
    ∃ f', writeEntry col (e.label, e.text) f = .ok f' ∧ Begins sp w base 2 (s ++ filledColumns w col e) f' := by
  obtain ⟨f1, a1, a2, a3⟩ := label_set h hl.1 hl.2.1 hl.2.2 (by omega)
  unfold writeEntry writeEntryText filledColumns
  rw [a1, Outcome.bind_ok]
  simp only
  by_cases h0 : e.text = []
  · rw [if_pos h0, if_pos h0, Outcome.bind_ok]
    exact ⟨_, rfl, (at_newline a3).cast (by simp [spaces])⟩
  · have ht := ht.resolve_left h0
    have hpos : 0 < e.text.length := List.length_pos_iff.mpr h0
    have hgl : glyphs e.label ≤ e.label.length := List.countP_le_length
    have hcw : f1.writer.currentWidth = 2 + glyphs e.label := by rw [a3.gap]; rfl
    rw [if_neg h0, if_neg h0, if_pos (by omega), if_neg (by omega), Outcome.bind_ok]
    have p : At sp w (2 :: base) col .noAlignment (s ++ (spaces 2 ++ e.label)) (2 + glyphs e.label) (col - (2 + glyphs e.label)) (f1.pushIndentation col) ∧
        (f1.pushIndentation col).writer.spaces = 0 := by
      unfold pushIndentation
      rw [setIndentation_lt (by rw [a3.width]; omega), a3.indents]
      refine ⟨⟨a3.written, a3.begun, rfl, rfl, a3.state, a3.cur, ?_, a3.width, a3.splitter, by omega, a3.solid⟩, a2⟩
      show max f1.writer.cur col + f1.writer.spaces = _
      rw [a2, a3.cur]
      omega
    obtain ⟨f2, b1, b2⟩ := from_set hsp ht.1 (whole_utf8 ht.2.1) ht.2.2 p.1 (.inl p.2) (Nat.le_refl _)
    unfold writeWords
    rw [b1, Outcome.bind_ok]
    rcases b2 with ⟨b2, _⟩ | ⟨col', k', b2⟩
    · obtain ⟨f3, c1, c2⟩ := begins_pop b2 h.narrow
      rw [c1, Outcome.bind_ok]
      exact ⟨_, rfl, (begins_newline c2).cast (by simp [spaces])⟩
    · obtain ⟨f3, k3, c1, c2⟩ := at_pop b2 h.narrow
      rw [c1, Outcome.bind_ok]
      exact ⟨_, rfl, (at_newline c2).cast (by simp [spaces])⟩

/-- An entry with the text below the label. -/
theorem entry_stacked {rules : List Str} {sp : Splitter} (hsp : Splitter.addWords [] rules = .ok sp) {w : Nat} {base : List Nat} {s : Str} {f : Formatter}
    (h : Begins sp w base 2 s f) {e : Entry} (hl : Fills rules w 2 e.label) (ht : e.text = [] ∨ (8 < w ∧ Fills rules w 8 e.text)) :
    ∃ f', writeEntry 0 (e.label, e.text) f = .ok f' ∧ Begins sp w base 2 (s ++ filledStack w e) f' := by
  obtain ⟨f1, a1, a2⟩ := words_set hsp h hl
  unfold writeEntry writeEntryText filledStack
  rw [a1, Outcome.bind_ok]
  simp only
  by_cases h0 : e.text = []
  · rw [if_pos h0, if_pos h0, Outcome.bind_ok]
    exact ⟨_, rfl, a2.newline.cast (by simp)⟩
  · obtain ⟨h8, ht⟩ := ht.resolve_left h0
    rw [if_neg h0, if_neg h0, if_neg (by simp)]
    obtain ⟨f2, b1, b2⟩ := words_set hsp (begins_push a2.newline h8) ht
    rw [b1, Outcome.bind_ok]
    rcases b2 with ⟨_, b2⟩ | ⟨_, col', k', b2⟩
    · obtain ⟨f3, c1, c2⟩ := begins_pop b2 h.narrow
      rw [c1, Outcome.bind_ok]
      exact ⟨_, rfl, (begins_newline c2).cast (by simp)⟩
    · obtain ⟨f3, k3, c1, c2⟩ := at_pop b2 h.narrow
      rw [c1, Outcome.bind_ok]
      exact ⟨_, rfl, (at_newline c2).cast (by simp)⟩

theorem forEach_begins {α : Type} {sp : Splitter} {w : Nat} {base : List Nat} {n : Nat} {act : α → Formatter → Outcome Formatter} (g : α → Str) (xs : List α) :
    (∀ x ∈ xs, ∀ s f, Begins sp w base n s f → ∃ f', act x f = .ok f' ∧ Begins sp w base n (s ++ g x) f') →
    ∀ {s : Str} {f : Formatter}, Begins sp w base n s f → ∃ f', forEach act xs f = .ok f' ∧ Begins sp w base n (s ++ xs.flatMap g) f' := by
  induction xs with
  | nil => intro _ s f h; exact ⟨f, rfl, by simpa using h⟩
  | cons x xs ih =>
    intro ha s f h
    obtain ⟨f1, a1, a2⟩ := ha x (by simp) s f h
    obtain ⟨f2, b1, b2⟩ := ih (fun y hy => ha y (by simp [hy])) a2
    refine ⟨f2, ?_, b2.cast (by simp)⟩
    unfold forEach
    rw [a1, Outcome.bind_ok, b1]

theorem section_set {rules : List Str} {sp : Splitter} (hsp : Splitter.addWords [] rules = .ok sp) {w : Nat} (hw : 2 < w) {s : Str} {f : Formatter} (h : Begins sp w [] 0 s f) (col : Nat) (b : Bool)
    (title : Str) (es : List Entry) (g : Entry → Str) (ht : Fills rules w 0 title)
    (he : ∀ e ∈ es, ∀ s f, Begins sp w [0] 2 s f → ∃ f', writeEntry col (e.label, e.text) f = .ok f' ∧ Begins sp w [0] 2 (s ++ g e) f') :
    ∃ f', writeSection col b (title, es.map fun e => (e.label, e.text)) f = .ok f' ∧
      Begins sp w [] 0 (s ++ ((if b then [10] else []) ++ (Spec.setText w 0 title ++ [10] ++ es.flatMap g))) f' := by
  unfold writeSection
  obtain ⟨f1, a1, a2⟩ := words_set hsp (begins_ite h b) ht
  simp only [a1, Outcome.bind_ok]
  rw [forEach_map]
  obtain ⟨f2, b1, b2⟩ := forEach_begins (act := fun e : Entry => writeEntry col (e.label, e.text)) g es (fun e hm s f hf => he e hm s f hf) (begins_push a2.newline hw)
  rw [b1, Outcome.bind_ok]
  obtain ⟨f3, c1, c2⟩ := begins_pop b2 (by omega)
  exact ⟨f3, c1, c2.cast (by simp)⟩

theorem sections_set {rules : List Str} {sp : Splitter} (hsp : Splitter.addWords [] rules = .ok sp) {w : Nat} (hw : 2 < w) {s : Str} {f : Formatter} (h : Begins sp w [] 0 s f) (b : Bool)
    (es : List Entry) (hf : ListFills rules w es) :
    ∃ f', writeSections b (sectionsOf es) f = .ok f' ∧ Begins sp w [] 0 (s ++ lead b (filledList w es)) f' := by
  obtain ⟨g, hg⟩ : ∃ g, (if TwoColumns w es then filledColumns w (textColumn es) else filledStack w) = g := ⟨_, rfl⟩
  obtain ⟨col, hcol⟩ : ∃ col, labelWidth w (sectionsOf es) = col := ⟨_, rfl⟩
  have hentry : ∀ e ∈ es, ∀ s f, Begins sp w [0] 2 s f → ∃ f', writeEntry col (e.label, e.text) f = .ok f' ∧ Begins sp w [0] 2 (s ++ g e) f' := by
    intro e he s f1 c
    rw [labelWidth_eq] at hcol
    by_cases h2 : TwoColumns w es
    · rw [if_pos h2] at hcol hg
      subst hcol hg
      have w1 : e.label.length ≤ greatest (es.map (·.label.length)) := le_greatest (List.mem_map_of_mem he)
      have w2 : e.text.length ≤ greatest (es.map (·.text.length)) := le_greatest (List.mem_map_of_mem he)
      have w3 := h2.2
      obtain ⟨l1, l2⟩ := hf.columns h2 e he
      refine entry_columns hsp c l1 l2 ?_ (by omega)
      unfold textColumn
      omega
    · rw [if_neg h2] at hcol hg
      subst hcol hg
      exact entry_stacked hsp c (hf.stacks h2 e he).1 (hf.stacks h2 e he).2
  have hsection : ∀ t ∈ sections es, ∀ b s f, Begins sp w [] 0 s f →
      ∃ f', writeSection col b (t.1, t.2.map fun e => (e.label, e.text)) f = .ok f' ∧
        Begins sp w [] 0 (s ++ ((if b then [10] else []) ++ (Spec.setText w 0 t.1 ++ [10] ++ t.2.flatMap g))) f' := by
    intro t ht b s f1 c
    obtain ⟨t, hm, rfl⟩ := List.mem_map.mp ht
    refine section_set hsp hw c col b t _ g ?_ ?_
    · obtain ⟨e, he, rfl⟩ := List.mem_map.mp (List.mem_eraseDups.mp hm)
      exact hf.headings e he
    · intro e he s f2 c2
      exact hentry e ((List.mem_filter.mp he).1) s f2 c2
  have hlist : filledList w es = (sections es).map fun s => Spec.setText w 0 s.1 ++ [10] ++ s.2.flatMap g := by
    unfold filledList
    rw [hg]
  rw [hlist]
  unfold writeSections
  have hso : sectionsOf es = (sections es).map fun s => (s.1, s.2.map fun e => (e.label, e.text)) := rfl
  have hwd : f.writer.lineWidth = w := h.width
  cases hss : sections es with
  | nil =>
    rw [hso, hss]
    exact ⟨f, rfl, by simpa [lead] using h⟩
  | cons t ts =>
    rw [hso, hss] at hcol ⊢
    simp only [List.map_cons] at hcol ⊢
    rw [hwd, hcol]
    rw [hss] at hsection
    obtain ⟨f1, a1, a2⟩ := hsection t (by simp) b s f h
    rw [a1, Outcome.bind_ok, forEach_map]
    obtain ⟨f2, b1, b2⟩ := forEach_begins (act := fun t : Str × List Entry => writeSection col true (t.1, t.2.map fun e => (e.label, e.text)))
      (fun t => [10] ++ (Spec.setText w 0 t.1 ++ [10] ++ t.2.flatMap g)) ts (fun t ht s f hf => by
        have := hsection t (by simp [ht]) true s f hf
        simpa using this) a2
    refine ⟨f2, b1, b2.cast ?_⟩
    have hl := lead_append b [Spec.setText w 0 t.1 ++ [10] ++ t.2.flatMap g] (ts.map fun s => Spec.setText w 0 s.1 ++ [10] ++ s.2.flatMap g)
    simp only [List.isEmpty_cons, Bool.not_false, Bool.or_true, List.cons_append, List.nil_append] at hl
    rw [← hl, lead_true, List.flatMap_map]
    simp [lead, separated]

/-- A custom text. -/
theorem custom_set {rules : List Str} {sp : Splitter} (hsp : Splitter.addWords [] rules = .ok sp) {w : Nat} {s : Str} {f : Formatter} (h : Begins sp w [] 0 s f) (texts : Nat → Str) (cmd : Command)
    (id : TextId) (b : Bool) (ht : Fills rules w 0 ((custom texts cmd id).getD [])) :
    ∃ f', writeCustomText texts cmd id b f = .ok f' ∧ Begins sp w [] 0 (s ++ lead b (filledParagraph w ((custom texts cmd id).getD []))) f' := by
  unfold writeCustomText
  rw [customText_eq]
  cases hc : custom texts cmd id with
  | none => exact ⟨f, rfl, by simpa [filledParagraph, lead] using h⟩
  | some t =>
    rw [hc] at ht
    simp only [Option.getD_some] at ht ⊢
    by_cases h0 : t = []
    · rw [if_pos h0]
      exact ⟨f, rfl, by simpa [filledParagraph, lead, h0] using h⟩
    · rw [if_neg h0]
      obtain ⟨f1, a1, a2⟩ := words_set hsp (begins_ite h b) ht
      simp only [a1, Outcome.bind_ok]
      refine ⟨_, rfl, a2.closed.cast ?_⟩
      simp [filledParagraph, h0, lead, separated]

/-! ### The usage -/

/-- A part of the usage that the formatter finds room for. -/
theorem partFills_settable {rules : List Str} {sp : Splitter} (hsp : Splitter.addWords [] rules = .ok sp) {w n : Nat} {t : Str} (h : PartFills rules w n t) :
    t ≠ [] ∧ 10 ∉ t ∧ Settable sp w n t := by
  obtain ⟨h1, h2, h3, h4, h5⟩ := h
  exact ⟨h1, fun h0 => (h3 10 h0).1 rfl, whole_utf8 h2, h4, unruled_of hsp h5⟩

/-- A word or a line behind others. -/
theorem at_put {sp : Splitter} {w : Nat} {base : List Nat} {n : Nat} {st : AlignState} {s t : Str} {col k : Nat} {f : Formatter}
    (h : At sp w base n st s col k f) (ht : t ≠ []) (h10 : 10 ∉ t) (hgo : Settable sp w n t) :
    ∃ f', f.appendWord t = .ok f' ∧ f'.writer.spaces = 0 ∧ At sp w base n st (s ++ fill w n col [(k, t)]) (fillEnd w n col [(k, t)]) 0 f' := by
  obtain ⟨f', a1, a2, a3⟩ := at_append h ht h10 hgo.1 hgo.2.1 hgo.2.2
  refine ⟨f', a1, a2, ?_⟩
  by_cases hfit : col + k + glyphs t ≤ w
  · rw [if_pos hfit] at a3
    rw [fill_cons_fit hfit, fillEnd_cons_fit hfit]
    simpa [fill, fillEnd] using a3
  · rw [if_neg hfit] at a3
    rw [fill_cons_wrap hfit, fillEnd_cons_wrap hfit]
    simpa [fill, fillEnd] using a3

theorem writeLines_part {f f' : Formatter} {t : Str} (ht : t ≠ []) (hl : ∀ c ∈ t, c ≠ 10 ∧ c ≠ 13) (h : f.appendWord t = .ok f') : f.writeLines t = .ok f' := by
  have hlast : ¬ (t.getLast? = some 10 ∨ t.getLast? = some 13) := by
    rintro (h | h)
    · exact (hl 10 (List.mem_of_getLast? h)).1 rfl
    · exact (hl 13 (List.mem_of_getLast? h)).2 rfl
  cases t with
  | nil => exact absurd rfl ht
  | cons c t =>
    unfold writeLines
    rw [List.length_cons]
    unfold linesLoop
    rw [nextLine_one hl]
    simp only [Outcome.bind_ok]
    unfold appendLine
    rw [if_pos (by simp), h]
    simp only [Outcome.bind_ok, if_neg hlast]
    unfold linesLoop
    cases t <;> rfl

theorem at_blank {sp : Splitter} {w : Nat} {base : List Nat} {n : Nat} {s : Str} {col k : Nat} {f : Formatter} (h : At sp w base n .noAlignment s col k f) (h0 : f.writer.spaces = 0) :
    ∃ f', f.writeWords b!" " = .ok f' ∧ At sp w base n .noAlignment s col (k + 1) f' := by
  obtain ⟨f1, a1, a2⟩ := at_space (j := 1) h h0 (.inl rfl)
  obtain ⟨fuel', b1, _⟩ := loop_space (fuel := 1) (r := []) (by omega) (by simp) (by simp [spaces]) a1
  obtain ⟨f2, k2, c1, c2⟩ := at_end a2 (.inl ⟨rfl, rfl, rfl⟩) h.narrow
  have : f2 = f1 := by
    unfold endAlignment at c1
    rw [if_neg (by rw [a2.state]; simp)] at c1
    exact (Outcome.ok.inj c1).symm
  subst this
  refine ⟨f2, ?_, a2⟩
  unfold writeWords
  rw [wordsLoop_nil, c1] at b1
  simpa [spaces] using b1

/-- A single word behind others. -/
theorem at_single {sp : Splitter} {w : Nat} {base : List Nat} {n : Nat} {s t : Str} {col k : Nat} {f : Formatter}
    (h : At sp w base n .noAlignment s col k f) (ht : t ≠ []) (hb : OneWord t) (hgo : Settable sp w n t) :
    ∃ f', f.writeWords t = .ok f' ∧ At sp w base n .noAlignment (s ++ fill w n col [(k, t)]) (fillEnd w n col [(k, t)]) 0 f' := by
  obtain ⟨f', a1, a2, a3⟩ := at_put h ht (fun h0 => hb 10 h0 (by simp [isBlank])) hgo
  obtain ⟨fuel', b1, _⟩ := loop_word (fuel := t.length) (r := []) ht hb (by simp) (by simp) (by rw [at_word h]; exact a1)
  refine ⟨f', ?_, a3⟩
  unfold writeWords
  rw [List.append_nil, wordsLoop_nil] at b1
  rw [b1]
  unfold endAlignment
  rw [if_neg (by rw [a3.state]; simp)]

/-- Items behind each other. -/
theorem forEach_parts {α : Type} {rules : List Str} {sp : Splitter} (hsp : Splitter.addWords [] rules = .ok sp) {w : Nat} {base : List Nat} {n : Nat} {act : α → Formatter → Outcome Formatter}
    (shown : α → Bool) (label : α → Str) (xs : List α)
    (h1 : ∀ x ∈ xs, shown x → PartFills rules w n (label x)) (h2 : ∀ x ∈ xs, shown x = false → ∀ f, act x f = .ok f)
    (h3 : ∀ x ∈ xs, shown x → ∀ f, act x f = f.writeLines (label x) >>= fun f => f.writeWords b!" ") :
    ∀ {s : Str} {col : Nat} {f : Formatter}, At sp w base n .noAlignment s col 1 f →
    ∃ f', forEach act xs f = .ok f' ∧ At sp w base n .noAlignment (s ++ fill w n col ((xs.filter shown).map fun x => (1, label x)))
      (fillEnd w n col ((xs.filter shown).map fun x => (1, label x))) 1 f' := by
  induction xs with
  | nil => intro s col f h; exact ⟨f, rfl, by simpa [fill, fillEnd] using h⟩
  | cons x xs ih =>
    intro s col f h
    have ih := @ih (fun y hy => h1 y (by simp [hy])) (fun y hy => h2 y (by simp [hy])) (fun y hy => h3 y (by simp [hy]))
    unfold forEach
    cases hx : shown x with
    | false =>
      rw [h2 x (by simp) hx, Outcome.bind_ok, List.filter_cons_of_neg (by simp [hx])]
      exact ih h
    | true =>
      have hp := h1 x (by simp) hx
      obtain ⟨p1, p2, p3⟩ := partFills_settable hsp hp
      obtain ⟨f1, a1, a2, a3⟩ := at_put h p1 p2 p3
      obtain ⟨f2, b1, b2⟩ := at_blank a3 a2
      rw [h3 x (by simp) hx, writeLines_part p1 hp.2.2.1 a1, Outcome.bind_ok, b1, Outcome.bind_ok]
      obtain ⟨f3, c1, c2⟩ := ih b2
      refine ⟨f3, c1, ?_⟩
      rw [List.filter_cons_of_pos (by simp [hx]), List.map_cons]
      have e := fill_append w n [(1, label x)] ((xs.filter shown).map fun x => (1, label x)) col
      rw [List.singleton_append] at e
      rw [e.1, e.2, ← List.append_assoc]
      exact c2

/-- Parts that are written one behind the other. -/
def Says (sp : Splitter) (w : Nat) (base : List Nat) (n : Nat) (act : Formatter → Outcome Formatter) (ps : List Str) : Prop :=
  ∀ (s : Str) (col k : Nat) (f : Formatter), At sp w base n .noAlignment s col k f → ∃ f', act f = .ok f' ∧
    At sp w base n .noAlignment (s ++ fill w n col (after k (ps.map (0, ·)))) (fillEnd w n col (after k (ps.map (0, ·)))) (if ps = [] then k else 0) f'

theorem says_nothing {sp : Splitter} {w : Nat} {base : List Nat} {n : Nat} : Says sp w base n (fun f => .ok f) [] := by
  intro s col k f h
  exact ⟨f, rfl, by simpa [after, fill, fillEnd] using h⟩

theorem says_word {sp : Splitter} {w : Nat} {base : List Nat} {n : Nat} {t : Str} (ht : t ≠ []) (hb : OneWord t) (hgo : Settable sp w n t) :
    Says sp w base n (fun f => f.writeWords t) [t] := by
  intro s col k f h
  obtain ⟨f', a1, a2⟩ := at_single h ht hb hgo
  exact ⟨f', a1, by simpa [after] using a2⟩

theorem after_append (k : Nat) (a b : List Str) : after k ((a ++ b).map ((0 : Nat), ·)) = after k (a.map (0, ·)) ++ after (if a = [] then k else 0) (b.map (0, ·)) := by
  cases a with
  | nil => simp [after]
  | cons x a =>
    rw [if_neg (by simp), after_zero]
    simp [after]

theorem Says.then {sp : Splitter} {w : Nat} {base : List Nat} {n : Nat} {a b : Formatter → Outcome Formatter} {ps qs : List Str} (ha : Says sp w base n a ps) (hb : Says sp w base n b qs) :
    Says sp w base n (fun f => a f >>= b) (ps ++ qs) := by
  intro s col k f h
  obtain ⟨f1, a1, a2⟩ := ha _ _ _ _ h
  obtain ⟨f2, b1, b2⟩ := hb _ _ _ _ a2
  refine ⟨f2, by simp only [a1, Outcome.bind_ok, b1], ?_⟩
  rw [after_append, (fill_append _ _ _ _ _).1, (fill_append _ _ _ _ _).2, ← List.append_assoc]
  have e : (if ps ++ qs = [] then k else 0) = (if qs = [] then (if ps = [] then k else 0) else 0) := by
    cases ps <;> cases qs <;> simp
  rw [e]
  exact b2

theorem Says.cast {sp : Splitter} {w : Nat} {base : List Nat} {n : Nat} {a : Formatter → Outcome Formatter} {ps qs : List Str} (h : Says sp w base n a ps) (e : ps = qs) :
    Says sp w base n a qs := e ▸ h

theorem says_commandsLoop {sp : Splitter} {w : Nat} {base : List Nat} {n : Nat} (cs : List Command)
    (hbar : 2 ≤ (cs.filter (·.visibility.usage)).length → Settable sp w n b!"|")
    (hc : ∀ c ∈ cs, c.visibility.usage → c.name ≠ [] ∧ OneWord c.name ∧ Settable sp w n c.name) :
    Says sp w base n (writeBriefCommandsLoop true cs) (((cs.filter (·.visibility.usage)).map (·.name)).intersperse b!"|") := by
  have bar : ∀ (cs : List Command), Settable sp w n b!"|" → (∀ c ∈ cs, c.visibility.usage → c.name ≠ [] ∧ OneWord c.name ∧ Settable sp w n c.name) →
      Says sp w base n (writeBriefCommandsLoop false cs) (((cs.filter (·.visibility.usage)).map (·.name)).flatMap fun t => [b!"|", t]) := by
    intro cs hb hc
    induction cs with
    | nil => exact says_nothing
    | cons c cs ih =>
      have ih := ih (fun x hx => hc x (by simp [hx]))
      intro s col k f h
      unfold writeBriefCommandsLoop
      cases hv : c.visibility.usage with
      | false =>
        rw [if_pos (by simp), List.filter_cons_of_neg (by simp [hv])]
        exact ih _ _ _ _ h
      | true =>
        obtain ⟨n1, n2, n3⟩ := hc c (by simp) hv
        rw [if_neg (by simp), List.filter_cons_of_pos (by simp [hv])]
        have := (says_word (base := base) (t := b!"|") (by simp) (by intro c hc; simp at hc; subst hc; simp [isBlank]) hb).then ((says_word n1 n2 n3).then ih)
        have := this _ _ _ _ h
        simpa using this
  have none_ : ∀ cs : List Command, cs.filter (·.visibility.usage) = [] → ∀ b f, writeBriefCommandsLoop b cs f = .ok f := by
    intro cs
    induction cs with
    | nil => intro _ b f; rfl
    | cons c cs ih =>
      intro hf b f
      unfold writeBriefCommandsLoop
      cases hv : c.visibility.usage with
      | false =>
        rw [List.filter_cons_of_neg (by simp [hv])] at hf
        rw [if_pos (by simp)]
        exact ih hf b f
      | true =>
        rw [List.filter_cons_of_pos (by simp [hv])] at hf
        simp at hf
  have inter : ∀ (t : Str) (ts : List Str), (t :: ts).intersperse b!"|" = t :: ts.flatMap fun u => [b!"|", u] := by
    intro t ts
    induction ts generalizing t with
    | nil => rfl
    | cons u ts ih =>
      rw [List.intersperse_cons₂, ih]
      rfl
  induction cs with
  | nil => exact says_nothing
  | cons c cs ih =>
    intro s col k f h
    unfold writeBriefCommandsLoop
    cases hv : c.visibility.usage with
    | false =>
      rw [if_pos (by simp), List.filter_cons_of_neg (by simp [hv])]
      rw [List.filter_cons_of_neg (by simp [hv])] at hbar
      exact ih hbar (fun x hx => hc x (by simp [hx])) _ _ _ _ h
    | true =>
      obtain ⟨n1, n2, n3⟩ := hc c (by simp) hv
      rw [if_neg (by simp), List.filter_cons_of_pos (by simp [hv]), List.map_cons, inter]
      simp only [if_true, Outcome.bind_ok]
      rw [List.filter_cons_of_pos (by simp [hv]), List.length_cons] at hbar
      cases hcs : cs.filter (·.visibility.usage) with
      | nil =>
        obtain ⟨f', a1, a2⟩ := says_word (base := base) n1 n2 n3 _ _ _ _ h
        refine ⟨f', ?_, by simpa using a2⟩
        simp only [a1, Outcome.bind_ok]
        exact none_ cs hcs false f'
      | cons d ds =>
        have hb := hbar (by rw [hcs]; simp)
        have := (says_word (base := base) n1 n2 n3).then (bar cs hb (fun x hx => hc x (by simp [hx])))
        rw [← hcs]
        exact this _ _ _ _ h

theorem says_commands {rules : List Str} {sp : Splitter} (hsp : Splitter.addWords [] rules = .ok sp) {w : Nat} {base : List Nat} {n : Nat} {cmd : Command}
    (hc : ∀ s ∈ commandParts cmd, OneWord s ∧ PartFills rules w n s) : Says sp w base n (writeBriefCommands cmd) (commandParts cmd) := by
  have hp : ∀ t ∈ commandParts cmd, t ≠ [] ∧ OneWord t ∧ Settable sp w n t := fun t ht =>
    ⟨(hc t ht).2.1, (hc t ht).1, (partFills_settable hsp (hc t ht).2).2.2⟩
  intro s col k f h
  unfold writeBriefCommands
  unfold commandParts at hp ⊢
  by_cases he : cmd.commands.isEmpty = true
  · rw [if_pos he, if_pos he]
    exact says_nothing _ _ _ _ h
  · rw [if_neg he] at hp
    rw [if_neg he, if_neg he]
    simp only at hp ⊢
    have mem : ∀ t ∈ ((cmd.commands.filter (·.visibility.usage)).map (·.name)).intersperse b!"|", t ≠ [] ∧ OneWord t ∧ Settable sp w n t := by
      intro t ht
      refine hp t ?_
      split
      · exact ht
      · simp [ht]
    have inner : ∀ (b x : Str) (xs : List Str), x ∈ xs → x ∈ xs.intersperse b := by
      intro b x xs
      induction xs with
      | nil => simp
      | cons y ys ih =>
        intro hx
        cases ys with
        | nil => simpa using hx
        | cons z zs =>
          rw [List.intersperse_cons₂]
          rcases List.mem_cons.mp hx with rfl | hx
          · simp
          · simp [ih hx]
    have loop := says_commandsLoop (base := base) cmd.commands (fun h2 => by
        refine (mem b!"|" ?_).2.2
        match hfl : cmd.commands.filter (·.visibility.usage) with
        | [] => rw [hfl] at h2; simp at h2
        | [_] => rw [hfl] at h2; simp at h2
        | a :: b :: r =>
          rw [hfl]
          show b!"|" ∈ (a.name :: b.name :: r.map (·.name)).intersperse b!"|"
          rw [List.intersperse_cons₂]
          simp)
      (fun c hcm hv => mem c.name (inner _ _ _ (List.mem_map_of_mem (List.mem_filter.mpr ⟨hcm, hv⟩))))
    by_cases hr : cmd.requireSubcommand = some true
    · rw [if_pos hr]
      have e : (!cmd.requireSubcommand.getD false) = false := by rw [hr]; rfl
      rw [e]
      simp only [Bool.false_eq_true, if_false, Outcome.bind_ok]
      obtain ⟨f1, a1, a2⟩ := loop _ _ _ _ h
      exact ⟨f1, by rw [a1]; rfl, a2⟩
    · rw [if_neg hr] at hp ⊢
      have e : (!cmd.requireSubcommand.getD false) = true := by
        cases hq : cmd.requireSubcommand with
        | none => rfl
        | some b =>
          cases b
          · rfl
          · exact absurd hq hr
      rw [e]
      simp only [if_true]
      obtain ⟨o1, o2, o3⟩ := hp b!"[" (by simp)
      obtain ⟨c1, c2, c3⟩ := hp b!"]" (by simp)
      have := (says_word (base := base) o1 o2 o3).then (loop.then (says_word c1 c2 c3))
      have := this _ _ _ _ h
      simpa using this

/-- The name of the command at the beginning of a line of the usage. -/
theorem usage_begin {rules : List Str} {sp : Splitter} {w : Nat} {s : Str} {f : Formatter} (h : Begins sp w [0] 2 s f) {cmd : Command} (hu : UsageFills rules w cmd) :
    ∃ f1 f2, f.writeWords cmd.fullName = .ok f1 ∧ f1.writeWords b!" " = .ok f2 ∧
      At sp w [2, 0] (3 + glyphs cmd.fullName) .noAlignment (s ++ (spaces 2 ++ cmd.fullName)) (2 + glyphs cmd.fullName) 1 f2.pushCurrent := by
  obtain ⟨u1, u2, u3, u4⟩ := hu.name
  obtain ⟨f1, a1, a2, a3⟩ := label_set h u1 u2 u3 (by omega)
  obtain ⟨f2, b1, b2⟩ := at_blank a3 a2
  have hgl : glyphs cmd.fullName ≤ cmd.fullName.length := List.countP_le_length
  refine ⟨f1, f2, a1, b1, ?_⟩
  have hgap := b2.gap
  have hcur := b2.cur
  unfold pushCurrent
  rw [hgap, setIndentation_lt (w := f2.writer.setSpaces 0) (show _ < f2.writer.lineWidth by rw [b2.width]; omega), b2.indents]
  have e : 2 + glyphs cmd.fullName + (0 + 1) = 3 + glyphs cmd.fullName := by omega
  rw [e]
  refine ⟨b2.written, b2.begun, rfl, rfl, b2.state, b2.cur, ?_, b2.width, b2.splitter, by omega, b2.solid⟩
  show max f2.writer.cur (3 + glyphs cmd.fullName) + 0 = _
  omega

/-- The end of a line of the usage. -/
theorem usage_end {sp : Splitter} {w : Nat} (hw : 2 < w) {n : Nat} {s : Str} {col k : Nat} {f : Formatter} (h : At sp w [2, 0] n .noAlignment s col k f) :
    ∃ f1, f.popIndentation = .ok f1 ∧ Begins sp w [0] 2 (s ++ [10]) f1.newline := by
  obtain ⟨f1, k1, a1, a2⟩ := at_pop h hw
  exact ⟨f1, a1, at_newline a2⟩

theorem stop_set {rules : List Str} {sp : Splitter} (hsp : Splitter.addWords [] rules = .ok sp) {w : Nat} {s : Str} {f : Formatter} (h : Begins sp w [0] 2 s f) {cmd : Command}
    (hu : UsageFills rules w cmd) (hf : Flagged cmd) {o : OptData} (ho : o ∈ cmd.options) :
    ∃ f', writeStopOption cmd.fullName o f = .ok f' ∧
      Begins sp w [0] 2 (s ++ if o.visibility.usage ∧ EndsProgram o then filledUsageLine w cmd [(1, stopUsage o)] else []) f' := by
  unfold writeStopOption
  by_cases hv : o.visibility.usage = true ∧ EndsProgram o
  · have hst := (isStop_iff o).mpr hv.2
    rw [if_neg (by simp [hv.1, hst]), if_pos hv]
    obtain ⟨f1, f2, a1, a2, a3⟩ := usage_begin h hu
    rw [a1, Outcome.bind_ok, a2, Outcome.bind_ok, briefOptionName_long (hf o ho).1 (hf o ho).2 hv.2, Outcome.bind_ok]
    have hp := hu.stops o ho hv.1 hv.2
    obtain ⟨p1, p2, p3⟩ := partFills_settable hsp hp
    obtain ⟨f3, b1, b2, b3⟩ := at_put a3 p1 p2 p3
    rw [writeLines_part p1 hp.2.2.1 b1, Outcome.bind_ok]
    obtain ⟨f4, c1, c2⟩ := at_blank b3 b2
    rw [c1, Outcome.bind_ok]
    obtain ⟨f5, d1, d2⟩ := usage_end h.narrow c2
    rw [d1, Outcome.bind_ok]
    refine ⟨_, rfl, d2.cast ?_⟩
    simp [filledUsageLine, spaces]
  · rw [if_pos, if_neg hv]
    · exact ⟨f, rfl, by simpa using h⟩
    · cases hu : o.visibility.usage with
      | false => rfl
      | true =>
        have : ¬ EndsProgram o := fun hp => hv ⟨hu, hp⟩
        rw [← isStop_iff] at this
        simpa using this

theorem flatMap_filter_ite {α : Type} (p : α → Bool) (g : α → Str) (xs : List α) : (xs.flatMap fun x => if p x then g x else []) = (xs.filter p).flatMap g := by
  induction xs with
  | nil => rfl
  | cons x xs ih =>
    rw [List.flatMap_cons, ih]
    cases hx : p x with
    | false => rw [List.filter_cons_of_neg (by simp [hx])]; simp
    | true => rw [List.filter_cons_of_pos (by simp [hx])]; simp

theorem brief_set {rules : List Str} {sp : Splitter} (hsp : Splitter.addWords [] rules = .ok sp) {w : Nat} {s : Str} {f : Formatter} (h : Begins sp w [] 0 s f) {cmd : Command}
    (hu : UsageFills rules w cmd) (hf : Flagged cmd) (b : Bool) :
    ∃ f', writeBriefUsage cmd b f = .ok f' ∧ Begins sp w [] 0 (s ++ ((if b then [10] else []) ++ filledUsage w cmd)) f' := by
  have hw2 : 2 < w := by have := hu.name.2.2.2; omega
  unfold writeBriefUsage writeStopAndHelpUsage
  have p := begins_push (begins_ite h b) hw2
  obtain ⟨f1, b1, b2⟩ := forEach_begins (act := writeStopOption cmd.fullName)
    (fun o => if decide (o.visibility.usage ∧ EndsProgram o) then filledUsageLine w cmd [(1, stopUsage o)] else []) cmd.options (fun o ho s f hb => by
      simpa using stop_set hsp hb hu hf ho) p
  rw [flatMap_filter_ite] at b2
  simp only [b1, Outcome.bind_ok]
  obtain ⟨f2, f3, c1, c2, c3⟩ := usage_begin b2 hu
  rw [c1, Outcome.bind_ok, c2, Outcome.bind_ok]
  obtain ⟨f4, d1, d2⟩ := forEach_parts hsp (act := writeBriefOption) (fun o => decide (o.visibility.usage ∧ ¬ EndsProgram o)) optionUsage cmd.options
    (fun o ho hv => hu.options o ho (of_decide_eq_true hv).1 (of_decide_eq_true hv).2)
    (fun o ho hv f => by
      have hv := of_decide_eq_false hv
      unfold writeBriefOption
      rw [if_pos]
      cases hvu : o.visibility.usage with
      | false => rfl
      | true =>
        have : EndsProgram o := Decidable.not_not.mp fun hp => hv ⟨hvu, hp⟩
        rw [← isStop_iff] at this
        simpa using this)
    (fun o ho hv f => by
      have hv := of_decide_eq_true hv
      have hst : isStopOption o.type = false := by
        rw [← Bool.not_eq_true, isStop_iff]
        exact hv.2
      unfold writeBriefOption
      rw [if_neg (by simp [hv.1, hst]), briefOptionName_short (hf o ho).1 (hf o ho).2 hv.2, Outcome.bind_ok]) c3
  rw [d1, Outcome.bind_ok]
  obtain ⟨f5, e1, e2⟩ := forEach_parts hsp (act := writeBriefArgument) (·.visibility.usage) argumentLabel cmd.arguments
    (fun a ha hv => hu.arguments a ha hv)
    (fun a ha hv f => by
      unfold writeBriefArgument
      rw [if_pos (by simpa using hv)])
    (fun a ha hv f => by
      unfold writeBriefArgument
      rw [if_neg (by simp [hv]), argumentName_eq]) d2
  rw [e1, Outcome.bind_ok]
  obtain ⟨f6, g1, g2⟩ := says_commands hsp hu.commands _ _ _ _ e2
  rw [g1, Outcome.bind_ok]
  obtain ⟨f7, i1, i2⟩ := usage_end hw2 g2
  rw [i1, Outcome.bind_ok]
  obtain ⟨f8, j1, j2⟩ := begins_pop i2 (by omega)
  refine ⟨f8, j1, j2.cast ?_⟩
  unfold filledUsage filledUsageLine usageParts
  rw [(fill_append _ _ _ _ _).1, (fill_append _ _ _ _ _).1, (fill_append _ _ _ _ _).2]
  simp [spaces, filledUsageLine]

theorem title_set {rules : List Str} {sp : Splitter} (hsp : Splitter.addWords [] rules = .ok sp) {w : Nat} {s : Str} {f : Formatter} (h : Begins sp w [] 0 s f) (texts : Nat → Str) (cmd : Command)
    (b : Bool) (ht : Fills rules w 0 (usageTitle texts cmd)) :
    ∃ f1, writeUsageTitle texts cmd b f = .ok f1 ∧ Begins sp w [] 0 (s ++ lead b (filledParagraph w (usageTitle texts cmd))) f1 := by
  unfold writeUsageTitle
  rw [customText_eq]
  unfold usageTitle at ht ⊢
  cases hct : custom texts cmd .usageTitle with
  | some t =>
    rw [hct] at ht
    have := custom_set hsp h texts cmd .usageTitle b (by rw [hct]; exact ht)
    rw [hct] at this
    exact this
  | none =>
    rw [hct] at ht
    simp only [Option.getD_none] at ht ⊢
    have a := begins_ite h b
    obtain ⟨f1, b1, b2⟩ := words_set hsp a ht
    simp only [b1, Outcome.bind_ok]
    refine ⟨_, rfl, b2.newline.cast ?_⟩
    have e : Spec.closed (Spec.setText w 0 b!"USAGE") = Spec.setText w 0 b!"USAGE" ++ [10] := by
      have : Spec.setText w 0 b!"USAGE" = b!"USAGE" := by
        simp [Spec.setText, textLines, joinLines, setLine, wordsIn, fill, spaces]
      rw [this]
      rfl
    simp [lead, filledParagraph, separated, e]

/-- The empty line is before the title or before the usage. -/
theorem lead_title (w : Nat) (texts : Nat → Str) (cmd : Command) {b b' : Bool} (hb' : (b && (custom texts cmd .usageTitle == some [])) = b') (s : Str) :
    lead b (filledParagraph w (usageTitle texts cmd)) ++ ((if b' then [10] else []) ++ s) = lead b [filledTitle w texts cmd ++ s] := by
  unfold lead filledParagraph filledTitle separated
  have hbt : usageTitle texts cmd = [] ↔ (custom texts cmd .usageTitle == some []) = true := by
    unfold usageTitle
    cases hct : custom texts cmd .usageTitle with
    | none => simp
    | some t => simp
  by_cases h0 : usageTitle texts cmd = []
  · rw [hbt.mp h0, Bool.and_true] at hb'
    rw [if_pos h0, if_pos h0, ← hb']
    simp
  · have : (custom texts cmd .usageTitle == some []) = false := by
      rw [← Bool.not_eq_true, ← hbt]
      exact h0
    rw [this, Bool.and_false] at hb'
    rw [if_neg h0, if_neg h0, ← hb']
    simp

theorem usage_set {rules : List Str} {sp : Splitter} (hsp : Splitter.addWords [] rules = .ok sp) {w : Nat} {s : Str} {f : Formatter} (h : Begins sp w [] 0 s f) (texts : Nat → Str) {cmd : Command}
    (hf : Flagged cmd) (b : Bool) (ht : UsageTextFills rules w texts cmd) :
    ∃ f', writeUsage texts cmd b f = .ok f' ∧ Begins sp w [] 0 (s ++ lead b (filledUsageParagraphs w texts cmd)) f' := by
  unfold writeUsage filledUsageParagraphs
  simp only [customText_eq]
  by_cases hu : custom texts cmd .usage = some []
  · rw [if_pos hu, hu]
    exact ⟨f, rfl, by simpa [lead] using h⟩
  · rw [if_neg hu]
    obtain ⟨f1, a1, a2⟩ := title_set hsp h texts cmd b ht.title
    rw [a1, Outcome.bind_ok]
    obtain ⟨b', hb'⟩ : ∃ b', (b && (custom texts cmd .usageTitle == some [])) = b' := ⟨_, rfl⟩
    have hlead := lead_title w texts cmd hb'
    rw [hb']
    cases hcu : custom texts cmd .usage with
    | some t =>
      have hne : t ≠ [] := by
        rintro rfl
        exact hu hcu
      simp only
      obtain ⟨f2, b1, b2⟩ := custom_set hsp a2 texts cmd .usage b' (by rw [hcu]; exact ht.usage t hcu)
      refine ⟨f2, b1, b2.cast ?_⟩
      rw [hcu, if_neg hne]
      have e : lead b' (filledParagraph w ((some t).getD [])) = (if b' then [10] else []) ++ Spec.closed (Spec.setText w 0 t) := by
        simp [lead, filledParagraph, hne, separated]
      rw [e, List.append_assoc, hlead]
    | none =>
      simp only
      obtain ⟨f2, b1, b2⟩ := brief_set hsp a2 (ht.generated hcu) hf b'
      refine ⟨f2, b1, b2.cast ?_⟩
      rw [List.append_assoc, hlead]

theorem about_set {rules : List Str} {sp : Splitter} (hsp : Splitter.addWords [] rules = .ok sp) {w : Nat} {s : Str} {f : Formatter} (h : Begins sp w [] 0 s f) (texts : Nat → Str) (cmd : Command)
    (b : Bool) (ht : Fills rules w 0 (aboutText texts cmd)) :
    ∃ f', writeAbout texts cmd b f = .ok f' ∧ Begins sp w [] 0 (s ++ lead b (filledParagraph w (aboutText texts cmd))) f' := by
  have hnil : Fills rules w 0 [] := ⟨by simp, ⟨[], by simp [IsText], rfl⟩, by simp [textLines, LineFills, wordsIn]⟩
  unfold writeAbout
  rw [customText_eq]
  unfold aboutText at ht ⊢
  by_cases ha : (custom texts cmd .about).getD [] = []
  · rw [if_pos ha] at ht ⊢
    obtain ⟨f1, a1, a2⟩ := custom_set hsp h texts cmd .about b (by rw [ha]; exact hnil)
    rw [a1, Outcome.bind_ok]
    have he : isEmptyText (custom texts cmd .about) = true := by rw [isEmptyText_eq, ha]; rfl
    simp only [he, Bool.not_true, Bool.false_eq_true, if_false]
    obtain ⟨f2, b1, b2⟩ := custom_set hsp a2 texts cmd .help b ht
    refine ⟨f2, b1, b2.cast ?_⟩
    rw [ha]
    simp [filledParagraph, lead]
  · rw [if_neg ha] at ht ⊢
    obtain ⟨f1, a1, a2⟩ := custom_set hsp h texts cmd .about b ht
    rw [a1, Outcome.bind_ok]
    have he : isEmptyText (custom texts cmd .about) = false := by rw [isEmptyText_eq]; simp [paragraph, ha]
    simp only [he, Bool.not_false, if_true]
    exact ⟨f1, rfl, a2⟩

theorem fresh_begins {w : Nat} {sp : Splitter} (hw : 2 < w) : Begins sp w [] 0 [] (fresh w sp) :=
  ⟨rfl, rfl, rfl, rfl, rfl, rfl, rfl, rfl, rfl, by omega⟩

theorem filledUsage_empty (w : Nat) (texts : Nat → Str) (cmd : Command) : usageResult texts cmd = !(filledUsageParagraphs w texts cmd).isEmpty := by
  unfold usageResult filledUsageParagraphs
  rw [customText_eq]
  cases custom texts cmd .usage with
  | none => rfl
  | some s => cases s <;> rfl

theorem isEmptyText_filled (w : Nat) (t : Option Str) : isEmptyText t = (filledParagraph w (t.getD [])).isEmpty := by
  unfold isEmptyText filledParagraph
  cases t with
  | none => rfl
  | some s => cases s <;> rfl

/-- The help text. -/
theorem help_set {console : Nat} (texts : Nat → Str) {d : ParserData} {cmd : Command} (hc : 2 < console)
    (hw : d.helpSettings.lineWidth = 0 ∨ 2 < d.helpSettings.lineWidth) {sp : Splitter} (hsp : Splitter.addWords [] d.helpSettings.wordSplitRules = .ok sp)
    (hf : Flagged cmd) (ht : PageFills d.helpSettings.wordSplitRules (if d.helpSettings.lineWidth ≠ 0 then d.helpSettings.lineWidth else console) texts cmd) :
    ∃ f, writeHelpText console texts d cmd = .ok f ∧
      f.written = helpPage (if d.helpSettings.lineWidth ≠ 0 then d.helpSettings.lineWidth else console) texts cmd := by
  obtain ⟨w, hwd⟩ : ∃ w, (if d.helpSettings.lineWidth ≠ 0 then d.helpSettings.lineWidth else console) = w := ⟨_, rfl⟩
  have hw2 : 2 < w := by
    rw [← hwd]
    split <;> omega
  unfold writeHelpText
  rw [makeFormatter_ok hc hw hsp, Outcome.bind_ok]
  rw [hwd] at ht ⊢
  have h0 : Begins sp w [] 0 [] (fresh w sp) := fresh_begins hw2
  simp only [customText_eq, isEmptyText_filled w, filledUsage_empty w]
  obtain ⟨f1, a1, a2⟩ := custom_set hsp h0 texts cmd .initialText false ht.initial
  rw [a1, Outcome.bind_ok]
  obtain ⟨p1, hp1⟩ : ∃ p, filledParagraph w ((custom texts cmd .initialText).getD []) = p := ⟨_, rfl⟩
  rw [hp1] at a2 ⊢
  obtain ⟨f2, b1, b2⟩ := usage_set hsp a2 texts hf (!p1.isEmpty) ht.usage
  rw [b1, Outcome.bind_ok]
  obtain ⟨p2, hp2⟩ : ∃ p, filledUsageParagraphs w texts cmd = p := ⟨_, rfl⟩
  rw [hp2] at b2 ⊢
  obtain ⟨f3, c1, c2⟩ := about_set hsp b2 texts cmd (!p2.isEmpty || !p1.isEmpty) ht.about
  rw [c1, Outcome.bind_ok]
  obtain ⟨p3, hp3⟩ : ∃ p, filledParagraph w (aboutText texts cmd) = p := ⟨_, rfl⟩
  rw [hp3] at c2
  have hb : (!(filledParagraph w ((custom texts cmd .about).getD [])).isEmpty || !(filledParagraph w ((custom texts cmd .help).getD [])).isEmpty || (!p2.isEmpty || !p1.isEmpty)) =
      (!p1.isEmpty || !p2.isEmpty || !p3.isEmpty) := by
    rw [← hp3]
    unfold aboutText
    by_cases ha : (custom texts cmd .about).getD [] = []
    · rw [if_pos ha, ha]
      have : (filledParagraph w []).isEmpty = true := rfl
      rw [this]
      cases (filledParagraph w ((custom texts cmd .help).getD [])).isEmpty <;> cases p1.isEmpty <;> cases p2.isEmpty <;> rfl
    · rw [if_neg ha]
      have : (filledParagraph w ((custom texts cmd .about).getD [])).isEmpty = false := by simp [filledParagraph, ha]
      rw [this]
      cases (filledParagraph w ((custom texts cmd .help).getD [])).isEmpty <;> cases p1.isEmpty <;> cases p2.isEmpty <;> rfl
  rw [hb]
  obtain ⟨f4, d1, d2⟩ := sections_set hsp hw2 c2 (!p1.isEmpty || !p2.isEmpty || !p3.isEmpty) (entries texts cmd) ht.list
  unfold writeArgumentSections
  rw [argumentSections_eq texts hf, Outcome.bind_ok, d1, Outcome.bind_ok]
  obtain ⟨f5, e1, e2⟩ := custom_set hsp d2 texts cmd .finalText true ht.final
  refine ⟨f5, e1, ?_⟩
  have hwr : f5.written = f5.writer.out ++ f5.writer.line := rfl
  rw [hwr, e2.line, List.append_nil, e2.out]
  unfold helpPage
  rw [hp1, hp2, hp3, lead_true]
  congr 1
  rw [List.nil_append]
  have l1 := lead_append false p1 p2
  have l2 := lead_append false (p1 ++ p2) p3
  have l3 := lead_append false (p1 ++ p2 ++ p3) (filledList w (entries texts cmd))
  have i1 : (false || !(p1 ++ p2).isEmpty) = (!p2.isEmpty || !p1.isEmpty) := by
    cases p1 <;> cases p2 <;> rfl
  have i2 : (false || !(p1 ++ p2 ++ p3).isEmpty) = (!p1.isEmpty || !p2.isEmpty || !p3.isEmpty) := by
    cases p1 <;> cases p2 <;> cases p3 <;> rfl
  rw [Bool.false_or] at l1
  rw [i1] at l2
  rw [i2] at l3
  rw [l1, l2, l3]
  unfold lead
  split
  · rename_i hn
    rw [hn]
    rfl
  · simp

/-! ### Error messages -/

theorem wordsIn_some {a : Str} (h0 : a ≠ []) (h : a.getLast? ≠ some 32) : wordsIn a ≠ [] := by
  induction a with
  | nil => exact absurd rfl h0
  | cons c a ih =>
    cases a with
    | nil =>
      have hc : c ≠ 32 := by simpa using h
      simp [wordsIn, hc]
    | cons d a =>
      have := ih (by simp) (by simpa using h)
      cases hw : wordsIn (d :: a) with
      | nil => exact absurd hw this
      | cons x ws =>
        obtain ⟨k, t⟩ := x
        rw [wordsIn, hw]
        split
        · simp
        · cases k <;> simp

theorem wordsIn_behind {a : Str} (h0 : a ≠ []) (h : a.getLast? ≠ some 32) (l : Str) : wordsIn (a ++ 32 :: l) = wordsIn a ++ after 1 (wordsIn l) := by
  induction a with
  | nil => exact absurd rfl h0
  | cons c a ih =>
    cases a with
    | nil =>
      have hc : c ≠ 32 := by simpa using h
      have e : wordsIn (32 :: l) = after 1 (wordsIn l) := by
        rw [wordsIn, if_pos rfl]
        cases wordsIn l with
        | nil => rfl
        | cons x ws => simp [after, Nat.add_comm]
      rw [List.singleton_append, wordsIn, if_neg hc, e]
      cases wordsIn l with
      | nil => simp [after, wordsIn, hc]
      | cons x ws => simp [after, wordsIn, hc, Nat.add_comm 1]
    | cons d a =>
      have hd : (d :: a).getLast? ≠ some 32 := by simpa using h
      have ih := ih (by simp) hd
      cases hw : wordsIn (d :: a) with
      | nil => exact absurd hw (wordsIn_some (by simp) hd)
      | cons x ws =>
        obtain ⟨k, t⟩ := x
        rw [hw] at ih
        rw [List.cons_append, wordsIn, ih, wordsIn, hw]
        split
        · simp
        · cases k <;> simp

/-- The name of the command and the message. -/
theorem error_line {rules : List Str} {sp : Splitter} (hsp : Splitter.addWords [] rules = .ok sp) {w : Nat} {f : Formatter} (h : Begins sp w [] 0 [] f) {name msg : Str}
    (hn : OneLine name ∧ ∀ x ∈ (wordsIn (name ++ b!":")).head?, ¬ Marker x.2) (hm : msg.head? ≠ some 32) (ht : Fills rules w 0 (name ++ b!": " ++ msg)) :
    ∃ f1 f2, f.writeWords (name ++ b!": ") = .ok f1 ∧ f1.writeWords msg = .ok f2 ∧ Begins sp w [] 0 (Spec.setText w 0 (name ++ b!": " ++ msg) ++ [10]) f2.newline := by
  obtain ⟨⟨n1, n2, n3, n4⟩, hmark⟩ := hn
  obtain ⟨a, ha⟩ : ∃ a, name ++ b!":" = a := ⟨_, rfl⟩
  rw [ha] at hmark
  have ha0 : a ≠ [] := by rw [← ha]; simp
  have hap : ∀ c ∈ a, c ≠ 9 ∧ c ≠ 10 ∧ c ≠ 13 := by
    intro c hc
    rw [← ha] at hc
    rcases List.mem_append.mp hc with hc | hc
    · exact n2 c hc
    · simp at hc
      subst hc
      decide
  have hlast : a.getLast? ≠ some 32 := by rw [← ha]; simp
  have ha32 : a.head? ≠ some 32 := by
    rw [← ha]
    cases name with
    | nil => exact absurd rfl n1
    | cons c name => simpa using n3
  have e1 : name ++ b!": " = a ++ [32] := by rw [← ha]; simp
  rw [e1] at ht ⊢
  have e2 : a ++ [32] ++ msg = a ++ 32 :: msg := by simp
  rw [e2] at ht ⊢
  obtain ⟨t9, tu, tl⟩ := ht
  have twh := whole_utf8 tu
  have hwa : Argos.Whole a := Argos.Whole.prefix twh (by intro c hc; simp at hc; subst hc; decide)
  have hwm : Argos.Whole msg := (whole_ascii (s := [32]) (by simp)).of_append (t := msg) (hwa.of_append twh)
  -- the first line
  obtain ⟨l, ls, q1, q2⟩ := textLines_plain (a ++ [32]) (by
    intro c hc
    rcases List.mem_append.mp hc with hc | hc
    · exact (hap c hc).2
    · simp at hc
      subst hc
      decide) msg
  rw [e2] at q2
  have hls := tl (a ++ [32] ++ l) (by rw [q2]; simp)
  have hlr : ∀ l' ∈ ls, LineFills rules w 0 l' := fun l' hl' => tl l' (by rw [q2]; simp [hl'])
  have e3 : a ++ [32] ++ l = a ++ 32 :: l := by simp
  rw [e3] at hls q2
  obtain ⟨hwl, j, hj⟩ := wordsIn_line a hap
  have hj0 : j = 0 := by
    cases j with
    | zero => rfl
    | succ j =>
      refine absurd ?_ hlast
      rw [hj]
      show (rendered _ ++ List.replicate (j + 1) 32).getLast? = _
      rw [List.replicate_succ', ← List.append_assoc]
      simp
  subst hj0
  cases hw : wordsIn a with
  | nil => exact absurd hw (wordsIn_some ha0 hlast)
  | cons x ws =>
    obtain ⟨k, t⟩ := x
    rw [hw] at hwl hj hmark
    have hk : k = 0 := by
      cases k with
      | zero => rfl
      | succ k =>
        refine absurd ?_ ha32
        rw [hj]
        simp [rendered, spaces_succ]
    subst hk
    have hmk : ¬ Marker t := hmark (0, t) (by simp)
    have hall : wordsIn (a ++ 32 :: l) = (0, t) :: (ws ++ after 1 (wordsIn l)) := by
      rw [wordsIn_behind ha0 hlast, hw]
      rfl
    have hhang : hangOf 0 ((0, t) :: (ws ++ after 1 (wordsIn l))) = 0 := by
      cases ws ++ after 1 (wordsIn l) with
      | nil => rfl
      | cons y ys =>
        obtain ⟨i, u⟩ := y
        simp [hangOf, hmk]
    unfold LineFills at hls
    rw [hall] at hls
    simp only [hhang, Nat.zero_add] at hls
    obtain ⟨f1, f2, _⟩ := hls
    have hwords := (whole_words _ hwl (t := spaces 0) (by rw [← hj]; exact hwa) (by simp [spaces])).1
    obtain ⟨⟨t1, t2⟩, t3⟩ := hwl
    simp only at t1 t2
    have htw := hwords (0, t) (by simp)
    simp only at htw
    have hws' : WordList ws := by
      cases ws with
      | nil => trivial
      | cons y ws => exact ⟨(t3 y (by simp)).2, fun z hz => t3 z (by simp [hz])⟩
    -- the first word
    obtain ⟨g1, b1, b2, b3⟩ := blank_word (col := 0) (base := []) (t := t) (st := .noAlignment) ⟨h.out, h.line, h.cur, h.spaces, h.indents, h.indent, h.state, h.width, h.splitter⟩ t1
      (fun h0 => t2 10 h0 (by simp [isBlank])) htw (by omega) (.inl rfl)
    rw [if_neg hmk] at b3
    obtain ⟨g2, c1, c2⟩ := at_run (j := 1) (.inl rfl) ws hws' (fun x hx => ⟨hwords x (by simp [hx]), by simpa using (f2 x (by simp [hx])).1, unruled_of hsp (f2 x (by simp [hx])).2⟩) b3 (.inl b2)
    rw [after_zero] at c1
    have r1 : f.writeWords (a ++ [32]) = .ok g2 := by
      have e : a ++ [32] = t ++ (rendered ws ++ spaces 1 ++ []) := by
        rw [hj]
        simp [rendered, spaces]
      unfold writeWords
      rw [e]
      obtain ⟨fuel1, d1, d2⟩ := loop_word (fuel := (t ++ (rendered ws ++ spaces 1 ++ [])).length) t1 t2 (r := rendered ws ++ spaces 1 ++ []) (by
        intro c hc
        cases ws with
        | nil =>
          simp [rendered, spaces] at hc
          exact .inl hc.symm
        | cons y ws =>
          obtain ⟨i, u⟩ := y
          have := (t3 (i, u) (by simp)).1
          obtain ⟨i, rfl⟩ : ∃ m, i = m + 1 := ⟨i - 1, by simp only at this; omega⟩
          simp only [rendered, List.flatMap_cons, spaces_succ, List.cons_append, List.head?_cons, Option.some.injEq] at hc
          exact .inl hc.symm) (Nat.le_refl _) b1
      obtain ⟨fuel2, i1, i2⟩ := c2 [] fuel1 (by simp) (by simp) d2
      rw [d1, i1, wordsLoop_nil]
      unfold endAlignment
      rw [if_neg (by rw [c1.state]; simp)]
    -- the message
    obtain ⟨g3, k1, k2⟩ := from_set hsp (text := msg) (fuel := msg.length) (fun h0 => t9 (by simp [h0])) hwm (fun l' ls' hl' => by
      rw [q1] at hl'
      simp only [List.cons.injEq] at hl'
      obtain ⟨rfl, rfl⟩ := hl'
      refine ⟨fun x hx => ?_, hlr⟩
      have : ∃ y ∈ ws ++ after 1 (wordsIn l), y.2 = x.2 := by
        cases hwi : wordsIn l with
        | nil => rw [hwi] at hx; simp at hx
        | cons z zs =>
          rw [hwi] at hx
          rcases List.mem_cons.mp hx with rfl | hx
          · exact ⟨(1 + x.1, x.2), by simp [after], rfl⟩
          · exact ⟨x, by simp [after, hx], rfl⟩
      obtain ⟨y, hy, e⟩ := this
      have := f2 y hy
      rw [e] at this
      simpa using this) c1 (.inr hm) (Nat.le_refl _)
    have e5 : Spec.setText w 0 (a ++ 32 :: msg) = (t ++ fill w 0 (glyphs t) ws) ++ setFrom w 0 (fillEnd w 0 (glyphs t) ws) ((if ws = [] then 0 else 0) + 1) msg := by
      unfold Spec.setText setFrom
      rw [q1, q2]
      have hsl : setLine w 0 (a ++ 32 :: l) = t ++ fill w 0 (glyphs t) ws ++ fill w 0 (fillEnd w 0 (glyphs t) ws) (after 1 (wordsIn l)) := by
        unfold setLine
        rw [hall]
        simp only [hhang]
        rw [(fill_append _ _ _ _ _).1]
        simp [spaces]
      have e1 : (if ws = [] then 0 else 0) + 1 = 1 := by split <;> rfl
      rw [List.map_cons, hsl, e1]
      simp only
      cases ls with
      | nil => simp [joinLines]
      | cons m ms =>
        rw [joinLines_cons _ (by simp), joinLines_cons _ (by simp)]
        simp
    refine ⟨g2, g3, r1, k1, ?_⟩
    rw [e5]
    have e6 : ([] : Str) ++ (spaces 0 ++ t) ++ fill w 0 (0 + glyphs t) ws = t ++ fill w 0 (glyphs t) ws := by simp [spaces]
    have e7 : (0 + glyphs t) = glyphs t := by omega
    rw [e6, e7] at k2
    rcases k2 with ⟨k2, _⟩ | ⟨col', k', k2⟩
    · exact begins_newline k2
    · exact at_newline k2

/-- Error messages. -/
theorem error_set {console : Nat} (texts : Nat → Str) {d : ParserData} {cmd : Command} {msg : Str} (hc : 2 < console)
    (hw : d.helpSettings.lineWidth = 0 ∨ 2 < d.helpSettings.lineWidth) {sp : Splitter} (hsp : Splitter.addWords [] d.helpSettings.wordSplitRules = .ok sp)
    (hf : Flagged cmd) (ht : ErrorFills d.helpSettings.wordSplitRules (if d.helpSettings.lineWidth ≠ 0 then d.helpSettings.lineWidth else console) texts cmd msg) :
    ∃ f, writeErrorMessage console texts d cmd msg = .ok f ∧
      f.written = errorPage (if d.helpSettings.lineWidth ≠ 0 then d.helpSettings.lineWidth else console) texts cmd msg := by
  obtain ⟨w, hwd⟩ : ∃ w, (if d.helpSettings.lineWidth ≠ 0 then d.helpSettings.lineWidth else console) = w := ⟨_, rfl⟩
  have hw2 : 2 < w := by
    rw [← hwd]
    split <;> omega
  unfold writeErrorMessage
  rw [makeFormatter_ok hc hw hsp, Outcome.bind_ok]
  rw [hwd] at ht ⊢
  obtain ⟨f1, f2, a1, a2, a3⟩ := error_line hsp (fresh_begins hw2) ht.name ht.start ht.text
  have hwr : ∀ f : Formatter, f.written = f.writer.out ++ f.writer.line := fun _ => rfl
  have hlead : ∀ ps : List Str, ps.length ≤ 1 → lead false ps = ps.flatten := by
    intro ps hps
    match ps with
    | [] => rfl
    | [p] => simp [lead, separated]
  rw [a1, Outcome.bind_ok, a2, Outcome.bind_ok, customText_eq]
  unfold errorPage
  cases hcu : custom texts cmd .errorUsage with
  | some s =>
    simp only
    obtain ⟨f3, b1, b2⟩ := custom_set hsp a3 texts cmd .errorUsage false (by rw [hcu]; exact ht.custom_ s hcu)
    refine ⟨f3, b1, ?_⟩
    rw [hwr, b2.line, List.append_nil, b2.out, hcu, hlead _ (by simp only [Option.getD_some]; unfold filledParagraph; split <;> simp)]
    rfl
  | none =>
    simp only
    obtain ⟨f3, b1, b2⟩ := usage_set hsp a3 texts hf false (ht.usage hcu)
    refine ⟨f3, b1, ?_⟩
    rw [hwr, b2.line, List.append_nil, b2.out, hlead _ (by unfold filledUsageParagraphs; split <;> (try split) <;> simp)]

end Formatter
end Argos
