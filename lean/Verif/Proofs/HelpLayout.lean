import Verif.Proofs.Layout
import Verif.Proofs.Print

/-! # The layout of the help text -/

namespace Argos
open Spec

theorem foldl_max_le (ns : List Nat) : ∀ a : Nat, a ≤ ns.foldl max a ∧ (∀ n ∈ ns, n ≤ ns.foldl max a) ∧ (ns.foldl max a = a ∨ ns.foldl max a ∈ ns) := by
  induction ns with
  | nil => intro a; simp
  | cons n ns ih =>
    intro a
    obtain ⟨h1, h2, h3⟩ := ih (max a n)
    rw [List.foldl_cons]
    refine ⟨by omega, ?_, ?_⟩
    · intro m hm
      rcases List.mem_cons.mp hm with rfl | hm
      · omega
      · exact h2 m hm
    · rcases h3 with h3 | h3
      · rw [h3]
        by_cases h : a ≤ n
        · exact .inr (by rw [Nat.max_eq_right h]; simp)
        · exact .inl (by omega)
      · exact .inr (List.mem_cons_of_mem _ h3)

theorem le_greatest {ns : List Nat} {n : Nat} (h : n ∈ ns) : n ≤ greatest ns := by
  unfold greatest
  cases hm : ns.max? with
  | none =>
    rw [List.max?_eq_none_iff] at hm
    rw [hm] at h
    simp at h
  | some m =>
    rw [List.max?_eq_some_iff] at hm
    exact hm.2 n h

theorem greatest_mem (ns : List Nat) : greatest ns = 0 ∨ greatest ns ∈ ns := by
  unfold greatest
  cases hm : ns.max? with
  | none => exact .inl rfl
  | some m =>
    rw [List.max?_eq_some_iff] at hm
    exact .inr hm.1

/-- The same numbers have the same greatest number. -/
theorem foldl_max_greatest {ns ms : List Nat} (h : ∀ n, n ∈ ns ↔ n ∈ ms) : ns.foldl max 0 = greatest ms := by
  obtain ⟨h1, h2, h3⟩ := foldl_max_le ns 0
  apply Nat.le_antisymm
  · rcases h3 with h3 | h3
    · omega
    · exact le_greatest ((h _).mp h3)
  · rcases greatest_mem ms with h4 | h4
    · omega
    · exact h2 _ ((h _).mpr h4)

theorem mem_sectionsOf (es : List Entry) (x : Str × Str) : x ∈ (sectionsOf es).flatMap (·.2) ↔ ∃ e ∈ es, x = (e.label, e.text) := by
  unfold sectionsOf sections
  simp only [List.mem_flatMap, List.mem_map, List.map_map, Function.comp_def]
  constructor
  · rintro ⟨s, ⟨t, _, rfl⟩, hx⟩
    simp only [List.mem_map, List.mem_filter] at hx
    obtain ⟨e, ⟨he, _⟩, rfl⟩ := hx
    exact ⟨e, he, rfl⟩
  · rintro ⟨e, he, rfl⟩
    refine ⟨_, ⟨e.heading, List.mem_eraseDups.mpr (List.mem_map_of_mem he), rfl⟩, ?_⟩
    simp only [List.mem_map, List.mem_filter]
    exact ⟨e, ⟨he, by simp⟩, rfl⟩

theorem labelWidth_eq (width : Nat) (es : List Entry) : labelWidth width (sectionsOf es) = if TwoColumns width es then textColumn es else 0 := by
  have h1 : (((sectionsOf es).flatMap (·.2)).map (·.1.length)).foldl max 0 = greatest (es.map (·.label.length)) := by
    refine foldl_max_greatest fun n => ?_
    simp only [List.mem_map, mem_sectionsOf]
    constructor
    · rintro ⟨x, ⟨e, he, rfl⟩, rfl⟩
      exact ⟨e, he, rfl⟩
    · rintro ⟨e, he, rfl⟩
      exact ⟨_, ⟨e, he, rfl⟩, rfl⟩
  have h2 : (((sectionsOf es).flatMap (·.2)).map (·.2.length)).foldl max 0 = greatest (es.map (·.text.length)) := by
    refine foldl_max_greatest fun n => ?_
    simp only [List.mem_map, mem_sectionsOf]
    constructor
    · rintro ⟨x, ⟨e, he, rfl⟩, rfl⟩
      exact ⟨e, he, rfl⟩
    · rintro ⟨e, he, rfl⟩
      exact ⟨_, ⟨e, he, rfl⟩, rfl⟩
  unfold labelWidth
  simp only [h1, h2]
  by_cases h : TwoColumns width es
  · rw [if_pos h]
    unfold TwoColumns textColumn at h
    rw [if_neg (by omega)]
    rfl
  · rw [if_neg h]
    unfold TwoColumns textColumn at h
    rw [if_pos (by omega)]

theorem isListMarker_iff (s : Str) : isListMarker s = true ↔ Marker s := by
  unfold isListMarker Marker
  match s with
  | [] => simp
  | [c] => simp
  | a :: b :: r =>
    simp only [Bool.and_eq_true, beq_iff_eq, List.all_eq_true, List.length_cons]
    constructor
    · rintro ⟨h1, h2⟩
      refine .inr (.inr ⟨by omega, h1, fun c hc => ?_⟩)
      have := h2 c hc
      unfold Splitter.isDigit at this
      simpa using this
    · rintro (h | h | ⟨_, h1, h2⟩)
      · simp at h
      · simp at h
      · refine ⟨h1, fun c hc => ?_⟩
        unfold Splitter.isDigit
        simpa using h2 c hc

namespace Formatter

theorem Writes.cast {base : List Nat} {n : Nat} {f f' : Formatter} {s t : Str} (a : Writes base n f f' s) (h : s = t) : Writes base n f f' t := h ▸ a

theorem forEach_writes {α : Type} {base : List Nat} {n : Nat} {act : α → Formatter → Outcome Formatter} (g : α → Str) (w : Nat) (xs : List α) :
    (∀ x ∈ xs, ∀ f, Calm base n f → f.writer.lineWidth = w → ∃ f', act x f = .ok f' ∧ Writes base n f f' (g x)) →
    ∀ {f : Formatter}, Calm base n f → f.writer.lineWidth = w → ∃ f', forEach act xs f = .ok f' ∧ Writes base n f f' (xs.flatMap g) := by
  induction xs with
  | nil => intro _ f h _; exact ⟨f, rfl, .refl h⟩
  | cons x xs ih =>
    intro hx f h hw
    obtain ⟨f1, a1, a2⟩ := hx x (by simp) f h hw
    obtain ⟨f', b1, b2⟩ := ih (fun y hy => hx y (by simp [hy])) a2.calm (a2.width.trans hw)
    refine ⟨f', ?_, ?_⟩
    · unfold forEach
      rw [a1, Outcome.bind_ok, b1]
    · rw [List.flatMap_cons]
      exact a2.trans b2

theorem forEach_map {α β : Type} {act : β → Formatter → Outcome Formatter} (k : α → β) (xs : List α) (f : Formatter) :
    forEach act (xs.map k) f = forEach (fun x => act (k x)) xs f := by
  induction xs generalizing f with
  | nil => rfl
  | cons x xs ih =>
    simp only [List.map_cons, forEach]
    congr 1
    exact funext fun f' => ih f'

theorem calm_newline {base : List Nat} {n : Nat} {f : Formatter} (h : Calm base n f) : Writes base n f f.newline [10] := by
  refine ⟨⟨rfl, rfl, rfl, h.indents, h.indent, h.state, h.narrow⟩, ?_, rfl⟩
  show f.writer.out ++ (f.writer.line ++ [10]) = _
  rw [h.line]
  rfl

theorem calm_ite {base : List Nat} {n : Nat} {f : Formatter} (h : Calm base n f) (b : Bool) : Writes base n f (if b then f.newline else f) (if b then [10] else []) := by
  cases b
  · exact .refl h
  · exact calm_newline h

/-- The empty text writes nothing. -/
theorem writeWords_nil {f : Formatter} (h : ¬ f.Aligning) : f.writeWords [] = .ok f := by
  unfold writeWords wordsLoop endAlignment
  rw [if_neg (by exact h)]

/-- A line with a title, which may be empty. -/
theorem writeWords_title {base : List Nat} {n : Nat} {f : Formatter} {t : Str} (h : Calm base n f) (ht : t = [] ∨ (OneLine t ∧ n + t.length ≤ f.writer.lineWidth)) :
    ∃ f', f.writeWords t = .ok f' ∧ Writes base n f f'.newline ((if t = [] then [] else List.replicate n 32 ++ t) ++ [10]) := by
  rcases ht with rfl | ⟨h1, h2⟩
  · exact ⟨f, writeWords_nil h.state, calm_newline h⟩
  · obtain ⟨f', a1, a2, a3⟩ := writeWords_whole h h1 h2
    refine ⟨f', a1, ?_⟩
    rw [if_neg h1.1]
    exact a3

theorem calm_push {base : List Nat} {n m : Nat} {f : Formatter} (h : Calm base n f) (hm : m < f.writer.lineWidth) : Writes (n :: base) m f (f.pushIndentation m) [] := by
  unfold pushIndentation
  rw [setIndentation_lt hm, h.indents]
  exact ⟨⟨h.line, h.cur, h.spaces, rfl, rfl, h.state, hm⟩, by simp, rfl⟩

theorem calm_pop {base : List Nat} {n m : Nat} {f : Formatter} (h : Calm (n :: base) m f) (hn : n < f.writer.lineWidth) :
    ∃ f', f.popIndentation = .ok f' ∧ Writes base n f f' [] := by
  rw [pop_push h.indents hn]
  exact ⟨_, rfl, ⟨h.line, h.cur, h.spaces, rfl, rfl, h.state, hn⟩, by simp, rfl⟩

theorem writeSection_writes {f : Formatter} (h : Calm [] 0 f) (h2 : 2 < f.writer.lineWidth) (col : Nat) (b : Bool) (title : Str) (es : List Entry) (g : Entry → Str)
    (ht : FitsOn f.writer.lineWidth title)
    (he : ∀ e ∈ es, ∀ f1, Calm [0] 2 f1 → f1.writer.lineWidth = f.writer.lineWidth → ∃ f', writeEntry col (e.label, e.text) f1 = .ok f' ∧ Writes [0] 2 f1 f' (g e)) :
    ∃ f', writeSection col b (title, es.map fun e => (e.label, e.text)) f = .ok f' ∧
      Writes [] 0 f f' ((if b then [10] else []) ++ (title ++ [10] ++ es.flatMap g)) := by
  unfold writeSection
  have a := calm_ite h b
  obtain ⟨f0, hf0⟩ : ∃ f0, (if b then f.newline else f) = f0 := ⟨_, rfl⟩
  rw [hf0] at a
  simp only [hf0]
  obtain ⟨f1, b1, b2⟩ := writeWords_title (t := title) a.calm (by
    rcases ht with h1 | ⟨h1, h2⟩
    · exact .inl h1
    · exact .inr ⟨h1, by rw [a.width]; omega⟩)
  rw [b1, Outcome.bind_ok]
  have hw : f1.newline.writer.lineWidth = f.writer.lineWidth := b2.width.trans a.width
  have c := calm_push (m := 2) b2.calm (by rw [hw]; exact h2)
  obtain ⟨f2, d1, d2⟩ := forEach_writes (act := fun e : Entry => writeEntry col (e.label, e.text)) g f.writer.lineWidth es he c.calm (c.width.trans hw)
  rw [forEach_map, d1, Outcome.bind_ok]
  obtain ⟨f3, e1, e2⟩ := calm_pop d2.calm (by rw [d2.width, c.width, hw]; omega)
  refine ⟨f3, e1, e2.calm, ?_, ?_⟩
  · rw [e2.out, d2.out, c.out, b2.out, a.out]
    by_cases h0 : title = [] <;> simp [h0]
  · rw [e2.width, d2.width, c.width, hw]

/-- Paragraphs, with an empty line before the first one if there is something before it. -/
def lead (b : Bool) (ps : List Str) : Str := if ps = [] then [] else (if b then [10] else []) ++ separated [10] ps

theorem lead_append (b : Bool) (ps qs : List Str) : lead b ps ++ lead (b || !ps.isEmpty) qs = lead b (ps ++ qs) := by
  unfold lead
  by_cases hp : ps = []
  · subst hp
    simp
  · have h1 : ps.isEmpty = false := by
      cases ps with
      | nil => exact absurd rfl hp
      | cons _ _ => rfl
    by_cases hq : qs = []
    · subst hq
      simp [hp]
    · have h2 : ps ++ qs ≠ [] := by simp [hp]
      rw [if_neg hp, if_neg hq, if_neg h2, separated_append _ hp hq, h1]
      cases b <;> simp

theorem lead_true (ps : List Str) : lead true ps = ps.flatMap fun p => [10] ++ p := by
  induction ps with
  | nil => rfl
  | cons p ps ih =>
    have h := lead_append true [p] ps
    rw [Bool.true_or, ih] at h
    rw [List.flatMap_cons, show p :: ps = [p] ++ ps from rfl, ← h]
    rfl

theorem forEach_sections {f : Formatter} (h : Calm [] 0 f) (col : Nat) (ss : List (Str × List Entry)) (g : Entry → Str)
    (hs : ∀ s ∈ ss, ∀ b f1, Calm [] 0 f1 → f1.writer.lineWidth = f.writer.lineWidth →
      ∃ f', writeSection col b (s.1, s.2.map fun e => (e.label, e.text)) f1 = .ok f' ∧ Writes [] 0 f1 f' ((if b then [10] else []) ++ (s.1 ++ [10] ++ s.2.flatMap g))) :
    ∃ f', forEach (writeSection col true) (ss.map fun s => (s.1, s.2.map fun e => (e.label, e.text))) f = .ok f' ∧
      Writes [] 0 f f' (lead true (ss.map fun s => s.1 ++ [10] ++ s.2.flatMap g)) := by
  rw [forEach_map, lead_true, List.flatMap_map]
  exact forEach_writes (act := fun s : Str × List Entry => writeSection col true (s.1, s.2.map fun e => (e.label, e.text)))
    (fun s => [10] ++ (s.1 ++ [10] ++ s.2.flatMap g)) f.writer.lineWidth ss (fun s hm f1 c w => hs s hm true f1 c w) h rfl

/-- The help list. -/
theorem writeSections_writes {f : Formatter} (h : Calm [] 0 f) (h2 : 2 < f.writer.lineWidth) (b : Bool) (es : List Entry) (hf : ListFits f.writer.lineWidth es) :
    ∃ f', writeSections b (sectionsOf es) f = .ok f' ∧ Writes [] 0 f f' (lead b (listParagraphs f.writer.lineWidth es)) := by
  obtain ⟨g, hg⟩ : ∃ g, (if TwoColumns f.writer.lineWidth es then columnsEntry (textColumn es) else stackedEntry) = g := ⟨_, rfl⟩
  obtain ⟨col, hcol⟩ : ∃ col, labelWidth f.writer.lineWidth (sectionsOf es) = col := ⟨_, rfl⟩
  have hentry : ∀ e ∈ es, ∀ f1, Calm [0] 2 f1 → f1.writer.lineWidth = f.writer.lineWidth →
      ∃ f', writeEntry col (e.label, e.text) f1 = .ok f' ∧ Writes [0] 2 f1 f' (g e) := by
    intro e he f1 c hw
    have l := hf.labels e he
    have t := hf.texts e he
    rw [labelWidth_eq] at hcol
    by_cases h2 : TwoColumns f.writer.lineWidth es
    · rw [if_pos h2] at hcol hg
      subst hcol hg
      have w1 : e.label.length ≤ greatest (es.map (·.label.length)) := le_greatest (List.mem_map_of_mem he)
      have w2 : e.text.length ≤ greatest (es.map (·.text.length)) := le_greatest (List.mem_map_of_mem he)
      have w3 := h2.2
      refine writeEntry_columns c (e := (e.label, e.text)) (by unfold textColumn; omega) l.1 (whole_utf8 (hf.valid h2 e he)) ?_ ?_ ?_
      · rcases t with t | t
        · exact .inl t
        · exact .inr t.1
      · show e.label.length + 3 ≤ textColumn es
        unfold textColumn
        omega
      · show textColumn es + e.text.length ≤ f1.writer.lineWidth
        omega
    · rw [if_neg h2] at hcol hg
      subst hcol hg
      refine writeEntry_stacked c (e := (e.label, e.text)) l.1 ?_ ?_ ?_
      · rcases t with t | t
        · exact .inl t
        · exact .inr t.1
      · show 2 + e.label.length ≤ f1.writer.lineWidth
        omega
      · intro hne
        rcases t with t | ⟨_, t | t⟩
        · exact absurd t hne
        · exact absurd t h2
        · show 8 + e.text.length ≤ f1.writer.lineWidth
          omega
  have hsection : ∀ s ∈ sections es, ∀ b f1, Calm [] 0 f1 → f1.writer.lineWidth = f.writer.lineWidth →
      ∃ f', writeSection col b (s.1, s.2.map fun e => (e.label, e.text)) f1 = .ok f' ∧ Writes [] 0 f1 f' ((if b then [10] else []) ++ (s.1 ++ [10] ++ s.2.flatMap g)) := by
    intro s hs b f1 c hw
    obtain ⟨t, ht, rfl⟩ := List.mem_map.mp hs
    refine writeSection_writes c (by omega) col b t _ g ?_ ?_
    · obtain ⟨e, he, rfl⟩ := List.mem_map.mp (List.mem_eraseDups.mp ht)
      rw [hw]
      exact hf.headings e he
    · intro e he f2 c2 hw2
      exact hentry e ((List.mem_filter.mp he).1) f2 c2 (hw2.trans hw)
  have hlist : listParagraphs f.writer.lineWidth es = (sections es).map fun s => s.1 ++ [10] ++ s.2.flatMap g := by
    unfold listParagraphs
    rw [hg]
  rw [hlist]
  unfold writeSections
  have hso : sectionsOf es = (sections es).map fun s => (s.1, s.2.map fun e => (e.label, e.text)) := rfl
  cases hss : sections es with
  | nil =>
    rw [hso, hss]
    exact ⟨f, rfl, .refl h⟩
  | cons s ss =>
    rw [hso, hss] at hcol ⊢
    simp only [List.map_cons] at hcol ⊢
    rw [hcol]
    rw [hss] at hsection
    obtain ⟨f1, a1, a2⟩ := hsection s (by simp) b f h rfl
    rw [a1, Outcome.bind_ok]
    obtain ⟨f2, b1, b2⟩ := forEach_sections a2.calm col ss g (fun s hm b f1 c hw => hsection s (by simp [hm]) b f1 c (hw.trans a2.width))
    refine ⟨f2, b1, (a2.trans b2).cast ?_⟩
    have := lead_append b [s.1 ++ [10] ++ s.2.flatMap g] (ss.map fun s => s.1 ++ [10] ++ s.2.flatMap g)
    simp only [List.isEmpty_cons, Bool.not_false, Bool.or_true] at this
    exact this

/-- A custom text. -/
theorem writeCustomText_writes {f : Formatter} (h : Calm [] 0 f) (texts : Nat → Str) (cmd : Command) (id : TextId) (b : Bool)
    (ht : FitsOn f.writer.lineWidth ((custom texts cmd id).getD [])) :
    ∃ f', writeCustomText texts cmd id b f = .ok f' ∧ Writes [] 0 f f' (lead b (paragraph ((custom texts cmd id).getD []))) ∧
      (¬ Marker ((custom texts cmd id).getD []) → f.state = .noAlignment → f'.state = .noAlignment) := by
  unfold writeCustomText
  rw [customText_eq]
  cases hc : custom texts cmd id with
  | none => exact ⟨f, rfl, .refl h, fun _ hs => hs⟩
  | some text =>
    rw [hc] at ht
    simp only [Option.getD_some] at ht ⊢
    rcases ht with rfl | ⟨h1, h2⟩
    · exact ⟨f, rfl, .refl h, fun _ hs => hs⟩
    · rw [if_neg h1.1]
      have a := calm_ite h b
      obtain ⟨f0, hf0⟩ : ∃ f0, (if b then f.newline else f) = f0 := ⟨_, rfl⟩
      rw [hf0] at a
      rw [hf0]
      obtain ⟨f1, b1, b2, b3⟩ := writeWords_whole (t := text) a.calm h1 (by rw [a.width]; omega)
      rw [b1]
      simp only [Outcome.bind_ok, Outcome.pure_eq]
      have hline : f1.writer.line ≠ [] := by
        rw [b2.line]
        simp [h1.1]
      rw [if_pos hline]
      refine ⟨_, rfl, (a.trans b3).cast ?_, fun hm hs => ?_⟩
      · unfold lead paragraph
        rw [if_neg h1.1]
        simp [separated]
      · refine b2.quiet (.inl ⟨?_, fun _ => ?_⟩)
        · rw [← hf0]
          cases b
          · rw [if_neg (by simp), hs]; simp
          · rw [if_pos rfl]
            show f.state ≠ _
            rw [hs]
            simp
        · cases hx : isListMarker text with
          | false => rfl
          | true => exact absurd ((isListMarker_iff text).mp hx) hm

/-! ### The generated usage -/

/-- A line has been begun; `k` spaces are due before the next text. -/
structure Mid (base : List Nat) (n w : Nat) (out s : Str) (k : Nat) (f : Formatter) : Prop where
  out : f.writer.out = out
  line : f.writer.line = s
  some_ : s ≠ []
  indents : f.indents = n :: base
  indent : f.writer.indent = n
  state : f.state = .noAlignment
  narrow : n < f.writer.lineWidth
  width : f.writer.lineWidth = w
  gap : f.writer.currentWidth = f.writer.cur + k
  bound : f.writer.cur ≤ s.length

theorem Mid.still {base : List Nat} {n w k : Nat} {out s : Str} {f : Formatter} (h : Mid base n w out s k f) : ¬ f.Aligning := by
  unfold Aligning
  rw [h.state]
  simp

theorem nextLine_one {t : Str} (h : ∀ c ∈ t, c ≠ 10 ∧ c ≠ 13) : nextLine t = .ok (t, []) := by
  have : t.takeWhile (fun c => decide (c ≠ 10 ∧ c ≠ 13)) = t := by
    induction t with
    | nil => rfl
    | cons c t ih => rw [List.takeWhile_cons, if_pos (decide_eq_true (h c (by simp))), ih fun x hx => h x (by simp [hx])]
  unfold nextLine
  simp only [this, List.drop_length]

theorem mid_lines {base : List Nat} {n w k : Nat} {out s t : Str} {f : Formatter} (h : Mid base n w out s k f) (ht : OneLine t) (hroom : s.length + k + t.length ≤ w) :
    ∃ f', f.writeLines t = .ok f' ∧ Mid base n w out (s ++ spaces k ++ t) 0 f' := by
  obtain ⟨t1, t2, t3, t4⟩ := ht
  have hb := h.bound
  have hg := h.gap
  have hw := h.width
  have hc := count_le_length t
  have hap : f.appendWord t = .ok { f with writer := f.writer.append t } := by
    unfold appendWord
    rw [show 3 * t.length + 3 = (3 * t.length + 2) + 1 from rfl]
    unfold appendLoop
    unfold Writer.write
    rw [if_neg (by omega)]
  have hcur : (f.writer.append t).cur = f.writer.cur + k + countCodePoints t := by
    unfold Writer.append
    simp only
    omega
  have hind : f.writer.indent ≤ f.writer.currentWidth := by unfold Writer.currentWidth; omega
  have hres : Mid base n w out (s ++ spaces k ++ t) 0 { f with writer := f.writer.append t } := by
    refine ⟨h.out, ?_, by simp [t1], h.indents, h.indent, h.state, h.narrow, h.width, ?_, ?_⟩
    · show f.writer.line ++ List.replicate (f.writer.currentWidth - f.writer.cur) 32 ++ t = _
      rw [h.line, hg, Nat.add_sub_cancel_left]
      rfl
    · show max (f.writer.append t).cur f.writer.indent + 0 = (f.writer.append t).cur + 0
      omega
    · show (f.writer.append t).cur ≤ _
      rw [hcur]
      simp only [spaces, List.length_append, List.length_replicate]
      omega
  refine ⟨_, ?_, hres⟩
  unfold writeLines
  have hl : ∃ m, t.length = m + 1 := ⟨t.length - 1, by have := List.length_pos_iff.mpr t1; omega⟩
  obtain ⟨m, hm⟩ := hl
  have hloop : linesLoop t.length f t = .ok { f with writer := f.writer.append t } := by
    cases t with
    | nil => exact absurd rfl t1
    | cons c t =>
      rw [hm]
      simp only [linesLoop]
      rw [nextLine_one fun c hc => ⟨(t2 c hc).2.1, (t2 c hc).2.2⟩, Outcome.bind_ok]
      simp only
      unfold appendLine
      rw [if_pos t1, hap, Outcome.bind_ok]
      cases m <;> simp [linesLoop]
  rw [hloop, Outcome.bind_ok]
  have hlast : ¬ (t.getLast? = some 10 ∨ t.getLast? = some 13) := by
    rintro (h0 | h0)
    · exact (t2 10 (List.mem_of_getLast? h0)).2.1 rfl
    · exact (t2 13 (List.mem_of_getLast? h0)).2.2 rfl
  rw [if_neg hlast]
  rfl

theorem mid_words {base : List Nat} {n w k : Nat} {out s t : Str} {f : Formatter} (h : Mid base n w out s k f) (ht : OneLine t) (hroom : s.length + k + t.length ≤ w) :
    ∃ f', f.writeWords t = .ok f' ∧ Mid base n w out (s ++ spaces k ++ t) 0 f' := by
  have hb := h.bound
  have hg := h.gap
  have hw := h.width
  obtain ⟨f', a1, a2⟩ := writeWords_line h.indents h.indent h.still h.narrow ht (by omega)
  refine ⟨f', a1, a2.out.trans h.out, ?_, by simp [ht.1], a2.indents, a2.indent, ?_, ?_, a2.width.trans hw, ?_, ?_⟩
  · rw [a2.line, h.line, hg, Nat.add_sub_cancel_left]
    rfl
  · refine a2.quiet (.inl ⟨by rw [h.state]; simp, fun h0 => ?_⟩)
    rw [h.line] at h0
    exact absurd h0 h.some_
  · rw [a2.width]
    exact h.narrow
  · have : n ≤ f.writer.currentWidth := by
      unfold Writer.currentWidth
      rw [h.indent]
      omega
    have := a2.low
    unfold Writer.currentWidth
    rw [a2.indent, a2.spaces]
    omega
  · have := a2.high
    simp only [spaces, List.length_append, List.length_replicate]
    omega

theorem mid_blank_eq {base : List Nat} {n w : Nat} {out s : Str} {f : Formatter} (h : Mid base n w out s 0 f) :
    f.writeWords b!" " = .ok { f with writer := f.writer.setSpaces 1 } := by
  have hl : f.writer.line.isEmpty = false := by
    rw [h.line]
    cases s with
    | nil => exact absurd rfl h.some_
    | cons _ _ => rfl
  show wordsLoop 1 f [32] = _
  simp only [wordsLoop]
  have : nextToken 32 [] = (.space, [32], []) := rfl
  simp only [this]
  have hb : f.writeToken .space [32] = .ok { f with writer := f.writer.setSpaces 1 } := by
    unfold writeToken
    simp only
    unfold beginAlignment
    have e1 : ({ f with writer := f.writer.setSpaces 1 } : Formatter).writer.line.isEmpty = false := hl
    simp only [List.length_singleton, e1, Bool.false_or, decide_eq_true_eq, h.state]
    rfl
  rw [hb, Outcome.bind_ok]
  unfold wordsLoop endAlignment
  rw [if_neg]
  simp only [h.state]
  simp

theorem mid_blank {base : List Nat} {n w : Nat} {out s : Str} {f : Formatter} (h : Mid base n w out s 0 f) :
    ∃ f', f.writeWords b!" " = .ok f' ∧ Mid base n w out s 1 f' := by
  have hg := h.gap
  refine ⟨_, mid_blank_eq h, h.out, h.line, h.some_, h.indents, h.indent, h.state, h.narrow, h.width, ?_, h.bound⟩
  unfold Writer.currentWidth at hg ⊢
  unfold Writer.setSpaces
  simp only
  omega

/-- A text behind the spaces that are due. -/
def gapped (k : Nat) (t : Str) : Str := if t = [] then [] else spaces k ++ t

theorem gapped_append (k : Nat) (a b : Str) : gapped k a ++ gapped (if a = [] then k else 0) b = gapped k (a ++ b) := by
  unfold gapped spaces
  by_cases ha : a = []
  · subst ha
    simp
  · by_cases hb : b = [] <;> simp [ha, hb]

theorem gapped_length (k : Nat) (t : Str) : (gapped k t).length ≤ k + t.length := by
  unfold gapped spaces
  split
  · simp
  · simp

/-- The step writes a text on the line. -/
def Puts (act : Formatter → Outcome Formatter) (t : Str) : Prop :=
  ∀ (base : List Nat) (n w k : Nat) (out s : Str) (f : Formatter), Mid base n w out s k f → (s ++ gapped k t).length ≤ w →
    ∃ f', act f = .ok f' ∧ Mid base n w out (s ++ gapped k t) (if t = [] then k else 0) f'

theorem puts_nothing : Puts (fun f => .ok f) [] := by
  intro base n w k out s f h _
  exact ⟨f, rfl, by simpa [gapped] using h⟩

theorem puts_words {t : Str} (ht : OneLine t) : Puts (fun f => f.writeWords t) t := by
  intro base n w k out s f h hl
  have hne := ht.1
  unfold gapped at hl ⊢
  rw [if_neg hne] at hl ⊢
  rw [if_neg hne]
  simp only [spaces, List.length_append, List.length_replicate] at hl
  obtain ⟨f', a1, a2⟩ := mid_words h ht (by omega)
  exact ⟨f', a1, by simpa using a2⟩

theorem Puts.then {a b : Formatter → Outcome Formatter} {s t : Str} (ha : Puts a s) (hb : Puts b t) : Puts (fun f => a f >>= b) (s ++ t) := by
  intro base n w k out l f h hl
  rw [← gapped_append, ← List.append_assoc, List.length_append] at hl
  obtain ⟨f1, a1, a2⟩ := ha _ _ _ _ _ _ _ h (by omega)
  obtain ⟨f2, b1, b2⟩ := hb _ _ _ _ _ _ _ a2 (by rw [List.length_append]; omega)
  refine ⟨f2, by simp only [a1, Outcome.bind_ok, b1], ?_⟩
  rw [List.append_assoc, gapped_append] at b2
  have : (if t = [] then if s = [] then k else 0 else 0) = if s ++ t = [] then k else 0 := by
    by_cases hs : s = [] <;> by_cases ht : t = [] <;> simp [hs, ht]
  rw [this] at b2
  exact b2

theorem Puts.cast {a : Formatter → Outcome Formatter} {s t : Str} (h : Puts a s) (e : s = t) : Puts a t := e ▸ h

theorem oneLine_byte {c : UInt8} (h : c ≠ 9 ∧ c ≠ 10 ∧ c ≠ 13 ∧ c ≠ 32) : OneLine [c] := by
  refine ⟨by simp, ?_, ?_, ?_⟩
  · intro x hx
    rw [List.mem_singleton.mp hx]
    exact ⟨h.1, h.2.1, h.2.2.1⟩
  · simp [h]
  · simp [h]

theorem puts_commandsLoop (cs : List Command) (hc : ∀ c ∈ cs, c.visibility.usage → OneLine c.name) : ∀ first : Bool,
    Puts (writeBriefCommandsLoop first cs)
      ((if first || (cs.filter (·.visibility.usage)).isEmpty then [] else b!"|") ++ separated b!"|" ((cs.filter (·.visibility.usage)).map (·.name))) := by
  induction cs with
  | nil =>
    intro first
    have := puts_nothing
    simpa [writeBriefCommandsLoop, separated] using this
  | cons c cs ih =>
    have ih := ih fun c hm => hc c (by simp [hm])
    intro first
    cases hv : c.visibility.usage with
    | false =>
      have := (ih first).cast (t := (if first || ((c :: cs).filter (·.visibility.usage)).isEmpty then [] else b!"|") ++
        separated b!"|" (((c :: cs).filter (·.visibility.usage)).map (·.name))) (by simp [hv])
      intro base n w k out s f h hl
      obtain ⟨f', a1, a2⟩ := this _ _ _ _ _ _ _ h hl
      refine ⟨f', ?_, a2⟩
      unfold writeBriefCommandsLoop
      rw [if_pos (by simp [hv])]
      exact a1
    | true =>
      have hname := hc c (by simp) hv
      have tail : Puts (fun f => f.writeWords c.name >>= fun f => writeBriefCommandsLoop false cs f) (separated b!"|" (((c :: cs).filter (·.visibility.usage)).map (·.name))) := by
        refine ((puts_words hname).then (ih false)).cast ?_
        rw [List.filter_cons_of_pos (by simpa using hv), List.map_cons]
        cases hr : cs.filter (·.visibility.usage) with
        | nil => simp [separated]
        | cons d ds => simp [separated]
      cases first with
      | true =>
        intro base n w k out s f h hl
        simp only [Bool.true_or, if_true, List.nil_append] at hl ⊢
        obtain ⟨f', a1, a2⟩ := tail _ _ _ _ _ _ _ h hl
        refine ⟨f', ?_, a2⟩
        unfold writeBriefCommandsLoop
        rw [if_neg (by simp [hv])]
        simp only [if_true]
        rw [Outcome.bind_ok]
        exact a1
      | false =>
        have bar := ((puts_words (t := b!"|") (oneLine_byte (by decide))).then tail).cast
          (t := (if false || ((c :: cs).filter (·.visibility.usage)).isEmpty then [] else b!"|") ++
            separated b!"|" (((c :: cs).filter (·.visibility.usage)).map (·.name))) (by simp [hv])
        intro base n w k out s f h hl
        obtain ⟨f', a1, a2⟩ := bar _ _ _ _ _ _ _ h hl
        refine ⟨f', ?_, a2⟩
        unfold writeBriefCommandsLoop
        rw [if_neg (by simp [hv])]
        simp only [Bool.false_eq_true, if_false]
        exact a1

theorem puts_commands {cmd : Command} (hc : ∀ c ∈ cmd.commands, c.visibility.usage → OneLine c.name) : Puts (writeBriefCommands cmd) (commandsUsage cmd) := by
  have loop := (puts_commandsLoop cmd.commands hc true).cast (t := separated b!"|" ((cmd.commands.filter (·.visibility.usage)).map (·.name))) (by simp)
  intro base n w k out s f h hl
  unfold writeBriefCommands
  unfold commandsUsage at hl ⊢
  cases he : cmd.commands.isEmpty with
  | true =>
    rw [he] at hl
    exact puts_nothing _ _ _ _ _ _ _ h hl
  | false =>
    rw [he] at hl
    simp only [Bool.false_eq_true, if_false] at hl ⊢
    by_cases hr : cmd.requireSubcommand = some true
    · rw [if_pos hr] at hl ⊢
      obtain ⟨f1, a1, a2⟩ := loop _ _ _ _ _ _ _ h hl
      refine ⟨f1, ?_, a2⟩
      rw [hr]
      simp only [Option.getD_some, Bool.not_true, Bool.false_eq_true, if_false]
      rw [Outcome.bind_ok, a1]
      rfl
    · rw [if_neg hr] at hl ⊢
      have hb : (!cmd.requireSubcommand.getD false) = true := by
        cases hc : cmd.requireSubcommand with
        | none => rfl
        | some b =>
          cases b with
          | false => rfl
          | true => exact absurd hc hr
      simp only [hb, if_true]
      have all := ((puts_words (t := b!"[") (oneLine_byte (by decide))).then (loop.then (puts_words (t := b!"]") (oneLine_byte (by decide))))).cast
        (t := b!"[" ++ separated b!"|" ((cmd.commands.filter (·.visibility.usage)).map (·.name)) ++ b!"]") (by simp)
      exact all _ _ _ _ _ _ _ h hl

theorem separated_space (name : Str) (items : List Str) : separated b!" " (name :: items) = name ++ items.flatMap fun t => b!" " ++ t := by
  induction items generalizing name with
  | nil => simp [separated]
  | cons t items ih =>
    rw [separated_cons (by simp), ih, List.flatMap_cons]
    simp

theorem forEach_items {α : Type} {act : α → Formatter → Outcome Formatter} (shown : α → Bool) (label : α → Str) (xs : List α)
    (h1 : ∀ x ∈ xs, shown x → OneLine (label x)) (h2 : ∀ x ∈ xs, shown x = false → ∀ f, act x f = .ok f)
    (h3 : ∀ x ∈ xs, shown x → ∀ f, act x f = f.writeLines (label x) >>= fun f => f.writeWords b!" ") :
    ∀ {base : List Nat} {n w : Nat} {out s : Str} {f : Formatter}, Mid base n w out s 1 f → (s ++ ((xs.filter shown).map label).flatMap fun t => b!" " ++ t).length ≤ w →
    ∃ f', forEach act xs f = .ok f' ∧ Mid base n w out (s ++ ((xs.filter shown).map label).flatMap fun t => b!" " ++ t) 1 f' := by
  induction xs with
  | nil =>
    intro base n w out s f h _
    exact ⟨f, rfl, by simpa using h⟩
  | cons x xs ih =>
    have ih := @ih (fun y hy => h1 y (by simp [hy])) (fun y hy => h2 y (by simp [hy])) (fun y hy => h3 y (by simp [hy]))
    intro base n w out s f h hl
    unfold forEach
    cases hs : shown x with
    | false =>
      rw [List.filter_cons_of_neg (by simp [hs])] at hl ⊢
      rw [h2 x (by simp) hs f, Outcome.bind_ok]
      exact ih h hl
    | true =>
      rw [List.filter_cons_of_pos hs, List.map_cons, List.flatMap_cons] at hl ⊢
      rw [← List.append_assoc] at hl ⊢
      have hlen : s.length + 1 + (label x).length ≤ w := by
        simp only [List.length_append, List.length_cons, List.length_nil] at hl
        omega
      obtain ⟨f1, a1, a2⟩ := mid_lines h (h1 x (by simp) hs) hlen
      obtain ⟨f2, b1, b2⟩ := mid_blank a2
      rw [h3 x (by simp) hs f, a1, Outcome.bind_ok, b1, Outcome.bind_ok]
      have e : s ++ spaces 1 ++ label x = s ++ (b!" " ++ label x) := by simp [spaces]
      rw [e] at b2
      exact ih b2 hl

/-- The name of the command at the beginning of a line, and the indentation behind it. -/
theorem mid_begin {f : Formatter} {name : Str} (h : Calm [0] 2 f) (hs : f.state = .noAlignment) (h1 : OneLine name) (h2 : ¬ Marker name) (h3 : name.length + 3 < f.writer.lineWidth) :
    ∃ f1 f2 m, f.writeWords name = .ok f1 ∧ f1.writeWords b!" " = .ok f2 ∧ Mid [2, 0] m f.writer.lineWidth f.writer.out (b!"  " ++ name) 1 f2.pushCurrent := by
  obtain ⟨f1, a1, a2, _⟩ := writeWords_whole h h1 (by omega)
  have hcw := calm_currentWidth h
  have hlow := a2.low
  have hhigh := a2.high
  rw [hcw] at hlow hhigh
  have m1 : Mid [0] 2 f.writer.lineWidth f.writer.out (b!"  " ++ name) 0 f1 := by
    refine ⟨a2.out, ?_, by simp, a2.indents, a2.indent, ?_, ?_, a2.width, ?_, ?_⟩
    · rw [a2.line, h.line, hcw, h.cur]
      rfl
    · refine a2.quiet (.inl ⟨by rw [hs]; simp, fun _ => ?_⟩)
      cases hx : isListMarker name with
      | false => rfl
      | true => exact absurd ((isListMarker_iff name).mp hx) h2
    · rw [a2.width]
      exact h.narrow
    · unfold Writer.currentWidth
      rw [a2.indent, a2.spaces]
      omega
    · simp only [List.length_append, List.length_cons, List.length_nil]
      omega
  obtain ⟨f2, b1, b2⟩ := mid_blank m1
  obtain ⟨g, hg⟩ : ∃ g, f2 = g := ⟨_, rfl⟩
  have hgap := b2.gap
  have hb := b2.bound
  have hw := b2.width
  simp only [List.length_append, List.length_cons, List.length_nil] at hb
  refine ⟨f1, f2, f2.writer.cur + 1, a1, b1, ?_⟩
  · unfold pushCurrent
    rw [hgap, setIndentation_lt (w := f2.writer.setSpaces 0) (show f2.writer.cur + 1 < f2.writer.lineWidth by omega), b2.indents]
    refine ⟨b2.out, b2.line, by simp, rfl, rfl, b2.state, ?_, b2.width, ?_, ?_⟩
    · show f2.writer.cur + 1 < f2.writer.lineWidth
      omega
    · show max f2.writer.cur (f2.writer.cur + 1) + 0 = f2.writer.cur + 1
      omega
    · show f2.writer.cur ≤ _
      simp only [List.length_append, List.length_cons, List.length_nil]
      omega

/-- The line ends. -/
theorem mid_end {m k : Nat} {w : Nat} {out s : Str} {f : Formatter} (h : Mid [2, 0] m w out s k f) (hw : 2 < w) :
    ∃ f1, f.popIndentation = .ok f1 ∧ Calm [0] 2 f1.newline ∧ f1.newline.writer.out = out ++ (s ++ [10]) ∧ f1.newline.writer.lineWidth = w ∧
      f1.newline.state = .noAlignment := by
  have hwd := h.width
  rw [pop_push h.indents (by omega)]
  refine ⟨_, rfl, ⟨rfl, rfl, rfl, rfl, rfl, h.still, ?_⟩, ?_, hwd, h.state⟩
  · show 2 < f.writer.lineWidth
    omega
  · show f.writer.out ++ (f.writer.line ++ [10]) = _
    rw [h.out, h.line]

theorem usageLines_room {width : Nat} {cmd : Command} (h : UsageFits width cmd) :
    (b!"  " ++ (cmd.fullName ++ (usageItems cmd).flatMap fun t => b!" " ++ t)).length ≤ width := by
  have := h.lines (separated b!" " (cmd.fullName :: usageItems cmd)) (by simp [usageLines])
  rw [separated_space] at this
  rw [List.length_append]
  exact this

theorem writeStopOption_writes {f : Formatter} (h : Calm [0] 2 f) (hs : f.state = .noAlignment) {cmd : Command} (hu : UsageFits f.writer.lineWidth cmd)
    (hf : Flagged cmd) {o : OptData} (ho : o ∈ cmd.options) :
    ∃ f', writeStopOption cmd.fullName o f = .ok f' ∧ f'.state = .noAlignment ∧
      Writes [0] 2 f f' (if o.visibility.usage ∧ EndsProgram o then b!"  " ++ (cmd.fullName ++ b!" " ++ stopUsage o) ++ b!"\n" else []) := by
  unfold writeStopOption
  by_cases hv : o.visibility.usage = true ∧ EndsProgram o
  · have hst := (isStop_iff o).mpr hv.2
    rw [if_neg (by simp [hv.1, hst]), if_pos hv]
    obtain ⟨f1, f2, m, a1, a2, a3⟩ := mid_begin h hs hu.name.1 hu.name.2.1 hu.name.2.2
    rw [a1, Outcome.bind_ok, a2, Outcome.bind_ok, briefOptionName_long (hf o ho).1 (hf o ho).2 hv.2, Outcome.bind_ok]
    have hline := hu.lines (cmd.fullName ++ b!" " ++ stopUsage o) (by
      unfold usageLines
      exact List.mem_append_left _ (List.mem_map.mpr ⟨o, by simp [ho, hv], rfl⟩))
    simp only [List.length_append, List.length_cons, List.length_nil] at hline
    obtain ⟨f3, b1, b2⟩ := mid_lines a3 (hu.stops o ho hv.1 hv.2) (by
      simp only [List.length_append, List.length_cons, List.length_nil]
      omega)
    rw [b1, Outcome.bind_ok]
    obtain ⟨f4, c1, c2⟩ := mid_blank b2
    rw [c1, Outcome.bind_ok]
    obtain ⟨f5, d1, d2, d3, d4, d5⟩ := mid_end c2 (by have := h.narrow; omega)
    rw [d1, Outcome.bind_ok]
    refine ⟨_, rfl, d5, d2, ?_, d4⟩
    rw [d3]
    simp [spaces]
  · rw [if_pos, if_neg hv]
    · exact ⟨f, rfl, hs, .refl h⟩
    · cases hu : o.visibility.usage with
      | false => rfl
      | true =>
        have : ¬ EndsProgram o := fun hp => hv ⟨hu, hp⟩
        rw [← isStop_iff] at this
        simpa using this

theorem stopOptions_writes {cmd : Command} (w : Nat) (hu : UsageFits w cmd) (hf : Flagged cmd) (os : List OptData) (hos : ∀ o ∈ os, o ∈ cmd.options) :
    ∀ {f : Formatter}, Calm [0] 2 f → f.state = .noAlignment → f.writer.lineWidth = w →
    ∃ f', forEach (writeStopOption cmd.fullName) os f = .ok f' ∧ f'.state = .noAlignment ∧
      Writes [0] 2 f f' (((os.filter fun o => o.visibility.usage ∧ EndsProgram o).map fun o => cmd.fullName ++ b!" " ++ stopUsage o).flatMap fun l => b!"  " ++ l ++ b!"\n") := by
  induction os with
  | nil => intro f h hs _; exact ⟨f, rfl, hs, .refl h⟩
  | cons o os ih =>
    intro f h hs hw
    obtain ⟨f1, a1, a2, a3⟩ := writeStopOption_writes h hs (hw ▸ hu) hf (hos o (by simp))
    obtain ⟨f2, b1, b2, b3⟩ := ih (fun x hx => hos x (by simp [hx])) a3.calm a2 (a3.width.trans hw)
    refine ⟨f2, ?_, b2, (a3.trans b3).cast ?_⟩
    · unfold forEach
      rw [a1, Outcome.bind_ok, b1]
    · by_cases hv : o.visibility.usage = true ∧ EndsProgram o
      · rw [if_pos hv, List.filter_cons_of_pos (by simpa using hv)]
        rfl
      · rw [if_neg hv, List.filter_cons_of_neg (by simpa using hv)]
        rfl

theorem writeBriefUsage_writes {f : Formatter} (h : Calm [] 0 f) (hs : f.state = .noAlignment) {cmd : Command} (hu : UsageFits f.writer.lineWidth cmd)
    (hf : Flagged cmd) (b : Bool) :
    ∃ f', writeBriefUsage cmd b f = .ok f' ∧
      Writes [] 0 f f' ((if b then [10] else []) ++ (usageLines cmd).flatMap fun l => b!"  " ++ l ++ b!"\n") := by
  have hw2 : 2 < f.writer.lineWidth := by have := hu.name.2.2; omega
  unfold writeBriefUsage
  have a := calm_ite h b
  obtain ⟨f0, hf0⟩ : ∃ f0, (if b then f.newline else f) = f0 := ⟨_, rfl⟩
  have hs0 : f0.state = .noAlignment := by
    rw [← hf0]
    cases b
    · exact hs
    · exact hs
  rw [hf0] at a
  simp only [hf0]
  have p := calm_push (m := 2) a.calm (by rw [a.width]; exact hw2)
  have hw1 : (f0.pushIndentation 2).writer.lineWidth = f.writer.lineWidth := p.width.trans a.width
  obtain ⟨f1, b1, b2, b3⟩ := stopOptions_writes f.writer.lineWidth hu hf cmd.options (fun o ho => ho) p.calm hs0 hw1
  unfold writeStopAndHelpUsage
  rw [b1, Outcome.bind_ok]
  have hwf1 : f1.writer.lineWidth = f.writer.lineWidth := b3.width.trans hw1
  obtain ⟨f2, f3, m, c1, c2, c3⟩ := mid_begin b3.calm b2 hu.name.1 hu.name.2.1 (by rw [hwf1]; exact hu.name.2.2)
  rw [c1, Outcome.bind_ok, c2, Outcome.bind_ok]
  have hroom := usageLines_room hu
  rw [hwf1] at c3
  have hsplit : (usageItems cmd).flatMap (fun t => b!" " ++ t) =
      ((cmd.options.filter fun o => o.visibility.usage ∧ ¬ EndsProgram o).map optionUsage).flatMap (fun t => b!" " ++ t) ++
      ((cmd.arguments.filter (·.visibility.usage)).map argumentLabel).flatMap (fun t => b!" " ++ t) ++ gapped 1 (commandsUsage cmd) := by
    unfold usageItems gapped
    rw [List.flatMap_append, List.flatMap_append]
    congr 1
    by_cases hc : commandsUsage cmd = []
    · rw [if_pos hc, if_pos hc]
      rfl
    · rw [if_neg hc, if_neg hc]
      simp [spaces]
  rw [hsplit] at hroom
  have r1 : (b!"  " ++ cmd.fullName ++ ((cmd.options.filter fun o => o.visibility.usage ∧ ¬ EndsProgram o).map optionUsage).flatMap (fun t => b!" " ++ t) ++
      ((cmd.arguments.filter (·.visibility.usage)).map argumentLabel).flatMap (fun t => b!" " ++ t) ++ gapped 1 (commandsUsage cmd)).length ≤ f.writer.lineWidth := by
    refine Nat.le_trans (Nat.le_of_eq ?_) hroom
    simp only [List.length_append]
    omega
  have r2 := r1
  rw [List.length_append] at r2
  have r3 := r2
  rw [List.length_append] at r3
  obtain ⟨f4, d1, d2⟩ := forEach_items (act := writeBriefOption) (fun o => decide (o.visibility.usage ∧ ¬ EndsProgram o)) optionUsage cmd.options
    (fun o ho hv => hu.options o ho (of_decide_eq_true hv).1 (of_decide_eq_true hv).2)
    (fun o ho hv f => by
      have hv := of_decide_eq_false hv
      unfold writeBriefOption
      rw [if_pos]
      cases hvu : o.visibility.usage with
      | false => rfl
      | true =>
        have : EndsProgram o := Decidable.not_not.mp fun hp => hv ⟨hvu, hp⟩
        rw [← isStop_iff] at this
        simpa using this)
    (fun o ho hv f => by
      have hv := of_decide_eq_true hv
      have hst : isStopOption o.type = false := by
        rw [← Bool.not_eq_true, isStop_iff]
        exact hv.2
      unfold writeBriefOption
      rw [if_neg (by simp [hv.1, hst]), briefOptionName_short (hf o ho).1 (hf o ho).2 hv.2, Outcome.bind_ok]) c3 (by omega)
  rw [d1, Outcome.bind_ok]
  obtain ⟨f5, e1, e2⟩ := forEach_items (act := writeBriefArgument) (·.visibility.usage) argumentLabel cmd.arguments
    (fun a ha hv => hu.arguments a ha hv)
    (fun a ha hv f => by
      unfold writeBriefArgument
      rw [if_pos (by simpa using hv)])
    (fun a ha hv f => by
      unfold writeBriefArgument
      rw [if_neg (by simp [hv]), argumentName_eq]) d2 (by omega)
  rw [e1, Outcome.bind_ok]
  obtain ⟨f6, g1, g2⟩ := puts_commands hu.commands _ _ _ _ _ _ _ e2 r1
  rw [g1, Outcome.bind_ok]
  obtain ⟨f7, i1, i2, i3, i4, _⟩ := mid_end g2 hw2
  rw [i1, Outcome.bind_ok]
  obtain ⟨f8, j1, j2⟩ := calm_pop i2 (by rw [i4]; omega)
  refine ⟨f8, j1, j2.calm, ?_, j2.width.trans i4⟩
  rw [j2.out, i3, b3.out, p.out, a.out]
  unfold usageLines
  rw [List.flatMap_append, separated_space, hsplit]
  simp

theorem writeUsageTitle_writes {f : Formatter} (h : Calm [] 0 f) (texts : Nat → Str) (cmd : Command) (b : Bool)
    (ht : FitsOn f.writer.lineWidth (usageTitle texts cmd)) :
    ∃ f1, writeUsageTitle texts cmd b f = .ok f1 ∧ Writes [] 0 f f1 (lead b (paragraph (usageTitle texts cmd))) ∧
      (¬ Marker (usageTitle texts cmd) → f.state = .noAlignment → f1.state = .noAlignment) := by
  unfold writeUsageTitle
  rw [customText_eq]
  unfold usageTitle at ht ⊢
  cases hct : custom texts cmd .usageTitle with
  | some t =>
    rw [hct] at ht
    have := writeCustomText_writes h texts cmd .usageTitle b (by rw [hct]; exact ht)
    rw [hct] at this
    exact this
  | none =>
    rw [hct] at ht
    simp only [Option.getD_none] at ht ⊢
    have a := calm_ite h b
    obtain ⟨f0, hf0⟩ : ∃ f0, (if b then f.newline else f) = f0 := ⟨_, rfl⟩
    rw [hf0] at a
    rw [hf0]
    rcases ht with ht | ht
    · simp at ht
    obtain ⟨f1, b1, b2, b3⟩ := writeWords_whole (t := b!"USAGE") a.calm ht.1 (by rw [a.width]; have := ht.2; omega)
    rw [b1, Outcome.bind_ok]
    refine ⟨_, rfl, (a.trans b3).cast ?_, fun hm hs => ?_⟩
    · simp [lead, paragraph, separated]
    · refine b2.quiet (.inl ⟨?_, fun _ => rfl⟩)
      rw [← hf0]
      cases b
      · rw [if_neg (by simp), hs]; simp
      · rw [if_pos rfl]
        show f.state ≠ _
        rw [hs]
        simp

/-- The empty line is before the title or before the usage. -/
theorem lead_usageTitle (texts : Nat → Str) (cmd : Command) {b b' : Bool} (hb' : (b && (custom texts cmd .usageTitle == some [])) = b') (s : Str) :
    lead b (paragraph (usageTitle texts cmd)) ++ ((if b' then [10] else []) ++ s) = lead b [lineOf (usageTitle texts cmd) ++ s] := by
  unfold lead paragraph lineOf separated
  have hbt : usageTitle texts cmd = [] ↔ (custom texts cmd .usageTitle == some []) = true := by
    unfold usageTitle
    cases hct : custom texts cmd .usageTitle with
    | none => simp
    | some t => simp
  by_cases h0 : usageTitle texts cmd = []
  · rw [hbt.mp h0, Bool.and_true] at hb'
    rw [if_pos h0, if_pos h0, ← hb']
    simp
  · have : (custom texts cmd .usageTitle == some []) = false := by
      rw [← Bool.not_eq_true, ← hbt]
      exact h0
    rw [this, Bool.and_false] at hb'
    rw [if_neg h0, if_neg h0, ← hb']
    simp

theorem writeUsage_writes {f : Formatter} (h : Calm [] 0 f) (texts : Nat → Str) {cmd : Command} (hf : Flagged cmd) (b : Bool)
    (ht : FitsOn f.writer.lineWidth (usageTitle texts cmd)) (hc : ∀ s, custom texts cmd .usage = some s → FitsOn f.writer.lineWidth s)
    (hg : custom texts cmd .usage = none → UsageFits f.writer.lineWidth cmd ∧ f.state = .noAlignment ∧ ¬ Marker (usageTitle texts cmd)) :
    ∃ f', writeUsage texts cmd b f = .ok f' ∧ Writes [] 0 f f' (lead b (usageParagraphs texts cmd)) := by
  unfold writeUsage usageParagraphs
  simp only [customText_eq]
  by_cases hu : custom texts cmd .usage = some []
  · rw [if_pos hu, hu]
    exact ⟨f, rfl, .refl h⟩
  · rw [if_neg hu]
    -- the title
    obtain ⟨f1, a1, a2, a3⟩ := writeUsageTitle_writes h texts cmd b ht
    rw [a1, Outcome.bind_ok]
    obtain ⟨b', hb'⟩ : ∃ b', (b && (custom texts cmd .usageTitle == some [])) = b' := ⟨_, rfl⟩
    have hlead := lead_usageTitle texts cmd hb'
    rw [hb']
    cases hcu : custom texts cmd .usage with
    | some t =>
      have hne : t ≠ [] := by
        rintro rfl
        exact hu hcu
      simp only
      obtain ⟨f2, b1, b2, _⟩ := writeCustomText_writes a2.calm texts cmd .usage b' (by rw [hcu, a2.width]; exact hc t hcu)
      refine ⟨f2, b1, (a2.trans b2).cast ?_⟩
      rw [hcu, if_neg hne]
      have e : lead b' (paragraph ((some t).getD [])) = (if b' then [10] else []) ++ (t ++ b!"\n") := by
        simp [lead, paragraph, hne, separated]
      rw [e, hlead]
      simp
    | none =>
      simp only
      obtain ⟨g1, g2, g3⟩ := hg hcu
      obtain ⟨f2, b1, b2⟩ := writeBriefUsage_writes a2.calm (a3 g3 g2) (by rw [a2.width]; exact g1) hf b'
      refine ⟨f2, b1, (a2.trans b2).cast ?_⟩
      rw [hlead]

theorem isEmptyText_eq (t : Option Str) : isEmptyText t = (paragraph (t.getD [])).isEmpty := by
  unfold isEmptyText paragraph
  cases t with
  | none => rfl
  | some s => cases s <;> rfl

theorem usageResult_eq (texts : Nat → Str) (cmd : Command) : usageResult texts cmd = !(usageParagraphs texts cmd).isEmpty := by
  unfold usageResult usageParagraphs
  rw [customText_eq]
  cases custom texts cmd .usage with
  | none => rfl
  | some s => cases s <;> rfl

theorem writeAbout_writes {f : Formatter} (h : Calm [] 0 f) (texts : Nat → Str) (cmd : Command) (b : Bool) (ht : FitsOn f.writer.lineWidth (aboutText texts cmd)) :
    ∃ f', writeAbout texts cmd b f = .ok f' ∧ Writes [] 0 f f' (lead b (paragraph (aboutText texts cmd))) := by
  unfold writeAbout
  rw [customText_eq]
  unfold aboutText at ht ⊢
  by_cases ha : (custom texts cmd .about).getD [] = []
  · rw [if_pos ha] at ht ⊢
    obtain ⟨f1, a1, a2, _⟩ := writeCustomText_writes h texts cmd .about b (.inl ha)
    rw [a1, Outcome.bind_ok]
    have he : isEmptyText (custom texts cmd .about) = true := by rw [isEmptyText_eq, ha]; rfl
    simp only [he, Bool.not_true, Bool.false_eq_true, if_false]
    obtain ⟨f2, b1, b2, _⟩ := writeCustomText_writes a2.calm texts cmd .help b (by rw [a2.width]; exact ht)
    refine ⟨f2, b1, (a2.trans b2).cast ?_⟩
    rw [ha]
    rfl
  · rw [if_neg ha] at ht ⊢
    obtain ⟨f1, a1, a2, _⟩ := writeCustomText_writes h texts cmd .about b ht
    rw [a1, Outcome.bind_ok]
    have he : isEmptyText (custom texts cmd .about) = false := by rw [isEmptyText_eq]; simp [paragraph, ha]
    simp only [he, Bool.not_false, if_true]
    exact ⟨f1, rfl, a2⟩

theorem fresh_calm {w : Nat} {sp : Splitter} (hw : 2 < w) : Calm [] 0 (fresh w sp) :=
  ⟨rfl, rfl, rfl, rfl, rfl, by simp [Aligning, fresh], by show 0 < w; omega⟩

/-- The help text. -/
theorem writeHelpText_writes {console : Nat} (texts : Nat → Str) {d : ParserData} {cmd : Command} (hc : 2 < console)
    (hw : d.helpSettings.lineWidth = 0 ∨ 2 < d.helpSettings.lineWidth) {sp : Splitter} (hsp : Splitter.addWords [] d.helpSettings.wordSplitRules = .ok sp)
    (hf : Flagged cmd) (ht : TextsFit (if d.helpSettings.lineWidth ≠ 0 then d.helpSettings.lineWidth else console) texts cmd) :
    ∃ f, writeHelpText console texts d cmd = .ok f ∧
      f.written = helpLayout (if d.helpSettings.lineWidth ≠ 0 then d.helpSettings.lineWidth else console) texts cmd := by
  obtain ⟨w, hwd⟩ : ∃ w, (if d.helpSettings.lineWidth ≠ 0 then d.helpSettings.lineWidth else console) = w := ⟨_, rfl⟩
  have hw2 : 2 < w := by
    rw [← hwd]
    split <;> omega
  unfold writeHelpText
  rw [makeFormatter_ok hc hw hsp, Outcome.bind_ok]
  rw [hwd] at ht ⊢
  have h0 : Calm [] 0 (fresh w sp) := fresh_calm hw2
  simp only [customText_eq, isEmptyText_eq, usageResult_eq]
  obtain ⟨f1, a1, a2, a3⟩ := writeCustomText_writes h0 texts cmd .initialText false ht.initial
  rw [a1, Outcome.bind_ok]
  have w1 : f1.writer.lineWidth = w := a2.width
  obtain ⟨p1, hp1⟩ : ∃ p, paragraph ((custom texts cmd .initialText).getD []) = p := ⟨_, rfl⟩
  rw [hp1] at a2 ⊢
  obtain ⟨f2, b1, b2⟩ := writeUsage_writes a2.calm texts hf (!p1.isEmpty) (by rw [w1]; exact ht.title) (fun s hs => by rw [w1]; exact ht.usage s hs)
    (fun hg => ⟨by rw [w1]; exact (ht.generated hg).1, a3 (ht.generated hg).2.1 rfl, (ht.generated hg).2.2⟩)
  rw [b1, Outcome.bind_ok]
  have w2 : f2.writer.lineWidth = w := b2.width.trans w1
  obtain ⟨p2, hp2⟩ : ∃ p, usageParagraphs texts cmd = p := ⟨_, rfl⟩
  rw [hp2] at b2 ⊢
  obtain ⟨f3, c1, c2⟩ := writeAbout_writes b2.calm texts cmd (!p2.isEmpty || !p1.isEmpty) (by rw [w2]; exact ht.about)
  rw [c1, Outcome.bind_ok]
  have w3 : f3.writer.lineWidth = w := c2.width.trans w2
  obtain ⟨p3, hp3⟩ : ∃ p, paragraph (aboutText texts cmd) = p := ⟨_, rfl⟩
  rw [hp3] at c2
  have hb : (!(paragraph ((custom texts cmd .about).getD [])).isEmpty || !(paragraph ((custom texts cmd .help).getD [])).isEmpty || (!p2.isEmpty || !p1.isEmpty)) =
      (!p1.isEmpty || !p2.isEmpty || !p3.isEmpty) := by
    rw [← hp3]
    unfold aboutText
    by_cases ha : (custom texts cmd .about).getD [] = []
    · rw [if_pos ha, ha]
      cases (paragraph ((custom texts cmd .help).getD [])).isEmpty <;> cases p1.isEmpty <;> cases p2.isEmpty <;> rfl
    · rw [if_neg ha]
      have : (paragraph ((custom texts cmd .about).getD [])).isEmpty = false := by simp [paragraph, ha]
      rw [this]
      cases (paragraph ((custom texts cmd .help).getD [])).isEmpty <;> cases p1.isEmpty <;> cases p2.isEmpty <;> rfl
  rw [hb]
  obtain ⟨f4, d1, d2⟩ := writeSections_writes c2.calm (by omega) (!p1.isEmpty || !p2.isEmpty || !p3.isEmpty) (entries texts cmd) (by rw [w3]; exact ht.list)
  unfold writeArgumentSections
  rw [argumentSections_eq texts hf, Outcome.bind_ok, d1, Outcome.bind_ok]
  have w4 : f4.writer.lineWidth = w := d2.width.trans w3
  obtain ⟨f5, e1, e2, _⟩ := writeCustomText_writes d2.calm texts cmd .finalText true (by rw [w4]; exact ht.final)
  refine ⟨f5, e1, ?_⟩
  have hwr : f5.written = f5.writer.out ++ f5.writer.line := rfl
  rw [hwr, e2.calm.line, List.append_nil, e2.out, d2.out, c2.out, b2.out, a2.out, w3]
  unfold helpLayout
  rw [hp1, hp2, hp3, lead_true]
  congr 1
  have o0 : (fresh w sp).writer.out = [] := rfl
  rw [o0, List.nil_append]
  have l1 := lead_append false p1 p2
  have l2 := lead_append false (p1 ++ p2) p3
  have l3 := lead_append false (p1 ++ p2 ++ p3) (listParagraphs w (entries texts cmd))
  have i1 : (false || !(p1 ++ p2).isEmpty) = (!p2.isEmpty || !p1.isEmpty) := by
    cases p1 <;> cases p2 <;> rfl
  have i2 : (false || !(p1 ++ p2 ++ p3).isEmpty) = (!p1.isEmpty || !p2.isEmpty || !p3.isEmpty) := by
    cases p1 <;> cases p2 <;> cases p3 <;> rfl
  rw [Bool.false_or] at l1
  rw [i1] at l2
  rw [i2] at l3
  rw [l1, l2, l3]
  unfold lead
  split
  · rename_i hn
    rw [hn]
    rfl
  · simp

end Formatter

end Argos
