import Verif.Spec.Help
import Verif.Model.HelpText
import Verif.Proofs.Format

/-! # The help text is laid out as specified -/

namespace Argos

open Spec Formatter

/-! ### Steps -/

theorem Laid.append {a b : List Str} {s t : Str} (h : Laid a s) (h' : Laid b t) : Laid (a ++ b) (s ++ t) := by
  induction h with
  | nil => exact h'
  | gap _ ih => exact .gap ih
  | block hb _ ih =>
    rw [List.append_assoc, List.cons_append]
    exact .block hb ih
  | blank hb _ ih => exact .blank hb ih

theorem Reflow.nil_blank {s t : Str} (h : Reflow s t) : t = [] → ∀ c ∈ s, isBlank c := by
  induction h with
  | nil => simp
  | keep => simp
  | drop hb _ ih =>
    intro ht x hx
    rcases List.mem_cons.mp hx with rfl | hx
    · exact hb
    · exact ih ht x hx
  | add => simp
  | hyphen => simp

/-- What is shown in the usage doesn't end with a carriage return. -/
def Endless (cmd : Command) : Prop :=
  (∀ o ∈ cmd.options, (optionUsage o).getLast? ≠ some 13 ∧ (stopUsage o).getLast? ≠ some 13) ∧
  ∀ a ∈ cmd.arguments, (argumentLabel a).getLast? ≠ some 13

namespace Formatter

/-- A formatter between two operations, with rules in UTF-8. -/
structure Prepared (f : Formatter) : Prop extends Ready f where
  clean : f.splitter.Clean

/-- A formatter has written a text and pushed at least `d` indentations. -/
structure Goes (d : Nat) (t : Str) (f f' : Formatter) : Prop where
  ready : Prepared f'
  width : f'.writer.lineWidth = f.writer.lineWidth
  level : f.indents.length + d ≤ f'.indents.length
  text : ∃ a, f'.writer.all = f.writer.all ++ a ∧ Reflow t a

/-- A formatter has written blocks and pushed at least `d` indentations. -/
structure Lays (d : Nat) (bs : List Str) (f f' : Formatter) : Prop where
  ready : Prepared f'
  width : f'.writer.lineWidth = f.writer.lineWidth
  level : f.indents.length + d ≤ f'.indents.length
  line : f'.writer.line = []
  text : ∃ a, f'.writer.all = f.writer.all ++ a ∧ Laid bs a

theorem goes_refl {f : Formatter} (h : Prepared f) : Goes 0 [] f f := ⟨h, rfl, Nat.le_refl _, [], by simp, .nil⟩

theorem lays_refl {f : Formatter} (h : Prepared f) (hl : f.writer.line = []) : Lays 0 [] f f := ⟨h, rfl, Nat.le_refl _, hl, [], by simp, .nil⟩

theorem Goes.trans {d d' : Nat} {s t : Str} {f g h : Formatter} (a : Goes d s f g) (b : Goes d' t g h) : Goes (d + d') (s ++ t) f h := by
  obtain ⟨x, x1, x2⟩ := a.text
  obtain ⟨y, y1, y2⟩ := b.text
  refine ⟨b.ready, b.width.trans a.width, ?_, x ++ y, by rw [y1, x1, List.append_assoc], Reflow.append x2 y2⟩
  have := a.level
  have := b.level
  omega

theorem Lays.trans {d d' : Nat} {s t : List Str} {f g h : Formatter} (a : Lays d s f g) (b : Lays d' t g h) : Lays (d + d') (s ++ t) f h := by
  obtain ⟨x, x1, x2⟩ := a.text
  obtain ⟨y, y1, y2⟩ := b.text
  refine ⟨b.ready, b.width.trans a.width, ?_, b.line, x ++ y, by rw [y1, x1, List.append_assoc], Laid.append x2 y2⟩
  have := a.level
  have := b.level
  omega

theorem goes_words {f : Formatter} (h : Prepared f) (s : Str) : ∃ f', f.writeWords s = .ok f' ∧ Goes 0 s f f' := by
  obtain ⟨f', a1, a2, a3, a4, a5, _⟩ := writeWords_ok h.toReady s
  exact ⟨f', a1, ⟨a2, by rw [a3.splitter]; exact h.clean⟩, a3.width, a5, a4 h.clean⟩

theorem goes_lines {f : Formatter} (h : Prepared f) {s : Str} (hcr : s.getLast? ≠ some 13) : ∃ f', f.writeLines s = .ok f' ∧ Goes 0 s f f' := by
  obtain ⟨f', a1, a2, a3, a4, _⟩ := writeLines_ok h.toReady hcr
  exact ⟨f', a1, ⟨a2, by rw [a3.splitter]; exact h.clean⟩, a3.width, by rw [a3.indents]; exact Nat.le_refl _, a4 h.clean⟩

theorem goes_newline {f : Formatter} (h : Prepared f) : Goes 0 [] f f.newline :=
  ⟨⟨(newline_same f).fine h.sane.newline h.toReady, h.clean⟩, rfl, Nat.le_refl _, [10], Writer.newline_all _, Reflow.newline⟩

theorem goes_push {f : Formatter} (h : Prepared f) (n : Nat) : Goes 1 [] f (f.pushIndentation n) :=
  ⟨⟨⟨⟨h.sane.setIndentation n, h.bounded, by simp [pushIndentation], fun hal => absurd hal h.ready⟩, h.ready⟩, h.clean⟩, setIndentation_width _ _,
    by simp [pushIndentation], [], by rw [List.append_nil]; exact setIndentation_all _ _, .nil⟩

theorem lays_push {f : Formatter} (h : Prepared f) (hl : f.writer.line = []) (n : Nat) : Lays 1 [] f (f.pushIndentation n) := by
  have g := goes_push h n
  refine ⟨g.ready, g.width, g.level, ?_, [], by rw [List.append_nil]; exact setIndentation_all _ _, .nil⟩
  simp only [pushIndentation, setIndentation_line]
  exact hl

theorem goes_pushCurrent {f : Formatter} (h : Prepared f) : Goes 1 [] f f.pushCurrent :=
  ⟨⟨⟨⟨(h.sane.setSpaces 0).setIndentation _, h.bounded, by simp [pushCurrent], fun hal => absurd hal h.ready⟩, h.ready⟩, h.clean⟩, setIndentation_width _ _,
    by simp [pushCurrent], [], by rw [List.append_nil]; exact setIndentation_all _ _, .nil⟩

theorem Goes.pop {d : Nat} {t : Str} {f g : Formatter} (a : Goes (d + 1) t f g) (h : Prepared f) : ∃ g', g.popIndentation = .ok g' ∧ Goes d t f g' := by
  have := List.length_pos_iff.mpr h.some_
  have := a.level
  obtain ⟨x, y, rest, h1, h2⟩ := popIndentation_ok (f := g) (by omega)
  obtain ⟨s, s1, s2⟩ := a.text
  refine ⟨_, h2, ⟨⟨⟨a.ready.sane.setIndentation y, a.ready.bounded, by simp, fun hal => absurd hal a.ready.ready⟩, a.ready.ready⟩, a.ready.clean⟩,
    (setIndentation_width _ _).trans a.width, ?_, s, (setIndentation_all _ _).trans s1, s2⟩
  rw [h1] at this
  simp only [List.length_cons] at this ⊢
  omega

theorem Lays.pop {d : Nat} {bs : List Str} {f g : Formatter} (a : Lays (d + 1) bs f g) (h : Prepared f) : ∃ g', g.popIndentation = .ok g' ∧ Lays d bs f g' := by
  have := List.length_pos_iff.mpr h.some_
  have := a.level
  obtain ⟨x, y, rest, h1, h2⟩ := popIndentation_ok (f := g) (by omega)
  obtain ⟨s, s1, s2⟩ := a.text
  refine ⟨_, h2, ⟨⟨⟨a.ready.sane.setIndentation y, a.ready.bounded, by simp, fun hal => absurd hal a.ready.ready⟩, a.ready.ready⟩, a.ready.clean⟩,
    (setIndentation_width _ _).trans a.width, ?_, (setIndentation_line _ _).trans a.line, s, (setIndentation_all _ _).trans s1, s2⟩
  rw [h1] at this
  simp only [List.length_cons] at this ⊢
  omega

theorem Goes.newline {d : Nat} {t : Str} {f g : Formatter} (a : Goes d t f g) : Lays d [t] f g.newline := by
  obtain ⟨x, x1, x2⟩ := a.text
  have n := goes_newline a.ready
  refine ⟨n.ready, a.width, a.level, rfl, x ++ [10], ?_, .block ?_ .nil⟩
  · simp only [Formatter.newline, Writer.newline_all]
    rw [x1, List.append_assoc]
  · have := Reflow.append x2 Reflow.newline
    rw [List.append_nil] at this
    exact this

/-- What has been written when a line is complete. -/
theorem Goes.close {d : Nat} {t : Str} {f g : Formatter} (a : Goes d t f g) (hf : f.writer.line = []) (hg : g.writer.line = []) : Lays d [t] f g := by
  obtain ⟨x, x1, x2⟩ := a.text
  refine ⟨a.ready, a.width, a.level, hg, x, x1, ?_⟩
  by_cases hx : x = []
  · subst hx
    exact .blank (Reflow.nil_blank x2 rfl) .nil
  · obtain ⟨ls, h1, _⟩ := a.ready.sane.done
    have e : g.writer.out = f.writer.all ++ x := by
      rw [← x1]
      simp [Writer.all, hg]
    obtain ⟨y, c, rfl⟩ : ∃ y c, x = y ++ [c] := ⟨x.dropLast, x.getLast hx, (List.dropLast_concat_getLast hx).symm⟩
    have hc : c = 10 := by
      have h2 := congrArg List.getLast? e
      rw [h1, ← List.append_assoc] at h2
      cases hls : ls.reverse with
      | nil =>
        have : ls = [] := by simpa using hls
        subst this
        simp at h2
      | cons l ls' =>
        have : ls = ls'.reverse ++ [l] := by rw [← List.reverse_reverse ls, hls]; simp
        subst this
        simpa using h2.symm
    subst hc
    exact .block x2 .nil

theorem lays_newline {f : Formatter} (h : Prepared f) : Lays 0 [] f f.newline := by
  have n := goes_newline h
  refine ⟨n.ready, n.width, n.level, rfl, [10], Writer.newline_all _, .gap .nil⟩

theorem lays_ite {f : Formatter} (h : Prepared f) (hl : f.writer.line = []) (b : Bool) : Lays 0 [] f (if b then f.newline else f) := by
  cases b with
  | false => exact lays_refl h hl
  | true => exact lays_newline h

end Formatter

/-! ### Labels -/

theorem separated_cons {sep s : Str} {ss : List Str} (h : ss ≠ []) : separated sep (s :: ss) = s ++ sep ++ separated sep ss := by
  cases ss with
  | nil => exact absurd rfl h
  | cons a ss => rfl

theorem separated_ne {sep : Str} {ss : List Str} (h : ss ≠ []) (hs : ∀ s ∈ ss, s ≠ []) : separated sep ss ≠ [] := by
  cases ss with
  | nil => exact absurd rfl h
  | cons a ss =>
    have ha := hs a (by simp)
    cases ss with
    | nil => exact ha
    | cons b ss => simp [separated, ha]

theorem separated_concat {sep s : Str} (ss : List Str) : separated sep (ss ++ [s]) = if ss = [] then s else separated sep ss ++ sep ++ s := by
  induction ss with
  | nil => rfl
  | cons a ss ih =>
    rw [List.cons_append, separated_cons (by simp), ih]
    cases ss with
    | nil => simp [separated]
    | cons b ss => simp [separated]

theorem repeatName_eq (name : Str) (n : Nat) : ∀ (k : Nat), repeatName name n (separated b!" " (List.replicate k (b!"<" ++ name ++ b!">"))) =
    separated b!" " (List.replicate (k + n) (b!"<" ++ name ++ b!">")) := by
  induction n with
  | zero => intro k; rfl
  | succ n ih =>
    intro k
    unfold repeatName
    have e : (if separated b!" " (List.replicate k (b!"<" ++ name ++ b!">")) ≠ [] then separated b!" " (List.replicate k (b!"<" ++ name ++ b!">")) ++ b!" "
        else separated b!" " (List.replicate k (b!"<" ++ name ++ b!">"))) ++ (b!"<" ++ name ++ b!">") = separated b!" " (List.replicate (k + 1) (b!"<" ++ name ++ b!">")) := by
      rw [List.replicate_succ', separated_concat]
      cases k with
      | zero => simp [separated]
      | succ k =>
        rw [if_pos (separated_ne (by simp) (by simp)), if_neg (by simp)]
    rw [e, ih, Nat.add_assoc, Nat.add_comm 1 n]

theorem argumentName_eq (a : ArgData) : argumentName a = argumentLabel a := by
  unfold argumentName argumentLabel
  split
  · rfl
  · have e := repeatName_eq a.name a.minCount 0
    simp only [List.replicate_zero, Nat.zero_add] at e
    rw [show separated b!" " [] = [] from rfl] at e
    simp only [e]
    split
    · simp
    · have key : ∀ s : Str, (if separated b!" " (List.replicate a.minCount (b!"<" ++ a.name ++ b!">")) ≠ [] then separated b!" " (List.replicate a.minCount (b!"<" ++ a.name ++ b!">")) ++ b!" "
          else separated b!" " (List.replicate a.minCount (b!"<" ++ a.name ++ b!">"))) ++ s = separated b!" " (List.replicate a.minCount (b!"<" ++ a.name ++ b!">") ++ [s]) := by
        intro s
        rw [separated_concat]
        cases a.minCount with
        | zero => simp [separated]
        | succ k => rw [if_pos (separated_ne (by simp) (by simp)), if_neg (by simp)]
      by_cases h1 : a.maxCount = a.minCount + 1
      · rw [if_pos (by omega), if_pos h1]
        exact key _
      · rw [if_neg (by omega), if_neg h1]
        exact key _

theorem flagArgument_eq {flag : Str} (h : flag ≠ []) (argument : Str) : ∃ t, flagArgument flag argument = .ok t ∧ flag ++ t = flagLabel argument flag := by
  unfold flagArgument flagLabel
  split
  · exact ⟨[], rfl, by simp⟩
  · cases hl : flag.getLast? with
    | none => rw [List.getLast?_eq_none_iff] at hl; exact absurd hl h
    | some c =>
      refine ⟨_, rfl, ?_⟩
      unfold placeholder
      simp only [Option.some.injEq]
      by_cases hc : c = c!"="
      · simp only [hc, ne_eq, not_true_eq_false, if_false, if_true]
        by_cases ha : argument.head? = some c!"<" <;> simp [ha]
      · simp only [hc, ne_eq, not_false_eq_true, if_false, if_true]
        by_cases ha : argument.head? = some c!"<" <;> simp [ha]

theorem longOptionLoop_eq (argument : Str) (flags : List Str) : ∀ (done : List Str), (∀ s ∈ done, s ≠ []) → (∀ s ∈ flags, s ≠ []) →
    longOptionLoop argument flags (separated b!", " (done.map (flagLabel argument))) = .ok (separated b!", " ((done ++ flags).map (flagLabel argument))) := by
  induction flags with
  | nil => intro done _ _; simp [longOptionLoop]
  | cons flag flags ih =>
    intro done hd hf
    unfold longOptionLoop
    obtain ⟨t, t1, t2⟩ := flagArgument_eq (hf flag (by simp)) argument
    rw [t1, Outcome.bind_ok]
    have e : (if separated b!", " (done.map (flagLabel argument)) ≠ [] then separated b!", " (done.map (flagLabel argument)) ++ b!", "
        else separated b!", " (done.map (flagLabel argument))) ++ flag ++ t = separated b!", " ((done ++ [flag]).map (flagLabel argument)) := by
      rw [List.append_assoc, t2, List.map_append, List.map_cons, List.map_nil, separated_concat]
      cases done with
      | nil => simp [separated]
      | cons d done =>
        rw [if_pos, if_neg (by simp)]
        refine separated_ne (by simp) ?_
        intro s hs
        obtain ⟨x, hx, rfl⟩ := List.mem_map.mp hs
        have := hd x hx
        unfold flagLabel
        split
        · exact this
        · split <;> simp [this]
    rw [e, ih (done ++ [flag]) (by
      intro s hs
      rcases List.mem_append.mp hs with hs | hs
      · exact hd s hs
      · simp only [List.mem_singleton] at hs
        subst hs
        exact hf s (by simp)) (fun s hs => hf s (by simp [hs]))]
    simp

theorem longOptionName_eq {o : OptData} (h : ∀ s ∈ o.flags, s ≠ []) : longOptionName o = .ok (optionLabel o) := by
  have := longOptionLoop_eq o.argument o.flags [] (by simp) h
  simp only [List.map_nil, List.nil_append] at this
  exact this

theorem isStop_iff (o : OptData) : isStopOption o.type = true ↔ EndsProgram o := by
  unfold isStopOption EndsProgram
  cases o.type <;> simp

theorem briefFlag_short {o : OptData} (h : o.flags ≠ []) : briefFlag o false = .ok (o.flags.headD []) := by
  unfold briefFlag
  cases hf : o.flags with
  | nil => exact absurd hf h
  | cons s ss => simp

theorem briefFlag_long {o : OptData} (h : o.flags ≠ []) : briefFlag o true = .ok ((o.flags.find? (fun s => s.length > 2)).getD (o.flags.headD [])) := by
  unfold briefFlag
  cases hf : o.flags.find? (fun s => s.length > 2) with
  | none =>
    simp only [if_true, Option.getD_none]
    cases hf : o.flags with
    | nil => exact absurd hf h
    | cons s ss => simp
  | some s =>
    have := List.find?_some hf
    simp only [if_true, Option.getD_some]
    rw [if_neg]
    rintro rfl
    simp at this

theorem headD_mem {l : List Str} (h : l ≠ []) : l.headD [] ∈ l := by
  cases l with
  | nil => exact absurd rfl h
  | cons a l => simp

theorem briefOptionName_short {o : OptData} (h : o.flags ≠ []) (hs : ∀ s ∈ o.flags, s ≠ []) (hstop : ¬ EndsProgram o) :
    briefOptionName o false = .ok (optionUsage o) := by
  unfold briefOptionName
  obtain ⟨t, t1, t2⟩ := flagArgument_eq (hs _ (headD_mem h)) o.argument
  rw [briefFlag_short h, Outcome.bind_ok, t1, Outcome.bind_ok]
  have : isStopOption o.type = false := by
    rw [← Bool.not_eq_true, isStop_iff]
    exact hstop
  unfold optionUsage
  simp only [this, ← t2]
  cases o.optional <;> simp

theorem briefOptionName_long {o : OptData} (h : o.flags ≠ []) (hs : ∀ s ∈ o.flags, s ≠ []) (hstop : EndsProgram o) :
    briefOptionName o true = .ok (stopUsage o) := by
  unfold briefOptionName
  have hm : (o.flags.find? (fun s => s.length > 2)).getD (o.flags.headD []) ∈ o.flags := by
    cases hf : o.flags.find? (fun s => s.length > 2) with
    | none => exact headD_mem h
    | some s => exact List.mem_of_find?_eq_some hf
  obtain ⟨t, t1, t2⟩ := flagArgument_eq (hs _ hm) o.argument
  rw [briefFlag_long h, Outcome.bind_ok, t1, Outcome.bind_ok]
  have : isStopOption o.type = true := (isStop_iff o).mpr hstop
  unfold stopUsage
  simp only [this, ← t2]
  cases o.optional <;> simp

theorem customText_eq (texts : Nat → Str) (cmd : Command) (id : TextId) : customText texts cmd id = custom texts cmd id := by
  unfold customText custom
  congr 1

/-! ### Sections -/

/-- The sections of the model for entries. -/
def sectionsOf (es : List Entry) : List SectionTexts := (sections es).map fun s => (s.1, s.2.map fun e => (e.label, e.text))

theorem addHelpText_absent {title name text : Str} (ss : List SectionTexts) (h : ∀ s ∈ ss, s.1 ≠ title) :
    addHelpText title name text ss = ss ++ [(title, [(name, text)])] := by
  induction ss with
  | nil => rfl
  | cons s ss ih =>
    unfold addHelpText
    rw [if_neg (h s (by simp)), ih fun x hx => h x (by simp [hx])]
    rfl

theorem addHelpText_map {title name text : Str} (g : Str → List (Str × Str)) (hs : List Str) (hm : title ∈ hs) (hn : hs.Nodup) :
    addHelpText title name text (hs.map fun h => (h, g h)) = hs.map fun h => (h, if h = title then g h ++ [(name, text)] else g h) := by
  induction hs with
  | nil => simp at hm
  | cons x hs ih =>
    rw [List.map_cons, List.map_cons, addHelpText]
    obtain ⟨n1, n2⟩ := List.nodup_cons.mp hn
    by_cases hx : x = title
    · subst hx
      rw [if_pos rfl, if_pos rfl]
      congr 1
      refine List.map_congr_left fun y hy => ?_
      rw [if_neg]
      rintro rfl
      exact n1 hy
    · rw [if_neg hx, if_neg hx]
      rcases List.mem_cons.mp hm with h | h
      · exact absurd h.symm hx
      · rw [ih h n2]

theorem eraseDups_concat (l : List Str) (x : Str) : (l ++ [x]).eraseDups = if x ∈ l then l.eraseDups else l.eraseDups ++ [x] := by
  rw [List.eraseDups_append]
  by_cases h : x ∈ l
  · have e : List.removeAll [x] l = [] := by
      unfold List.removeAll
      rw [List.filter_eq_nil_iff]
      intro y hy
      simp only [List.mem_singleton] at hy
      subst hy
      simpa using h
    rw [e, if_pos h]
    simp
  · have e : List.removeAll [x] l = [x] := by
      unfold List.removeAll
      rw [List.filter_eq_self]
      intro y hy
      simp only [List.mem_singleton] at hy
      subst hy
      simpa using h
    rw [e, if_neg h]
    simp [List.eraseDups_cons]

theorem nodup_eraseDups (l : List Str) : l.eraseDups.Nodup := by
  suffices h : ∀ r : List Str, r.reverse.eraseDups.Nodup by
    have := h l.reverse
    rwa [List.reverse_reverse] at this
  intro r
  induction r with
  | nil => simp
  | cons x r ih =>
    rw [List.reverse_cons, eraseDups_concat]
    split
    · exact ih
    · rename_i hx
      rw [List.nodup_append]
      refine ⟨ih, by simp, ?_⟩
      intro a ha b hb
      simp only [List.mem_singleton] at hb
      subst hb
      rintro rfl
      exact hx (List.mem_eraseDups.mp ha)

theorem addHelpText_sections (es : List Entry) (e : Entry) : addHelpText e.heading e.label e.text (sectionsOf es) = sectionsOf (es ++ [e]) := by
  have nd : (es.map (·.heading)).eraseDups.Nodup := nodup_eraseDups _
  by_cases h : e.heading ∈ es.map (·.heading)
  · have e1 : ((es ++ [e]).map (·.heading)).eraseDups = (es.map (·.heading)).eraseDups := by
      rw [List.map_append, List.map_cons, List.map_nil, eraseDups_concat, if_pos h]
    unfold sectionsOf sections
    rw [e1, List.map_map, List.map_map]
    simp only [Function.comp_def]
    rw [addHelpText_map (fun h => (es.filter (·.heading = h)).map fun e => (e.label, e.text)) _ (by simpa using h) nd]
    refine List.map_congr_left fun t ht => ?_
    rw [List.filter_append]
    by_cases hte : t = e.heading
    · subst hte
      simp
    · rw [if_neg hte]
      simp [Ne.symm hte]
  · have e1 : ((es ++ [e]).map (·.heading)).eraseDups = (es.map (·.heading)).eraseDups ++ [e.heading] := by
      rw [List.map_append, List.map_cons, List.map_nil, eraseDups_concat, if_neg h]
    rw [addHelpText_absent]
    · unfold sectionsOf sections
      rw [e1, List.map_append, List.map_append]
      congr 1
      · rw [List.map_map, List.map_map]
        refine List.map_congr_left fun t ht => ?_
        simp only [Function.comp_def, List.filter_append]
        have : e.heading ≠ t := by
          rintro rfl
          exact h (by simpa using ht)
        simp [this]
      · have : es.filter (·.heading = e.heading) = [] := by
          rw [List.filter_eq_nil_iff]
          intro x hx hxe
          refine h (List.mem_map.mpr ⟨x, hx, by simpa using hxe⟩)
        simp [this]
    · intro s hs
      unfold sectionsOf sections at hs
      rw [List.map_map] at hs
      obtain ⟨t, ht, rfl⟩ := List.mem_map.mp hs
      rintro rfl
      exact h (by simpa using ht)

theorem addArguments_eq (texts : Nat → Str) (title : Str) (as : List ArgData) : ∀ es : List Entry, addArguments texts title as (sectionsOf es) =
    sectionsOf (es ++ (as.filter (·.visibility.text)).map fun a => ⟨headingOf a.section_ title, argumentLabel a, sourceText texts a.help⟩) := by
  induction as with
  | nil => intro es; simp [addArguments]
  | cons a as ih =>
    intro es
    unfold addArguments
    by_cases hv : a.visibility.text
    · rw [if_neg (by simp [hv]), List.filter_cons_of_pos (by simpa using hv), List.map_cons]
      have := addHelpText_sections es ⟨headingOf a.section_ title, argumentLabel a, sourceText texts a.help⟩
      simp only [headingOf] at this
      rw [argumentName_eq, show a.help.get texts = sourceText texts a.help by cases a.help <;> rfl, this, ih]
      simp [headingOf]
    · rw [if_pos (by simp [hv]), List.filter_cons_of_neg (by simpa using hv), ih]

theorem addCommands_eq (texts : Nat → Str) (title : Str) (cs : List Command) : ∀ es : List Entry, addCommands texts title cs (sectionsOf es) =
    sectionsOf (es ++ (cs.filter (·.visibility.text)).map fun c => ⟨headingOf c.section_ title, c.name, (custom texts c .help).getD []⟩) := by
  induction cs with
  | nil => intro es; simp [addCommands]
  | cons c cs ih =>
    intro es
    unfold addCommands
    by_cases hv : c.visibility.text
    · rw [if_neg (by simp [hv]), List.filter_cons_of_pos (by simpa using hv), List.map_cons]
      have := addHelpText_sections es ⟨headingOf c.section_ title, c.name, (custom texts c .help).getD []⟩
      simp only [headingOf] at this
      rw [customText_eq, this, ih]
      simp [headingOf]
    · rw [if_pos (by simp [hv]), List.filter_cons_of_neg (by simpa using hv), ih]

theorem addOptions_eq (texts : Nat → Str) (title : Str) (os : List OptData) (hf : ∀ o ∈ os, ∀ s ∈ o.flags, s ≠ []) : ∀ es : List Entry,
    addOptions texts title os (sectionsOf es) =
    .ok (sectionsOf (es ++ (os.filter (·.visibility.text)).map fun o => ⟨headingOf o.section_ title, optionLabel o, sourceText texts o.help⟩)) := by
  induction os with
  | nil => intro es; simp [addOptions]
  | cons o os ih =>
    intro es
    have ih := ih fun x hx => hf x (by simp [hx])
    unfold addOptions
    by_cases hv : o.visibility.text
    · rw [if_neg (by simp [hv]), List.filter_cons_of_pos (by simpa using hv), List.map_cons]
      have := addHelpText_sections es ⟨headingOf o.section_ title, optionLabel o, sourceText texts o.help⟩
      simp only [headingOf] at this
      rw [longOptionName_eq (hf o (by simp)), Outcome.bind_ok, show o.help.get texts = sourceText texts o.help by cases o.help <;> rfl, this, ih]
      simp [headingOf]
    · rw [if_pos (by simp [hv]), List.filter_cons_of_neg (by simpa using hv), ih]

theorem argumentSections_eq (texts : Nat → Str) {cmd : Command} (hf : Flagged cmd) :
    argumentSections texts cmd = .ok (sectionsOf (entries texts cmd)) := by
  unfold argumentSections
  have h0 : ([] : List SectionTexts) = sectionsOf [] := rfl
  simp only [customText_eq]
  rw [h0, addArguments_eq, addCommands_eq, addOptions_eq _ _ _ fun o ho => (hf o ho).2]
  rfl

/-! ### Writing -/

namespace Formatter

theorem forEach_lays {α : Type} {act : α → Formatter → Outcome Formatter} (g : α → List Str) (xs : List α) :
    (∀ x ∈ xs, ∀ f, Prepared f → f.writer.line = [] → ∃ f', act x f = .ok f' ∧ Lays 0 (g x) f f') →
    ∀ {f : Formatter}, Prepared f → f.writer.line = [] → ∃ f', forEach act xs f = .ok f' ∧ Lays 0 (xs.flatMap g) f f' := by
  induction xs with
  | nil => intro _ f h hl; exact ⟨f, rfl, lays_refl h hl⟩
  | cons x xs ih =>
    intro hx f h hl
    obtain ⟨f1, a1, a2⟩ := hx x (by simp) f h hl
    obtain ⟨f', b1, b2⟩ := ih (fun y hy => hx y (by simp [hy])) a2.ready a2.line
    refine ⟨f', ?_, ?_⟩
    · unfold forEach
      rw [a1, Outcome.bind_ok, b1]
    · rw [List.flatMap_cons]
      exact a2.trans b2

theorem forEach_goes {α : Type} {act : α → Formatter → Outcome Formatter} (g : α → Str) (xs : List α) :
    (∀ x ∈ xs, ∀ f, Prepared f → ∃ f', act x f = .ok f' ∧ Goes 0 (g x) f f') →
    ∀ {f : Formatter}, Prepared f → ∃ f', forEach act xs f = .ok f' ∧ Goes 0 (xs.flatMap g) f f' := by
  induction xs with
  | nil => intro _ f h; exact ⟨f, rfl, goes_refl h⟩
  | cons x xs ih =>
    intro hx f h
    obtain ⟨f1, a1, a2⟩ := hx x (by simp) f h
    obtain ⟨f', b1, b2⟩ := ih (fun y hy => hx y (by simp [hy])) a2.ready
    refine ⟨f', ?_, ?_⟩
    · unfold forEach
      rw [a1, Outcome.bind_ok, b1]
    · rw [List.flatMap_cons]
      exact a2.trans b2

theorem Goes.cast {d : Nat} {s t : Str} {f f' : Formatter} (a : Goes d s f f') (h : s = t) : Goes d t f f' := h ▸ a
theorem Lays.cast {d : Nat} {s t : List Str} {f f' : Formatter} (a : Lays d s f f') (h : s = t) : Lays d t f f' := h ▸ a

theorem reflow_unblank {c : UInt8} {s t u : Str} (h : Reflow u t) : u = c :: s → isBlank c → Reflow s t := by
  induction h generalizing s with
  | nil => intro h; simp at h
  | keep d h ih =>
    intro h hc
    simp only [List.cons.injEq] at h
    obtain ⟨rfl, rfl⟩ := h
    exact .add hc ‹_›
  | drop hb h' ih =>
    intro h hc
    simp only [List.cons.injEq] at h
    obtain ⟨rfl, rfl⟩ := h
    exact h'
  | add hb _ ih =>
    intro h hc
    exact .add hb (ih h hc)
  | hyphen _ ih =>
    intro h hc
    exact .hyphen (ih h hc)

/-- White space in front of a block is no part of it. -/
theorem Goes.less {d : Nat} {u s : Str} {f f' : Formatter} (a : Goes d (u ++ s) f f') (hu : ∀ c ∈ u, isBlank c) : Goes d s f f' := by
  obtain ⟨x, x1, x2⟩ := a.text
  refine ⟨a.ready, a.width, a.level, x, x1, ?_⟩
  clear x1 a
  induction u with
  | nil => exact x2
  | cons c u ih => exact ih (fun y hy => hu y (by simp [hy])) (reflow_unblank x2 rfl (hu c (by simp)))

theorem writeCustomText_lays {f : Formatter} (h : Prepared f) (hl : f.writer.line = []) (texts : Nat → Str) (cmd : Command) (id : TextId) (b : Bool) :
    ∃ f', writeCustomText texts cmd id b f = .ok f' ∧ Lays 0 (block (custom texts cmd id)) f f' := by
  unfold writeCustomText
  rw [customText_eq]
  cases hc : custom texts cmd id with
  | none => exact ⟨f, rfl, lays_refl h hl⟩
  | some text =>
    simp only
    by_cases ht : text = []
    · subst ht
      exact ⟨f, rfl, lays_refl h hl⟩
    · rw [if_neg ht]
      have a := lays_ite h hl b
      obtain ⟨f2, b1, b2⟩ := goes_words a.ready text
      rw [b1]
      simp only [Outcome.bind_ok, Outcome.pure_eq]
      have hb : block (some text) = [text] := by simp [block, ht]
      rw [hb]
      refine ⟨_, rfl, ?_⟩
      have : [text] = [] ++ [text] := rfl
      rw [this]
      refine Lays.trans (d := 0) (d' := 0) a ?_
      by_cases hl2 : f2.writer.line = []
      · rw [if_neg (c := f2.writer.line ≠ []) (by simpa using hl2)]
        exact b2.close a.line hl2
      · rw [if_pos hl2]
        exact b2.newline

theorem writeEntryText_goes {f : Formatter} (h : Prepared f) (n : Nat) (text : Str) :
    ∃ f', writeEntryText n text f = .ok f' ∧ Goes 0 text f f' := by
  unfold writeEntryText
  by_cases ht : text = []
  · subst ht
    exact ⟨f, rfl, goes_refl h⟩
  · rw [if_neg ht]
    split
    · obtain ⟨f1, a1, a2⟩ : ∃ f1, (if f.writer.currentWidth ≥ n then f.writeWords b!"  " else .ok f) = .ok f1 ∧ Goes 0 [] f f1 := by
        split
        · obtain ⟨f1, b1, b2⟩ := goes_words h b!"  "
          exact ⟨f1, b1, Goes.less (u := b!"  ") (s := []) b2 (by simp [isBlank])⟩
        · exact ⟨f, rfl, goes_refl h⟩
      have e : ∀ k : Formatter → Outcome Formatter, (if f.writer.currentWidth ≥ n then (f.writeWords b!"  " >>= k) else (Outcome.ok f >>= k)) = k f1 := by
        intro k
        by_cases hw : f.writer.currentWidth ≥ n
        · rw [if_pos hw] at a1 ⊢
          rw [a1, Outcome.bind_ok]
        · rw [if_neg hw] at a1 ⊢
          rw [a1, Outcome.bind_ok]
      rw [e]
      simp only
      have a := a2.trans (goes_push a2.ready n)
      obtain ⟨f2, b1, b2⟩ := goes_words a.ready text
      rw [b1, Outcome.bind_ok]
      exact (a.trans b2).pop h
    · have a := (goes_newline h).trans (goes_push (goes_newline h).ready 8)
      obtain ⟨f1, b1, b2⟩ := goes_words a.ready text
      rw [b1, Outcome.bind_ok]
      exact (a.trans b2).pop h

theorem writeEntry_lays {f : Formatter} (h : Prepared f) (n : Nat) (e : Str × Str) : ∃ f', writeEntry n e f = .ok f' ∧ Lays 0 [e.1 ++ e.2] f f' := by
  unfold writeEntry
  obtain ⟨f1, a1, a2⟩ := goes_words h e.1
  obtain ⟨f2, b1, b2⟩ := writeEntryText_goes a2.ready n e.2
  rw [a1, Outcome.bind_ok, b1, Outcome.bind_ok]
  exact ⟨_, rfl, (a2.trans b2).newline⟩

theorem writeSection_lays {f : Formatter} (h : Prepared f) (hl : f.writer.line = []) (n : Nat) (b : Bool) (s : SectionTexts) :
    ∃ f', writeSection n b s f = .ok f' ∧ Lays 0 (s.1 :: s.2.map fun e => e.1 ++ e.2) f f' := by
  unfold writeSection
  simp only
  have a := lays_ite h hl b
  obtain ⟨f1, b1, b2⟩ := goes_words a.ready s.1
  rw [b1, Outcome.bind_ok]
  have c := a.trans b2.newline
  have c' := c.trans (lays_push c.ready c.line 2)
  obtain ⟨f2, d1, d2⟩ := forEach_lays (act := writeEntry n) (fun e => [e.1 ++ e.2]) s.2 (fun e _ f hf _ => writeEntry_lays hf n e) c'.ready c'.line
  rw [d1, Outcome.bind_ok]
  obtain ⟨f3, e1, e2⟩ := (c'.trans d2).pop (d := 0) h
  refine ⟨f3, e1, e2.cast ?_⟩
  rw [show (s.2.flatMap fun e => [e.1 ++ e.2]) = s.2.map fun e => e.1 ++ e.2 from List.map_eq_flatMap.symm]
  rfl

theorem writeSections_lays {f : Formatter} (h : Prepared f) (hl : f.writer.line = []) (b : Bool) (ss : List SectionTexts) :
    ∃ f', writeSections b ss f = .ok f' ∧ Lays 0 (ss.flatMap fun s => s.1 :: s.2.map fun e => e.1 ++ e.2) f f' := by
  unfold writeSections
  cases ss with
  | nil => exact ⟨f, rfl, lays_refl h hl⟩
  | cons s ss =>
    simp only
    obtain ⟨f1, a1, a2⟩ := writeSection_lays h hl (labelWidth f.writer.lineWidth (s :: ss)) b s
    rw [a1, Outcome.bind_ok]
    obtain ⟨f2, b1, b2⟩ := forEach_lays (act := writeSection (labelWidth f.writer.lineWidth (s :: ss)) true) (fun s => s.1 :: s.2.map fun e => e.1 ++ e.2) ss
      (fun s _ f hf hl => writeSection_lays hf hl _ true s) a2.ready a2.line
    rw [b1]
    exact ⟨f2, rfl, a2.trans b2⟩

theorem writeArgumentSections_lays {f : Formatter} (h : Prepared f) (hl : f.writer.line = []) (texts : Nat → Str) {cmd : Command} (hf : Flagged cmd) (b : Bool) :
    ∃ f', writeArgumentSections texts cmd b f = .ok f' ∧ Lays 0 (listBlocks (entries texts cmd)) f f' := by
  unfold writeArgumentSections
  rw [argumentSections_eq texts hf, Outcome.bind_ok]
  obtain ⟨f', a1, a2⟩ := writeSections_lays h hl b (sectionsOf (entries texts cmd))
  refine ⟨f', a1, a2.cast ?_⟩
  unfold listBlocks sectionsOf
  rw [List.flatMap_map]
  simp only [List.map_map, Function.comp_def]

theorem writeStopOption_lays {f : Formatter} (h : Prepared f) (hl : f.writer.line = []) (fullName : Str) {o : OptData} (hf : o.flags ≠ [] ∧ ∀ s ∈ o.flags, s ≠ [])
    (hcr : (stopUsage o).getLast? ≠ some 13) :
    ∃ f', writeStopOption fullName o f = .ok f' ∧ Lays 0 (if o.visibility.usage ∧ EndsProgram o then [fullName ++ b!" " ++ stopUsage o] else []) f f' := by
  unfold writeStopOption
  by_cases hv : o.visibility.usage = true ∧ EndsProgram o
  · have hs := (isStop_iff o).mpr hv.2
    rw [if_neg (by simp [hv.1, hs]), if_pos hv]
    obtain ⟨f1, a1, a2⟩ := goes_words h fullName
    rw [a1, Outcome.bind_ok]
    obtain ⟨f2, b1, b2⟩ := goes_words a2.ready b!" "
    rw [b1, Outcome.bind_ok]
    have c := (a2.trans b2).trans (goes_pushCurrent b2.ready)
    rw [briefOptionName_long hf.1 hf.2 hv.2, Outcome.bind_ok]
    obtain ⟨f3, d1, d2⟩ := goes_lines c.ready hcr
    rw [d1, Outcome.bind_ok]
    obtain ⟨f4, e1, e2⟩ := goes_words d2.ready b!" "
    rw [e1, Outcome.bind_ok]
    have e3 : Goes 0 [] f3 f4 := Goes.less (u := b!" ") (s := []) e2 (by simp [isBlank])
    obtain ⟨f5, g1, g2⟩ := ((c.trans d2).trans e3).pop (d := 0) h
    rw [g1, Outcome.bind_ok]
    refine ⟨_, rfl, g2.newline.cast ?_⟩
    simp
  · rw [if_pos, if_neg hv]
    · exact ⟨f, rfl, lays_refl h hl⟩
    · cases hu : o.visibility.usage with
      | false => rfl
      | true =>
        have : ¬ EndsProgram o := fun hp => hv ⟨hu, hp⟩
        rw [← isStop_iff] at this
        simpa using this

theorem flatMap_if {α β : Type} (p : α → Prop) [DecidablePred p] (g : α → β) (xs : List α) :
    (xs.flatMap fun x => if p x then [g x] else []) = (xs.filter fun x => decide (p x)).map g := by
  induction xs with
  | nil => rfl
  | cons x xs ih =>
    rw [List.flatMap_cons, ih]
    by_cases hp : p x <;> simp [hp]

theorem flatMap_ite {α : Type} (p : α → Prop) [DecidablePred p] (g : α → Str) (xs : List α) :
    (xs.flatMap fun x => if p x then g x else []) = (xs.filter fun x => decide (p x)).flatMap g := by
  induction xs with
  | nil => rfl
  | cons x xs ih =>
    rw [List.flatMap_cons, ih]
    by_cases hp : p x <;> simp [hp]

theorem writeBriefOption_goes {f : Formatter} (h : Prepared f) {o : OptData} (hf : o.flags ≠ [] ∧ ∀ s ∈ o.flags, s ≠ [])
    (hcr : (optionUsage o).getLast? ≠ some 13) :
    ∃ f', writeBriefOption o f = .ok f' ∧ Goes 0 (if o.visibility.usage ∧ ¬ EndsProgram o then optionUsage o ++ b!" " else []) f f' := by
  unfold writeBriefOption
  by_cases hv : o.visibility.usage = true ∧ ¬ EndsProgram o
  · have hs : isStopOption o.type = false := by
      rw [← Bool.not_eq_true, isStop_iff]
      exact hv.2
    rw [if_neg (by simp [hv.1, hs]), if_pos hv, briefOptionName_short hf.1 hf.2 hv.2, Outcome.bind_ok]
    obtain ⟨f3, d1, d2⟩ := goes_lines h hcr
    rw [d1, Outcome.bind_ok]
    obtain ⟨f4, e1, e2⟩ := goes_words d2.ready b!" "
    exact ⟨f4, e1, d2.trans e2⟩
  · rw [if_pos, if_neg hv]
    · exact ⟨f, rfl, goes_refl h⟩
    · cases hu : o.visibility.usage with
      | false => rfl
      | true =>
        have : EndsProgram o := Decidable.not_not.mp fun hp => hv ⟨hu, hp⟩
        rw [← isStop_iff] at this
        simpa using this

theorem writeBriefArgument_goes {f : Formatter} (h : Prepared f) {a : ArgData} (hcr : (argumentLabel a).getLast? ≠ some 13) :
    ∃ f', writeBriefArgument a f = .ok f' ∧ Goes 0 (if a.visibility.usage then argumentLabel a ++ b!" " else []) f f' := by
  unfold writeBriefArgument
  rw [argumentName_eq]
  cases hv : a.visibility.usage with
  | false => exact ⟨f, rfl, goes_refl h⟩
  | true =>
    obtain ⟨f3, d1, d2⟩ := goes_lines h hcr
    obtain ⟨f4, e1, e2⟩ := goes_words d2.ready b!" "
    refine ⟨f4, ?_, d2.trans e2⟩
    simp only [Bool.not_true, Bool.false_eq_true, if_false]
    rw [d1, Outcome.bind_ok, e1]

theorem commandsLoop_goes (cs : List Command) : ∀ {f : Formatter} (_ : Prepared f) (first : Bool),
    ∃ f', writeBriefCommandsLoop first cs f = .ok f' ∧
      Goes 0 ((if first || (cs.filter (·.visibility.usage)).isEmpty then [] else b!"|") ++ separated b!"|" ((cs.filter (·.visibility.usage)).map (·.name))) f f' := by
  induction cs with
  | nil => intro f h first; exact ⟨f, rfl, (goes_refl h).cast (by simp [separated])⟩
  | cons c cs ih =>
    intro f h first
    unfold writeBriefCommandsLoop
    cases hv : c.visibility.usage with
    | false =>
      obtain ⟨f', a1, a2⟩ := ih h first
      refine ⟨f', a1, a2.cast ?_⟩
      simp [hv]
    | true =>
      simp only [Bool.not_true, Bool.false_eq_true, if_false]
      have tail : ∀ {f1 : Formatter}, Prepared f1 → ∃ f', (f1.writeWords c.name >>= fun f => writeBriefCommandsLoop false cs f) = .ok f' ∧
          Goes 0 (separated b!"|" (((c :: cs).filter (·.visibility.usage)).map (·.name))) f1 f' := by
        intro f1 h1
        obtain ⟨f2, b1, b2⟩ := goes_words h1 c.name
        obtain ⟨f3, c1, c2⟩ := ih b2.ready false
        refine ⟨f3, by rw [b1, Outcome.bind_ok, c1], (b2.trans c2).cast ?_⟩
        rw [List.filter_cons_of_pos (by simpa using hv), List.map_cons]
        cases hr : cs.filter (·.visibility.usage) with
        | nil => simp [separated]
        | cons d ds => simp [separated]
      cases first with
      | true =>
        obtain ⟨f', d1, d2⟩ := tail h
        refine ⟨f', ?_, d2.cast (by simp)⟩
        simp only [if_true]
        rw [Outcome.bind_ok]
        exact d1
      | false =>
        obtain ⟨f1, e1, e2⟩ := goes_words h b!"|"
        obtain ⟨f', d1, d2⟩ := tail e2.ready
        refine ⟨f', ?_, (e2.trans d2).cast (by simp [hv])⟩
        simp only [Bool.false_eq_true, if_false]
        rw [e1, Outcome.bind_ok]
        exact d1

theorem writeBriefCommands_goes {f : Formatter} (h : Prepared f) (cmd : Command) :
    ∃ f', writeBriefCommands cmd f = .ok f' ∧ Goes 0 (commandsUsage cmd) f f' := by
  unfold writeBriefCommands commandsUsage
  cases he : cmd.commands.isEmpty with
  | true => exact ⟨f, rfl, goes_refl h⟩
  | false =>
    simp only [Bool.false_eq_true, if_false]
    by_cases hr : cmd.requireSubcommand = some true
    · rw [if_pos hr, hr]
      simp only [Option.getD_some, Bool.not_true, Bool.false_eq_true, if_false]
      rw [Outcome.bind_ok]
      obtain ⟨f1, a1, a2⟩ := commandsLoop_goes cmd.commands h true
      rw [a1, Outcome.bind_ok]
      exact ⟨f1, rfl, a2.cast (by simp)⟩
    · rw [if_neg hr]
      have hb : (!cmd.requireSubcommand.getD false) = true := by
        cases hc : cmd.requireSubcommand with
        | none => rfl
        | some b =>
          cases b with
          | false => rfl
          | true => exact absurd hc hr
      simp only [hb, if_true]
      obtain ⟨f1, b1, b2⟩ := goes_words h b!"["
      rw [b1, Outcome.bind_ok]
      obtain ⟨f2, a1, a2⟩ := commandsLoop_goes cmd.commands b2.ready true
      rw [a1, Outcome.bind_ok]
      obtain ⟨f3, c1, c2⟩ := goes_words a2.ready b!"]"
      refine ⟨f3, c1, ((b2.trans a2).trans c2).cast (by simp)⟩

theorem writeBriefUsage_lays {f : Formatter} (h : Prepared f) (hl : f.writer.line = []) {cmd : Command} (hf : Flagged cmd) (hcr : Endless cmd) (b : Bool) :
    ∃ f', writeBriefUsage cmd b f = .ok f' ∧ Lays 0 (briefUsage cmd) f f' := by
  unfold writeBriefUsage
  simp only
  have a0 := lays_ite h hl b
  have a := a0.trans (lays_push a0.ready a0.line 2)
  obtain ⟨f1, b1, b2⟩ := forEach_lays (act := writeStopOption cmd.fullName)
    (fun o => if o.visibility.usage ∧ EndsProgram o then [cmd.fullName ++ b!" " ++ stopUsage o] else []) cmd.options
    (fun o ho f hp hl => writeStopOption_lays hp hl cmd.fullName (hf o ho) (hcr.1 o ho).2) a.ready a.line
  unfold writeStopAndHelpUsage
  rw [b1, Outcome.bind_ok]
  have a := a.trans b2
  obtain ⟨f2, c1, c2⟩ := goes_words b2.ready cmd.fullName
  rw [c1, Outcome.bind_ok]
  obtain ⟨f3, d1, d2⟩ := goes_words c2.ready b!" "
  rw [d1, Outcome.bind_ok]
  have e := (c2.trans d2).trans (goes_pushCurrent d2.ready)
  obtain ⟨f4, g1, g2⟩ := forEach_goes (act := writeBriefOption) (fun o => if o.visibility.usage ∧ ¬ EndsProgram o then optionUsage o ++ b!" " else []) cmd.options
    (fun o ho f hp => writeBriefOption_goes hp (hf o ho) (hcr.1 o ho).1) e.ready
  rw [g1, Outcome.bind_ok]
  obtain ⟨f5, i1, i2⟩ := forEach_goes (act := writeBriefArgument) (fun a => if a.visibility.usage then argumentLabel a ++ b!" " else []) cmd.arguments
    (fun a ha f hp => writeBriefArgument_goes hp (hcr.2 a ha)) g2.ready
  rw [i1, Outcome.bind_ok]
  obtain ⟨f6, j1, j2⟩ := writeBriefCommands_goes i2.ready cmd
  rw [j1, Outcome.bind_ok]
  obtain ⟨f7, k1, k2⟩ := (((e.trans g2).trans i2).trans j2).pop (d := 0) b2.ready
  rw [k1, Outcome.bind_ok]
  obtain ⟨f8, l1, l2⟩ := (a.trans k2.newline).pop (d := 0) h
  refine ⟨f8, l1, l2.cast ?_⟩
  rw [flatMap_if, flatMap_ite, flatMap_ite]
  unfold briefUsage
  simp

theorem writeUsage_lays {f : Formatter} (h : Prepared f) (hl : f.writer.line = []) (texts : Nat → Str) {cmd : Command} (hf : Flagged cmd) (hcr : Endless cmd) (b : Bool) :
    ∃ f', writeUsage texts cmd b f = .ok f' ∧ Lays 0 (usageBlocks texts cmd) f f' := by
  unfold writeUsage usageBlocks
  simp only [customText_eq]
  by_cases hu : custom texts cmd .usage = some []
  · rw [if_pos hu, if_pos hu]
    exact ⟨f, rfl, lays_refl h hl⟩
  · rw [if_neg hu, if_neg hu]
    obtain ⟨f1, a1, a2⟩ : ∃ f1, writeUsageTitle texts cmd b f = .ok f1 ∧ Lays 0 (block (some ((custom texts cmd .usageTitle).getD b!"USAGE"))) f f1 := by
      unfold writeUsageTitle
      rw [customText_eq]
      cases ht : custom texts cmd .usageTitle with
      | some t =>
        obtain ⟨f1, a1, a2⟩ := writeCustomText_lays h hl texts cmd .usageTitle b
        rw [ht] at a2
        exact ⟨f1, a1, a2⟩
      | none =>
        simp only
        have a := lays_ite h hl b
        obtain ⟨f1, b1, b2⟩ := goes_words a.ready b!"USAGE"
        rw [b1, Outcome.bind_ok]
        exact ⟨_, rfl, a.trans b2.newline⟩
    rw [a1, Outcome.bind_ok]
    cases hc : custom texts cmd .usage with
    | some t =>
      simp only
      obtain ⟨f2, b1, b2⟩ := writeCustomText_lays a2.ready a2.line texts cmd .usage (b && (custom texts cmd .usageTitle == some []))
      refine ⟨f2, b1, (a2.trans b2).cast ?_⟩
      rw [hc]
      have : t ≠ [] := by
        rintro rfl
        exact hu hc
      simp [block, this]
    | none =>
      simp only
      obtain ⟨f2, b1, b2⟩ := writeBriefUsage_lays a2.ready a2.line hf hcr (b && (custom texts cmd .usageTitle == some []))
      exact ⟨f2, b1, a2.trans b2⟩

theorem makeFormatter_ok {console : Nat} {d : ParserData} (hc : 2 < console) (hw : d.helpSettings.lineWidth = 0 ∨ 2 < d.helpSettings.lineWidth) {sp : Splitter}
    (hsp : Splitter.addWords [] d.helpSettings.wordSplitRules = .ok sp) :
    makeFormatter console d = .ok (fresh (if d.helpSettings.lineWidth ≠ 0 then d.helpSettings.lineWidth else console) sp) := by
  unfold makeFormatter
  rw [if_neg (by omega), if_neg (by omega), hsp]
  rfl

theorem prepared_fresh {w : Nat} (hw : 2 < w) {rules : List Str} {sp : Splitter} (hsp : Splitter.addWords [] rules = .ok sp) (hr : ∀ r ∈ rules, Utf8 r) :
    Prepared (fresh w sp) :=
  ⟨ready_fresh hw (Splitter.addWords_bounded rules hsp Splitter.bounded_nil), Splitter.addWords_clean rules hsp Splitter.clean_nil hr⟩

theorem isEmptyText_iff (s : Option Str) : isEmptyText s = true ↔ block s = [] := by
  cases s with
  | none => simp [isEmptyText, block]
  | some s => cases s <;> simp [isEmptyText, block]

theorem writeAbout_lays {f : Formatter} (h : Prepared f) (hl : f.writer.line = []) (texts : Nat → Str) (cmd : Command) (b : Bool) :
    ∃ f', writeAbout texts cmd b f = .ok f' ∧
      Lays 0 (if block (custom texts cmd .about) = [] then block (custom texts cmd .help) else block (custom texts cmd .about)) f f' := by
  unfold writeAbout
  obtain ⟨f1, a1, a2⟩ := writeCustomText_lays h hl texts cmd .about b
  rw [a1, Outcome.bind_ok, customText_eq]
  by_cases ha : block (custom texts cmd .about) = []
  · rw [if_pos ha, if_neg (by simp [(isEmptyText_iff _).mpr ha])]
    obtain ⟨f2, b1, b2⟩ := writeCustomText_lays a2.ready a2.line texts cmd .help b
    rw [ha] at a2
    exact ⟨f2, b1, a2.trans b2⟩
  · rw [if_neg ha, if_pos]
    · exact ⟨f1, rfl, a2⟩
    · cases he : isEmptyText (custom texts cmd .about) with
      | false => rfl
      | true => exact absurd ((isEmptyText_iff _).mp he) ha

theorem writeHelpText_lays {console : Nat} (texts : Nat → Str) {d : ParserData} {cmd : Command} (hc : 2 < console) (hw : d.helpSettings.lineWidth = 0 ∨ 2 < d.helpSettings.lineWidth)
    {sp : Splitter} (hsp : Splitter.addWords [] d.helpSettings.wordSplitRules = .ok sp) (hr : ∀ r ∈ d.helpSettings.wordSplitRules, Utf8 r)
    (hf : Flagged cmd) (hcr : Endless cmd) :
    ∃ f', writeHelpText console texts d cmd = .ok f' ∧
      Lays 0 (helpBlocks texts cmd) (fresh (if d.helpSettings.lineWidth ≠ 0 then d.helpSettings.lineWidth else console) sp) f' := by
  unfold writeHelpText
  rw [makeFormatter_ok hc hw hsp, Outcome.bind_ok]
  have p := prepared_fresh (w := if d.helpSettings.lineWidth ≠ 0 then d.helpSettings.lineWidth else console) (by split <;> omega) hsp hr
  obtain ⟨f1, a1, a2⟩ := writeCustomText_lays p rfl texts cmd .initialText false
  rw [a1, Outcome.bind_ok]
  obtain ⟨f2, b1, b2⟩ := writeUsage_lays a2.ready a2.line texts hf hcr (!isEmptyText (customText texts cmd .initialText))
  simp only
  rw [b1, Outcome.bind_ok]
  obtain ⟨f3, c1, c2⟩ := writeAbout_lays b2.ready b2.line texts cmd (usageResult texts cmd || !isEmptyText (customText texts cmd .initialText))
  rw [c1, Outcome.bind_ok]
  obtain ⟨f4, d1, d2⟩ := writeArgumentSections_lays c2.ready c2.line texts hf (!isEmptyText (customText texts cmd .about) || !isEmptyText (customText texts cmd .help) ||
    (usageResult texts cmd || !isEmptyText (customText texts cmd .initialText)))
  rw [d1, Outcome.bind_ok]
  obtain ⟨f5, e1, e2⟩ := writeCustomText_lays d2.ready d2.line texts cmd .finalText true
  refine ⟨f5, e1, ?_⟩
  exact (((a2.trans b2).trans c2).trans d2).trans e2

theorem writeErrorMessage_lays {console : Nat} (texts : Nat → Str) {d : ParserData} {cmd : Command} (msg : Str) (hc : 2 < console) (hw : d.helpSettings.lineWidth = 0 ∨ 2 < d.helpSettings.lineWidth)
    {sp : Splitter} (hsp : Splitter.addWords [] d.helpSettings.wordSplitRules = .ok sp) (hr : ∀ r ∈ d.helpSettings.wordSplitRules, Utf8 r)
    (hf : Flagged cmd) (hcr : Endless cmd) :
    ∃ f', writeErrorMessage console texts d cmd msg = .ok f' ∧
      Lays 0 (errorBlocks texts cmd msg) (fresh (if d.helpSettings.lineWidth ≠ 0 then d.helpSettings.lineWidth else console) sp) f' := by
  unfold writeErrorMessage
  rw [makeFormatter_ok hc hw hsp, Outcome.bind_ok]
  have p := prepared_fresh (w := if d.helpSettings.lineWidth ≠ 0 then d.helpSettings.lineWidth else console) (by split <;> omega) hsp hr
  obtain ⟨f1, a1, a2⟩ := goes_words p (cmd.fullName ++ b!": ")
  rw [a1, Outcome.bind_ok]
  obtain ⟨f2, b1, b2⟩ := goes_words a2.ready msg
  rw [b1, Outcome.bind_ok]
  have c := (a2.trans b2).newline
  simp only
  unfold errorBlocks
  rw [customText_eq]
  cases he : custom texts cmd .errorUsage with
  | some t =>
    obtain ⟨f3, c1, c2⟩ := writeCustomText_lays c.ready c.line texts cmd .errorUsage false
    rw [he] at c2
    exact ⟨f3, c1, c.trans c2⟩
  | none =>
    obtain ⟨f3, c1, c2⟩ := writeUsage_lays c.ready c.line texts hf hcr false
    exact ⟨f3, c1, c.trans c2⟩

/-! ### The output ends with whole lines, whatever is written -/

/-- `act` leaves no unfinished line if there is none before. -/
def Whole (act : Formatter → Outcome Formatter) : Prop := ∀ f f', f.writer.line = [] → act f = .ok f' → f'.writer.line = []

theorem newline_line (f : Formatter) : f.newline.writer.line = [] := rfl

theorem popIndentation_line {f f' : Formatter} (h : f.popIndentation = .ok f') : f'.writer.line = f.writer.line := by
  unfold popIndentation at h
  split at h
  · simp only [Outcome.ok.injEq] at h
    subst h
    exact setIndentation_line ..
  · simp at h

theorem whole_custom (texts : Nat → Str) (cmd : Command) (id : TextId) (b : Bool) : Whole (writeCustomText texts cmd id b) := by
  intro f f' hl h
  unfold writeCustomText at h
  split at h
  · simp only [Outcome.ok.injEq] at h
    subst h
    exact hl
  · split at h
    · simp only [Outcome.ok.injEq] at h
      subst h
      exact hl
    · simp only [Outcome.bind_eq_ok] at h
      obtain ⟨g, _, h⟩ := h
      by_cases hg : g.writer.line = []
      · rw [if_neg (c := g.writer.line ≠ []) (by simpa using hg)] at h
        simp only [Outcome.pure_eq, Outcome.ok.injEq] at h
        subst h
        exact hg
      · rw [if_pos hg] at h
        simp only [Outcome.pure_eq, Outcome.ok.injEq] at h
        subst h
        rfl

theorem whole_forEach {α : Type} {act : α → Formatter → Outcome Formatter} (xs : List α) (h : ∀ x ∈ xs, Whole (act x)) : Whole (forEach act xs) := by
  induction xs with
  | nil =>
    intro f f' hl he
    simp only [forEach, Outcome.pure_eq, Outcome.ok.injEq] at he
    subst he
    exact hl
  | cons x xs ih =>
    intro f f' hl he
    simp only [forEach, Outcome.bind_eq_ok] at he
    obtain ⟨g, g1, g2⟩ := he
    exact ih (fun y hy => h y (by simp [hy])) g f' (h x (by simp) f g hl g1) g2

theorem whole_entry (n : Nat) (e : Str × Str) : Whole (writeEntry n e) := by
  intro f f' _ h
  unfold writeEntry at h
  simp only [Outcome.bind_eq_ok] at h
  obtain ⟨g, _, g', _, h⟩ := h
  simp only [Outcome.pure_eq, Outcome.ok.injEq] at h
  subst h
  rfl

theorem whole_section (n : Nat) (b : Bool) (s : SectionTexts) : Whole (writeSection n b s) := by
  intro f f' hl h
  unfold writeSection at h
  simp only [Outcome.bind_eq_ok] at h
  obtain ⟨g, _, g', h1, h⟩ := h
  rw [popIndentation_line h]
  refine whole_forEach s.2 (fun e _ => whole_entry n e) _ _ ?_ h1
  exact setIndentation_line ..

theorem whole_sections (b : Bool) (ss : List SectionTexts) : Whole (writeSections b ss) := by
  intro f f' hl h
  unfold writeSections at h
  cases ss with
  | nil =>
    simp only [Outcome.pure_eq, Outcome.ok.injEq] at h
    subst h
    exact hl
  | cons s ss =>
    simp only [Outcome.bind_eq_ok] at h
    obtain ⟨g, g1, g2⟩ := h
    exact whole_forEach ss (fun s _ => whole_section _ _ s) _ _ (whole_section _ _ s _ _ hl g1) g2

theorem whole_argumentSections (texts : Nat → Str) (cmd : Command) (b : Bool) : Whole (writeArgumentSections texts cmd b) := by
  intro f f' hl h
  unfold writeArgumentSections at h
  simp only [Outcome.bind_eq_ok] at h
  obtain ⟨ss, _, h⟩ := h
  exact whole_sections _ _ _ _ hl h

theorem whole_briefUsage (cmd : Command) (b : Bool) : Whole (writeBriefUsage cmd b) := by
  intro f f' _ h
  unfold writeBriefUsage at h
  simp only [Outcome.bind_eq_ok] at h
  obtain ⟨_, _, _, _, _, _, _, _, _, _, _, _, _, _, h⟩ := h
  rw [popIndentation_line h]
  rfl

theorem whole_usageTitle (texts : Nat → Str) (cmd : Command) (b : Bool) : Whole (writeUsageTitle texts cmd b) := by
  intro f f' hl h
  unfold writeUsageTitle at h
  split at h
  · exact whole_custom _ _ _ _ _ _ hl h
  · simp only [Outcome.bind_eq_ok] at h
    obtain ⟨_, _, h⟩ := h
    simp only [Outcome.pure_eq, Outcome.ok.injEq] at h
    subst h
    rfl

theorem whole_usage (texts : Nat → Str) (cmd : Command) (b : Bool) : Whole (writeUsage texts cmd b) := by
  intro f f' hl h
  unfold writeUsage at h
  split at h
  · simp only [Outcome.pure_eq, Outcome.ok.injEq] at h
    subst h
    exact hl
  · simp only [Outcome.bind_eq_ok] at h
    obtain ⟨g, g1, h⟩ := h
    have hg := whole_usageTitle _ _ _ _ _ hl g1
    split at h
    · exact whole_custom _ _ _ _ _ _ hg h
    · exact whole_briefUsage _ _ _ _ hg h

theorem makeFormatter_line {console : Nat} {d : ParserData} {f : Formatter} (h : makeFormatter console d = .ok f) : f.writer.line = [] := by
  unfold makeFormatter at h
  split at h
  · simp at h
  · split at h
    · simp at h
    · simp only [Outcome.bind_eq_ok, Outcome.pure_eq, Outcome.ok.injEq] at h
      obtain ⟨_, _, h⟩ := h
      subst h
      rfl

theorem writeHelpText_line {console : Nat} {texts : Nat → Str} {d : ParserData} {cmd : Command} {f : Formatter} (h : writeHelpText console texts d cmd = .ok f) :
    f.writer.line = [] := by
  unfold writeHelpText at h
  simp only [Outcome.bind_eq_ok] at h
  obtain ⟨f0, h0, f1, h1, f2, h2, f3, h3, f4, h4, h5⟩ := h
  have l1 := whole_custom _ _ _ _ _ _ (makeFormatter_line h0) h1
  have l2 := whole_usage _ _ _ _ _ l1 h2
  have l3 : f3.writer.line = [] := by
    unfold writeAbout at h3
    simp only [Outcome.bind_eq_ok] at h3
    obtain ⟨g, g1, h3⟩ := h3
    have lg := whole_custom _ _ _ _ _ _ l2 g1
    split at h3
    · simp only [Outcome.pure_eq, Outcome.ok.injEq] at h3
      subst h3
      exact lg
    · exact whole_custom _ _ _ _ _ _ lg h3
  exact whole_custom _ _ _ _ _ _ (whole_argumentSections _ _ _ _ _ l3 h4) h5

theorem writeErrorMessage_line {console : Nat} {texts : Nat → Str} {d : ParserData} {cmd : Command} {msg : Str} {f : Formatter}
    (h : writeErrorMessage console texts d cmd msg = .ok f) : f.writer.line = [] := by
  unfold writeErrorMessage at h
  simp only [Outcome.bind_eq_ok] at h
  obtain ⟨f0, h0, f1, h1, f2, h2, h⟩ := h
  split at h
  · exact whole_custom _ _ _ _ _ _ (newline_line f2) h
  · exact whole_usage _ _ _ _ _ (newline_line f2) h

/-! ### What is hidden has no influence -/

theorem forEach_filter {α : Type} {act : α → Formatter → Outcome Formatter} {p : α → Bool} (xs : List α) (h : ∀ x f, p x = false → act x f = .ok f) (f : Formatter) :
    forEach act (xs.filter p) f = forEach act xs f := by
  induction xs generalizing f with
  | nil => rfl
  | cons x xs ih =>
    cases hp : p x with
    | false =>
      rw [List.filter_cons_of_neg (by simp [hp])]
      simp only [forEach]
      rw [h x f hp, Outcome.bind_ok, ih]
    | true =>
      rw [List.filter_cons_of_pos hp]
      simp only [forEach]
      congr 1
      funext g
      exact ih g

theorem addArguments_filter (texts : Nat → Str) (title : Str) (p : ArgData → Bool) (as : List ArgData) (h : ∀ a, p a = false → a.visibility.text = false) (ss : List SectionTexts) :
    addArguments texts title (as.filter p) ss = addArguments texts title as ss := by
  induction as generalizing ss with
  | nil => rfl
  | cons a as ih =>
    cases hp : p a with
    | false =>
      rw [List.filter_cons_of_neg (by simp [hp]), ih]
      conv => rhs; unfold addArguments
      simp [h a hp]
    | true =>
      rw [List.filter_cons_of_pos hp]
      simp only [addArguments, ih]

theorem addCommands_filter (texts : Nat → Str) (title : Str) (p : Command → Bool) (cs : List Command) (h : ∀ a, p a = false → a.visibility.text = false) (ss : List SectionTexts) :
    addCommands texts title (cs.filter p) ss = addCommands texts title cs ss := by
  induction cs generalizing ss with
  | nil => rfl
  | cons a as ih =>
    cases hp : p a with
    | false =>
      rw [List.filter_cons_of_neg (by simp [hp]), ih]
      conv => rhs; unfold addCommands
      simp [h a hp]
    | true =>
      rw [List.filter_cons_of_pos hp]
      simp only [addCommands, ih]

theorem addOptions_filter (texts : Nat → Str) (title : Str) (p : OptData → Bool) (os : List OptData) (h : ∀ a, p a = false → a.visibility.text = false) (ss : List SectionTexts) :
    addOptions texts title (os.filter p) ss = addOptions texts title os ss := by
  induction os generalizing ss with
  | nil => rfl
  | cons a as ih =>
    cases hp : p a with
    | false =>
      rw [List.filter_cons_of_neg (by simp [hp]), ih]
      conv => rhs; unfold addOptions
      simp [h a hp]
    | true =>
      rw [List.filter_cons_of_pos hp]
      simp only [addOptions, ih]

theorem briefCommandsLoop_filter (p : Command → Bool) (cs : List Command) (h : ∀ a, p a = false → a.visibility.usage = false) (first : Bool) (f : Formatter) :
    writeBriefCommandsLoop first (cs.filter p) f = writeBriefCommandsLoop first cs f := by
  induction cs generalizing first f with
  | nil => rfl
  | cons a as ih =>
    cases hp : p a with
    | false =>
      rw [List.filter_cons_of_neg (by simp [hp]), ih]
      conv => rhs; unfold writeBriefCommandsLoop
      simp [h a hp]
    | true =>
      rw [List.filter_cons_of_pos hp]
      simp only [writeBriefCommandsLoop, ih]

theorem custom_withoutHidden (texts : Nat → Str) (cmd : Command) (id : TextId) : customText texts (withoutHidden cmd) id = customText texts cmd id := rfl

theorem briefUsage_withoutHidden (cmd : Command) (h : cmd.commands = [] ∨ ∃ c ∈ cmd.commands, c.visibility.text ∨ c.visibility.usage) (b : Bool) (f : Formatter) :
    writeBriefUsage (withoutHidden cmd) b f = writeBriefUsage cmd b f := by
  have h1 : ∀ f, writeStopAndHelpUsage (withoutHidden cmd) f = writeStopAndHelpUsage cmd f := by
    intro f
    refine forEach_filter _ ?_ f
    intro o f ho
    unfold writeStopOption
    simp only [decide_eq_false_iff_not, not_or, Bool.not_eq_true] at ho
    simp [ho.2]
  have h2 : ∀ f, forEach writeBriefOption (withoutHidden cmd).options f = forEach writeBriefOption cmd.options f := by
    intro f
    refine forEach_filter _ ?_ f
    intro o f ho
    unfold writeBriefOption
    simp only [decide_eq_false_iff_not, not_or, Bool.not_eq_true] at ho
    simp [ho.2]
  have h3 : ∀ f, forEach writeBriefArgument (withoutHidden cmd).arguments f = forEach writeBriefArgument cmd.arguments f := by
    intro f
    refine forEach_filter _ ?_ f
    intro o f ho
    unfold writeBriefArgument
    simp only [decide_eq_false_iff_not, not_or, Bool.not_eq_true] at ho
    simp [ho.2]
  have h4 : ∀ f, writeBriefCommands (withoutHidden cmd) f = writeBriefCommands cmd f := by
    intro f
    unfold writeBriefCommands
    have e : (withoutHidden cmd).commands.isEmpty = cmd.commands.isEmpty := by
      rcases h with h | ⟨c, hc, hv⟩
      · simp [withoutHidden, h]
      · have hm : c ∈ (withoutHidden cmd).commands := by simp [withoutHidden, hc, hv]
        have n1 : (withoutHidden cmd).commands ≠ [] := List.ne_nil_of_mem hm
        have n2 : cmd.commands ≠ [] := List.ne_nil_of_mem hc
        rw [List.isEmpty_eq_false_iff.mpr n1, List.isEmpty_eq_false_iff.mpr n2]
    have e2 : ∀ first f, writeBriefCommandsLoop first (withoutHidden cmd).commands f = writeBriefCommandsLoop first cmd.commands f := by
      intro first f
      refine briefCommandsLoop_filter _ _ ?_ first f
      intro o ho
      simp only [decide_eq_false_iff_not, not_or, Bool.not_eq_true] at ho
      exact ho.2
    simp only [e, e2]
    rfl
  unfold writeBriefUsage
  simp only [h1, h2, h3, h4]
  rfl

theorem usage_withoutHidden (texts : Nat → Str) (cmd : Command) (h : cmd.commands = [] ∨ ∃ c ∈ cmd.commands, c.visibility.text ∨ c.visibility.usage) (b : Bool) (f : Formatter) :
    writeUsage texts (withoutHidden cmd) b f = writeUsage texts cmd b f := by
  unfold writeUsage
  simp only [custom_withoutHidden, briefUsage_withoutHidden cmd h]
  rfl

theorem argumentSections_withoutHidden (texts : Nat → Str) (cmd : Command) (b : Bool) (f : Formatter) :
    writeArgumentSections texts (withoutHidden cmd) b f = writeArgumentSections texts cmd b f := by
  have e : argumentSections texts (withoutHidden cmd) = argumentSections texts cmd := by
    unfold argumentSections
    simp only [custom_withoutHidden]
    unfold withoutHidden
    simp only
    rw [addArguments_filter, addCommands_filter, addOptions_filter]
    all_goals
      intro a ha
      simp only [decide_eq_false_iff_not, not_or, Bool.not_eq_true] at ha
      exact ha.1
  unfold writeArgumentSections
  rw [e]

theorem writeHelpText_withoutHidden (console : Nat) (texts : Nat → Str) (d : ParserData) (cmd : Command)
    (h : cmd.commands = [] ∨ ∃ c ∈ cmd.commands, c.visibility.text ∨ c.visibility.usage) :
    writeHelpText console texts d (withoutHidden cmd) = writeHelpText console texts d cmd := by
  unfold writeHelpText
  simp only [custom_withoutHidden, usage_withoutHidden texts cmd h, argumentSections_withoutHidden]
  rfl

theorem writeErrorMessage_withoutHidden (console : Nat) (texts : Nat → Str) (d : ParserData) (cmd : Command) (msg : Str)
    (h : cmd.commands = [] ∨ ∃ c ∈ cmd.commands, c.visibility.text ∨ c.visibility.usage) :
    writeErrorMessage console texts d (withoutHidden cmd) msg = writeErrorMessage console texts d cmd msg := by
  unfold writeErrorMessage
  simp only [custom_withoutHidden, usage_withoutHidden texts cmd h]
  rfl

theorem lays_written {d : Nat} {bs : List Str} {w : Nat} {sp : Splitter} {f : Formatter} (h : Lays d bs (fresh w sp) f) : Laid bs f.written := by
  obtain ⟨x, x1, x2⟩ := h.text
  have : f.written = x := by
    have e : (fresh w sp).writer.all = [] := rfl
    rw [e, List.nil_append] at x1
    exact x1
  rw [this]
  exact x2

theorem lays_fits {d : Nat} {bs : List Str} {l c : Nat} {sp : Splitter} {f : Formatter} (h : Lays d bs (fresh (if l ≠ 0 then l else c) sp) f) :
    ∀ x ∈ linesOf f.written, LineFits (if l = 0 then c else l) x := by
  have e : f.writer.lineWidth = if l = 0 then c else l := by
    rw [h.width]
    show (if l ≠ 0 then l else c) = _
    by_cases hl : l = 0 <;> simp [hl]
  rw [← e]
  exact h.ready.toReady.fits

end Formatter

end Argos
