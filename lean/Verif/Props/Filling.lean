import Verif.Props.Layout
import Verif.Proofs.FillingHelp

set_option synthInstance.maxSize 1000

/-! # C77: how texts are set -/

namespace Argos

open Spec Formatter

/-! ### Deciding for concrete texts whether they can be filled, for the examples -/

def LineCheck (width indent : Nat) (l : Str) : Prop :=
  match wordsIn l with
  | [] => True
  | (k, w) :: ws => indent + k + glyphs w ≤ width ∧ (∀ x ∈ ws, hangOf indent (wordsIn l) + glyphs x.2 ≤ width) ∧ (Marker w → ws ≠ [])

instance (width indent : Nat) (l : Str) : Decidable (LineCheck width indent l) := by
  unfold LineCheck
  split <;> infer_instance

def FillsCheck (width indent : Nat) (text : Str) : Prop := 9 ∉ text ∧ Plain text ∧ ∀ l ∈ textLines text, LineCheck width indent l

instance (width indent : Nat) (text : Str) : Decidable (FillsCheck width indent text) := inferInstanceAs (Decidable (_ ∧ _))

theorem noRule_nil (w : Str) : NoRule [] w := by simp [NoRule]

theorem fills_of_check {width indent : Nat} {text : Str} (h : FillsCheck width indent text) : Fills [] width indent text := by
  refine ⟨h.1, utf8_ascii _ h.2.1, fun l hl => ?_⟩
  have := h.2.2 l hl
  unfold LineCheck at this
  unfold LineFills
  split
  · trivial
  · rename_i hw
    rw [hw] at this
    obtain ⟨h1, h2, h3⟩ := this
    refine ⟨h1, fun x hx => ⟨?_, noRule_nil _⟩, h3⟩
    have := h2 x hx
    rwa [hw]

def PartCheck (width indent : Nat) (s : Str) : Prop := s ≠ [] ∧ Plain s ∧ (∀ c ∈ s, c ≠ 10 ∧ c ≠ 13) ∧ indent + glyphs s ≤ width

instance (width indent : Nat) (s : Str) : Decidable (PartCheck width indent s) := inferInstanceAs (Decidable (_ ∧ _))

theorem part_of_check {width indent : Nat} {s : Str} (h : PartCheck width indent s) : PartFills [] width indent s :=
  ⟨h.1, utf8_ascii _ h.2.1, h.2.2.1, h.2.2.2, noRule_nil _⟩

def UsageCheck (width : Nat) (cmd : Command) : Prop :=
  (OneLine cmd.fullName ∧ Plain cmd.fullName ∧ ¬ Marker cmd.fullName ∧ cmd.fullName.length + 3 < width) ∧
  (∀ o ∈ cmd.options, o.visibility.usage → EndsProgram o → PartCheck width (3 + glyphs cmd.fullName) (stopUsage o)) ∧
  (∀ o ∈ cmd.options, o.visibility.usage → ¬ EndsProgram o → PartCheck width (3 + glyphs cmd.fullName) (optionUsage o)) ∧
  (∀ a ∈ cmd.arguments, a.visibility.usage → PartCheck width (3 + glyphs cmd.fullName) (argumentLabel a)) ∧
  (∀ s ∈ commandParts cmd, (∀ c ∈ s, ¬ (c = 32 ∨ c = 9 ∨ c = 10 ∨ c = 13)) ∧ PartCheck width (3 + glyphs cmd.fullName) s)

instance (width : Nat) (cmd : Command) : Decidable (UsageCheck width cmd) := by
  unfold UsageCheck
  infer_instance

theorem usage_of_check {width : Nat} {cmd : Command} (h : UsageCheck width cmd) : UsageFills [] width cmd := by
  obtain ⟨⟨h1, h2, h3⟩, h4, h5, h6, h7⟩ := h
  exact ⟨⟨h1, utf8_ascii _ h2, h3⟩, fun o ho hv he => part_of_check (h4 o ho hv he), fun o ho hv he => part_of_check (h5 o ho hv he),
    fun a ha hv => part_of_check (h6 a ha hv), fun s hs => ⟨(h7 s hs).1, part_of_check (h7 s hs).2⟩⟩

def StackCheck (width : Nat) (es : List Entry) : Prop :=
  ¬ TwoColumns width es ∧ (∀ e ∈ es, FillsCheck width 0 e.heading) ∧ ∀ e ∈ es, FillsCheck width 2 e.label ∧ (e.text = [] ∨ (8 < width ∧ FillsCheck width 8 e.text))

instance (width : Nat) (es : List Entry) : Decidable (StackCheck width es) := by
  unfold StackCheck
  infer_instance

theorem list_of_stackCheck {width : Nat} {es : List Entry} (h : StackCheck width es) : ListFills [] width es := by
  obtain ⟨h1, h2, h3⟩ := h
  exact ⟨fun e he => fills_of_check (h2 e he), fun h => absurd h h1, fun _ e he => ⟨fills_of_check (h3 e he).1, (h3 e he).2.imp_right fun h => ⟨h.1, fills_of_check h.2⟩⟩⟩

def ColumnsCheck (width : Nat) (es : List Entry) : Prop :=
  TwoColumns width es ∧ (∀ e ∈ es, FillsCheck width 0 e.heading) ∧ ∀ e ∈ es, (OneLine e.label ∧ Plain e.label ∧ ¬ Marker e.label) ∧
    (9 ∉ e.text ∧ Plain e.text ∧ (∀ x ∈ wordsIn ((textLines e.text).headD []), textColumn es + glyphs x.2 ≤ width) ∧
      ∀ l ∈ (textLines e.text).tail, LineCheck width (textColumn es) l)

instance (width : Nat) (es : List Entry) : Decidable (ColumnsCheck width es) := by
  unfold ColumnsCheck
  infer_instance

theorem line_of_check {width indent : Nat} {l : Str} (h : LineCheck width indent l) : LineFills [] width indent l := by
  unfold LineCheck at h
  unfold LineFills
  split
  · trivial
  · rename_i hw
    rw [hw] at h
    obtain ⟨h1, h2, h3⟩ := h
    refine ⟨h1, fun x hx => ⟨?_, noRule_nil _⟩, h3⟩
    have := h2 x hx
    rwa [hw]

theorem list_of_columnsCheck {width : Nat} {es : List Entry} (h : ColumnsCheck width es) : ListFills [] width es := by
  obtain ⟨h1, h2, h3⟩ := h
  refine ⟨fun e he => fills_of_check (h2 e he), fun _ e he => ?_, fun h => absurd h1 h⟩
  obtain ⟨⟨l1, l2, l3⟩, t1, t2, t3, t4⟩ := h3 e he
  refine ⟨⟨l1, utf8_ascii _ l2, l3⟩, .inr ⟨t1, utf8_ascii _ t2, fun l ls hl => ?_⟩⟩
  rw [hl] at t3 t4
  exact ⟨fun x hx => ⟨t3 x hx, noRule_nil _⟩, fun l' hl' => line_of_check (t4 l' hl')⟩

/-! ### C77: Lines are filled -/

/-- C77: a text is set line by line. A word goes on the current line if there is room for it, otherwise it begins the next line; spaces are kept
between the words of a line. Continued lines are indented like the line they continue; those of an item of a list like the text behind its marker.

Missing from the full statement: texts with tabs; texts with words that are too long for a line or have a splitting rule (C48, C55); list markers that are alone
on their line. -/
theorem C77_text_partial (width indent : Nat) (hw : indent < width) (rules : List Str) (sp : Splitter) (hsp : Splitter.addWords [] rules = .ok sp)
    (text : Str) (ht : Fills rules width indent text) :
    ∃ f, FormatOp.run (fresh width sp) [.push indent, .words text] = .ok f ∧ f.written = Spec.setText width indent text := by
  have h0 : Begins sp width [] 0 [] (fresh width sp) := ⟨rfl, rfl, rfl, rfl, rfl, rfl, rfl, rfl, rfl, by omega⟩
  obtain ⟨f, a1, a2⟩ := words_set hsp (begins_push h0 hw) ht
  refine ⟨f, ?_, ?_⟩
  · simp only [FormatOp.run, FormatOp.exec, Outcome.bind_ok, a1]
  · have hwr : f.written = f.writer.out ++ f.writer.line := rfl
    rw [hwr]
    rcases a2 with ⟨_, a2⟩ | ⟨_, _, _, a2⟩
    · rw [a2.line, a2.out]
      simp
    · rw [a2.written]
      simp

/-- C77: an item of a list, a line with two spaces between words, and an indented line. -/
example : Fills [] 20 2 b!"Formats:\n- a file with numbers\n10. words  and words again\n\n  the rest, as it is" ∧
    Spec.setText 20 2 b!"Formats:\n- a file with numbers\n10. words  and words again\n\n  the rest, as it is" =
      b!"  Formats:\n  - a file with\n    numbers\n  10. words  and\n      words again\n\n    the rest, as it\n    is" := by
  refine ⟨fills_of_check ?_, ?_⟩ <;> decide +kernel

/-- C77: the whole help text, for all widths: every text and every line of the usage is filled.

Missing from the full statement: the same as for `C77_text_partial`; in lists with two columns and in the usage, a label that is a list marker or has several lines. -/
theorem C77_help_partial (console : Nat) (texts : Nat → Str) (d0 d : ParserData) (hd : finishInitialization d0 = .ok d) (cmd : Command) (hcmd : cmd.Within d.command)
    (hc : 2 < console) (hw : d.helpSettings.lineWidth = 0 ∨ 2 < d.helpSettings.lineWidth)
    (sp : Splitter) (hsp : Splitter.addWords [] d.helpSettings.wordSplitRules = .ok sp)
    (ht : PageFills d.helpSettings.wordSplitRules (if d.helpSettings.lineWidth = 0 then console else d.helpSettings.lineWidth) texts cmd) :
    ∃ f, writeHelpText console texts d cmd = .ok f ∧
      f.written = helpPage (if d.helpSettings.lineWidth = 0 then console else d.helpSettings.lineWidth) texts cmd := by
  have e : (if d.helpSettings.lineWidth = 0 then console else d.helpSettings.lineWidth) = if d.helpSettings.lineWidth ≠ 0 then d.helpSettings.lineWidth else console := by
    by_cases h : d.helpSettings.lineWidth = 0 <;> simp [h]
  rw [e] at ht ⊢
  exact help_set texts hc hw hsp (flagged_of_init hd hcmd) ht

/-- C77: error messages, with the name of the command before them and the usage or a custom text below.

Missing from the full statement: the same as for `C77_help_partial`; messages that begin with a space. -/
theorem C77_error_partial (console : Nat) (texts : Nat → Str) (d0 d : ParserData) (hd : finishInitialization d0 = .ok d) (cmd : Command) (hcmd : cmd.Within d.command)
    (msg : Str) (hc : 2 < console) (hw : d.helpSettings.lineWidth = 0 ∨ 2 < d.helpSettings.lineWidth)
    (sp : Splitter) (hsp : Splitter.addWords [] d.helpSettings.wordSplitRules = .ok sp)
    (ht : ErrorFills d.helpSettings.wordSplitRules (if d.helpSettings.lineWidth = 0 then console else d.helpSettings.lineWidth) texts cmd msg) :
    ∃ f, writeErrorMessage console texts d cmd msg = .ok f ∧
      f.written = errorPage (if d.helpSettings.lineWidth = 0 then console else d.helpSettings.lineWidth) texts cmd msg := by
  have e : (if d.helpSettings.lineWidth = 0 then console else d.helpSettings.lineWidth) = if d.helpSettings.lineWidth ≠ 0 then d.helpSettings.lineWidth else console := by
    by_cases h : d.helpSettings.lineWidth = 0 <;> simp [h]
  rw [e] at ht ⊢
  exact error_set texts hc hw hsp (flagged_of_init hd hcmd) ht

/-- A parser whose usage doesn't fit on a line. -/
def fillExample (width : Nat) : ParserData where
  command := {
    name := b!"prog"
    arguments := [{ name := b!"file", help := .text b!"The file to read:\n- a file of numbers" }, { name := b!"result", help := .text b!"The result." }]
    options := [{ flags := [b!"-n", b!"--number="], argument := b!"n", help := .text b!"A number." }, { flags := [b!"-v"], constant := b!"1" }]
    commands := [{ name := b!"open" }, { name := b!"close" }]
    texts := [(.about, .text b!"Reads a file and\nwrites the numbers of it."), (.finalText, .text b!"The end.\n")] }
  helpSettings := { lineWidth := width }

/-- C77: the texts below the labels, the usage continued on further lines. -/
example : ∃ d, finishInitialization (fillExample 26) = .ok d ∧ PageFills [] 26 (fun _ => []) d.command ∧ Splitter.addWords [] d.helpSettings.wordSplitRules = .ok [] ∧
    helpPage 26 (fun _ => []) d.command = b!"USAGE\n  prog --help\n  prog [-n <n>] [-v]\n       <file> <result>\n       open|close\n\nReads a file and\nwrites the numbers of it.\n\nARGUMENTS\n  <file>\n        The file to read:\n        - a file of\n          numbers\n  <result>\n        The result.\n\nCOMMANDS\n  open\n  close\n\nOPTIONS\n  -n <n>, --number=<n>\n        A number.\n  -v\n  -h, --help\n        Display this help\n        text.\n\nThe end.\n" := by
  obtain ⟨d, h, h1, h2, h3, h4, h5, h6, h7, h8⟩ : ∃ d, finishInitialization (fillExample 26) = .ok d ∧
      FillsCheck 26 0 ((custom (fun _ => []) d.command .initialText).getD []) ∧
      FillsCheck 26 0 (usageTitle (fun _ => []) d.command) ∧ custom (fun _ => []) d.command .usage = none ∧ UsageCheck 26 d.command ∧
      (FillsCheck 26 0 (aboutText (fun _ => []) d.command) ∧ FillsCheck 26 0 ((custom (fun _ => []) d.command .finalText).getD [])) ∧
      StackCheck 26 (entries (fun _ => []) d.command) ∧ Splitter.addWords [] d.helpSettings.wordSplitRules = .ok [] ∧
      helpPage 26 (fun _ => []) d.command = b!"USAGE\n  prog --help\n  prog [-n <n>] [-v]\n       <file> <result>\n       open|close\n\nReads a file and\nwrites the numbers of it.\n\nARGUMENTS\n  <file>\n        The file to read:\n        - a file of\n          numbers\n  <result>\n        The result.\n\nCOMMANDS\n  open\n  close\n\nOPTIONS\n  -n <n>, --number=<n>\n        A number.\n  -v\n  -h, --help\n        Display this help\n        text.\n\nThe end.\n" := by
    decide +kernel
  exact ⟨d, h, ⟨fills_of_check h1, ⟨fills_of_check h2, by rw [h3]; simp, fun _ => usage_of_check h4⟩, fills_of_check h5.1, list_of_stackCheck h6, fills_of_check h5.2⟩, h7, h8⟩

/-- C77: two columns, with a text of two lines. -/
example : ∃ d, finishInitialization (fillExample 60) = .ok d ∧ PageFills [] 60 (fun _ => []) d.command ∧ Splitter.addWords [] d.helpSettings.wordSplitRules = .ok [] ∧
    helpPage 60 (fun _ => []) d.command = b!"USAGE\n  prog --help\n  prog [-n <n>] [-v] <file> <result> open|close\n\nReads a file and\nwrites the numbers of it.\n\nARGUMENTS\n  <file>               The file to read:\n                       - a file of numbers\n  <result>             The result.\n\nCOMMANDS\n  open\n  close\n\nOPTIONS\n  -n <n>, --number=<n> A number.\n  -v\n  -h, --help           Display this help text.\n\nThe end.\n" := by
  obtain ⟨d, h, h1, h2, h3, h4, h5, h6, h7, h8⟩ : ∃ d, finishInitialization (fillExample 60) = .ok d ∧
      FillsCheck 60 0 ((custom (fun _ => []) d.command .initialText).getD []) ∧
      FillsCheck 60 0 (usageTitle (fun _ => []) d.command) ∧ custom (fun _ => []) d.command .usage = none ∧ UsageCheck 60 d.command ∧
      (FillsCheck 60 0 (aboutText (fun _ => []) d.command) ∧ FillsCheck 60 0 ((custom (fun _ => []) d.command .finalText).getD [])) ∧
      ColumnsCheck 60 (entries (fun _ => []) d.command) ∧ Splitter.addWords [] d.helpSettings.wordSplitRules = .ok [] ∧
      helpPage 60 (fun _ => []) d.command = b!"USAGE\n  prog --help\n  prog [-n <n>] [-v] <file> <result> open|close\n\nReads a file and\nwrites the numbers of it.\n\nARGUMENTS\n  <file>               The file to read:\n                       - a file of numbers\n  <result>             The result.\n\nCOMMANDS\n  open\n  close\n\nOPTIONS\n  -n <n>, --number=<n> A number.\n  -v\n  -h, --help           Display this help text.\n\nThe end.\n" := by
    decide +kernel
  exact ⟨d, h, ⟨fills_of_check h1, ⟨fills_of_check h2, by rw [h3]; simp, fun _ => usage_of_check h4⟩, fills_of_check h5.1, list_of_columnsCheck h6, fills_of_check h5.2⟩, h7, h8⟩

/-- C77: an error message of two lines. -/
example : ∃ d, finishInitialization (fillExample 26) = .ok d ∧ ErrorFills [] 26 (fun _ => []) d.command b!"The number is wrong, it should be less." ∧
    Splitter.addWords [] d.helpSettings.wordSplitRules = .ok [] ∧
    errorPage 26 (fun _ => []) d.command b!"The number is wrong, it should be less." =
      b!"prog: The number is wrong,\nit should be less.\nUSAGE\n  prog --help\n  prog [-n <n>] [-v]\n       <file> <result>\n       open|close\n" := by
  obtain ⟨d, h, h1, h2, h3, h4, h5, h6, h7, h8⟩ : ∃ d, finishInitialization (fillExample 26) = .ok d ∧
      FillsCheck 26 0 (d.command.fullName ++ b!": " ++ b!"The number is wrong, it should be less.") ∧
      (OneLine d.command.fullName ∧ ((wordsIn (d.command.fullName ++ b!":")).head?.all fun x => ¬ Marker x.2) = true) ∧ custom (fun _ => []) d.command .errorUsage = none ∧
      FillsCheck 26 0 (usageTitle (fun _ => []) d.command) ∧ custom (fun _ => []) d.command .usage = none ∧ UsageCheck 26 d.command ∧
      Splitter.addWords [] d.helpSettings.wordSplitRules = .ok [] ∧
      errorPage 26 (fun _ => []) d.command b!"The number is wrong, it should be less." =
        b!"prog: The number is wrong,\nit should be less.\nUSAGE\n  prog --help\n  prog [-n <n>] [-v]\n       <file> <result>\n       open|close\n" := by
    decide +kernel
  refine ⟨d, h, ⟨fills_of_check h1, ⟨h2.1, fun x hx => ?_⟩, by decide, by rw [h3]; simp, fun _ => ⟨fills_of_check h4, by rw [h5]; simp, fun _ => usage_of_check h6⟩⟩, h7, h8⟩
  have := h2.2
  rw [Option.mem_def.mp hx] at this
  simpa using this

/-- C77 is violated by a list marker that is alone on its line: the state of the formatter is kept, and the first space of the next line is taken for the one
behind the marker, so that the lines that continue it are indented like an item of the list. -/
theorem C77_violated : ∃ text, 9 ∉ text ∧ Utf8 text ∧ (∀ l ∈ textLines text, ∀ x ∈ wordsIn l, glyphs x.2 ≤ 20) ∧
    ∃ f, FormatOp.run (fresh 20 []) [.push 0, .words text] = .ok f ∧ f.written ≠ Spec.setText 20 0 text ∧
      f.written = b!"1.\nsome words are here\n     again and again" ∧ Spec.setText 20 0 text = b!"1.\nsome words are here\nagain and again" := by
  refine ⟨b!"1.\nsome words are here again and again", by decide, utf8_ascii _ (by decide), ?_, ?_⟩ <;> decide +kernel

end Argos
