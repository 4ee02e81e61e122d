import Verif.Props.Help
import Verif.Props.Text
import Verif.Proofs.HelpHanging

set_option synthInstance.maxSize 1000

/-! # C71: the layout of the help text -/

namespace Argos

open Spec Formatter

/-! ### Deciding for concrete commands whether their texts fit, for the examples -/

/-- The bytes of ASCII. -/
def Plain (s : Str) : Prop := s.all (fun c => c.toNat < 128) = true

instance (s : Str) : Decidable (Plain s) := inferInstanceAs (Decidable (_ = _))

def GeneratedCheck (width : Nat) (texts : Nat → Str) (cmd : Command) : Prop :=
  (OneLine cmd.fullName ∧ ¬ Marker cmd.fullName ∧ cmd.fullName.length + 3 < width) ∧
  (∀ o ∈ cmd.options, o.visibility.usage → EndsProgram o → OneLine (stopUsage o)) ∧
  (∀ o ∈ cmd.options, o.visibility.usage → ¬ EndsProgram o → OneLine (optionUsage o)) ∧
  (∀ a ∈ cmd.arguments, a.visibility.usage → OneLine (argumentLabel a)) ∧
  (∀ c ∈ cmd.commands, c.visibility.usage → OneLine c.name) ∧
  (∀ l ∈ usageLines cmd, 2 + l.length ≤ width) ∧
  ¬ Marker ((custom texts cmd .initialText).getD []) ∧ ¬ Marker (usageTitle texts cmd)

instance (width : Nat) (texts : Nat → Str) (cmd : Command) : Decidable (GeneratedCheck width texts cmd) := by
  unfold GeneratedCheck
  infer_instance

def ListCheck (width : Nat) (texts : Nat → Str) (cmd : Command) : Prop :=
  FitsOn width ((custom texts cmd .initialText).getD []) ∧ FitsOn width (usageTitle texts cmd) ∧
  (∀ e ∈ entries texts cmd, FitsOn width e.heading) ∧
  (∀ e ∈ entries texts cmd, OneLine e.label ∧ 2 + e.label.length ≤ width) ∧
  (∀ e ∈ entries texts cmd, Plain e.label)

instance (width : Nat) (texts : Nat → Str) (cmd : Command) : Decidable (ListCheck width texts cmd) := by
  unfold ListCheck
  infer_instance

theorem textsFit_of_check {width : Nat} {texts : Nat → Str} {cmd : Command} (hl : ListCheck width texts cmd)
    (hu : (custom texts cmd .usage).all (fun s => FitsOn width s) = true) (hg : custom texts cmd .usage = none → GeneratedCheck width texts cmd)
    (ha : FitsOn width (aboutText texts cmd))
    (ht : ∀ e ∈ entries texts cmd, e.text = [] ∨ (OneLine e.text ∧ (TwoColumns width (entries texts cmd) ∨ 8 + e.text.length ≤ width)))
    (hf : FitsOn width ((custom texts cmd .finalText).getD [])) : TextsFit width texts cmd := by
  obtain ⟨h1, h2, h3, h4, h5⟩ := hl
  refine ⟨h1, h2, ?_, ?_, ha, ⟨h3, h4, fun _ e he => utf8_ascii _ (h5 e he), ht⟩, hf⟩
  · intro s hs
    rw [hs] at hu
    simpa using hu
  · intro hn
    obtain ⟨g1, g2, g3, g4, g5, g6, g7, g8⟩ := hg hn
    exact ⟨⟨g1, g2, g3, g4, g5, g6⟩, g7, g8⟩

theorem titlesFit_of_check {width : Nat} {texts : Nat → Str} {cmd : Command} (hl : ListCheck width texts cmd)
    (hu : ∀ s ∈ custom texts cmd .usage, 9 ∉ s ∧ s.getLast? ≠ some 32) (hg : custom texts cmd .usage = none → GeneratedCheck width texts cmd)
    (ha : 9 ∉ aboutText texts cmd ∧ (aboutText texts cmd).getLast? ≠ some 32)
    (ht : ∀ e ∈ entries texts cmd, 9 ∉ e.text) (hw : 8 < width)
    (hf : 9 ∉ ((custom texts cmd .finalText).getD []) ∧ ((custom texts cmd .finalText).getD []).getLast? ≠ some 32) : TitlesFit width texts cmd := by
  obtain ⟨h1, h2, h3, h4, h5⟩ := hl
  have neat : ∀ {s : Str}, 9 ∉ s ∧ s.getLast? ≠ some 32 → Neat s := fun h => ⟨tidy_of_no_tabs h.1, h.2, fun hl => h.1 (List.mem_of_getLast? hl)⟩
  refine ⟨h1, h2, fun s hs => neat (hu s hs), ?_, neat ha, h3, h4, fun _ e he => utf8_ascii _ (h5 e he), fun e he => ⟨tidy_of_no_tabs (ht e he), .inr hw⟩, neat hf⟩
  intro hn
  obtain ⟨g1, g2, g3, g4, g5, g6, g7, g8⟩ := hg hn
  exact ⟨⟨g1, g2, g3, g4, g5, g6⟩, g7, g8⟩

/-! ### C71: The help text is laid out in paragraphs and columns -/

/-- C71: if every text fits on its line, the help text is exactly the text of the specification: the initial text, the usage with its lines
indented by two columns, the description, the sections of the list, and the final text, with an empty line between them; the texts of the
list stand in a column behind the longest label, or below their labels if there is no room.

Missing from the full statement: texts of several lines (`C71_lines_partial`); initial texts that end with a list marker (`C71_violated`). -/
theorem C71_layout_partial (console : Nat) (texts : Nat → Str) (d0 d : ParserData) (hd : finishInitialization d0 = .ok d) (cmd : Command) (hcmd : cmd.Within d.command)
    (hc : 2 < console) (hw : d.helpSettings.lineWidth = 0 ∨ 2 < d.helpSettings.lineWidth)
    (sp : Splitter) (hsp : Splitter.addWords [] d.helpSettings.wordSplitRules = .ok sp)
    (ht : TextsFit (if d.helpSettings.lineWidth = 0 then console else d.helpSettings.lineWidth) texts cmd) :
    ∃ f, writeHelpText console texts d cmd = .ok f ∧
      f.written = helpLayout (if d.helpSettings.lineWidth = 0 then console else d.helpSettings.lineWidth) texts cmd := by
  have e : (if d.helpSettings.lineWidth = 0 then console else d.helpSettings.lineWidth) = if d.helpSettings.lineWidth ≠ 0 then d.helpSettings.lineWidth else console := by
    by_cases h : d.helpSettings.lineWidth = 0 <;> simp [h]
  rw [e] at ht ⊢
  exact writeHelpText_writes texts hc hw hsp (flagged_of_init hd hcmd) ht

/-- C71: texts of any number of lines. The paragraphs are the same, with the texts reflowed; all lines of the texts of the list are
indented: to the column behind the longest label, or by eight columns below the label.

Missing from the full statement: lines that begin with several tabs or with spaces and tabs (C48), names that end with a carriage return (C49),
rules that aren't UTF-8 (C47); titles, labels and the usage fit on their lines. -/
theorem C71_lines_partial (console : Nat) (texts : Nat → Str) (d0 d : ParserData) (hd : finishInitialization d0 = .ok d) (cmd : Command) (hcmd : cmd.Within d.command)
    (hc : 2 < console) (hw : d.helpSettings.lineWidth = 0 ∨ 2 < d.helpSettings.lineWidth)
    (sp : Splitter) (hsp : Splitter.addWords [] d.helpSettings.wordSplitRules = .ok sp) (hu : ∀ r ∈ d.helpSettings.wordSplitRules, Utf8 r)
    (hr : NoReturn cmd) (ht : TitlesFit (if d.helpSettings.lineWidth = 0 then console else d.helpSettings.lineWidth) texts cmd) :
    ∃ f, writeHelpText console texts d cmd = .ok f ∧
      SetHelp (if d.helpSettings.lineWidth = 0 then console else d.helpSettings.lineWidth) texts cmd f.written := by
  have e : (if d.helpSettings.lineWidth = 0 then console else d.helpSettings.lineWidth) = if d.helpSettings.lineWidth ≠ 0 then d.helpSettings.lineWidth else console := by
    by_cases h : d.helpSettings.lineWidth = 0 <;> simp [h]
  rw [e] at ht ⊢
  exact writeHelpText_set texts hc hw hsp hu (flagged_of_init hd hcmd) (endless_of_init hd hcmd hr) ht

/-- The example with texts around the list. -/
def layoutExample (width : Nat) (initial : Str) : ParserData :=
  { helpExample with
    command := { helpExample.command with texts := [(.initialText, .text initial), (.about, .text b!"Reads a file."), (.finalText, .text b!"The end.")] }
    helpSettings := { lineWidth := width } }

/-- The same with texts that don't fit on a line. -/
def linesExample : ParserData :=
  { helpExample with
    command := { helpExample.command with
      arguments := [{ name := b!"file", help := .text b!"The file to read. It is one of:\n- a file with numbers in it\n- a file." }]
      texts := [(.about, .text b!"Reads a file\nand writes it."), (.finalText, .text b!"The end of the description.")] }
    helpSettings := { lineWidth := 26 } }

/-- C71: two columns. -/
example : ∃ d, finishInitialization (layoutExample 60 b!"Welcome.") = .ok d ∧ TextsFit 60 (fun _ => []) d.command ∧ Splitter.addWords [] d.helpSettings.wordSplitRules = .ok [] ∧
    helpLayout 60 (fun _ => []) d.command = b!"Welcome.\n\nUSAGE\n  prog --help\n  prog [-n <n>] <file>\n\nReads a file.\n\nARGUMENTS\n  <file>               The file to read.\n\nNUMBERS\n  -n <n>, --number=<n> A number.\n\nOPTIONS\n  -h, --help           Display this help text.\n\nThe end.\n" := by
  obtain ⟨d, h, h1, h2, h3, h4, h5, h6, h7⟩ : ∃ d, finishInitialization (layoutExample 60 b!"Welcome.") = .ok d ∧
      ListCheck 60 (fun _ => []) d.command ∧ custom (fun _ => []) d.command .usage = none ∧ GeneratedCheck 60 (fun _ => []) d.command ∧
      (FitsOn 60 (aboutText (fun _ => []) d.command) ∧ FitsOn 60 ((custom (fun _ => []) d.command .finalText).getD [])) ∧
      (∀ e ∈ entries (fun _ => []) d.command, e.text = [] ∨ (OneLine e.text ∧ (TwoColumns 60 (entries (fun _ => []) d.command) ∨ 8 + e.text.length ≤ 60))) ∧
      Splitter.addWords [] d.helpSettings.wordSplitRules = .ok [] ∧
      helpLayout 60 (fun _ => []) d.command = b!"Welcome.\n\nUSAGE\n  prog --help\n  prog [-n <n>] <file>\n\nReads a file.\n\nARGUMENTS\n  <file>               The file to read.\n\nNUMBERS\n  -n <n>, --number=<n> A number.\n\nOPTIONS\n  -h, --help           Display this help text.\n\nThe end.\n" := by
    decide +kernel
  exact ⟨d, h, textsFit_of_check h1 (by rw [h2]; rfl) (fun _ => h3) h4.1 h5 h4.2, h6, h7⟩

/-- C71: the texts below the labels. -/
example : ∃ d, finishInitialization (layoutExample 40 b!"Welcome.") = .ok d ∧ TextsFit 40 (fun _ => []) d.command ∧
    helpLayout 40 (fun _ => []) d.command = b!"Welcome.\n\nUSAGE\n  prog --help\n  prog [-n <n>] <file>\n\nReads a file.\n\nARGUMENTS\n  <file>\n        The file to read.\n\nNUMBERS\n  -n <n>, --number=<n>\n        A number.\n\nOPTIONS\n  -h, --help\n        Display this help text.\n\nThe end.\n" := by
  obtain ⟨d, h, h1, h2, h3, h4, h5, h7⟩ : ∃ d, finishInitialization (layoutExample 40 b!"Welcome.") = .ok d ∧
      ListCheck 40 (fun _ => []) d.command ∧ custom (fun _ => []) d.command .usage = none ∧ GeneratedCheck 40 (fun _ => []) d.command ∧
      (FitsOn 40 (aboutText (fun _ => []) d.command) ∧ FitsOn 40 ((custom (fun _ => []) d.command .finalText).getD [])) ∧
      (∀ e ∈ entries (fun _ => []) d.command, e.text = [] ∨ (OneLine e.text ∧ (TwoColumns 40 (entries (fun _ => []) d.command) ∨ 8 + e.text.length ≤ 40))) ∧
      helpLayout 40 (fun _ => []) d.command = b!"Welcome.\n\nUSAGE\n  prog --help\n  prog [-n <n>] <file>\n\nReads a file.\n\nARGUMENTS\n  <file>\n        The file to read.\n\nNUMBERS\n  -n <n>, --number=<n>\n        A number.\n\nOPTIONS\n  -h, --help\n        Display this help text.\n\nThe end.\n" := by
    decide +kernel
  exact ⟨d, h, textsFit_of_check h1 (by rw [h2]; rfl) (fun _ => h3) h4.1 h5 h4.2, h7⟩

/-- C71: texts of several lines, one of them with a list. -/
example : ∃ d, finishInitialization linesExample = .ok d ∧ TitlesFit 26 (fun _ => []) d.command ∧ NoReturn d.command ∧
    ∃ f, writeHelpText 80 (fun _ => []) d d.command = .ok f ∧ f.written = b!"USAGE\n  prog --help\n  prog [-n <n>] <file>\n\nReads a file\nand writes it.\n\nARGUMENTS\n  <file>\n        The file to read.\n        It is one of:\n        - a file with\n          numbers in it\n        - a file.\n\nNUMBERS\n  -n <n>, --number=<n>\n        A number.\n\nOPTIONS\n  -h, --help\n        Display this help\n        text.\n\nThe end of the\ndescription.\n" := by
  obtain ⟨d, h, h1, h2, h3, h4, h5, h6, h7⟩ : ∃ d, finishInitialization linesExample = .ok d ∧
      ListCheck 26 (fun _ => []) d.command ∧ custom (fun _ => []) d.command .usage = none ∧ GeneratedCheck 26 (fun _ => []) d.command ∧
      ((9 ∉ aboutText (fun _ => []) d.command ∧ (aboutText (fun _ => []) d.command).getLast? ≠ some 32) ∧
        (9 ∉ (custom (fun _ => []) d.command .finalText).getD [] ∧ ((custom (fun _ => []) d.command .finalText).getD []).getLast? ≠ some 32)) ∧
      (∀ e ∈ entries (fun _ => []) d.command, 9 ∉ e.text) ∧ NoReturn d.command ∧
      ∃ f, writeHelpText 80 (fun _ => []) d d.command = .ok f ∧ f.written = b!"USAGE\n  prog --help\n  prog [-n <n>] <file>\n\nReads a file\nand writes it.\n\nARGUMENTS\n  <file>\n        The file to read.\n        It is one of:\n        - a file with\n          numbers in it\n        - a file.\n\nNUMBERS\n  -n <n>, --number=<n>\n        A number.\n\nOPTIONS\n  -h, --help\n        Display this help\n        text.\n\nThe end of the\ndescription.\n" := by
    decide +kernel
  exact ⟨d, h, titlesFit_of_check h1 (by rw [h2]; simp) (fun _ => h3) h4.1 h5 (by omega) h4.2, h6, h7⟩

/-- C71 is violated if the text before the usage is a list marker: the state of the formatter is kept, and the space behind the first word of
the usage is taken for the one behind the marker, so that it gets lost. -/
theorem C71_violated : ∃ d, finishInitialization (layoutExample 60 b!"3.") = .ok d ∧ ListCheck 60 (fun _ => []) d.command ∧
    ∃ f, writeHelpText 80 (fun _ => []) d d.command = .ok f ∧ f.written ≠ helpLayout 60 (fun _ => []) d.command ∧
      b!"3.\n\nUSAGE\n  prog--help\n" <+: f.written ∧ b!"3.\n\nUSAGE\n  prog --help\n" <+: helpLayout 60 (fun _ => []) d.command := by
  decide +kernel

end Argos
