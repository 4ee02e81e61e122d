import Verif.Proofs.Decide
import Verif.Proofs.Help
import Verif.Proofs.Init
import Verif.Model.World

/-! # C50, C52: the help text -/

namespace Argos

open Spec Formatter

/-! ### The flags of an initialised parser -/

theorem flag_ne {style : OptionStyle} {s : Str} {o : OptData} (h : checkFlagStyle style s o = .ok true) : s ≠ [] := by
  rintro rfl
  cases style <;> simp [checkFlagStyle, checkStandardFlag, checkFlag] at h

theorem flag_plain {style : OptionStyle} {s : Str} {o : OptData} (h : checkFlagStyle style s o = .ok true) : hasWhitespace s = false := by
  have e : ∀ {b : Bool}, ¬ b = true → b = false := by simp
  cases style with
  | standard =>
    simp only [checkFlagStyle, checkStandardFlag] at h
    split at h
    · simp at h
    · exact e ‹_›
  | slash =>
    simp only [checkFlagStyle, checkFlag] at h
    split at h
    · simp at h
    · simp at h
    · split at h
      · simp at h
      · split at h
        · simp at h
        · exact e ‹_›
  | dash =>
    simp only [checkFlagStyle, checkFlag] at h
    split at h
    · simp at h
    · simp at h
    · split at h
      · simp at h
      · split at h
        · simp at h
        · exact e ‹_›

theorem flagged_of_init {d d' : ParserData} (h : finishInitialization d = .ok d') {c : Command} (hc : c.Within d'.command) : Flagged c := by
  intro o ho
  have r := optionsReady h c hc
  exact ⟨r.flags_ne o ho, fun s hs => flag_ne (r.flags_ok o ho s hs)⟩

theorem flag_last {style : OptionStyle} {s : Str} {o : OptData} (h : checkFlagStyle style s o = .ok true) : s.getLast? ≠ some 13 := by
  intro hl
  have := flag_plain h
  rw [hasWhitespace, List.any_eq_false] at this
  exact this 13 (List.mem_of_getLast? hl) (by decide)

theorem getLast?_append_ne {s t : Str} (ht : t ≠ []) : (s ++ t).getLast? = t.getLast? := by
  rw [List.getLast?_append]
  cases h : t.getLast? with
  | none => exact absurd (List.getLast?_eq_none_iff.mp h) ht
  | some x => rfl

theorem placeholder_last {s : Str} (h : s.getLast? ≠ some 13) : (placeholder s).getLast? ≠ some 13 := by
  unfold placeholder
  split
  · exact h
  · rw [getLast?_append_ne (by simp)]
    decide

theorem placeholder_ne (s : Str) (h : s ≠ []) : placeholder s ≠ [] := by
  unfold placeholder
  split
  · exact h
  · simp

theorem flagLabel_last {arg s : Str} (ha : arg.getLast? ≠ some 13) (hs : s.getLast? ≠ some 13) : (flagLabel arg s).getLast? ≠ some 13 := by
  unfold flagLabel
  split
  · exact hs
  · rename_i hne
    split
    · rw [getLast?_append_ne (placeholder_ne arg hne)]
      exact placeholder_last ha
    · rw [getLast?_append_ne (placeholder_ne arg hne)]
      exact placeholder_last ha

theorem separated_last {sep : Str} {c : UInt8} (ss : List Str) (h : ∀ s ∈ ss, s.getLast? ≠ some c ∧ s ≠ []) :
    (separated sep ss).getLast? ≠ some c := by
  induction ss with
  | nil => simp [separated]
  | cons s ss ih =>
    cases ss with
    | nil => exact (h s (by simp)).1
    | cons s' ss =>
      have hne : separated sep (s' :: ss) ≠ [] := by
        have := (h s' (by simp)).2
        cases ss with
        | nil => exact this
        | cons => simp [separated, this]
      show (s ++ sep ++ separated sep (s' :: ss)).getLast? ≠ some c
      rw [getLast?_append_ne hne]
      exact ih fun x hx => h x (by simp [hx])

theorem argumentLabel_last {a : ArgData} (h : a.name.getLast? ≠ some 13) : (argumentLabel a).getLast? ≠ some 13 := by
  unfold argumentLabel
  split
  · exact h
  · refine separated_last _ ?_
    intro s hs
    rw [List.mem_append] at hs
    rcases hs with hs | hs
    · rw [(List.mem_replicate.mp hs).2]
      rw [getLast?_append_ne (by simp)]
      exact ⟨by decide, by simp⟩
    · split at hs
      · simp at hs
      · split at hs
        · simp only [List.mem_singleton] at hs
          subst hs
          rw [getLast?_append_ne (by simp)]
          exact ⟨by decide, by simp⟩
        · simp only [List.mem_singleton] at hs
          subst hs
          rw [getLast?_append_ne (by simp)]
          exact ⟨by decide, by simp⟩

theorem endless_of_init {d d' : ParserData} (h : finishInitialization d = .ok d') {c : Command} (hc : c.Within d'.command) (hr : NoReturn c) : Endless c := by
  have r := optionsReady h c hc
  refine ⟨?_, fun a ha => argumentLabel_last (hr.2 a ha)⟩
  intro o ho
  have hh : (o.flags.headD []).getLast? ≠ some 13 := by
    cases hf : o.flags with
    | nil => simp
    | cons s ss => exact flag_last (r.flags_ok o ho s (by simp [hf]))
  constructor
  · unfold optionUsage
    simp only
    split
    · rw [getLast?_append_ne (by simp)]
      decide
    · exact flagLabel_last (hr.1 o ho) hh
  · unfold stopUsage
    refine flagLabel_last (hr.1 o ho) ?_
    cases hf : o.flags.find? (fun s => s.length > 2) with
    | none => exact hh
    | some s => exact flag_last (r.flags_ok o ho s (List.mem_of_find?_eq_some hf))

/-! ### C50: Hidden arguments, options and commands stay out of the help text -/

/-- A parser with an argument, an option in a section of its own and a hidden option. -/
def helpExample : ParserData where
  command := {
    name := b!"prog"
    arguments := [{ name := b!"file", help := .text b!"The file to read." }]
    options := [
      { flags := [b!"-n", b!"--number="], argument := b!"n", help := .text b!"A number.", section_ := b!"NUMBERS" },
      { flags := [b!"--secret"], constant := b!"1", visibility := ⟨false, false⟩, help := .text b!"Not shown." }] }

/-- The help text of the example. -/
def helpOutput : Str := b!"USAGE\n  prog --help\n  prog [-n <n>] <file>\n\nARGUMENTS\n  <file>\n        The file to read.\n\nNUMBERS\n  -n <n>, --number=<n>\n        A number.\n\nOPTIONS\n  -h, --help\n        Display this help\n        text.\n"

/-- A parser with a hidden sub-command. -/
def hiddenExample : ParserData where
  command := { name := b!"prog", commands := [{ name := b!"open" }, { name := b!"hide", visibility := ⟨false, false⟩ }] }

/-- C50: the help text of a command of an initialised parser consists of the blocks of the specification, in their order:
the usage with what is visible there, and the list with what is visible there, every entry below its heading, the headings in order of
first use. All lines fit.

Missing from the full statement: names that end with a carriage return (C49), rules that aren't UTF-8 (C47); the copies that
constant parsers make (`C50_violated`). -/
theorem C50_help_partial (console : Nat) (texts : Nat → Str) (d0 d : ParserData) (hd : finishInitialization d0 = .ok d) (cmd : Command) (hcmd : cmd.Within d.command)
    (hc : 2 < console) (hw : d.helpSettings.lineWidth = 0 ∨ 2 < d.helpSettings.lineWidth)
    (sp : Splitter) (hsp : Splitter.addWords [] d.helpSettings.wordSplitRules = .ok sp) (hu : ∀ r ∈ d.helpSettings.wordSplitRules, Utf8 r)
    (hr : NoReturn cmd) :
    ∃ f, writeHelpText console texts d cmd = .ok f ∧ Laid (helpBlocks texts cmd) f.written ∧
      ∀ l ∈ linesOf f.written, LineFits (if d.helpSettings.lineWidth = 0 then console else d.helpSettings.lineWidth) l := by
  obtain ⟨f, a1, a2⟩ := writeHelpText_lays texts hc hw hsp hu (flagged_of_init hd hcmd) (endless_of_init hd hcmd hr)
  exact ⟨f, a1, lays_written a2, lays_fits a2⟩

example : ∃ d, finishInitialization helpExample = .ok d ∧ NoReturn d.command ∧ ∃ f, writeHelpText 30 (fun _ => []) d d.command = .ok f ∧ f.written = helpOutput := by
  decide +kernel

/-- C50: the same for error messages, which show the usage. -/
theorem C50_error_partial (console : Nat) (texts : Nat → Str) (d0 d : ParserData) (hd : finishInitialization d0 = .ok d) (cmd : Command) (hcmd : cmd.Within d.command)
    (msg : Str) (hc : 2 < console) (hw : d.helpSettings.lineWidth = 0 ∨ 2 < d.helpSettings.lineWidth)
    (sp : Splitter) (hsp : Splitter.addWords [] d.helpSettings.wordSplitRules = .ok sp) (hu : ∀ r ∈ d.helpSettings.wordSplitRules, Utf8 r)
    (hr : NoReturn cmd) :
    ∃ f, writeErrorMessage console texts d cmd msg = .ok f ∧ Laid (errorBlocks texts cmd msg) f.written ∧
      ∀ l ∈ linesOf f.written, LineFits (if d.helpSettings.lineWidth = 0 then console else d.helpSettings.lineWidth) l := by
  obtain ⟨f, a1, a2⟩ := writeErrorMessage_lays texts msg hc hw hsp hu (flagged_of_init hd hcmd) (endless_of_init hd hcmd hr)
  exact ⟨f, a1, lays_written a2, lays_fits a2⟩

example : ∃ d, finishInitialization helpExample = .ok d ∧ NoReturn d.command ∧ ∃ f, writeErrorMessage 30 (fun _ => []) d d.command b!"Wrong." = .ok f ∧
    f.written = b!"prog: Wrong.\nUSAGE\n  prog --help\n  prog [-n <n>] <file>\n" := by
  decide +kernel

/-- C50: what is neither listed nor shown in the usage has no influence on the help text, for all texts and widths (also when the
call fails). The sub-commands must not all be hidden: the usage then shows an empty pair of brackets. -/
theorem C50_hidden (console : Nat) (texts : Nat → Str) (d : ParserData) (cmd : Command)
    (h : cmd.commands = [] ∨ ∃ c ∈ cmd.commands, c.visibility.text ∨ c.visibility.usage) :
    writeHelpText console texts d (withoutHidden cmd) = writeHelpText console texts d cmd :=
  writeHelpText_withoutHidden console texts d cmd h

example : ∃ d, finishInitialization helpExample = .ok d ∧ d.command.options.length = 3 ∧ (withoutHidden d.command).options.length = 2 := by decide +kernel

example : ∃ d, finishInitialization hiddenExample = .ok d ∧ (∃ c ∈ d.command.commands, c.visibility.text ∨ c.visibility.usage) ∧
    (withoutHidden d.command).commands.length = 1 ∧ ∃ f, writeHelpText 80 (fun _ => []) d d.command = .ok f ∧
    f.written = b!"USAGE\n  prog --help\n  prog open\n\nCOMMANDS\n  open\n\nOPTIONS\n  -h, --help Display this help text.\n" := by
  decide +kernel

/-- When all sub-commands are hidden, the usage still has their brackets. -/
example : ∃ f, writeHelpText 80 (fun _ => []) {} { name := b!"prog", fullName := b!"prog", requireSubcommand := some false, commands := [{ name := b!"hide", visibility := ⟨false, false⟩ }] } = .ok f ∧
    f.written = b!"USAGE\n  prog []\n" := by
  decide +kernel

/-- C50 for error messages. -/
theorem C50_hidden_error (console : Nat) (texts : Nat → Str) (d : ParserData) (cmd : Command) (msg : Str)
    (h : cmd.commands = [] ∨ ∃ c ∈ cmd.commands, c.visibility.text ∨ c.visibility.usage) :
    writeErrorMessage console texts d (withoutHidden cmd) msg = writeErrorMessage console texts d cmd msg :=
  writeErrorMessage_withoutHidden console texts d cmd msg h

/-- C50 doesn't hold for the help text that `ArgumentParser::write_help_text` writes: it works on a copy of the data, and the copies of the
sub-commands are visible. -/
theorem C50_violated : ∃ c ∈ hiddenExample.command.commands, c.name = b!"hide" ∧ c.visibility = ⟨false, false⟩ ∧
    ∃ f, ParserHandle.writeHelp 80 (fun _ => []) (some hiddenExample) [] = .ok f ∧
      f.written = b!"USAGE\n  prog --help\n  prog open|hide\n\nCOMMANDS\n  open\n  hide\n\nOPTIONS\n  -h, --help Display this help text.\n" := by
  decide +kernel

/-! ### C52: Help output is complete when the call returns -/

/-- C52: when writing the help text returns, the output stream has received everything that was written: no line is kept in the
buffer of the writer. This holds for all commands, texts and widths. -/
theorem C52_help (console : Nat) (texts : Nat → Str) (d : ParserData) (cmd : Command) (f : Formatter) (h : writeHelpText console texts d cmd = .ok f) :
    f.writer.out = f.written := by
  simp [written, writeHelpText_line h]

example : ∃ d, finishInitialization helpExample = .ok d ∧ ∃ f, writeHelpText 30 (fun _ => []) d d.command = .ok f ∧ f.writer.out = helpOutput := by
  decide +kernel

/-- C52 for error messages. -/
theorem C52_error (console : Nat) (texts : Nat → Str) (d : ParserData) (cmd : Command) (msg : Str) (f : Formatter)
    (h : writeErrorMessage console texts d cmd msg = .ok f) : f.writer.out = f.written := by
  simp [written, writeErrorMessage_line h]

example : ∃ d, finishInitialization helpExample = .ok d ∧ ∃ f, writeErrorMessage 30 (fun _ => []) d d.command b!"Wrong." = .ok f ∧
    f.writer.out = b!"prog: Wrong.\nUSAGE\n  prog --help\n  prog [-n <n>] <file>\n" := by
  decide +kernel

/-- C52 for error messages about an argument or option. -/
theorem C52_error_for (console : Nat) (texts : Nat → Str) (d : ParserData) (cmd : Command) (msg : Str) (id : Nat) (f : Formatter)
    (h : writeErrorMessageFor console texts d cmd msg id = .ok f) : f.writer.out = f.written := by
  unfold writeErrorMessageFor at h
  simp only [Outcome.bind_eq_ok] at h
  obtain ⟨name, _, h⟩ := h
  split at h
  · exact C52_error _ _ _ _ _ _ h
  · exact C52_error _ _ _ _ _ _ h

example : ∃ d, finishInitialization helpExample = .ok d ∧ ∃ f, writeErrorMessageFor 30 (fun _ => []) d d.command b!"Wrong." 2 = .ok f ∧
    f.writer.out = b!"prog: file: Wrong.\nUSAGE\n  prog --help\n  prog [-n <n>] <file>\n" := by
  decide +kernel

end Argos
