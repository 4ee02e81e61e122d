import Verif.Spec.Help
import Verif.Spec.Results

/-!
# Specification of the layout of the help text

For texts that fit on their lines: paragraphs with empty lines between them. The list of arguments, sub-commands and options is laid out
in two columns, labels and texts, or with every text below its label.
-/

namespace Argos.Spec

/-- `n` spaces. -/
def spaces (n : Nat) : Str := List.replicate n 32

/-- A text of a single line: no tabs and line breaks, no spaces around it. -/
def OneLine (s : Str) : Prop := s ≠ [] ∧ (∀ c ∈ s, c ≠ 9 ∧ c ≠ 10 ∧ c ≠ 13) ∧ s.head? ≠ some 32 ∧ s.getLast? ≠ some 32

instance (s : Str) : Decidable (OneLine s) := inferInstanceAs (Decidable (_ ∧ _))

/-- What begins an item of a list: a hyphen, an asterisk, or a number and a full stop. -/
def Marker (s : Str) : Prop := s = b!"-" ∨ s = b!"*" ∨ (2 ≤ s.length ∧ s.getLast? = some c!"." ∧ ∀ c ∈ s.dropLast, 48 ≤ c ∧ c ≤ 57)

instance (s : Str) : Decidable (Marker s) := inferInstanceAs (Decidable (_ ∨ _ ∨ _))

/-- Every line after the first one is empty or begins with `n` spaces. -/
def Hangs (n : Nat) (s : Str) : Prop := ∀ a b : Str, s = a ++ 10 :: b → b = [] ∨ b.head? = some 10 ∨ spaces n <+: b

/-- The greatest number, 0 if there is none. -/
def greatest (ns : List Nat) : Nat := ns.max?.getD 0

/-- Where the second column begins: behind two spaces, the longest label (its length in bytes) and a space. -/
def textColumn (es : List Entry) : Nat := greatest (es.map (·.label.length)) + 3

/-- There is room for two columns. -/
def TwoColumns (width : Nat) (es : List Entry) : Prop := textColumn es ≤ 32 ∧ textColumn es + greatest (es.map (·.text.length)) ≤ width

instance (width : Nat) (es : List Entry) : Decidable (TwoColumns width es) := inferInstanceAs (Decidable (_ ∧ _))

/-- An entry of a list with two columns. -/
def columnsEntry (col : Nat) (e : Entry) : Str :=
  b!"  " ++ e.label ++ (if e.text = [] then [] else spaces (col - (2 + glyphs e.label)) ++ e.text) ++ b!"\n"

/-- An entry with the text below the label. -/
def stackedEntry (e : Entry) : Str :=
  b!"  " ++ e.label ++ b!"\n" ++ (if e.text = [] then [] else spaces 8 ++ e.text ++ b!"\n")

/-- The paragraphs of the help list: for every section its title and its entries. -/
def listParagraphs (width : Nat) (es : List Entry) : List Str :=
  (sections es).map fun s =>
    s.1 ++ b!"\n" ++ s.2.flatMap (if TwoColumns width es then columnsEntry (textColumn es) else stackedEntry)

/-- A text as a paragraph, unless it is empty. -/
def paragraph (s : Str) : List Str := if s = [] then [] else [s ++ b!"\n"]

/-- What is shown in the last line of the generated usage. -/
def usageItems (cmd : Command) : List Str :=
  ((cmd.options.filter fun o => o.visibility.usage ∧ ¬ EndsProgram o).map optionUsage) ++
  ((cmd.arguments.filter (·.visibility.usage)).map argumentLabel) ++
  (if commandsUsage cmd = [] then [] else [commandsUsage cmd])

/-- The lines of the generated usage. -/
def usageLines (cmd : Command) : List Str :=
  ((cmd.options.filter fun o => o.visibility.usage ∧ EndsProgram o).map fun o => cmd.fullName ++ b!" " ++ stopUsage o) ++
  [separated b!" " (cmd.fullName :: usageItems cmd)]

/-- The title of the usage. -/
def usageTitle (texts : Nat → Str) (cmd : Command) : Str := (custom texts cmd .usageTitle).getD b!"USAGE"

/-- A text with a line feed, unless it is empty. -/
def lineOf (s : Str) : Str := if s = [] then [] else s ++ b!"\n"

/-- The paragraph of the usage. -/
def usageParagraphs (texts : Nat → Str) (cmd : Command) : List Str :=
  match custom texts cmd .usage with
  | some s => if s = [] then [] else [lineOf (usageTitle texts cmd) ++ s ++ b!"\n"]
  | none => [lineOf (usageTitle texts cmd) ++ (usageLines cmd).flatMap fun l => b!"  " ++ l ++ b!"\n"]

/-- The paragraph behind the usage. -/
def aboutText (texts : Nat → Str) (cmd : Command) : Str :=
  if (custom texts cmd .about).getD [] = [] then (custom texts cmd .help).getD [] else (custom texts cmd .about).getD []

/-- The help text, if every text fits on its line: paragraphs with empty lines between them. There is always an empty line before the final text. -/
def helpLayout (width : Nat) (texts : Nat → Str) (cmd : Command) : Str :=
  separated b!"\n" (paragraph ((custom texts cmd .initialText).getD []) ++ usageParagraphs texts cmd ++ paragraph (aboutText texts cmd) ++
    listParagraphs width (entries texts cmd)) ++
  (paragraph ((custom texts cmd .finalText).getD [])).flatMap fun p => b!"\n" ++ p

/-- A text that is empty or fits on a line. -/
def FitsOn (width : Nat) (s : Str) : Prop := s = [] ∨ (OneLine s ∧ s.length ≤ width)

instance (width : Nat) (s : Str) : Decidable (FitsOn width s) := inferInstanceAs (Decidable (_ ∨ _))

/-- The texts of the help list fit on their lines. -/
structure ListFits (width : Nat) (es : List Entry) : Prop where
  headings : ∀ e ∈ es, FitsOn width e.heading
  labels : ∀ e ∈ es, OneLine e.label ∧ 2 + e.label.length ≤ width
  valid : TwoColumns width es → ∀ e ∈ es, Utf8 e.label
  texts : ∀ e ∈ es, e.text = [] ∨ (OneLine e.text ∧ (TwoColumns width es ∨ 8 + e.text.length ≤ width))

/-- The lines of the generated usage fit. -/
structure UsageFits (width : Nat) (cmd : Command) : Prop where
  name : OneLine cmd.fullName ∧ ¬ Marker cmd.fullName ∧ cmd.fullName.length + 3 < width
  stops : ∀ o ∈ cmd.options, o.visibility.usage → EndsProgram o → OneLine (stopUsage o)
  options : ∀ o ∈ cmd.options, o.visibility.usage → ¬ EndsProgram o → OneLine (optionUsage o)
  arguments : ∀ a ∈ cmd.arguments, a.visibility.usage → OneLine (argumentLabel a)
  commands : ∀ c ∈ cmd.commands, c.visibility.usage → OneLine c.name
  lines : ∀ l ∈ usageLines cmd, 2 + l.length ≤ width

/-- All texts fit on their lines, and those before the generated usage aren't list markers. -/
structure TextsFit (width : Nat) (texts : Nat → Str) (cmd : Command) : Prop where
  initial : FitsOn width ((custom texts cmd .initialText).getD [])
  title : FitsOn width (usageTitle texts cmd)
  usage : ∀ s, custom texts cmd .usage = some s → FitsOn width s
  generated : custom texts cmd .usage = none → UsageFits width cmd ∧
    ¬ Marker ((custom texts cmd .initialText).getD []) ∧ ¬ Marker (usageTitle texts cmd)
  about : FitsOn width (aboutText texts cmd)
  list : ListFits width (entries texts cmd)
  final : FitsOn width ((custom texts cmd .finalText).getD [])

/-! ### Texts of any length -/

/-- A text without tabs and spaces at its end whose lines are indented by spaces or a single tab. -/
def Neat (s : Str) : Prop := Tidy s ∧ s.getLast? ≠ some 32 ∧ s.getLast? ≠ some 9

/-- The text is set as a paragraph, unless it is empty. -/
def SetParagraph (s : Str) (ps : List Str) : Prop :=
  (s = [] ∧ ps = []) ∨ (s ≠ [] ∧ ∃ t, Reflow s t ∧ (t = [] ∨ t.getLast? = some 10) ∧ ps = [t])

/-- The entry is set with two columns or with the text below the label. All lines of the text are indented. -/
def SetEntry (width : Nat) (es : List Entry) (e : Entry) (out : Str) : Prop :=
  ∃ s, out = b!"  " ++ e.label ++ s ++ b!"\n" ∧ Reflow e.text s ∧
    (TwoColumns width es → Hangs (textColumn es) s ∧ (s = [] ∨ s.head? = some 10 ∨ spaces (textColumn es - (2 + glyphs e.label)) <+: s)) ∧
    (¬ TwoColumns width es → Hangs 8 s ∧ (e.text ≠ [] → s.head? = some 10))

/-- A section of the help list: the title and the entries. -/
def SetSection (width : Nat) (es : List Entry) (s : Str × List Entry) (out : Str) : Prop :=
  ∃ outs, Each (SetEntry width es) s.2 outs ∧ out = s.1 ++ b!"\n" ++ outs.flatten

/-- The usage. -/
def SetUsage (texts : Nat → Str) (cmd : Command) (ps : List Str) : Prop :=
  match custom texts cmd .usage with
  | some s => (s = [] ∧ ps = []) ∨ (s ≠ [] ∧ ∃ t, Reflow s t ∧ (t = [] ∨ t.getLast? = some 10) ∧ ps = [lineOf (usageTitle texts cmd) ++ t])
  | none => ps = usageParagraphs texts cmd

/-- The help text: paragraphs with empty lines between them. -/
def SetHelp (width : Nat) (texts : Nat → Str) (cmd : Command) (out : Str) : Prop :=
  ∃ usage about list final, SetUsage texts cmd usage ∧ SetParagraph (aboutText texts cmd) about ∧
    Each (SetSection width (entries texts cmd)) (sections (entries texts cmd)) list ∧
    SetParagraph ((custom texts cmd .finalText).getD []) final ∧
    out = separated b!"\n" (paragraph ((custom texts cmd .initialText).getD []) ++ usage ++ about ++ list) ++ final.flatMap fun p => b!"\n" ++ p

/-- The titles and labels fit on their lines, and the other texts are tidy. -/
structure TitlesFit (width : Nat) (texts : Nat → Str) (cmd : Command) : Prop where
  initial : FitsOn width ((custom texts cmd .initialText).getD [])
  title : FitsOn width (usageTitle texts cmd)
  usage : ∀ s, custom texts cmd .usage = some s → Neat s
  generated : custom texts cmd .usage = none → UsageFits width cmd ∧
    ¬ Marker ((custom texts cmd .initialText).getD []) ∧ ¬ Marker (usageTitle texts cmd)
  about : Neat (aboutText texts cmd)
  headings : ∀ e ∈ entries texts cmd, FitsOn width e.heading
  labels : ∀ e ∈ entries texts cmd, OneLine e.label ∧ 2 + e.label.length ≤ width
  valid : TwoColumns width (entries texts cmd) → ∀ e ∈ entries texts cmd, Utf8 e.label
  list : ∀ e ∈ entries texts cmd, Tidy e.text ∧ (TwoColumns width (entries texts cmd) ∨ 8 < width)
  final : Neat ((custom texts cmd .finalText).getD [])

end Argos.Spec
