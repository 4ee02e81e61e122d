import Verif.Spec.Layout

/-!
# Specification of how texts are set

Texts are set line by line. A line that is too long is continued below: a word goes on the current line if there is room
for it, otherwise it begins the next one. Continued lines are indented like the line they continue, or, if it is an item
of a list, like the text behind its marker.
-/

namespace Argos.Spec

/-- The words of a line and the numbers of spaces before them. Spaces at the end of the line aren't before a word. -/
def wordsIn : Str → List (Nat × Str)
  | [] => []
  | c :: s =>
    if c = 32 then
      match wordsIn s with
      | [] => []
      | (k, w) :: ws => (k + 1, w) :: ws
    else
      match wordsIn s with
      | (0, w) :: ws => (0, c :: w) :: ws
      | ws => (0, [c]) :: ws

/-- The rest of a line from the given column on: as many words as there is room for, the others on lines of their own. Spaces
are only kept between words of the same line. -/
def fill (width hang : Nat) : (column : Nat) → List (Nat × Str) → Str
  | _, [] => []
  | column, (k, w) :: ws =>
    if column + k + glyphs w ≤ width then spaces k ++ w ++ fill width hang (column + k + glyphs w) ws
    else b!"\n" ++ spaces hang ++ w ++ fill width hang (hang + glyphs w) ws

/-- Further spaces before the first word. -/
def after (k : Nat) : List (Nat × Str) → List (Nat × Str)
  | [] => []
  | (j, w) :: ws => (k + j, w) :: ws

/-- The indentation of the lines that continue a line: that of its first word, or of its second one if the first one begins an
item of a list. -/
def hangOf (indent : Nat) : List (Nat × Str) → Nat
  | [] => indent
  | [(k, _)] => indent + k
  | (k, w) :: (j, _) :: _ => if Marker w then indent + k + glyphs w + j else indent + k

/-- A line of the text. -/
def setLine (width indent : Nat) (l : Str) : Str :=
  match wordsIn l with
  | [] => []
  | (k, w) :: ws => spaces (indent + k) ++ w ++ fill width (hangOf indent (wordsIn l)) (indent + k + glyphs w) ws

/-- A text that begins on a line of its own. -/
def setText (width indent : Nat) (text : Str) : Str := joinLines ((textLines text).map (setLine width indent))

/-- A text that begins on a line that has been written up to the given column; `k` spaces are due. -/
def setFrom (width indent column k : Nat) (text : Str) : Str :=
  match textLines text with
  | [] => []
  | l :: ls => joinLines (fill width indent column (after k (wordsIn l)) :: ls.map (setLine width indent))

/-- The word has no rule for splitting it. -/
def NoRule (rules : List Str) (w : Str) : Prop := ∀ r ∈ rules, ¬ RuleFor r w

/-- The line can be filled: there is room for every word, none of the words is split, and a list marker isn't alone. -/
def LineFills (rules : List Str) (width indent : Nat) (l : Str) : Prop :=
  match wordsIn l with
  | [] => True
  | (k, w) :: ws => indent + k + glyphs w ≤ width ∧ (∀ x ∈ ws, hangOf indent (wordsIn l) + glyphs x.2 ≤ width ∧ NoRule rules x.2) ∧ (Marker w → ws ≠ [])

/-- The text can be filled: it is without tabs and all of its lines can be filled. -/
def Fills (rules : List Str) (width indent : Nat) (text : Str) : Prop :=
  9 ∉ text ∧ Utf8 text ∧ ∀ l ∈ textLines text, LineFills rules width indent l

/-- The same for a text that begins on a line that has been begun. -/
def FillsFrom (rules : List Str) (width indent : Nat) (text : Str) : Prop :=
  9 ∉ text ∧ Utf8 text ∧ ∀ l ls, textLines text = l :: ls →
    (∀ x ∈ wordsIn l, indent + glyphs x.2 ≤ width ∧ NoRule rules x.2) ∧ ∀ l ∈ ls, LineFills rules width indent l

/-- A line feed at the end of a text, unless it has one already or there is no text. -/
def closed (s : Str) : Str := if s = [] ∨ s.getLast? = some 10 then s else s ++ b!"\n"

/-! ### The help text -/

/-- A text as a paragraph, unless it is empty. -/
def filledParagraph (width : Nat) (s : Str) : List Str := if s = [] then [] else [closed (setText width 0 s)]

/-- An entry of a list with two columns. -/
def filledColumns (width col : Nat) (e : Entry) : Str :=
  b!"  " ++ e.label ++ (if e.text = [] then [] else setFrom width col (2 + glyphs e.label) (col - (2 + glyphs e.label)) e.text) ++ b!"\n"

/-- An entry with the text below the label. -/
def filledStack (width : Nat) (e : Entry) : Str :=
  setText width 2 e.label ++ b!"\n" ++ (if e.text = [] then [] else setText width 8 e.text ++ b!"\n")

/-- The paragraphs of the help list. -/
def filledList (width : Nat) (es : List Entry) : List Str :=
  (sections es).map fun s =>
    setText width 0 s.1 ++ b!"\n" ++ s.2.flatMap (if TwoColumns width es then filledColumns width (textColumn es) else filledStack width)

/-- The sub-commands in the usage: the parts between which a line may be broken. -/
def commandParts (cmd : Command) : List Str :=
  if cmd.commands.isEmpty then []
  else
    let names := ((cmd.commands.filter (·.visibility.usage)).map (·.name)).intersperse b!"|"
    if cmd.requireSubcommand = some true then names else [b!"["] ++ names ++ [b!"]"]

/-- The parts of the last line of the generated usage. -/
def usageParts (cmd : Command) : List (Nat × Str) :=
  ((cmd.options.filter fun o => o.visibility.usage ∧ ¬ EndsProgram o).map fun o => (1, optionUsage o)) ++
  ((cmd.arguments.filter (·.visibility.usage)).map fun a => (1, argumentLabel a)) ++
  after 1 ((commandParts cmd).map (0, ·))

/-- A line of the generated usage: the name of the command, and behind it the parts. -/
def filledUsageLine (width : Nat) (cmd : Command) (parts : List (Nat × Str)) : Str :=
  b!"  " ++ cmd.fullName ++ fill width (3 + glyphs cmd.fullName) (2 + glyphs cmd.fullName) parts ++ b!"\n"

/-- The generated usage. -/
def filledUsage (width : Nat) (cmd : Command) : Str :=
  ((cmd.options.filter fun o => o.visibility.usage ∧ EndsProgram o).flatMap fun o => filledUsageLine width cmd [(1, stopUsage o)]) ++
  filledUsageLine width cmd (usageParts cmd)

/-- The title of the usage. -/
def filledTitle (width : Nat) (texts : Nat → Str) (cmd : Command) : Str :=
  if usageTitle texts cmd = [] then [] else closed (setText width 0 (usageTitle texts cmd))

/-- The paragraph of the usage. -/
def filledUsageParagraphs (width : Nat) (texts : Nat → Str) (cmd : Command) : List Str :=
  match custom texts cmd .usage with
  | some s => if s = [] then [] else [filledTitle width texts cmd ++ closed (setText width 0 s)]
  | none => [filledTitle width texts cmd ++ filledUsage width cmd]

/-- The help text: paragraphs with empty lines between them. There is always an empty line before the final text. -/
def helpPage (width : Nat) (texts : Nat → Str) (cmd : Command) : Str :=
  separated b!"\n" (filledParagraph width ((custom texts cmd .initialText).getD []) ++ filledUsageParagraphs width texts cmd ++
    filledParagraph width (aboutText texts cmd) ++ filledList width (entries texts cmd)) ++
  (filledParagraph width ((custom texts cmd .finalText).getD [])).flatMap fun p => b!"\n" ++ p

/-- An error message: the name of the command and the message, and below it a custom text or the usage. -/
def errorPage (width : Nat) (texts : Nat → Str) (cmd : Command) (msg : Str) : Str :=
  setText width 0 (cmd.fullName ++ b!": " ++ msg) ++ b!"\n" ++
    match custom texts cmd .errorUsage with
    | some s => (filledParagraph width s).flatten
    | none => (filledUsageParagraphs width texts cmd).flatten

/-- A part of the usage that there is room for. -/
def PartFills (rules : List Str) (width indent : Nat) (s : Str) : Prop :=
  s ≠ [] ∧ Utf8 s ∧ (∀ c ∈ s, c ≠ 10 ∧ c ≠ 13) ∧ indent + glyphs s ≤ width ∧ NoRule rules s

/-- A part that is a single word. -/
def OneWord (s : Str) : Prop := ∀ c ∈ s, ¬ isBlank c

/-- The generated usage can be filled. -/
structure UsageFills (rules : List Str) (width : Nat) (cmd : Command) : Prop where
  name : OneLine cmd.fullName ∧ Utf8 cmd.fullName ∧ ¬ Marker cmd.fullName ∧ cmd.fullName.length + 3 < width
  stops : ∀ o ∈ cmd.options, o.visibility.usage → EndsProgram o → PartFills rules width (3 + glyphs cmd.fullName) (stopUsage o)
  options : ∀ o ∈ cmd.options, o.visibility.usage → ¬ EndsProgram o → PartFills rules width (3 + glyphs cmd.fullName) (optionUsage o)
  arguments : ∀ a ∈ cmd.arguments, a.visibility.usage → PartFills rules width (3 + glyphs cmd.fullName) (argumentLabel a)
  commands : ∀ s ∈ commandParts cmd, OneWord s ∧ PartFills rules width (3 + glyphs cmd.fullName) s

/-- The help list can be filled. -/
structure ListFills (rules : List Str) (width : Nat) (es : List Entry) : Prop where
  headings : ∀ e ∈ es, Fills rules width 0 e.heading
  columns : TwoColumns width es → ∀ e ∈ es, (OneLine e.label ∧ Utf8 e.label ∧ ¬ Marker e.label) ∧ (e.text = [] ∨ FillsFrom rules width (textColumn es) e.text)
  stacks : ¬ TwoColumns width es → ∀ e ∈ es, Fills rules width 2 e.label ∧ (e.text = [] ∨ (8 < width ∧ Fills rules width 8 e.text))

/-- The usage can be filled. -/
structure UsageTextFills (rules : List Str) (width : Nat) (texts : Nat → Str) (cmd : Command) : Prop where
  title : Fills rules width 0 (usageTitle texts cmd)
  usage : ∀ s, custom texts cmd .usage = some s → Fills rules width 0 s
  generated : custom texts cmd .usage = none → UsageFills rules width cmd

/-- All texts can be filled. -/
structure PageFills (rules : List Str) (width : Nat) (texts : Nat → Str) (cmd : Command) : Prop where
  initial : Fills rules width 0 ((custom texts cmd .initialText).getD [])
  usage : UsageTextFills rules width texts cmd
  about : Fills rules width 0 (aboutText texts cmd)
  list : ListFills rules width (entries texts cmd)
  final : Fills rules width 0 ((custom texts cmd .finalText).getD [])

/-- The message can be filled behind the name of the command. -/
structure ErrorFills (rules : List Str) (width : Nat) (texts : Nat → Str) (cmd : Command) (msg : Str) : Prop where
  text : Fills rules width 0 (cmd.fullName ++ b!": " ++ msg)
  name : OneLine cmd.fullName ∧ ∀ x ∈ (wordsIn (cmd.fullName ++ b!":")).head?, ¬ Marker x.2
  start : msg.head? ≠ some 32
  custom_ : ∀ s, custom texts cmd .errorUsage = some s → Fills rules width 0 s
  usage : custom texts cmd .errorUsage = none → UsageTextFills rules width texts cmd

end Argos.Spec
