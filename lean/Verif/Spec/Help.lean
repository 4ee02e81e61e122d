import Verif.Spec.Text
import Verif.Spec.Grammar
import Verif.Model.Data

/-! # Specification of the help text -/

namespace Argos.Spec

/-- Texts with a separator between them. -/
def separated (sep : Str) : List Str → Str
  | [] => []
  | [s] => s
  | s :: ss => s ++ sep ++ separated sep ss

/-- A text that begins with an angle bracket, or the text in angle brackets. -/
def placeholder (s : Str) : Str := if s.head? = some c!"<" then s else b!"<" ++ s ++ b!">"

/-- An argument as it is shown: a name that has brackets as it is; the name in brackets as often as it is required, and once
more if further ones are possible. -/
def argumentLabel (a : ArgData) : Str :=
  if a.name.head? = some c!"<" ∨ a.name.head? = some c!"[" then a.name
  else separated b!" " (List.replicate a.minCount (b!"<" ++ a.name ++ b!">") ++
    (if a.maxCount = a.minCount then [] else if a.maxCount = a.minCount + 1 then [b!"[<" ++ a.name ++ b!">]"] else [b!"[<" ++ a.name ++ b!">]..."]))

/-- A flag with the argument of the option: `-f <x>` or `--flag=<x>`. -/
def flagLabel (argument flag : Str) : Str :=
  if argument = [] then flag
  else if flag.getLast? = some c!"=" then flag ++ placeholder argument
  else flag ++ b!" " ++ placeholder argument

/-- An option as it is listed: all its flags. -/
def optionLabel (o : OptData) : Str := separated b!", " (o.flags.map (flagLabel o.argument))

/-- Options that end the program have usage lines of their own. -/
def EndsProgram (o : OptData) : Prop := o.type = .help ∨ o.type = .stop ∨ o.type = .exit

instance (o : OptData) : Decidable (EndsProgram o) := inferInstanceAs (Decidable (_ ∨ _ ∨ _))

/-- An option as it is shown in the usage: its first flag, in brackets if it can be left out. -/
def optionUsage (o : OptData) : Str :=
  let s := flagLabel o.argument (o.flags.headD [])
  if o.optional then b!"[" ++ s ++ b!"]" else s

/-- An option that ends the program, as it is shown in its usage line: its first long flag, or its first flag. -/
def stopUsage (o : OptData) : Str :=
  flagLabel o.argument ((o.flags.find? (fun s => s.length > 2)).getD (o.flags.headD []))

/-- The text of a text source. -/
def sourceText (texts : Nat → Str) : TextSource → Str
  | .text s => s
  | .callback n => texts n

/-- A custom text of a command. -/
def custom (texts : Nat → Str) (cmd : Command) (id : TextId) : Option Str := (cmd.texts.lookup id).map (sourceText texts)

/-- An entry of the help list. -/
structure Entry where
  heading : Str
  label : Str
  text : Str
  deriving Repr, DecidableEq

/-- The section of an entry, or the default one. -/
def headingOf (section_ default_ : Str) : Str := if section_ = [] then default_ else section_

/-- What the help text lists: the visible arguments, sub-commands and options, in this order. -/
def entries (texts : Nat → Str) (cmd : Command) : List Entry :=
  ((cmd.arguments.filter (·.visibility.text)).map fun a =>
    ⟨headingOf a.section_ ((custom texts cmd .argumentsTitle).getD b!"ARGUMENTS"), argumentLabel a, sourceText texts a.help⟩) ++
  ((cmd.commands.filter (·.visibility.text)).map fun c =>
    ⟨headingOf c.section_ ((custom texts cmd .subcommandsTitle).getD b!"COMMANDS"), c.name, (custom texts c .help).getD []⟩) ++
  ((cmd.options.filter (·.visibility.text)).map fun o =>
    ⟨headingOf o.section_ ((custom texts cmd .optionsTitle).getD b!"OPTIONS"), optionLabel o, sourceText texts o.help⟩)

/-- The headings in order of their first use, and the entries below each of them. -/
def sections (es : List Entry) : List (Str × List Entry) :=
  (es.map (·.heading)).eraseDups.map fun h => (h, es.filter (·.heading = h))

/-- The blocks of the help list: every heading and every entry. -/
def listBlocks (es : List Entry) : List Str :=
  (sections es).flatMap fun s => s.1 :: s.2.map fun e => e.label ++ e.text

/-- The sub-commands in the usage. -/
def commandsUsage (cmd : Command) : Str :=
  if cmd.commands.isEmpty then []
  else
    let s := separated b!"|" ((cmd.commands.filter (·.visibility.usage)).map (·.name))
    if cmd.requireSubcommand = some true then s else b!"[" ++ s ++ b!"]"

/-- The generated usage: a line for each visible option that ends the program, and one for the other options, the arguments and the
sub-commands that are visible. -/
def briefUsage (cmd : Command) : List Str :=
  ((cmd.options.filter fun o => o.visibility.usage ∧ EndsProgram o).map fun o => cmd.fullName ++ b!" " ++ stopUsage o) ++
  [cmd.fullName ++ b!" " ++
    ((cmd.options.filter fun o => o.visibility.usage ∧ ¬ EndsProgram o).flatMap fun o => optionUsage o ++ b!" ") ++
    ((cmd.arguments.filter (·.visibility.usage)).flatMap fun a => argumentLabel a ++ b!" ") ++ commandsUsage cmd]

/-- A text as a block, unless it is empty. -/
def block (s : Option Str) : List Str := if s.getD [] = [] then [] else [s.getD []]

/-- The usage: a title and the custom usage or the generated one; nothing if there is an empty custom usage. -/
def usageBlocks (texts : Nat → Str) (cmd : Command) : List Str :=
  if custom texts cmd .usage = some [] then []
  else block (some ((custom texts cmd .usageTitle).getD b!"USAGE")) ++
    (match custom texts cmd .usage with
     | some s => [s]
     | none => briefUsage cmd)

/-- The help text: the initial text, the usage, the about text (or the help text that is also shown in lists of sub-commands),
the list, and the final text. -/
def helpBlocks (texts : Nat → Str) (cmd : Command) : List Str :=
  block (custom texts cmd .initialText) ++ usageBlocks texts cmd ++
  (if block (custom texts cmd .about) = [] then block (custom texts cmd .help) else block (custom texts cmd .about)) ++
  listBlocks (entries texts cmd) ++ block (custom texts cmd .finalText)

/-- An error message: the name of the command and the message, then a custom text or the usage. -/
def errorBlocks (texts : Nat → Str) (cmd : Command) (msg : Str) : List Str :=
  [cmd.fullName ++ b!": " ++ msg] ++
    (match custom texts cmd .errorUsage with
     | some s => block (some s)
     | none => usageBlocks texts cmd)

/-- The output consists of the blocks in their order, each with white space and hyphens of its own and with a line feed at its end.
There may be empty lines between them, and a block of white space may be left out. -/
inductive Laid : List Str → Str → Prop
  | nil : Laid [] []
  | gap {o : Str} {bs : List Str} : Laid bs o → Laid bs (10 :: o)
  | block {b t o : Str} {bs : List Str} : Reflow b (t ++ [10]) → Laid bs o → Laid (b :: bs) (t ++ 10 :: o)
  | blank {b o : Str} {bs : List Str} : (∀ c ∈ b, isBlank c) → Laid bs o → Laid (b :: bs) o

/-- The options have flags, as `finish_initialization` checks. -/
def Flagged (cmd : Command) : Prop := ∀ o ∈ cmd.options, o.flags ≠ [] ∧ ∀ s ∈ o.flags, s ≠ []

/-- The names of arguments and the arguments of options don't end with a carriage return (see C49). -/
def NoReturn (cmd : Command) : Prop :=
  (∀ o ∈ cmd.options, o.argument.getLast? ≠ some 13) ∧ ∀ a ∈ cmd.arguments, a.name.getLast? ≠ some 13

instance (cmd : Command) : Decidable (NoReturn cmd) := inferInstanceAs (Decidable (_ ∧ _))

/-- A command without what is neither listed nor shown in the usage. -/
def withoutHidden (cmd : Command) : Command :=
  { cmd with
    arguments := cmd.arguments.filter fun a => a.visibility.text ∨ a.visibility.usage
    options := cmd.options.filter fun o => o.visibility.text ∨ o.visibility.usage
    commands := cmd.commands.filter fun c => c.visibility.text ∨ c.visibility.usage }

/-- What an error message about an argument or option calls it: the name of the argument, all flags of the option. -/
inductive CalledInErrors (cmd : Command) : (id : Nat) → Str → Prop
  | argument {a : ArgData} : a ∈ cmd.arguments → CalledInErrors cmd a.argumentId a.name
  | option {o : OptData} : o ∈ cmd.options → CalledInErrors cmd o.argumentId (separated b!", " o.flags)

/-- The names lead from the first command to the second, each being the name of a sub-command of the command before. -/
inductive PathTo (ci : Bool) : Command → List Str → Command → Prop
  | here {c : Command} : PathTo ci c [] c
  | sub {c s t : Command} {name : Str} {path : List Str} : NamesCommand ci c name s → PathTo ci s path t → PathTo ci c (name :: path) t

end Argos.Spec
