import Verif.Model.Results
import Verif.Spec.Lookup
import Verif.Spec.Help

/-! # What a client should see in the results -/

namespace Argos.Spec

/-- The text that the client gave, as a text or as a function that returns it. -/
def IsTextOf (texts : Nat → Str) (source : TextSource) (s : Str) : Prop :=
  source = .text s ∨ ∃ n, source = .callback n ∧ s = texts n

/-- The lists have the same length, and the relation holds between the elements at the same place. -/
inductive Each {α β : Type} (R : α → β → Prop) : List α → List β → Prop
  | nil : Each R [] []
  | cons {x : α} {y : β} {xs : List α} {ys : List β} : R x y → Each R xs ys → Each R (x :: xs) (y :: ys)

/-- The view shows the argument that was declared. -/
structure ArgShown (texts : Nat → Str) (a : ArgData) (v : ArgInfo) : Prop where
  name : v.name = a.name
  help : IsTextOf texts a.help v.help
  section_ : v.section_ = a.section_
  alias_ : v.alias_ = a.alias_
  visibility : v.visibility = a.visibility
  id : v.id = a.id
  count : v.count.1 = a.minCount ∧ v.count.2 = a.maxCount
  optional : v.optional = true ↔ a.minCount = 0
  valueId : 0 < v.valueId

/-- The view shows the option that was declared. The constant of an option that assigns without having an argument or a constant
is "1"; and so is the one of an option that clears but was given an argument or constant. -/
structure OptShown (texts : Nat → Str) (o : OptData) (v : OptInfo) : Prop where
  flags : v.flags = o.flags
  help : IsTextOf texts o.help v.help
  section_ : v.section_ = o.section_
  alias_ : v.alias_ = o.alias_
  operation : v.operation = o.operation
  type : v.type = o.type
  visibility : v.visibility = o.visibility
  id : v.id = o.id
  argument : v.argument = o.argument
  initialValue : v.initialValue = o.initialValue
  optional : v.optional = o.optional
  constant : v.constant =
    if (o.operation = .assign ∧ o.argument = [] ∧ o.constant = []) ∨ (o.operation = .clear ∧ (o.argument ≠ [] ∨ o.constant ≠ [])) then b!"1" else o.constant
  valueId : o.operation ≠ .none → 0 < v.valueId
  noValueId : o.operation = .none → v.valueId = o.valueId

/-- The options that the parser has added are shown: perhaps one for the version (only in the main command and only if there is a
version), then perhaps one for the help text. -/
def AddedShown (hasVersion hasHelp : Bool) (vs : List OptInfo) : Prop :=
  ∃ version help : List OptInfo, vs = version ++ help ∧ version.length ≤ 1 ∧ help.length ≤ 1 ∧
    (∀ v ∈ version, hasVersion = true ∧ v.type = .stop ∧ v.help = b!"Display the program version." ∧ v.argument = [] ∧ v.flags.length = 1) ∧
    (∀ v ∈ help, hasHelp = true ∧ v.type = .help ∧ v.help = b!"Display this help text." ∧ v.argument = [] ∧ v.flags ≠ [])

/-- The view shows the command that was declared, except for its help text. `hasVersion`: the version option can be added to it. -/
structure CmdShown (texts : Nat → Str) (hasVersion hasHelp : Bool) (c : Command) (v : CmdInfo) : Prop where
  name : v.name = c.name
  alias_ : v.alias_ = c.name
  section_ : v.section_ = c.section_
  visibility : v.visibility = c.visibility
  id : v.id = c.id
  arguments : Each (fun a x => ArgShown texts a (ArgData.info texts x)) c.arguments v.arguments
  options : ∃ declared added, v.options = declared ++ added ∧
    Each (fun o x => OptShown texts o (OptData.info texts x)) c.options declared ∧
    AddedShown hasVersion hasHelp (added.map (OptData.info texts))
  subcommands : v.subcommands.length = c.commands.length
  requireSubcommand : v.requireSubcommand = true ↔ c.requireSubcommand = some true ∨ (c.requireSubcommand = none ∧ c.commands ≠ [])
  about : (∀ t, c.texts.lookup .about = some t → IsTextOf texts t v.help) ∧ (c.texts.lookup .about = none → v.help = [])

/-- The command seen after going from view to view through their sub-commands. -/
def viewAt (texts : Nat → Str) (c : Command) : List Nat → Option Command
  | [] => some c
  | i :: p => ((c.info texts).subcommands[i]?).bind fun x => viewAt texts x p

/-! ### Printing -/

/-- The names of an argument or option. -/
def namesOfView : View → List Str
  | .arg a => [a.name]
  | .opt o => o.flags

/-- What an error message calls an argument or option: all its names, then a colon. There is nothing if it has no name. -/
def calledFirst (v : View) : Str :=
  if separated b!", " (namesOfView v) = [] then [] else separated b!", " (namesOfView v) ++ b!": "

/-- What the failing functions of values do: the program ends, or there is an exception. -/
def errorEnd {α : Type} (st : ParserSettings) : Outcome α :=
  if st.autoExit then .exit st.errorExitCode else .throw b!"Error while parsing arguments."

/-- The report leads to an error message that has the text and, in front of it, the names of the argument or option that gave the values,
if there is one that gave all of them. -/
def ReportedFor (d : ParserData) (c : Command) (vs : List (Str × Nat)) (msg : Str) (r : ErrorReport) : Prop :=
  (∃ w, (∀ v ∈ vs, getArgumentView c v.2 = some w) ∧
    ∀ console texts, writeErrorMessageFor console texts d c r.message r.argumentId = writeErrorMessage console texts d c (calledFirst w ++ msg)) ∨
  ((∃ v ∈ vs, ∃ v' ∈ vs, getArgumentView c v.2 ≠ getArgumentView c v'.2) ∧
    ∀ console texts, writeErrorMessageFor console texts d c r.message r.argumentId = writeErrorMessage console texts d c msg)

/-- Each of the values behind a space and in quotation marks. -/
def inQuotes : List Str → Str
  | [] => []
  | s :: ss => b!" \"" ++ s ++ b!"\"" ++ inQuotes ss

/-- The line about the arguments and options that have the value id. -/
def valueLine (n : PNode) (id : Nat) : Str :=
  separated b!", " (((n.command.arguments.map View.arg ++ n.command.options.map View.opt).filter fun v => v.valueId = id).flatMap namesOfView) ++
    b!":" ++ inQuotes ((n.values.getValues id).map (·.1)) ++ b!"\n"

/-- The text shows the node: for each of the value ids of its arguments and options a line with all names and all values, in
ascending order, then the unprocessed arguments, if there are any; then each of its sub-commands in the same way. -/
inductive Shows : PNode → Str → Prop
  | intro {n : PNode} (ids : List Nat) (subs : List Str) :
      ids.Pairwise (· < ·) →
      (∀ id, id ∈ ids ↔ (∃ a ∈ n.command.arguments, a.valueId = id) ∨ ∃ o ∈ n.command.options, o.valueId = id) →
      subs.length = n.subs.length →
      (∀ (i : Nat) (m : PNode) (t : Str), n.subs[i]? = some m → subs[i]? = some t → Shows m t) →
      Shows n (ids.flatMap (valueLine n) ++ (if n.unprocessed = [] then [] else b!"Unprocessed arguments:" ++ inQuotes n.unprocessed) ++
        (n.subs.zip subs).flatMap fun (m, t) => b!"\nSubcommand: " ++ m.command.name ++ b!"\n" ++ t)

end Argos.Spec
