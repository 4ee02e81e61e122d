import Verif.Spec.World

/-!
# What a program declares

Which attribute each setter is about, and what was added to a command, in terms of the calls of a
program only.
-/

namespace Argos.Spec

/-- The last of the values said, or what it was before. -/
def lastSaid {γ α : Type} (says : γ → Option α) (cs : List γ) (before : α) : α := ((cs.filterMap says).getLast?).getD before

/-- The setters called on an option, in order. -/
def callsOnOpt (j : Nat) (cs : List Call) : List OptCall :=
  cs.filterMap fun c => match c with
    | .setOpt i x => if i = j then some x else none
    | _ => none

/-- The setters called on an argument, in order. -/
def callsOnArg (j : Nat) (cs : List Call) : List ArgCall :=
  cs.filterMap fun c => match c with
    | .setArg i x => if i = j then some x else none
    | _ => none

/-- The setters called on a command, in order. -/
def callsOnCmd (j : Nat) (cs : List Call) : List CmdCall :=
  cs.filterMap fun c => match c with
    | .setCmd i x => if i = j then some x else none
    | _ => none

/-- The setters called on a parser, in order. -/
def callsOnParser (j : Nat) (cs : List Call) : List ParserCall :=
  cs.filterMap fun c => match c with
    | .setParser i x => if i = j then some x else none
    | _ => none

/-- The option is as the calls say: each attribute has the value of the last call about it, or the default. -/
structure OptAsSaid (flags : List Str) (cs : List OptCall) (o : OptData) : Prop where
  flags : o.flags = lastSaid (fun | .flag f => some [f] | .flags fs => some fs | _ => none) cs flags
  help : o.help = lastSaid (fun | .help t => some t | _ => none) cs (.text [])
  section_ : o.section_ = lastSaid (fun | .section_ s => some s | _ => none) cs []
  alias_ : o.alias_ = lastSaid (fun | .alias_ s => some s | _ => none) cs []
  argument : o.argument = lastSaid (fun | .argument s => some s | _ => none) cs []
  constant : o.constant = lastSaid (fun | .constant s => some s | _ => none) cs []
  initialValue : o.initialValue = lastSaid (fun | .initialValue s => some s | _ => none) cs []
  callback : o.callback = lastSaid (fun | .callback c => some c | _ => none) cs none
  operation : o.operation = lastSaid (fun | .operation p => some p | _ => none) cs .assign
  type : o.type = lastSaid (fun | .type t => some t | _ => none) cs .normal
  visibility : o.visibility = lastSaid (fun | .visibility v => some v | _ => none) cs .normal
  optional : o.optional = lastSaid (fun | .optional b => some b | .mandatory b => some (!b) | _ => none) cs true
  id : o.id = lastSaid (fun | .id n => some n | _ => none) cs 0
  fresh : o.valueId = 0 ∧ o.argumentId = 0

/-- The counts that a call gives to an argument; a count of 0 and an empty range are rejected. -/
def rangeSaid : ArgCall → Option (Nat × Nat)
  | .count n => if n = 0 then none else some (n, n)
  | .countRange lo hi => if hi = 0 ∨ hi < lo then none else some (lo, hi)
  | _ => none

/-- The call says that the argument is optional, or that it isn't. -/
def optionalSaid : ArgCall → Option Bool
  | .optional b => some b
  | .mandatory b => some (!b)
  | _ => none

/-- The least count after it was `lo` and these calls of `optional` were made: an optional argument has none, a mandatory one
has `lo`, or 1 if there was none meanwhile. -/
def leastAfter (lo : Nat) (bs : List Bool) : Nat :=
  match bs.getLast? with
  | none => lo
  | some true => 0
  | some false => if lo = 0 ∨ true ∈ bs then 1 else lo

/-- The argument is as the calls say. -/
structure ArgAsSaid (name : Str) (cs : List ArgCall) (a : ArgData) : Prop where
  name : a.name = lastSaid (fun | .name s => some s | _ => none) cs name
  help : a.help = lastSaid (fun | .help t => some t | _ => none) cs (.text [])
  section_ : a.section_ = lastSaid (fun | .section_ s => some s | _ => none) cs []
  alias_ : a.alias_ = lastSaid (fun | .alias_ s => some s | _ => none) cs []
  callback : a.callback = lastSaid (fun | .callback c => some c | _ => none) cs none
  visibility : a.visibility = lastSaid (fun | .visibility v => some v | _ => none) cs .normal
  id : a.id = lastSaid (fun | .id n => some n | _ => none) cs 0
  counts : ∀ before c after lo hi, cs = before ++ c :: after → rangeSaid c = some (lo, hi) → (∀ x ∈ after, rangeSaid x = none) →
    a.minCount = leastAfter lo (after.filterMap optionalSaid) ∧ a.maxCount = hi
  noCounts : (∀ x ∈ cs, rangeSaid x = none) → a.minCount = leastAfter 1 (cs.filterMap optionalSaid) ∧ a.maxCount = 1
  fresh : a.valueId = 0 ∧ a.argumentId = 0

/-- The text that a call gives for the id. -/
def cmdText (id : TextId) : CmdCall → Option TextSource
  | .help s => if id = .help then some (.text s) else none
  | .about s => if id = .about then some (.text s) else none
  | .text i source => if id = i then some source else none
  | _ => none

/-- The command is as the calls say, apart from what was added to it. -/
structure CmdAsSaid (name : Str) (cs : List CmdCall) (c : Command) : Prop where
  name : c.name = lastSaid (fun | .name s => some s | _ => none) cs name
  section_ : c.section_ = lastSaid (fun | .section_ s => some s | _ => none) cs []
  currentSection : c.currentSection = lastSaid (fun | .currentSection s => some s | _ => none) cs []
  texts : ∀ id, c.texts.lookup id = lastSaid (fun x => (cmdText id x).map some) cs none
  visibility : c.visibility = lastSaid (fun | .visibility v => some v | _ => none) cs .normal
  id : c.id = lastSaid (fun | .id n => some n | _ => none) cs 0
  multiCommand : c.multiCommand = lastSaid (fun | .allowMultipleSubcommands b => some b | _ => none) cs false
  requireSubcommand : c.requireSubcommand = lastSaid (fun | .requireSubcommand b => some (some b) | _ => none) cs none

/-- The parser is as the calls say, apart from what was added to it and from its option style. -/
structure ParserAsSaid (name : Str) (cs : List ParserCall) (d : ParserData) : Prop where
  name : d.command.name = lastSaid (fun | .programName s => some s | _ => none) cs name
  currentSection : d.command.currentSection = lastSaid (fun | .currentSection s => some s | _ => none) cs []
  texts : ∀ id, d.command.texts.lookup id = lastSaid (fun | .text i source => if id = i then some (some source) else none | _ => none) cs none
  multiCommand : d.command.multiCommand = lastSaid (fun | .allowMultipleSubcommands b => some b | _ => none) cs false
  requireSubcommand : d.command.requireSubcommand = lastSaid (fun | .requireSubcommand b => some (some b) | _ => none) cs none
  version : d.version = lastSaid (fun | .version s => some s | _ => none) cs []
  lineWidth : d.helpSettings.lineWidth = lastSaid (fun | .lineWidth n => some n | _ => none) cs 0
  rules : d.helpSettings.wordSplitRules = cs.filterMap fun | .addWordSplittingRule s => some s | _ => none
  allowAbbreviatedOptions : d.settings.allowAbbreviatedOptions = lastSaid (fun | .allowAbbreviatedOptions b => some b | _ => none) cs false
  autoExit : d.settings.autoExit = lastSaid (fun | .autoExit b => some b | _ => none) cs true
  caseInsensitive : d.settings.caseInsensitive = lastSaid (fun | .caseInsensitive b => some b | _ => none) cs false
  generateHelpOption : d.settings.generateHelpOption = lastSaid (fun | .generateHelpOption b => some b | _ => none) cs true
  ignoreUndefinedArguments : d.settings.ignoreUndefinedArguments =
    lastSaid (fun | .ignoreUndefinedArguments b => some b | _ => none) cs false
  ignoreUndefinedOptions : d.settings.ignoreUndefinedOptions = lastSaid (fun | .ignoreUndefinedOptions b => some b | _ => none) cs false
  argumentCallback : d.settings.argumentCallback = lastSaid (fun | .argumentCallback c => some c | _ => none) cs none
  optionCallback : d.settings.optionCallback = lastSaid (fun | .optionCallback c => some c | _ => none) cs none
  exitCodes : (d.settings.errorExitCode, d.settings.normalExitCode) = lastSaid (fun | .setExitCodes e n => some (e, n) | _ => none) cs (64, 0)

/-- The call neither gives the object new data nor takes its data away. -/
def _root_.Argos.Call.Spares (c : Call) (obj : Obj) : Prop := c.fills ≠ some obj ∧ c.usesUp ≠ some obj

/-- The command of a command object or of a parser. -/
def _root_.Argos.World.command (w : World) : Obj → Option Command
  | .cmd i => w.cmds i
  | .parser i => (w.parsers i).map (·.command)
  | _ => none

/-- The call is a `copy_from` into the object. -/
def _root_.Argos.Call.CopiesInto (c : Call) (obj : Obj) : Prop :=
  (∃ i j, c = .cmdCopyFrom i j ∧ obj = .cmd i) ∨ ∃ i j, c = .parserCopyFrom i j ∧ obj = .parser i

/-- The object given to `add` of the object. -/
def _root_.Argos.Call.addedTo (obj : Obj) : Call → Option Obj
  | .cmdAddArg i j => if obj = .cmd i then some (.arg j) else none
  | .cmdAddOpt i j => if obj = .cmd i then some (.opt j) else none
  | .cmdAddCmd i j => if obj = .cmd i then some (.cmd j) else none
  | .parserAddArg i j => if obj = .parser i then some (.arg j) else none
  | .parserAddOpt i j => if obj = .parser i then some (.opt j) else none
  | .parserAddCmd i j => if obj = .parser i then some (.cmd j) else none
  | _ => none

/-- The section of something that is added: its own, or else the current one. -/
def sectionIn (c : Command) (own : Str) : Str := if own = [] then c.currentSection else own

section
variable (env : Env) (fuel : Nat) (obj : Obj)

/-- What the program adds to the object with calls that don't throw, in order, as it was when it was added. -/
def additions (w : World) : List Call → List (Command × World × Obj)
  | [] => []
  | c :: cs =>
    (match w.command obj, c.addedTo obj, (w.exec env fuel c).1 with
      | some k, some x, .ok () => [(k, w, x)]
      | _, _, _ => []) ++ additions (w.exec env fuel c).2 cs

end

/-- The options among the additions. -/
def addedOptions (xs : List (Command × World × Obj)) : List OptData :=
  xs.filterMap fun (k, w, x) => match x with
    | .opt j => (w.opts j).map fun o => { o with section_ := sectionIn k o.section_ }
    | _ => none

/-- The arguments among the additions. -/
def addedArguments (xs : List (Command × World × Obj)) : List ArgData :=
  xs.filterMap fun (k, w, x) => match x with
    | .arg j => (w.args j).map fun a => { a with section_ := sectionIn k a.section_ }
    | _ => none

/-- The sub-commands among the additions. -/
def addedCommands (xs : List (Command × World × Obj)) : List Command :=
  xs.filterMap fun (k, w, x) => match x with
    | .cmd j => (w.cmds j).map fun c => { c with section_ := sectionIn k c.section_ }
    | _ => none

end Argos.Spec
