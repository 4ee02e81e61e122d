import Verif.Model.World
import Verif.Spec.Lookup

/-! # Vocabulary for programs that use the client objects -/

namespace Argos

/-- A client object. -/
inductive Obj where
  | arg (i : Nat)
  | opt (i : Nat)
  | cmd (i : Nat)
  | parser (i : Nat)
  deriving Repr, DecidableEq

/-- The object has no data: it was moved from, added or consumed. -/
def World.Consumed (w : World) : Obj → Prop
  | .arg i => w.args i = none
  | .opt i => w.opts i = none
  | .cmd i => w.cmds i = none
  | .parser i => w.parsers i = none

/-- The object a method is called on. Constructors and assignments are none. -/
def Call.receiver : Call → Option Obj
  | .newArg .. | .newOpt .. | .newCmd .. | .newParser .. => none
  | .copyArg .. | .copyOpt .. | .copyCmd .. => none
  | .moveArg .. | .moveOpt .. | .moveCmd .. | .moveParser .. => none
  | .setArg i _ => some (.arg i)
  | .setOpt i _ => some (.opt i)
  | .setCmd i _ | .cmdAddArg i _ | .cmdAddOpt i _ | .cmdAddCmd i _ | .cmdCopyFrom i _ => some (.cmd i)
  | .setParser i _ | .parserAddArg i _ | .parserAddOpt i _ | .parserAddCmd i _ | .parserCopyFrom i _ => some (.parser i)
  | .parse i _ | .parseConst i _ | .parseMain i _ | .parseMainConst i _ => some (.parser i)
  | .makeIterator i _ | .makeIteratorConst i _ | .makeIteratorMain i _ | .makeIteratorMainConst i _ => some (.parser i)
  | .writeHelp i _ => some (.parser i)

/-- The object that is given to `add` or `copy_from`. -/
def Call.operand : Call → Option Obj
  | .cmdAddArg _ j | .parserAddArg _ j => some (.arg j)
  | .cmdAddOpt _ j | .parserAddOpt _ j => some (.opt j)
  | .cmdAddCmd _ j | .parserAddCmd _ j | .cmdCopyFrom _ j | .parserCopyFrom _ j => some (.cmd j)
  | _ => none

/-- The object that gets new data: by construction or assignment. -/
def Call.fills : Call → Option Obj
  | .newArg i _ => some (.arg i)
  | .newOpt i _ => some (.opt i)
  | .newCmd i _ => some (.cmd i)
  | .newParser i _ _ => some (.parser i)
  | .copyArg _ j | .moveArg _ j => some (.arg j)
  | .copyOpt _ j | .moveOpt _ j => some (.opt j)
  | .copyCmd _ j | .moveCmd _ j => some (.cmd j)
  | .moveParser _ j => some (.parser j)
  | _ => none

/-- The object that the documentation says cannot be used after the call: what is moved from, what is
added, and a parser that isn't const and parses or makes an iterator. -/
def Call.usesUp : Call → Option Obj
  | .moveArg i j => if i = j then none else some (.arg i)
  | .moveOpt i j => if i = j then none else some (.opt i)
  | .moveCmd i j => if i = j then none else some (.cmd i)
  | .moveParser i j => if i = j then none else some (.parser i)
  | .cmdAddArg _ j | .parserAddArg _ j => some (.arg j)
  | .cmdAddOpt _ j | .parserAddOpt _ j => some (.opt j)
  | .cmdAddCmd _ j | .parserAddCmd _ j => some (.cmd j)
  | .parse i _ | .parseMain i _ | .makeIterator i _ | .makeIteratorMain i _ => some (.parser i)
  | _ => none

/-- The call that does not check the parser: `parse(argc, argv)` with `argc > 0`. -/
def Call.isParseMain : Call → Prop
  | .parseMain _ (_ :: _) => True
  | _ => False

/-- No command of the tree has both arguments and sub-commands. -/
def Command.Exclusive (root : Command) : Prop := ∀ c : Command, c.Within root → c.arguments = [] ∨ c.commands = []

/-- The command `w` is about, in any object. -/
def World.Has (w : World) (c : Command) : Prop := (∃ i, w.cmds i = some c) ∨ ∃ i d, w.parsers i = some d ∧ d.command = c

/-- The target and source of a `copy_from` on existing objects. -/
def Call.copies (w : World) : Call → Option (Command × Command)
  | .cmdCopyFrom i j =>
    match w.cmds i, w.cmds j with
    | some c, some s => some (c, s)
    | _, _ => none
  | .parserCopyFrom i j =>
    match w.parsers i, w.cmds j with
    | some d, some s => some (d.command, s)
    | _, _ => none
  | _ => none

/-- What a client can find out about a command, apart from its visibility and its sub-commands. -/
structure Command.Props where
  arguments : List ArgData
  options : List OptData
  subcommands : Nat
  currentSection : Str
  name : Str
  fullName : Str
  texts : List (TextId × TextSource)
  requireSubcommand : Option Bool
  multiCommand : Bool
  section_ : Str
  id : Int
  argumentId : Nat
  deriving Repr, DecidableEq

/-- See `Command.Props`. -/
def Command.props (c : Command) : Command.Props :=
  { arguments := c.arguments, options := c.options, subcommands := c.commands.length, currentSection := c.currentSection
    name := c.name, fullName := c.fullName, texts := c.texts, requireSubcommand := c.requireSubcommand
    multiCommand := c.multiCommand, section_ := c.section_, id := c.id, argumentId := c.argumentId }

/-- Every command of the tree is visible in usage and text, the default. -/
def Command.Visible (root : Command) : Prop := ∀ c : Command, c.Within root → c.visibility = .normal

/-- `copy_from` would give the target both arguments and sub-commands. -/
def Command.Mixes (target src : Command) : Prop :=
  (target.arguments ≠ [] ∨ src.arguments ≠ []) ∧ (target.commands ≠ [] ∨ src.commands ≠ [])

/-- No `copy_from` of the program, at the time it is executed, mixes arguments and sub-commands. -/
def NoMixing (env : Env) (fuel : Nat) : World → List Call → Prop
  | _, [] => True
  | w, c :: cs => (∀ t s, c.copies w = some (t, s) → ¬ t.Mixes s) ∧ NoMixing env fuel (w.exec env fuel c).2 cs

/-- Methods of a const parser. -/
def Call.isConst : Call → Prop
  | .parseConst .. | .parseMainConst .. | .makeIteratorConst .. | .makeIteratorMainConst .. | .writeHelp .. => True
  | _ => False

/-- The names of the commands on a path, separated by spaces. -/
def Command.pathName (c : Command) : List Nat → Option Str
  | [] => some c.name
  | i :: p => (c.commands[i]?).bind fun s => (s.pathName p).map fun t => c.name ++ [32] ++ t

end Argos
