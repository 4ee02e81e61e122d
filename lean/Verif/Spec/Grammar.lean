import Verif.Spec.Line
import Verif.Spec.Lookup
import Verif.Spec.Counts

/-!
# The command lines that are accepted

A grammar of command lines, in terms of what has been declared only: which options, arguments and
sub-commands are written on a command line, and what `parse` reports for it. Callbacks do nothing here, nothing is
ignored, and no command allows several sub-commands.
-/

namespace Argos.Spec

/-- The flag, as it was read from the command line (with its `=` if a value follows it in the same
argument), names the option: it selects it, or it selects nothing, is a flag followed by `=`, that flag selects the
option, and the option has an argument. -/
def Names (ci ab : Bool) (c : Command) (q : Str) (o : OptData) : Prop :=
  Selects ci ab c.options q o ∨
    ∃ f, q = f ++ b!"=" ∧ 2 ≤ f.length ∧ (∀ o', ¬ Selects ci ab c.options q o') ∧ Selects ci ab c.options f o ∧ o.argument ≠ []

/-- The text names the sub-command (the first one with that name). -/
def NamesCommand (ci : Bool) (c : Command) (q : Str) (c' : Command) : Prop :=
  c.commands.find? (fun x => decide (SameFlag ci x.name q)) = some c'

/-- Something written on the command line for a command. -/
inductive Piece where
  | option (o : OptData) (value : Str)
  | argument (value : Str)
  deriving Repr

/-- The number of arguments. -/
def argPieces (ps : List Piece) : Nat :=
  (ps.filter fun p => match p with
    | .argument _ => true
    | _ => false).length

section
variable (style : OptionStyle) (names : Command → Str → OptData → Prop) (subs : Command → Str → Command → Prop)

/-- What is written first on the line, and what is left after it. -/
inductive Written (c : Command) : Line → Piece → Line → Prop
  | option {r : Reader} {x : Reading} {o : OptData} {v : Str} : r.readIn style = some x → IsFlag style x.flag → names c x.flag o →
      x.valueFor o = some v → o.type = .normal → Written c (.mixed r) (.option o v) (.mixed (x.leftBy o))
  | lastOption {r : Reader} {x : Reading} {o : OptData} {v : Str} : r.readIn style = some x → IsFlag style x.flag → names c x.flag o →
      x.valueFor o = some v → o.type = .lastOption → Written c (.mixed r) (.option o v) (.plain (x.plainBy o))
  | lastArgument {r : Reader} {x : Reading} {o : OptData} {v : Str} : r.readIn style = some x → IsFlag style x.flag → names c x.flag o →
      x.valueFor o = some v → o.type = .lastArgument → Written c (.mixed r) (.option o v) (.closed (x.leftBy o).unread)
  | argument {r : Reader} {x : Reading} : r.readIn style = some x → ¬ IsFlag style x.flag → c.commands = [] →
      Written c (.mixed r) (.argument x.flag) (.mixed x.afterFlag)
  | plainArgument {v : Str} {rest : List Str} : c.commands = [] → Written c (.plain (v :: rest)) (.argument v) (.plain rest)

/-- Several pieces, one after the other. -/
inductive WrittenAll (c : Command) : Line → List Piece → Line → Prop
  | nil {l : Line} : WrittenAll c l [] l
  | cons {l l1 l' : Line} {p : Piece} {ps : List Piece} : Written style names c l p l1 → WrittenAll c l1 ps l' → WrittenAll c l (p :: ps) l'

/-- The line goes on with a sub-command; what is left is for that one. -/
inductive Enters (c : Command) : Line → Command → Line → Prop
  | command {r : Reader} {x : Reading} {c' : Command} : r.readIn style = some x → ¬ IsFlag style x.flag → c.commands ≠ [] →
      subs c x.flag c' → Enters c (.mixed r) c' (.mixed x.afterFlag)
  | plainCommand {v : Str} {rest : List Str} {c' : Command} : c.commands ≠ [] → subs c v c' →
      Enters c (.plain (v :: rest)) c' (.mixed ⟨[], rest⟩)

/-- What is reported for the pieces, when the arguments belong to `as`, in that order. -/
def report : List Piece → List ArgData → List IterResult
  | [], _ => []
  | .option o v :: ps, as => .option o (some v) :: report ps as
  | .argument v :: ps, a :: as => .argument a (some v) :: report ps as
  | .argument _ :: _, [] => []

/-- Every mandatory option has a value and no sub-command is missing. -/
structure Complete (c : Command) (occs : List Occ) : Prop where
  mandatory : ∀ o ∈ c.options, o.optional = false → valuesOf occs o.valueId ≠ []
  subcommand : c.requireSubcommand ≠ some true

/-- The line is well-formed for the command, and these are the results. `inits` are the initial values. -/
inductive Accepts : (c : Command) → (inits : List Occ) → Line → List IterResult → Prop
  /-- The line ends in this command: the number of arguments is within the declared counts, each argument gets
  the values that it is allotted, and nothing mandatory is missing. -/
  | last {c : Command} {inits : List Occ} {l l' : Line} {ps : List Piece} {ks : List Nat} : WrittenAll style names c l ps l' → l'.AtEnd style →
      IsAllotment c.arguments (argPieces ps) ks →
      Complete c (inits ++ (report ps (handedOut c.arguments ks)).filterMap occOf) →
      Accepts c inits l (report ps (handedOut c.arguments ks))
  /-- The line goes on with a sub-command. -/
  | sub {c c' : Command} {inits : List Occ} {l l1 l2 : Line} {ps : List Piece} {rs : List IterResult} : WrittenAll style names c l ps l1 →
      Enters style subs c l1 c' l2 → Accepts c' [] l2 rs → Accepts c inits l (report ps [] ++ .command c' [] :: rs)

end

/-- What the grammar is about: nothing is ignored, one sub-command at most on each level, sensible
declarations, and, if the case of letters doesn't matter, no flags that the library's order of flags can't handle;
in the SLASH and DASH styles, no LAST_OPTION options (see `C04_violated`). -/
structure Ordinary (d : ParserData) : Prop where
  style : d.settings.optionStyle = .standard ∨ ∀ c : Command, c.Within d.command → ∀ o ∈ c.options, o.type ≠ .lastOption
  options : d.settings.ignoreUndefinedOptions = false
  arguments : d.settings.ignoreUndefinedArguments = false
  single : ∀ c : Command, c.Within d.command → c.multiCommand = false
  flags : ∀ c : Command, c.Within d.command → RegularFlags d.settings.caseInsensitive c.options
  counts : CountsOk d.command
  exclusive : Exclusive d.command

/-- The number of arguments must be known before the first one is read: one that isn't the last one has a
variable count. -/
def NeedsCount (c : Command) : Prop := VariableBeforeLast c.arguments

/-- The arguments are counted correctly if that is needed: every option has an argument name exactly if it takes a value, and isn't an
EXIT option, and there are no abbreviations, or not exactly one flag (which could be abbreviated by a single character that looks like an argument). -/
def Predictable (d : ParserData) : Prop :=
  ∀ c : Command, c.Within d.command → NeedsCount c → (d.settings.allowAbbreviatedOptions = false ∨ (flagsOf c.options).length ≠ 1) ∧
    ∀ o ∈ c.options, (NeedsValue o ↔ o.argument ≠ []) ∧ o.type ≠ .exit

/-- The arguments are counted correctly if that is needed, and the last argument is mandatory then. -/
def Foreseeable (d : ParserData) : Prop :=
  Predictable d ∧ ∀ c : Command, c.Within d.command → NeedsCount c → ∃ a, c.arguments.getLast? = some a ∧ 0 < a.minCount

/-- The command that the line ends in. -/
def lastCommand (c : Command) : List IterResult → Command
  | [] => c
  | .command c' _ :: rs => lastCommand c' rs
  | _ :: rs => lastCommand c rs

/-- The number of arguments among the results. -/
def argumentCount (rs : List IterResult) : Nat :=
  (rs.filter fun r => match r with
    | .argument _ _ => true
    | _ => false).length

/-- What the library requires in addition to the declared counts: if the arguments of the command that the line ends in must be counted beforehand, the
last one is mandatory or gets a value. -/
def Served (c : Command) (rs : List IterResult) : Prop :=
  NeedsCount (lastCommand c rs) → LastServed (lastCommand c rs).arguments (argumentCount rs)

/-- The line is well-formed for the parser, and these are the results. -/
def _root_.Argos.ParserData.Accepts (d : ParserData) (args : List Str) (rs : List IterResult) : Prop :=
  Spec.Accepts d.settings.optionStyle (Names d.settings.caseInsensitive d.settings.allowAbbreviatedOptions) (NamesCommand d.settings.caseInsensitive) d.command
    (d.command.options.map .initial) (.mixed ⟨[], args⟩) rs

/-- The text reported with a command is left out. -/
def forgetText : IterResult → IterResult
  | .command c _ => .command c []
  | r => r

end Argos.Spec
