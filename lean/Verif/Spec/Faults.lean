import Verif.Spec.Grammar
import Verif.Spec.Numbers

/-!
# What is wrong with a command line

The other side of the grammar: what is wrong with a command line that isn't well-formed, and the message that says so.
-/

namespace Argos.Spec

/-- The flags of an option in a message. -/
def flagList : List Str → Str
  | [] => []
  | f :: fs => f ++ fs.flatMap (fun g => b!", " ++ g)

/-- The number of arguments that a command needs, in a message. -/
def expectedCount (args : List ArgData) : Str :=
  (if minTotal args = maxTotal args then [] else b!"at least ") ++ decimalNat (minTotal args)

/-- The message that a command has got too few arguments: `n` of them. -/
def tooFewText (c : Command) (n : Nat) : Str :=
  b!"Too few arguments. Expected " ++ expectedCount c.arguments ++ b!", received " ++ decimalNat n ++ b!"."

/-- The command has got fewer arguments than it needs. -/
def TooFew (c : Command) (n : Nat) : Prop := n < minTotal c.arguments

/-- The command has got as many arguments as it needs, and no more than it can have. But they had to be counted beforehand, and the last argument,
which is optional, is left without a value. -/
def Overlooked (c : Command) (n : Nat) : Prop :=
  NeedsCount c ∧ minTotal c.arguments ≤ n ∧ n ≤ maxTotal c.arguments ∧ ¬ LastServed c.arguments n

section
variable (style : OptionStyle) (names : Command → Str → OptData → Prop) (subs : Command → Str → Command → Prop)
  (few : Command → Nat → Prop)

/-- The line goes on with this text, which isn't a flag. -/
inductive GoesOn : Line → Str → Prop
  | mixed {r : Reader} {x : Reading} : r.readIn style = some x → ¬ IsFlag style x.flag → GoesOn (.mixed r) x.flag
  | plain {v : Str} {rest : List Str} : GoesOn (.plain (v :: rest)) v

/-- Nothing follows: the line is at its end, or it goes on with a LAST_ARGUMENT option. What has been given up to there, with that option. -/
inductive EndsWith (c : Command) (occs : List Occ) : Line → List Occ → Prop
  | line {l : Line} : l.AtEnd style → EndsWith c occs l occs
  | last {r : Reader} {x : Reading} {o : OptData} {v : Str} : r.readIn style = some x → IsFlag style x.flag → names c x.flag o →
      x.valueFor o = some v → o.type = .lastArgument → EndsWith c occs (.mixed r) (occs ++ [.option o v])

/-- Every argument has got the values that it is allotted, if there is a way to allot them. -/
def Allotted (c : Command) (occs : List Occ) : Prop :=
  ∀ ks, IsAllotment c.arguments (argsGiven occs).length ks → argsGiven occs = handedOut c.arguments ks

/-- The line can't go on like this for the command; `occs` have been given so far. -/
inductive Fault (c : Command) (occs : List Occ) : Line → Str → Prop
  /-- No option has the flag. The message tells the argument that the flag is written in. -/
  | unknownOption {r : Reader} {x : Reading} {s : Str} : r.readIn style = some x → IsFlag style x.flag → (∀ o, ¬ names c x.flag o) →
      (r.pending = [] → r.rest.head? = some s) → (r.pending ≠ [] → ∃ flags, s = flags ++ r.pending ∧ 2 ≤ flags.length) →
      Fault c occs (.mixed r) (b!"Unknown option: " ++ s)
  /-- The option takes a value, and there is none. -/
  | noValue {r : Reader} {x : Reading} {o : OptData} : r.readIn style = some x → IsFlag style x.flag → names c x.flag o → NeedsValue o →
      x.value = none → Fault c occs (.mixed r) (x.flag ++ b!": no value given.")
  /-- There are more arguments than the command can have. The message tells the first one that is too many. -/
  | tooMany {l : Line} {v : Str} : GoesOn style l v → c.commands = [] → (argsGiven occs).length = maxTotal c.arguments →
      Fault c occs l (b!"Too many arguments, starting from \"" ++ v ++ b!"\".")
  | unknownCommand {l : Line} {v : Str} : GoesOn style l v → c.commands ≠ [] → (∀ c', ¬ subs c v c') → Fault c occs l (b!"Unknown command: " ++ v)
  /-- There is an option that must have a value, and nothing has given it one. -/
  | mandatory {l : Line} {o : OptData} {occs' : List Occ} : EndsWith style names c occs l occs' → o ∈ c.options → o.optional = false →
      valuesOf occs' o.valueId = [] → Allotted c occs' → Fault c occs l (b!"Mandatory option is missing: " ++ flagList o.flags)
  | noCommand {l : Line} {occs' : List Occ} : EndsWith style names c occs l occs' → c.requireSubcommand = some true →
      (∀ o ∈ c.options, o.optional = false → valuesOf occs' o.valueId ≠ []) → Fault c occs l b!"No command was given."
  /-- There are too few arguments for the command. -/
  | tooFew {l : Line} {occs' : List Occ} : EndsWith style names c occs l occs' → Complete c occs' → few c (argsGiven occs').length →
      Fault c occs l (tooFewText c (argsGiven occs').length)

/-- The line is read without fault up to a point, and there `who` rejects it with the message. -/
inductive Rejects : (c : Command) → (inits : List Occ) → Line → (who : Command) → (msg : Str) → Prop
  | here {c : Command} {inits : List Occ} {l l' : Line} {ps : List Piece} {as : List ArgData} {msg : Str} :
      WrittenAll style names c l ps l' → as.length = argPieces ps → argPieces ps ≤ maxTotal c.arguments →
      Fault style names subs few c (inits ++ (report ps as).filterMap occOf) l' msg → Rejects c inits l c msg
  | sub {c c' who : Command} {inits : List Occ} {l l1 l2 : Line} {ps : List Piece} {msg : Str} : WrittenAll style names c l ps l1 →
      Enters style subs c l1 c' l2 → Rejects c' [] l2 who msg → Rejects c inits l who msg

end

/-- The command `who` rejects the line with the message, given what counts as too few arguments. -/
def _root_.Argos.ParserData.RejectsIf (d : ParserData) (few : Command → Nat → Prop) (args : List Str) (who : Command) (msg : Str) : Prop :=
  Spec.Rejects d.settings.optionStyle (Names d.settings.caseInsensitive d.settings.allowAbbreviatedOptions) (NamesCommand d.settings.caseInsensitive) few
    d.command (d.command.options.map .initial) (.mixed ⟨[], args⟩) who msg

/-- The command `who` rejects the line with the message. -/
def _root_.Argos.ParserData.Rejects (d : ParserData) (args : List Str) (who : Command) (msg : Str) : Prop := d.RejectsIf TooFew args who msg

end Argos.Spec

namespace Argos

/-- The event is an error message. -/
def Event.isError : Event → Bool
  | .error _ _ => true
  | _ => false

/-- The name that the error message begins with, and the message. -/
def Event.shown : Event → Option (Str × Str)
  | .error cmd msg => some (cmd.fullName, msg)
  | _ => none

end Argos
