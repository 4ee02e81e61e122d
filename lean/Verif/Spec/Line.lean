import Verif.Spec.Tree
import Verif.Spec.Reader

/-!
# How the results of the iterator use up the command line
-/

namespace Argos.Spec

/-- The character that options begin with. -/
def flagChar : OptionStyle → UInt8
  | .slash => c!"/"
  | _ => c!"-"

/-- What is read looks like an option. -/
def IsFlag (style : OptionStyle) (a : Str) : Prop := 2 ≤ a.length ∧ a.head? = some (flagChar style)

instance (style : OptionStyle) (a : Str) : Decidable (IsFlag style a) := inferInstanceAs (Decidable (_ ∧ _))

/-- The option reads its value from the command line. -/
def NeedsValue (o : OptData) : Prop := (o.operation = .assign ∨ o.operation = .append) ∧ o.constant = []

instance (o : OptData) : Decidable (NeedsValue o) := inferInstanceAs (Decidable (_ ∧ _))

/-- The value that an option gets. -/
def Reading.valueFor (x : Reading) (o : OptData) : Option Str := if NeedsValue o then x.value else some []

/-- What is left after an option. -/
def Reading.leftBy (x : Reading) (o : OptData) : Reader := if NeedsValue o then x.afterValue else x.afterFlag

/-- What is left after an option, when only arguments are expected from there on. -/
def Reading.plainBy (x : Reading) (o : OptData) : List Str :=
  if NeedsValue o then x.afterValue.rest else x.value.toList ++ x.afterValue.rest

/-- What is left of the command line. -/
inductive Line where
  /-- Options are recognised. -/
  | mixed (r : Reader)
  /-- Only arguments and sub-commands are expected. -/
  | plain (rest : List Str)
  /-- Parsing has ended, this was not read. -/
  | closed (rest : List Str)
  deriving Repr, DecidableEq

/-- A result, given for what was left and the commands being read, and what is left after it. -/
inductive Line.Step (style : OptionStyle) (st : Open) : Line → IterResult → Line → Prop
  | option {r : Reader} {x : Reading} {o : OptData} {v : Str} : r.readIn style = some x → IsFlag style x.flag →
      x.valueFor o = some v → o.type = .normal → Step style st (.mixed r) (.option o (some v)) (.mixed (x.leftBy o))
  | lastOption {r : Reader} {x : Reading} {o : OptData} {v : Str} : r.readIn style = some x → IsFlag style x.flag →
      x.valueFor o = some v → o.type = .lastOption → Step style st (.mixed r) (.option o (some v)) (.plain (x.plainBy o))
  | stop {r : Reader} {x : Reading} {o : OptData} {v : Str} : r.readIn style = some x → IsFlag style x.flag →
      x.valueFor o = some v → EndsParsing o → Step style st (.mixed r) (.option o (some v)) (.closed (x.leftBy o).unread)
  | lastArgument {r : Reader} {x : Reading} {o : OptData} {v : Str} : r.readIn style = some x → IsFlag style x.flag →
      x.valueFor o = some v → o.type = .lastArgument → (st.add (.option o v)).back = none →
      Step style st (.mixed r) (.option o (some v)) (.closed (x.leftBy o).unread)
  | lastOfMany {r : Reader} {x : Reading} {o : OptData} {v : Str} {st' : Open} : r.readIn style = some x → IsFlag style x.flag →
      x.valueFor o = some v → o.type = .lastArgument → (st.add (.option o v)).back = some st' →
      Step style st (.mixed r) (.option o (some v)) (.plain (x.plainBy o))
  | argument {r : Reader} {x : Reading} {a : ArgData} : r.readIn style = some x → ¬ IsFlag style x.flag →
      Step style st (.mixed r) (.argument a (some x.flag)) (.mixed x.afterFlag)
  | plainArgument {a : ArgData} {v : Str} {rest : List Str} : Step style st (.plain (v :: rest)) (.argument a (some v)) (.plain rest)
  | command {r : Reader} {x : Reading} {c : Command} : r.readIn style = some x → ¬ IsFlag style x.flag →
      Step style st (.mixed r) (.command c x.flag) (.mixed x.afterFlag)
  | plainCommand {c : Command} {v s : Str} {rest : List Str} : Step style st (.plain (v :: rest)) (.command c s) (.mixed ⟨[], rest⟩)
  /-- An undefined option: the whole argument is reported (but see the note on concatenated flags). -/
  | unknownOption {r : Reader} {x : Reading} {s : Str} : r.readIn style = some x → IsFlag style x.flag →
      (r.pending = [] → r.rest.head? = some s) → Step style st (.mixed r) (.unknown s) (.mixed x.afterFlag)
  | unknownArgument {r : Reader} {x : Reading} : r.readIn style = some x → ¬ IsFlag style x.flag →
      Step style st (.mixed r) (.unknown x.flag) (.mixed x.afterFlag)
  | unknownPlain {v s : Str} {rest : List Str} : Step style st (.plain (v :: rest)) (.unknown s) (.plain rest)

/-- Successive results. -/
inductive Line.Steps (style : OptionStyle) : Open → Line → List IterResult → Line → Prop
  | nil {st : Open} {l : Line} : Steps style st l [] l
  | cons {st : Open} {l l1 l' : Line} {r : IterResult} {rs : List IterResult} : Line.Step style st l r l1 → Steps style (st.step r) l1 rs l' →
      Steps style st l (r :: rs) l'

/-- Nothing is left, or parsing has ended. -/
def Line.AtEnd (style : OptionStyle) : Line → Prop
  | .mixed r => r.readIn style = none
  | .plain rest => rest = []
  | .closed _ => True

/-- The SLASH and DASH styles read an empty argument twice if it is the value of an option, and they insert empty arguments
after an option behind which only arguments are expected (`C04_violated`). Neither happens on this line. -/
def Line.Tame (style : OptionStyle) : Line → Prop
  | .mixed r => style = .standard ∨ [] ∉ r.rest
  | .plain _ => style = .standard
  | .closed _ => True

/-- The same for a whole command line and its results. -/
def Faithful (d : ParserData) (args : List Str) (rs : List IterResult) : Prop :=
  d.settings.optionStyle = .standard ∨ ([] ∉ args ∧ ∀ o v, .option o v ∈ rs → o.type ≠ .lastOption ∧
    (o.type = .lastArgument → ∀ c : Command, c.Within d.command → c.multiCommand = false))

/-- What was not read. -/
def Line.notRead : Line → List Str
  | .closed rest => rest
  | _ => []

/-- Everything that was ignored, and finally what was not read, for the active command. -/
def Open.leave (st : Open) (l : Line) : Open := l.notRead.foldl (fun st x => st.add (.unknown x)) st

/-- The text of a positional argument. -/
def textOf : IterResult → Option Str
  | .argument _ v => v
  | _ => none

/-- What was ignored. -/
def unknownsOf (occs : List Occ) : List Str :=
  occs.filterMap fun x => match x with
    | .unknown s => some s
    | _ => none

end Argos.Spec

namespace Argos
open Spec

mutual
/-- `unprocessed_arguments()` of a `ParsedArguments` and its sub-commands. -/
def PNode.unprocessedTree : PNode → Tree (List Str)
  | ⟨c, _, _, u, _, _, subs⟩ => .node c u (PNode.unprocessedTrees subs)

/-- The same for a list. -/
def PNode.unprocessedTrees : List PNode → List (Tree (List Str))
  | [] => []
  | n :: ns => n.unprocessedTree :: PNode.unprocessedTrees ns
end

end Argos
