import Verif.Model.Data

/-!
# Specification of names and of linked arguments and options
-/

namespace Argos.Spec

/-- An argument or option as far as its value is concerned: its own names (the name of an argument, the
flags of an option), its alias, and the value it writes to. -/
structure Item where
  own : List Str
  alias_ : Option Str
  valueId : Nat
  deriving Repr, DecidableEq

/-- The names an item mentions. -/
def Item.names (i : Item) : List Str := i.own ++ i.alias_.toList

/-- An alias that is set. -/
def aliasOf (s : Str) : Option Str := if s = [] then none else some s

/-- The arguments and options of a command that have a value, in the order of declaration. -/
def items (c : Command) : List Item :=
  (c.arguments.map fun a => ⟨[a.name], aliasOf a.alias_, a.valueId⟩) ++
  ((c.options.filter fun o => o.operation ≠ .none).map fun o => ⟨o.flags, aliasOf o.alias_, o.valueId⟩)

/-- The items share a name. -/
def Item.Share (i j : Item) : Prop := ∃ n, n ∈ i.names ∧ n ∈ j.names

/-- The items are connected through names shared by items of the list. -/
inductive Connected (l : List Item) (i : Item) : Item → Prop
  | refl : i ∈ l → Connected l i i
  | step {j k : Item} : Connected l i j → k ∈ l → j.Share k → Connected l i k

/-- Names are only used after their declaration: the own names of every item are not mentioned by the
items before it. (An item with a single name and no alias is exempt.) -/
def BackwardLinks (l : List Item) : Prop :=
  ∀ pre i post, l = pre ++ i :: post →
    (∀ n ∈ i.own, ∀ j ∈ pre, n ∉ j.names) ∨ (i.alias_ = none ∧ ∃ n, i.own = [n])

/-- The command gives access to the value `v` by the name `name`. -/
def Declares (c : Command) (name : Str) (v : Nat) : Prop :=
  ∃ i ∈ items c, name ∈ i.names ∧ i.valueId = v

/-- The argument ids given out in a command: its own, those of its arguments and those of its options. -/
def idsOf (c : Command) : List Nat :=
  c.argumentId :: (c.arguments.map (·.argumentId) ++ c.options.map (·.argumentId))

end Argos.Spec
