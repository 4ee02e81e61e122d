import Verif.Model.Store

/-!
# Model of the queries of `src/Argos/ParsedArguments.cpp` and `src/Argos/ParsedArgumentsImpl.cpp`
-/

namespace Argos

/-- An `IArgumentView`: a view of an argument or of an option. -/
inductive View where
  | arg (a : ArgData)
  | opt (o : OptData)
  deriving Repr, DecidableEq

/-- `IArgumentView::value_id`, ArgumentView.cpp:62-65, OptionView.cpp:82-85. -/
def View.valueId : View → Nat
  | .arg a => a.valueId
  | .opt o => o.valueId

/-- `IArgumentView::argument_id`, ArgumentView.cpp:67-70, OptionView.cpp:87-90. -/
def View.argumentId : View → Nat
  | .arg a => a.argumentId
  | .opt o => o.argumentId

/-- What an `ArgumentValue` refers to: the stored value if there is one, the value id and the argument id
(ArgumentValue.hpp). -/
structure ArgValue where
  value : Option Str
  valueId : Nat
  argumentId : Nat
  deriving Repr, DecidableEq

/-- `has(name)`, ParsedArguments.cpp:43-46. -/
def PNode.has (n : PNode) (name : Str) : Outcome Bool := do
  let id ← getValueId n.ids name
  pure (n.values.has id)

/-- `has(view)`, ParsedArguments.cpp:48-51. -/
def PNode.hasView (n : PNode) (v : View) : Bool := n.values.has v.valueId

/-- `value(name)`, ParsedArguments.cpp:61-68 (and ParsedArgumentsBuilder.cpp:66-73). -/
def PNode.value (n : PNode) (name : Str) : Outcome ArgValue := do
  let id ← getValueId n.ids name
  match ← n.values.getValue id with
  | some (v, a) => pure ⟨some v, id, a⟩
  | none => pure ⟨none, id, 0⟩

/-- `value(view)`, ParsedArguments.cpp:70-76 (and ParsedArgumentsBuilder.cpp:75-83). -/
def PNode.valueView (n : PNode) (v : View) : Outcome ArgValue := do
  match ← n.values.getValue v.valueId with
  | some (s, _) => pure ⟨some s, v.valueId, v.argumentId⟩
  | none => pure ⟨none, v.valueId, v.argumentId⟩

/-- `values(name)`, ParsedArguments.cpp:78-83: the values with their argument ids. -/
def PNode.valuesOf (n : PNode) (name : Str) : Outcome (List (Str × Nat)) := do
  let id ← getValueId n.ids name
  pure (n.values.getValues id)

/-- `values(view)`, ParsedArguments.cpp:85-89. -/
def PNode.valuesView (n : PNode) (v : View) : List (Str × Nat) := n.values.getValues v.valueId

/-- `get_argument_views(value_id)`, ParsedArgumentsImpl.cpp:167-182. -/
def getArgumentViews (c : Command) (valueId : Nat) : List View :=
  ((c.arguments.filter fun a => decide (a.valueId = valueId)).map View.arg) ++
  ((c.options.filter fun o => decide (o.valueId = valueId)).map View.opt)

/-- `get_argument_view(argument_id)`, ParsedArgumentsImpl.cpp:184-198. -/
def getArgumentView (c : Command) (argumentId : Nat) : Option View :=
  match c.arguments.find? fun a => decide (a.argumentId = argumentId) with
  | some a => some (.arg a)
  | none => (c.options.find? fun o => decide (o.argumentId = argumentId)).map View.opt

/-- `stop_option`, ParsedArguments.cpp:127-133. -/
def PNode.getStopOption (n : PNode) : Outcome OptData :=
  match n.stopOption with
  | some o => .ok o
  | none => .throw b!"There is no special option."

end Argos
