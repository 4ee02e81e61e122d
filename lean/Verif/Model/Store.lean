import Verif.Model.Options

/-!
# Model of `src/Argos/ParsedArgumentsImpl.cpp` and `src/Argos/ParsedArgumentsBuilder.cpp`

`m_values`, a `std::multimap<ValueId, pair<string, ArgumentId>>`, is a list of
`(value id, value, argument id)` in key order; equal keys are in insertion order.
-/

namespace Argos

/-- `m_values`. -/
abbrev Values := List (Nat × Str × Nat)

namespace Values

/-- `append_value`, ParsedArgumentsImpl.cpp:105-111: `multimap::insert` inserts at the upper
bound of the range of equal keys. -/
def append (vs : Values) (id : Nat) (v : Str) (arg : Nat) : Values :=
  vs.takeWhile (fun e => decide (e.1 ≤ id)) ++ (id, v, arg) ::
    vs.dropWhile (fun e => decide (e.1 ≤ id))

/-- `assign_value`, ParsedArgumentsImpl.cpp:89-103: the first entry of the key is overwritten, the
following entries with the key are erased; without an entry the value is appended. -/
def assign (vs : Values) (id : Nat) (v : Str) (arg : Nat) : Values :=
  match vs.dropWhile (fun e => decide (e.1 < id)) with
  | [] => vs.append id v arg
  | e :: rest =>
    if e.1 ≠ id then vs.append id v arg
    else vs.takeWhile (fun e => decide (e.1 < id)) ++ (id, v, arg) ::
      rest.dropWhile (fun e => decide (e.1 = id))

/-- `clear_value`, ParsedArgumentsImpl.cpp:113-116: `multimap::erase(key)`. -/
def clear (vs : Values) (id : Nat) : Values := vs.filter (fun e => decide (e.1 ≠ id))

/-- `has`, ParsedArgumentsImpl.cpp:73-76. -/
def has (vs : Values) (id : Nat) : Bool := vs.any (fun e => decide (e.1 = id))

/-- `get_value`, ParsedArgumentsImpl.cpp:129-139. -/
def getValue (vs : Values) (id : Nat) : Outcome (Option (Str × Nat)) :=
  match vs.dropWhile (fun e => decide (e.1 < id)) with
  | [] => .ok none
  | [e] => if e.1 ≠ id then .ok none else .ok (some e.2)
  | e :: nx :: _ =>
    if e.1 ≠ id then .ok none
    else if nx.1 = id then .throw b!"Attempt to read multiple values as a single value."
    else .ok (some e.2)

/-- `get_values`, ParsedArgumentsImpl.cpp:141-151. -/
def getValues (vs : Values) (id : Nat) : List (Str × Nat) :=
  ((vs.dropWhile (fun e => decide (e.1 < id))).takeWhile (fun e => decide (e.1 = id))).map (·.2)

end Values

/-- An entry of `m_ids`: name, value id, argument id. -/
abbrev IdEntry := Str × Nat × Nat

/-- The entries collected by the constructor, ParsedArgumentsImpl.cpp:43-58. -/
def collectIds (c : Command) : List IdEntry :=
  (c.arguments.flatMap fun a =>
    (a.name, a.valueId, a.argumentId) ::
      (if a.alias_.isEmpty then [] else [(a.alias_, a.valueId, a.argumentId)])) ++
  (c.options.flatMap fun o =>
    if o.operation = .none then []
    else (o.flags.map fun f => (f, o.valueId, o.argumentId)) ++
      (if o.alias_.isEmpty then [] else [(o.alias_, o.valueId, o.argumentId)]))

/-- `operator<` of `std::tuple<string_view, ValueId, ArgumentId>`. -/
def idLess (a b : IdEntry) : Bool :=
  isLessCs a.1 b.1 || (a.1 == b.1 &&
    (decide (a.2.1 < b.2.1) || (a.2.1 == b.2.1 && decide (a.2.2 < b.2.2))))

/-- The loop that removes the argument ids of ambiguous names, ParsedArgumentsImpl.cpp:63-68. -/
def zeroAmbiguous : IdEntry → List IdEntry → List IdEntry
  | p, [] => [p]
  | p, x :: xs =>
    if x.1 = p.1 ∧ x.2.2 ≠ p.2.2 then (p.1, p.2.1, 0) :: zeroAmbiguous (x.1, x.2.1, 0) xs
    else p :: zeroAmbiguous x xs

/-- `m_ids` after the constructor, ParsedArgumentsImpl.cpp:37-71. -/
def makeIds (c : Command) : List IdEntry :=
  match sortList idLess (collectIds c) with
  | [] => []
  | p :: xs => uniqueList (zeroAmbiguous p xs)

/-- `get_value_id`, ParsedArgumentsImpl.cpp:118-127. -/
def getValueId (ids : List IdEntry) (name : Str) : Outcome Nat :=
  match ids[lowerBound (fun (e : IdEntry) n => isLessCs e.1 n) ids name]? with
  | some e => if e.1 = name then .ok e.2.1 else .throw (b!"Unknown value: " ++ name)
  | none => .throw (b!"Unknown value: " ++ name)

/-- `ParsedArgumentsImpl` (ParsedArgumentsImpl.hpp:72-83). `subs` are the sub-commands; while the
parser runs, the last active one is not in `subs` but on the parser's stack. -/
structure PNode where
  command : Command
  ids : List IdEntry
  values : Values := []
  unprocessed : List Str := []
  code : ResultCode := .none
  stopOption : Option OptData := none
  subs : List PNode := []
  deriving Repr

/-- The constructor of `ParsedArgumentsImpl`, ParsedArgumentsImpl.cpp:37-71. -/
def PNode.make (c : Command) : PNode := { command := c, ids := makeIds c }

/-- A call on `ParsedArgumentsBuilder`, ParsedArgumentsBuilder.cpp:20-64, by name or by an
`IArgumentView` (given by its value id and argument id). -/
inductive BuilderOp where
  | append (name value : Str)
  | appendTo (valueId argumentId : Nat) (value : Str)
  | assign (name value : Str)
  | assignTo (valueId argumentId : Nat) (value : Str)
  | clear (name : Str)
  | clearOf (valueId : Nat)
  deriving Repr, DecidableEq

/-- The effect of one builder call on the node, and the value id whose existing entries it
overwrites or erases, if any (ParsedArgumentsBuilder.cpp:20-64). -/
def BuilderOp.apply (n : PNode) : BuilderOp → Outcome (PNode × Option Nat)
  | .append name v => do
    let id ← getValueId n.ids name
    pure ({ n with values := n.values.append id v 0 }, none)
  | .appendTo id a v => pure ({ n with values := n.values.append id v a }, none)
  | .assign name v => do
    let id ← getValueId n.ids name
    pure ({ n with values := n.values.assign id v 0 }, some id)
  | .assignTo id a v => pure ({ n with values := n.values.assign id v a }, some id)
  | .clear name => do
    let id ← getValueId n.ids name
    pure ({ n with values := n.values.clear id }, some id)
  | .clearOf id => pure ({ n with values := n.values.clear id }, some id)

end Argos
