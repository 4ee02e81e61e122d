import Verif.Model.Results
import Verif.Model.Iteration

/-!
# Model of the objects through which a client holds the results

`ParsedArguments`, `ArgumentValue` and `ArgumentValues` share the ownership of a `ParsedArgumentsImpl` (`std::shared_ptr`); the texts of values are
`std::string_view`s of strings in it. Views (`OptionView`, `CommandView`) are plain pointers to the declarations in the `ParserData`, which every
`ParsedArgumentsImpl` owns a share of (`m_data`, ParsedArgumentsImpl.hpp:85). A client program is a sequence of operations on its variables. What is
destroyed is what nobody owns any more. Null pointers, dangling views and operations on variables that don't exist are `ub`.

Simplified: parsing is finished (what holds while it goes on is in `Model/Iteration`); `ArgumentValueIterator`s are in `Model/Cursors`.
-/

namespace Argos

/-- What a call of `parse` has produced: the tree of `ParsedArgumentsImpl`, and the settings in its `ParserData`. -/
structure Parse where
  node : PNode
  settings : ParserSettings

/-- A `std::shared_ptr<ParsedArgumentsImpl>` that isn't null: which `parse`, and the way to the node. -/
structure Ref where
  parse : Nat
  path : NodeRef
  deriving Repr, DecidableEq

/-- A view: an `OptionView` or a `CommandView`. -/
inductive AnyView where
  | option (o : OptData)
  | command (c : Command)

/-- `OptionView::flags`, OptionView.cpp:57-60, and `CommandView::name`, CommandView.cpp:52-55. -/
def AnyView.names : AnyView → List Str
  | .option o => o.flags
  | .command c => [c.name]

/-- An object in a variable of the client. -/
inductive ResultObj where
  /-- `ParsedArguments`: `m_impl` (ParsedArguments.hpp). -/
  | results (impl : Option Ref)
  /-- `ArgumentValue`: `m_value`, `m_value_id`, `m_argument_id`; where the text of `m_value` is; `m_args` (ArgumentValue.hpp). -/
  | value (v : ArgValue) (text args : Option Ref)
  /-- `ArgumentValues`: `m_values`, `m_value_id`; where the texts are; `m_args` (ArgumentValues.hpp). -/
  | values (vs : ArgValues) (text args : Option Ref)
  /-- A view: it points to the `ParserData` of a `parse`. -/
  | view (v : AnyView) (parse : Nat)

/-- The share of the results that the object owns. -/
def ResultObj.owns : ResultObj → Option Ref
  | .results impl => impl
  | .value _ _ args => args
  | .values _ _ args => args
  | .view _ _ => none

/-- What is left in an object after it has been moved from, by the defaulted move constructors (ParsedArguments.cpp:25, ArgumentValue.cpp:62,
ArgumentValues.cpp:90): null pointers and an empty vector, but an `std::optional<std::string_view>` keeps its value. (A vector that has been moved from by
assignment is empty with all standard libraries, too.) -/
def ResultObj.moved : ResultObj → ResultObj
  | .results _ => .results none
  | .value v text _ => .value v text none
  | .values vs _ _ => .values ⟨[], vs.valueId⟩ none none
  | .view v k => .view v k

/-- Whether one can be assigned to the other. -/
def ResultObj.sameType : ResultObj → ResultObj → Bool
  | .results _, .results _ => true
  | .value .., .value .. => true
  | .values .., .values .. => true
  | .view (.option _) _, .view (.option _) _ => true
  | .view (.command _) _, .view (.command _) _ => true
  | _, _ => false

/-- The client's variables, and what has been parsed. A variable is `none` when its object has been destroyed. -/
structure Client where
  parses : List Parse := []
  vars : List (Option ResultObj) := []

/-- What an operation shows the client. -/
inductive Sight where
  | nothing
  | flag (b : Bool)
  | number (n : Int)
  | texts (ts : List Str)
  deriving Repr, DecidableEq

/-- An operation of a client program. Those that give a new object put it in a new variable. -/
inductive ObjOp where
  | parsed (p : Parse)
  | newResults
  | newValue
  | copy (x : Nat)
  | move (x : Nat)
  | assign (x y : Nat)
  | moveAssign (x y : Nat)
  | destroy (x : Nat)
  | subcommand (x i : Nat)
  | getValue (x : Nat) (name : Str)
  | getValues (x : Nat) (name : Str)
  | stopOption (x : Nat)
  | command (x : Nat)
  | has (x : Nat) (name : Str)
  | unprocessed (x : Nat)
  | resultsError (x : Nat) (message : Str)
  | item (x i : Nat)
  | splitValue (x : Nat) (sep : UInt8) (minParts maxParts : Nat)
  | splitValues (x : Nat) (sep : UInt8) (minParts maxParts : Nat)
  | toBool (x : Nat)
  | asString (x : Nat) (default : Str)
  | asInt (x : Nat) (default : Int) (base : Nat)
  | argumentIds (x : Nat)
  | valueError (x : Nat) (message : Str)
  | size (x : Nat)
  | asStrings (x : Nat) (default : List Str)
  | valuesArguments (x : Nat)
  | valuesError (x : Nat) (message : Str)
  | names (x : Nat)
  | getValueOf (x y : Nat)

namespace Client

/-- The object in a variable. -/
def obj (w : Client) (x : Nat) : Option ResultObj := (w.vars[x]?).join

/-- A new variable. -/
def push (w : Client) (o : ResultObj) : Client := { w with vars := w.vars ++ [some o] }

/-- Another object, or none, in a variable. -/
def put (w : Client) (x : Nat) (o : Option ResultObj) : Client := { w with vars := w.vars.set x o }

/-- The node that a pointer refers to, with its settings. -/
def find (w : Client) (r : Ref) : Option (PNode × ParserSettings) :=
  match w.parses[r.parse]? with
  | some p => (r.path.node p.node).map (·, p.settings)
  | none => none

/-- Using a `shared_ptr`: null is undefined behaviour. -/
def deref (w : Client) : Option Ref → Outcome (PNode × ParserSettings)
  | none => .ub
  | some r =>
    match w.find r with
    | some n => .ok n
    | none => .ub

/-- Some object owns the node, or a node that it is a sub-command of (`m_commands`, ParsedArgumentsImpl.hpp:84). -/
def nodeAlive (w : Client) (r : Ref) : Bool :=
  w.vars.any fun
    | some o =>
      match o.owns with
      | some q => q.parse == r.parse && q.path.isPrefixOf r.path
      | none => false
    | none => false

/-- Some object owns a node of the tree, and by that a share of the `ParserData`. -/
def dataAlive (w : Client) (k : Nat) : Bool :=
  w.vars.any fun
    | some o =>
      match o.owns with
      | some q => q.parse == k
      | none => false
    | none => false

/-- Reading texts: undefined behaviour if the strings are gone. -/
def readText (w : Client) (text : Option Ref) : Outcome Unit :=
  match text with
  | some r => if w.nodeAlive r then .ok () else .ub
  | none => .ub

/-- The message of `ArgumentValue`s without results, ArgumentValue.cpp:80-81, 148-149 and 174-175. -/
def uninitialized : Str := b!"ArgumentValue has not been initialized."

/-- Reading `m_value`, if there is one. -/
def readValue (w : Client) (v : ArgValue) (text : Option Ref) : Outcome Unit := if v.value.isSome then w.readText text else .ok ()

/-- Reading all of `m_values`. -/
def readValues (w : Client) (vs : ArgValues) (text : Option Ref) : Outcome Unit := if vs.values.isEmpty then .ok () else w.readText text

/-- `ArgumentValue::error(message)`, ArgumentValue.cpp:172-177. -/
def errorOf {α : Type} (w : Client) (v : ArgValue) (args : Option Ref) (message : Str) : Outcome α :=
  match args with
  | none => .throw uninitialized
  | some r => do
    let (_, st) ← w.deref (some r)
    (v.error st message).1

/-- `as_int`, ArgumentValue.cpp:97-100 with 20-30: the message is written by `error`, which needs the results. -/
def intOf (w : Client) (v : ArgValue) (args : Option Ref) (default : Int) (base : Nat) : Outcome Int :=
  match v.value with
  | none => .ok default
  | some s =>
    match parseInt s base with
    | some n => .ok n
    | none => w.errorOf v args (invalidValue s)

/-- `ParsedArguments::value(view)` and `value(name)` give an object like this, ParsedArguments.cpp:61-76. -/
def valueObj (r : Ref) (v : ArgValue) : ResultObj := .value v (if v.value.isSome then some r else none) (some r)

/-- `ParsedArguments::values(name)` gives an object like this, ParsedArguments.cpp:78-83. -/
def valuesObj (r : Ref) (vs : ArgValues) : ResultObj := .values vs (if vs.values.isEmpty then none else some r) (some r)

/-- One operation. -/
def step (w : Client) : ObjOp → Outcome (Sight × Client)
  | .parsed p => .ok (.nothing, { w.push (.results (some ⟨w.parses.length, []⟩)) with parses := w.parses ++ [p] })
  -- ParsedArguments.cpp:17
  | .newResults => .ok (.nothing, w.push (.results none))
  -- ArgumentValue.cpp:45-48
  | .newValue => .ok (.nothing, w.push (.value ⟨none, 0, 0⟩ none none))
  | .copy x =>
    match w.obj x with
    | some o => .ok (.nothing, w.push o)
    | none => .ub
  | .move x =>
    match w.obj x with
    | some o => .ok (.nothing, (w.put x (some o.moved)).push o)
    | none => .ub
  | .assign x y =>
    match w.obj x, w.obj y with
    | some o, some p => if o.sameType p then .ok (.nothing, w.put y (some o)) else .ub
    | _, _ => .ub
  | .moveAssign x y =>
    match w.obj x, w.obj y with
    | some o, some p => if o.sameType p && x != y then .ok (.nothing, (w.put x (some o.moved)).put y (some o)) else .ub
    | _, _ => .ub
  | .destroy x =>
    match w.obj x with
    | some _ => .ok (.nothing, w.put x none)
    | none => .ub
  -- ParsedArguments.cpp:53-59, `subcommands().at(i)`
  | .subcommand x i =>
    match w.obj x with
    | some (.results impl) => do
      let (n, _) ← w.deref impl
      match n.subs[i]?, impl with
      | some _, some r => .ok (.nothing, w.push (.results (some ⟨r.parse, r.path ++ [i]⟩)))
      | _, _ => .outOfRange
    | _ => .ub
  | .getValue x name =>
    match w.obj x with
    | some (.results impl) => do
      let (n, _) ← w.deref impl
      let v ← n.value name
      match impl with
      | some r => .ok (.nothing, w.push (valueObj r v))
      | none => .ub
    | _ => .ub
  | .getValues x name =>
    match w.obj x with
    | some (.results impl) => do
      let (n, _) ← w.deref impl
      let vs ← n.argValues name
      match impl with
      | some r => .ok (.nothing, w.push (valuesObj r vs))
      | none => .ub
    | _ => .ub
  -- ParsedArguments.cpp:123-129
  | .stopOption x =>
    match w.obj x with
    | some (.results impl) => do
      let (n, _) ← w.deref impl
      let o ← n.getStopOption
      match impl with
      | some r => .ok (.nothing, w.push (.view (.option o) r.parse))
      | none => .ub
    | _ => .ub
  -- ParsedArguments.cpp:33-36
  | .command x =>
    match w.obj x with
    | some (.results impl) => do
      let (n, _) ← w.deref impl
      match impl with
      | some r => .ok (.nothing, w.push (.view (.command n.commandView) r.parse))
      | none => .ub
    | _ => .ub
  | .has x name =>
    match w.obj x with
    | some (.results impl) => do
      let (n, _) ← w.deref impl
      let b ← n.has name
      .ok (.flag b, w)
    | _ => .ub
  -- ParsedArguments.cpp:131-135
  | .unprocessed x =>
    match w.obj x with
    | some (.results impl) => do
      let (n, _) ← w.deref impl
      .ok (.texts n.unprocessed, w)
    | _ => .ub
  -- ParsedArguments.cpp:158-161
  | .resultsError x message =>
    match w.obj x with
    | some (.results impl) => do
      let (_, st) ← w.deref impl
      (reportError st message 0).1
    | _ => .ub
  -- ArgumentValues.cpp:105-108 and 149-156
  | .item x i =>
    match w.obj x with
    | some (.values vs text args) => do
      let v ← vs.value i
      .ok (.nothing, w.push (.value v (if v.value.isSome then text else none) args))
    | _ => .ub
  -- ArgumentValue.cpp:144-164
  | .splitValue x sep minParts maxParts =>
    match w.obj x with
    | some (.value v text args) =>
      match args with
      | none => .throw uninitialized
      | some r => do
        let (_, st) ← w.deref (some r)
        let _ ← w.readValue v text
        let vs ← (v.split st sep minParts maxParts).1
        .ok (.nothing, w.push (.values vs (if vs.values.isEmpty then none else text) args))
    | _ => .ub
  -- ArgumentValues.cpp:225-243; the settings are only needed for an error, but a list with values always has results
  | .splitValues x sep minParts maxParts =>
    match w.obj x with
    | some (.values vs text args) =>
      if vs.values.isEmpty then .ok (.nothing, w.push (.values ⟨[], vs.valueId⟩ none args))
      else do
        let _ ← w.readValues vs text
        let (_, st) ← w.deref args
        let vs ← (vs.split st sep minParts maxParts).1
        .ok (.nothing, w.push (.values vs (if vs.values.isEmpty then none else text) args))
    | _ => .ub
  | .toBool x =>
    match w.obj x with
    | some (.value v _ _) => .ok (.flag v.toBool, w)
    | _ => .ub
  | .asString x default =>
    match w.obj x with
    | some (.value v text _) => do
      let _ ← w.readValue v text
      .ok (.texts [v.asString default], w)
    | _ => .ub
  | .asInt x default base =>
    match w.obj x with
    | some (.value v text args) => do
      let _ ← w.readValue v text
      let n ← w.intOf v args default base
      .ok (.number n, w)
    | _ => .ub
  -- `argument()`, ArgumentValue.cpp:77-83, of which the value id is read at once
  | .argumentIds x =>
    match w.obj x with
    | some (.value v _ args) =>
      match args with
      | none => .throw uninitialized
      | some r => do
        let (n, _) ← w.deref (some r)
        match getArgumentView n.command v.argumentId with
        | some a => .ok (.number a.valueId, w)
        | none => .ok (.nothing, w)
    | _ => .ub
  | .valueError x message =>
    match w.obj x with
    | some (.value v _ args) => w.errorOf v args message
    | _ => .ub
  | .size x =>
    match w.obj x with
    | some (.values vs _ _) => .ok (.number vs.size, w)
    | _ => .ub
  | .asStrings x default =>
    match w.obj x with
    | some (.values vs text _) => do
      let _ ← w.readValues vs text
      .ok (.texts (vs.asStrings default), w)
    | _ => .ub
  -- `arguments().size()`, ArgumentValues.cpp:110-114
  | .valuesArguments x =>
    match w.obj x with
    | some (.values vs _ args) => do
      let (n, _) ← w.deref args
      .ok (.number (getArgumentViews n.command vs.valueId).length, w)
    | _ => .ub
  -- ArgumentValues.cpp:116-119
  | .valuesError x message =>
    match w.obj x with
    | some (.values vs _ args) => do
      let (_, st) ← w.deref args
      (vs.error st message).1
    | _ => .ub
  | .names x =>
    match w.obj x with
    | some (.view v k) => if w.dataAlive k then .ok (.texts v.names, w) else .ub
    | _ => .ub
  -- `ParsedArguments::value(view)`, ParsedArguments.cpp:70-76
  | .getValueOf x y =>
    match w.obj x, w.obj y with
    | some (.results impl), some (.view (.option o) k) =>
      if w.dataAlive k then do
        let (n, _) ← w.deref impl
        let v ← n.valueView (.opt o)
        match impl with
        | some r => .ok (.nothing, w.push (valueObj r v))
        | none => .ub
      else .ub
    | _, _ => .ub

/-- A client program. -/
def run (w : Client) : List ObjOp → Outcome (List Sight × Client)
  | [] => .ok ([], w)
  | op :: ops => do
    let (s, w) ← w.step op
    let (ss, w) ← w.run ops
    pure (s :: ss, w)

end Client

end Argos
