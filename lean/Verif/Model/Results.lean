import Verif.Model.Parsed
import Verif.Model.Values
import Verif.Model.HelpText
import Verif.Model.Parser

/-!
# Model of the classes through which a client looks at the results

`src/Argos/ArgumentView.cpp`, `src/Argos/OptionView.cpp`, `src/Argos/CommandView.cpp`, the rest of
`src/Argos/ArgumentValue.cpp`, `src/Argos/ArgumentValues.cpp` and `src/Argos/ParsedArguments.cpp`,
`src/Argos/ArgumentValueIterator.cpp`.

The callbacks that produce texts are given by `texts`, as in `Model/HelpText`.
-/

namespace Argos

/-! ### Views -/

/-- What the member functions of an `ArgumentView` return. -/
structure ArgInfo where
  help : Str
  section_ : Str
  alias_ : Str
  visibility : Visibility
  id : Int
  name : Str
  optional : Bool
  count : Nat × Nat
  valueId : Nat
  argumentId : Nat
  deriving Repr, DecidableEq

/-- `ArgumentView`, ArgumentView.cpp:22-70. (The constructor, lines 15-20, is never given null.) -/
def ArgData.info (texts : Nat → Str) (a : ArgData) : ArgInfo where
  help := a.help.get texts
  section_ := a.section_
  alias_ := a.alias_
  visibility := a.visibility
  id := a.id
  name := a.name
  optional := decide (a.minCount = 0)
  count := (a.minCount, a.maxCount)
  valueId := a.valueId
  argumentId := a.argumentId

/-- What the member functions of an `OptionView` return. -/
structure OptInfo where
  help : Str
  section_ : Str
  alias_ : Str
  operation : OptionOperation
  visibility : Visibility
  id : Int
  valueId : Nat
  flags : List Str
  argument : Str
  initialValue : Str
  constant : Str
  type : OptionType
  optional : Bool
  argumentId : Nat
  deriving Repr, DecidableEq

/-- `OptionView`, OptionView.cpp:22-90. -/
def OptData.info (texts : Nat → Str) (o : OptData) : OptInfo where
  help := o.help.get texts
  section_ := o.section_
  alias_ := o.alias_
  operation := o.operation
  visibility := o.visibility
  id := o.id
  valueId := o.valueId
  flags := o.flags
  argument := o.argument
  initialValue := o.initialValue
  constant := o.constant
  type := o.type
  optional := o.optional
  argumentId := o.argumentId

/-- What the member functions of a `CommandView` return; the views in the vectors are the data that they refer to. -/
structure CmdInfo where
  help : Str
  section_ : Str
  alias_ : Str
  visibility : Visibility
  id : Int
  valueId : Nat
  argumentId : Nat
  name : Str
  arguments : List ArgData
  options : List OptData
  subcommands : List Command
  requireSubcommand : Bool

/-- `CommandView`, CommandView.cpp:19-90. -/
def Command.info (texts : Nat → Str) (c : Command) : CmdInfo where
  help := match c.texts.lookup .about with
    | some t => t.get texts
    | none => []
  section_ := c.section_
  alias_ := c.name
  visibility := c.visibility
  id := c.id
  valueId := 0
  argumentId := c.argumentId
  name := c.name
  arguments := c.arguments
  options := c.options
  subcommands := c.commands
  requireSubcommand := c.requireSubcommand.getD false

/-- `ParsedArguments::command`, ParsedArguments.cpp:33-36. -/
def PNode.commandView (n : PNode) : Command := n.command

/-- `ParsedArguments::name`, ParsedArguments.cpp:38-41. -/
def PNode.name (n : PNode) : Str := n.command.name

/-- `ParsedArguments::all_arguments`, ParsedArguments.cpp:91-98. -/
def PNode.allArguments (n : PNode) : List ArgData := n.command.arguments

/-- `ParsedArguments::all_options`, ParsedArguments.cpp:100-107. -/
def PNode.allOptions (n : PNode) : List OptData := n.command.options

/-- `ParsedArguments::all_subcommands`, ParsedArguments.cpp:109-116. -/
def PNode.allSubcommands (n : PNode) : List Command := n.command.commands

/-! ### `ArgumentValue` with the messages it writes

`Model/Values` has the results only. Here a failing function also gives what it asks `write_error_message` to write:
the message and the argument id. -/

/-- What `write_error_message(data, cmd, message, argument_id)` is called with. -/
structure ErrorReport where
  message : Str
  argumentId : Nat
  deriving Repr, DecidableEq

/-- `ParsedArgumentsImpl::error(message, argument_id)`, ParsedArgumentsImpl.cpp:240-248. -/
def reportError {α : Type} (st : ParserSettings) (message : Str) (argumentId : Nat) : Outcome α × Option ErrorReport :=
  (if st.autoExit then .exit st.errorExitCode else .throw b!"Error while parsing arguments.", some ⟨message, argumentId⟩)

/-- The message of `ArgumentValue::error()`, ArgumentValue.cpp:179-184, and of `error(values, value)`, ArgumentValues.cpp:32-35. -/
def invalidValue (s : Str) : Str := b!"Invalid value: " ++ s ++ b!"."

/-- `ArgumentValue::error(message)`, ArgumentValue.cpp:172-177, of a value that belongs to a parser. -/
def ArgValue.error {α : Type} (st : ParserSettings) (v : ArgValue) (message : Str) : Outcome α × Option ErrorReport :=
  reportError st message v.argumentId

/-- `get_integer` and `as_int` etc., ArgumentValue.cpp:20-30 and 97-127, for a conversion function. -/
def ArgValue.asInteger {α : Type} (st : ParserSettings) (parse : Str → Option α) (default : α) (v : ArgValue) :
    Outcome α × Option ErrorReport :=
  match v.value with
  | none => (.ok default, none)
  | some s =>
    match parse s with
    | some n => (.ok n, none)
    | none => v.error st (invalidValue s)

/-- `ArgumentValue::as_string`, ArgumentValue.cpp:139-142. -/
def ArgValue.asString (v : ArgValue) (default : Str) : Str :=
  match v.value with
  | some s => s
  | none => default

/-- `ArgumentValue::operator bool`, ArgumentValue.cpp:72-75. -/
def ArgValue.toBool (v : ArgValue) : Bool := v.value.isSome

/-- `ArgumentValues`: the values with their argument ids, and the value id (ArgumentValues.hpp:235-239). -/
structure ArgValues where
  values : List (Str × Nat)
  valueId : Nat
  deriving Repr, DecidableEq

/-- The message of a failing `split`, ArgumentValue.cpp:154-156 ("have") and ArgumentValues.cpp:234-236 ("be"). -/
def tooFewParts (verb s : Str) (minParts : Nat) (sep : UInt8) : Str :=
  b!"Invalid value: \"" ++ s ++ b!"\". Must " ++ verb ++ b!" at least " ++ Parser.natToStr minParts ++ b!" values separated by \"" ++ [sep] ++ b!"\"."

/-- `ArgumentValue::split`, ArgumentValue.cpp:144-164, of a value that belongs to a parser. -/
def ArgValue.split (st : ParserSettings) (v : ArgValue) (sep : UInt8) (minParts maxParts : Nat) :
    Outcome ArgValues × Option ErrorReport :=
  match v.value with
  | none => (.ok ⟨[], v.valueId⟩, none)
  | some s =>
    let parts := splitString s sep (predSize maxParts)
    if parts.length < minParts then v.error st (tooFewParts b!"have" s minParts sep)
    else (.ok ⟨parts.map (·, v.argumentId), v.valueId⟩, none)

/-- `ArgumentValue::split_n`, ArgumentValue.cpp:166-170. -/
def ArgValue.splitN (st : ParserSettings) (v : ArgValue) (sep : UInt8) (numParts : Nat) : Outcome ArgValues × Option ErrorReport :=
  v.split st sep numParts numParts

/-! ### `ArgumentValues` -/

namespace ArgValues

/-- `ArgumentValues::operator bool`, ArgumentValues.cpp:100-103. -/
def toBool (vs : ArgValues) : Bool := !vs.values.isEmpty

/-- `ArgumentValues::empty`, ArgumentValues.cpp:121-124. -/
def empty (vs : ArgValues) : Bool := vs.values.isEmpty

/-- `ArgumentValues::size`, ArgumentValues.cpp:126-129. -/
def size (vs : ArgValues) : Nat := vs.values.length

/-- `ArgumentValues::values`, ArgumentValues.cpp:131-138. -/
def all (vs : ArgValues) : List ArgValue := vs.values.map fun (v, a) => ⟨some v, vs.valueId, a⟩

/-- `ArgumentValues::raw_values`, ArgumentValues.cpp:140-147. -/
def rawValues (vs : ArgValues) : List Str := vs.values.map fun (v, _) => v

/-- `ArgumentValues::value` and `operator[]`, ArgumentValues.cpp:105-108 and 149-156. -/
def value (vs : ArgValues) (index : Nat) : Outcome ArgValue :=
  if vs.values.isEmpty then .ok ⟨none, vs.valueId, 0⟩
  else match vs.values[index]? with
    | some (v, a) => .ok ⟨some v, vs.valueId, a⟩
    | none => .outOfRange

/-- `ArgumentValues::error`, ArgumentValues.cpp:116-119. -/
def error {α : Type} (st : ParserSettings) (vs : ArgValues) (message : Str) : Outcome α × Option ErrorReport :=
  reportError st message (commonArgumentId vs.values)

/-- The loop of `parse_integers`, ArgumentValues.cpp:67-74; `error` does not return. -/
def integersLoop {α : Type} (st : ParserSettings) (parse : Str → Option α) (vs : ArgValues) :
    List Str → (result : List α) → Outcome (List α) × Option ErrorReport
  | [], result => (.ok result, none)
  | v :: rest, result =>
    match parse v with
    | none => vs.error st (invalidValue v)
    | some n => integersLoop st parse vs rest (result ++ [n])

/-- `as_ints` etc., ArgumentValues.cpp:57-76 and 158-198. -/
def asIntegers {α : Type} (st : ParserSettings) (parse : Str → Option α) (default : List α) (vs : ArgValues) :
    Outcome (List α) × Option ErrorReport :=
  if vs.empty then (.ok default, none) else integersLoop st parse vs vs.rawValues []

/-- `ArgumentValues::as_strings`, ArgumentValues.cpp:212-223. -/
def asStrings (vs : ArgValues) (default : List Str) : List Str :=
  if vs.values.isEmpty then default else vs.values.map fun (v, _) => v

/-- The loop of `ArgumentValues::split`, ArgumentValues.cpp:229-241. -/
def splitLoop (st : ParserSettings) (sep : UInt8) (minParts maxParts : Nat) (vs : ArgValues) :
    List (Str × Nat) → (values : List (Str × Nat)) → Outcome ArgValues × Option ErrorReport
  | [], values => (.ok ⟨values, vs.valueId⟩, none)
  | (v, a) :: rest, values =>
    let parts := splitString v sep (predSize maxParts)
    if parts.length < minParts then vs.error st (tooFewParts b!"be" v minParts sep)
    else splitLoop st sep minParts maxParts vs rest (values ++ parts.map (·, a))

/-- `ArgumentValues::split`, ArgumentValues.cpp:225-243. -/
def split (st : ParserSettings) (vs : ArgValues) (sep : UInt8) (minParts maxParts : Nat) : Outcome ArgValues × Option ErrorReport :=
  splitLoop st sep minParts maxParts vs vs.values []

/-- `ArgumentValues::split_n`, ArgumentValues.cpp:245-249. -/
def splitN (st : ParserSettings) (vs : ArgValues) (sep : UInt8) (numParts : Nat) : Outcome ArgValues × Option ErrorReport :=
  vs.split st sep numParts numParts

/-- `ArgumentValueIterator` (ArgumentValueIterator.hpp): the internal iterator, which is a position in the values here. -/
structure Iter where
  values : ArgValues
  pos : Nat
  deriving Repr, DecidableEq

/-- `ArgumentValues::begin`, ArgumentValues.cpp:251-254. -/
def begin (vs : ArgValues) : Iter := ⟨vs, 0⟩

/-- `ArgumentValues::end`, ArgumentValues.cpp:256-259. -/
def end_ (vs : ArgValues) : Iter := ⟨vs, vs.values.length⟩

/-- `operator++`, ArgumentValueIterator.cpp:25-29; beyond the end it is undefined. -/
def Iter.next (it : Iter) : Outcome Iter :=
  if it.pos < it.values.values.length then .ok { it with pos := it.pos + 1 } else .ub

/-- `operator*`, ArgumentValueIterator.cpp:38-42; of the end it is undefined. -/
def Iter.get (it : Iter) : Outcome ArgValue :=
  match it.values.values[it.pos]? with
  | some (v, a) => .ok ⟨some v, it.values.valueId, a⟩
  | none => .ub

/-- A range-based `for` loop that collects what it sees: `for (; it != end; ++it) … *it …`. The fuel is larger than the number of values. -/
def Iter.collect : (fuel : Nat) → (it last : Iter) → Outcome (List ArgValue)
  | 0, _, _ => .diverges
  | fuel + 1, it, last =>
    if it.pos = last.pos then .ok []
    else do
      let v ← it.get
      let it ← it.next
      let vs ← Iter.collect fuel it last
      pure (v :: vs)

end ArgValues

/-- `ParsedArguments::values(name)`, ParsedArguments.cpp:78-83. -/
def PNode.argValues (n : PNode) (name : Str) : Outcome ArgValues := do
  let id ← getValueId n.ids name
  pure ⟨n.values.getValues id, id⟩

/-- `ParsedArguments::values(view)`, ParsedArguments.cpp:85-89. -/
def PNode.argValuesView (n : PNode) (v : View) : ArgValues := ⟨n.values.getValues v.valueId, v.valueId⟩

/-! ### `print` -/

/-- `get_name`, ParsedArguments.cpp:166-183. -/
def View.printName : View → Str
  | .arg a => a.name
  | .opt o => o.flags.foldl (fun s f => (if s.isEmpty then s else s ++ b!", ") ++ f) []

/-- The body of the loop over the views, ParsedArguments.cpp:215-221. -/
def addLabel (labels : List (View × Str)) (v : View) : List (View × Str) :=
  match labels.getLast? with
  | some (w, s) =>
    if w.valueId = v.valueId then labels.dropLast ++ [(w, s ++ (b!", " ++ v.printName))] else labels ++ [(v, v.printName)]
  | none => labels ++ [(v, v.printName)]

/-- The views sorted by value id, and the labels, ParsedArguments.cpp:203-221. -/
def PNode.labels (n : PNode) : List (View × Str) :=
  (sortList (fun v w : View => decide (v.valueId < w.valueId)) (n.allArguments.map View.arg ++ n.allOptions.map View.opt)).foldl addLabel []

/-- A value as it is printed, ParsedArguments.cpp:191 and 230. -/
def quoted (s : Str) : Str := b!" \"" ++ s ++ b!"\""

/-- `print_argument`, ParsedArguments.cpp:185-193 (the loop over the values visits `all`, see `C69_loop`). -/
def printArgument (label : Str) (values : ArgValues) : Str :=
  label ++ b!":" ++ values.all.flatMap (fun v => quoted (v.asString [])) ++ b!"\n"

/-- `print` up to the sub-commands, ParsedArguments.cpp:201-231. -/
def PNode.printSelf (n : PNode) : Str :=
  n.labels.flatMap (fun (v, label) => printArgument label (n.argValuesView v)) ++
    if n.unprocessed.isEmpty then [] else b!"Unprocessed arguments:" ++ n.unprocessed.flatMap quoted

mutual
/-- `print(ParsedArguments, stream)`, ParsedArguments.cpp:201-238: what is written to the stream. -/
def PNode.print : PNode → Str
  | ⟨command, ids, values, unprocessed, code, stopOption, subs⟩ =>
    PNode.printSelf ⟨command, ids, values, unprocessed, code, stopOption, []⟩ ++ PNode.printSubs subs
/-- The loop over the sub-commands, ParsedArguments.cpp:233-237. -/
def PNode.printSubs : List PNode → Str
  | [] => []
  | m :: ms => b!"\nSubcommand: " ++ m.name ++ b!"\n" ++ m.print ++ PNode.printSubs ms
end

end Argos
