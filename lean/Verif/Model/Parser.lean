import Verif.Model.Iterators
import Verif.Model.Counter
import Verif.Model.Store

/-!
# Model of `src/Argos/ArgumentIteratorImpl.cpp`

The parser is a state machine: `Parser.next` is one call of `ArgumentIteratorImpl::next`.
-/

namespace Argos

/-- What a callback is called for: `ArgumentView` or `OptionView`. -/
inductive ViewRef where
  | arg (a : ArgData)
  | opt (o : OptData)
  deriving Repr, DecidableEq

/-- How a callback ends: by returning, by throwing, or by calling `builder.error(msg)`
(ParsedArgumentsBuilder.cpp, ParsedArgumentsImpl.cpp:231-238). -/
inductive CallbackEnd where
  | returns
  | throws (msg : Str)
  | error (msg : Str)
  deriving Repr, DecidableEq

/-- What a callback does: a sequence of builder calls and the final contents of `new_arguments`. -/
structure CallbackResult where
  ops : List BuilderOp := []
  newArguments : List Str := []
  fin : CallbackEnd := .returns
  deriving Repr, DecidableEq

/-- The environment: the behaviour of the callbacks. A callback may depend on everything it can
see (the definition, the value, the parsed arguments so far) and on the number of callback calls
made before, so that stateful callbacks are covered. `none` as value is a dangling `string_view`. -/
structure Env where
  callback : (cb callNo : Nat) → ViewRef → Option Str → PNode → CallbackResult

/-- An environment where callbacks do nothing. -/
def Env.inert : Env := ⟨fun _ _ _ _ _ => {}⟩

/-- Observable output, in order. `callback` records that a client callback was invoked, with the
values that were stored in the active command at that moment. -/
inductive Event where
  | help (command : Command)
  | error (command : Command) (msg : Str)
  | callback (cb : Nat) (view : ViewRef) (value : Option Str) (seen : Values)
  deriving Repr

/-- `ArgumentIteratorImpl::State`, ArgumentIteratorImpl.hpp. -/
inductive Mode where
  | argumentsAndOptions | argumentsOnly | done | error
  deriving Repr, DecidableEq

/-- The members of `ArgumentIteratorImpl`. `stack` is `m_parsed_args` with the innermost command
first. `log` and `calls` are ghost state: the output and the number of callback calls. -/
structure PState where
  settings : ParserSettings
  command : Command
  stack : List PNode
  iter : Iter
  counter : Counter
  mode : Mode := .argumentsAndOptions
  log : List Event := []
  calls : Nat := 0
  deriving Repr

/-- A parser method: it ends with an outcome and leaves the object in some state. -/
def ParserM (α : Type) : Type := PState → Outcome α × PState

namespace ParserM

/-- Sequencing of parser methods. -/
def bind {α β : Type} (m : ParserM α) (f : α → ParserM β) : ParserM β := fun s =>
  match m s with
  | (.ok a, s') => f a s'
  | (.throw msg, s') => (.throw msg, s')
  | (.outOfRange, s') => (.outOfRange, s')
  | (.exit c, s') => (.exit c, s')
  | (.ub, s') => (.ub, s')
  | (.diverges, s') => (.diverges, s')

instance : Monad ParserM where
  pure a := fun s => (.ok a, s)
  bind := ParserM.bind

/-- Reads the state. -/
def get : ParserM PState := fun s => (.ok s, s)

/-- Changes the state. -/
def modify (f : PState → PState) : ParserM Unit := fun s => (.ok (), f s)

/-- Embeds a computation that does not touch the state. -/
def lift {α : Type} (x : Outcome α) : ParserM α := fun s => (x, s)

end ParserM

/-- `IteratorResult`, ArgumentIteratorImpl.hpp. The value `none` is a dangling `string_view`. -/
inductive IterResult where
  | argument (a : ArgData) (value : Option Str)
  | option (o : OptData) (value : Option Str)
  | command (c : Command) (value : Str)
  | done
  | unknown (value : Str)
  | error
  deriving Repr

/-- `ArgumentIteratorImpl::OptionResult`. -/
inductive OptionResult where
  | normal | lastArgument | stop | exit | error
  deriving Repr, DecidableEq

/-- `is_option`, ArgumentIteratorImpl.cpp:20-26. -/
def isOption (s : Str) (style : OptionStyle) : Bool :=
  match s with
  | a :: _ :: _ => a == (if style = .slash then c!"/" else c!"-")
  | _ => false

namespace Parser

open ParserM

/-- `m_parsed_args.back()`. -/
def back : ParserM PNode := fun s =>
  match s.stack with
  | [] => (.ub, s)
  | n :: _ => (.ok n, s)

/-- A change of `*m_parsed_args.back()`. -/
def modifyBack (f : PNode → PNode) : ParserM Unit := fun s =>
  match s.stack with
  | [] => (.ub, s)
  | n :: ns => (.ok (), { s with stack := f n :: ns })

/-- `m_iterator.next()`. -/
def iterNext : ParserM (Option Str) := fun s =>
  match s.iter.next with
  | .ok (a, it) => (.ok a, { s with iter := it })
  | .throw m => (.throw m, s)
  | .outOfRange => (.outOfRange, s)
  | .exit c => (.exit c, s)
  | .ub => (.ub, s)
  | .diverges => (.diverges, s)

/-- `m_iterator.next_value()`. -/
def iterNextValue : ParserM (Option Str) := fun s =>
  match s.iter.nextValue with
  | .ok (a, it) => (.ok a, { s with iter := it })
  | .throw m => (.throw m, s)
  | .outOfRange => (.outOfRange, s)
  | .exit c => (.exit c, s)
  | .ub => (.ub, s)
  | .diverges => (.diverges, s)

/-- `m_iterator.remaining_arguments()`. -/
def iterRemaining : ParserM (List Str) := fun s =>
  match s.iter.remainingArguments with
  | .ok (a, it) => (.ok a, { s with iter := it })
  | .throw m => (.throw m, s)
  | .outOfRange => (.outOfRange, s)
  | .exit c => (.exit c, s)
  | .ub => (.ub, s)
  | .diverges => (.diverges, s)

/-- `m_iterator.insert(args)`. -/
def iterInsert (args : List Str) : ParserM Unit := fun s =>
  match s.iter.insert args with
  | .ok it => (.ok (), { s with iter := it })
  | .throw m => (.throw m, s)
  | .outOfRange => (.outOfRange, s)
  | .exit c => (.exit c, s)
  | .ub => (.ub, s)
  | .diverges => (.diverges, s)

/-- `m_iterator.current()`. -/
def iterCurrent : ParserM Str := fun s => (s.iter.current, s)

/-- Output. -/
def emit (e : Event) : ParserM Unit := modify fun s => { s with log := s.log ++ [e] }

/-- `find_first_multi_command_parent`, ArgumentIteratorImpl.cpp:437-452, on the stack (innermost
first): the stack from the nearest enclosing command that allows multiple sub-commands on. In
place of the index the model returns that part of the stack. -/
def findMultiParent : List PNode → Option (List PNode)
  | [] => none
  | _ :: rest => go rest
where
  /-- The loop over the parents, from the inside out. -/
  go : List PNode → Option (List PNode)
    | [] => none
    | p :: ps => if p.command.multiCommand then some (p :: ps) else go ps

/-- `find_sibling_command`, ArgumentIteratorImpl.cpp:454-470: the command and the size of the
stack down to the parent (`index + 1`). -/
def findSibling (s : PState) (name : Str) : Option (Command × Nat) :=
  if !s.counter.isComplete then none
  else match findMultiParent s.stack with
    | none => none
    | some [] => none
    | some (p :: ps) =>
      (findCommand p.command.commands name s.settings.caseInsensitive).map (·, ps.length + 1)

/-- The test made for a positional argument in `count_arguments`,
ArgumentIteratorImpl.cpp:383-387 and 396-400: counting ends here. -/
def countStops (s : PState) (minCount result : Nat) (arg : Str) : Bool :=
  (findCommand s.command.commands arg s.settings.caseInsensitive).isSome ||
    (decide (result ≥ minCount) && (findSibling s arg).isSome)

/-- The second loop of `count_arguments`, ArgumentIteratorImpl.cpp:394-403. -/
def countArgsOnly (s : PState) (minCount : Nat) : (fuel : Nat) → Iter → (result : Nat) → Outcome Nat
  | 0, _, _ => .diverges
  | fuel + 1, it, result =>
    match it.nextValue with
    | .ok (none, _) => .ok result
    | .ok (some arg, it') =>
      if countStops s minCount result arg then .ok result
      else countArgsOnly s minCount fuel it' (result + 1)
    | .throw m => .throw m
    | .outOfRange => .outOfRange
    | .exit c => .exit c
    | .ub => .ub
    | .diverges => .diverges

/-- The first loop of `count_arguments`, ArgumentIteratorImpl.cpp:351-392. -/
def countLoop (s : PState) (minCount : Nat) : (fuel : Nat) → Iter → (result : Nat) → Outcome Nat
  | 0, _, _ => .diverges
  | fuel + 1, it, result =>
    match it.next with
    | .ok (none, it') => countArgsOnly s minCount (fuel + 1) it' result
    | .ok (some arg, it') =>
      match findOption s.command.optionIndex arg s.settings.allowAbbreviatedOptions
        s.settings.caseInsensitive with
      | some option =>
        let it'' : Outcome Iter :=
          if option.argument.isEmpty then .ok it'
          else match it'.nextValue with
            | .ok (_, it'') => .ok it''
            | .throw m => .throw m
            | .outOfRange => .outOfRange
            | .exit c => .exit c
            | .ub => .ub
            | .diverges => .diverges
        match it'' with
        | .ok it'' =>
          match option.type with
          | .help | .lastArgument | .stop => .ok result
          | .lastOption => countArgsOnly s minCount (fuel + 1) it'' result
          | _ => countLoop s minCount fuel it'' result
        | .throw m => .throw m
        | .outOfRange => .outOfRange
        | .exit c => .exit c
        | .ub => .ub
        | .diverges => .diverges
      | none =>
        if isOption arg s.settings.optionStyle then countLoop s minCount fuel it' result
        else if countStops s minCount result arg then .ok result
        else countLoop s minCount fuel it' (result + 1)
    | .throw m => .throw m
    | .outOfRange => .outOfRange
    | .exit c => .exit c
    | .ub => .ub
    | .diverges => .diverges

end Parser

/-- A bound for the number of `next`/`next_value` calls until an iterator is exhausted: used as
fuel. -/
def argsWeight (args : List Str) : Nat := (args.map (fun a => a.length + 3)).sum

/-- See `argsWeight`. -/
def posWeight (pos : Pos) (args : List Str) : Nat :=
  match args with
  | [] => 0
  | a :: rest =>
    (match pos with
      | .npos => 0
      | .at 0 => a.length + 2
      | .at (p + 1) => a.length - (p + 1) + 1) + argsWeight rest

/-- See `argsWeight`. -/
def Iter.weight : Iter → Nat
  | .std it => posWeight it.pos it.args
  | .opt it => posWeight it.pos it.args

namespace Parser

open ParserM

/-- `count_arguments`, ArgumentIteratorImpl.cpp:346-404. -/
def countArguments (s : PState) : Outcome Nat :=
  countLoop s (Counter.getMinMaxCount s.command.arguments).1 (s.iter.weight + 1) s.iter 0

/-- `copy_remaining_arguments_to_parser_result`, ArgumentIteratorImpl.cpp:339-344. -/
def copyRemaining : ParserM Unit := do
  let rest ← iterRemaining
  modifyBack fun n => { n with unprocessed := n.unprocessed ++ rest }

/-- `error`, ArgumentIteratorImpl.cpp:496-508 (the message is never empty). -/
def error (msg : Str) : ParserM Unit := do
  let s ← get
  emit (.error s.command msg)
  if s.settings.autoExit then lift (.exit s.settings.errorExitCode)
  else do
    copyRemaining
    modify fun s => { s with
      stack := s.stack.map fun n => { n with code := .failure }
      mode := .error }

/-- The message part made from the flags of an option, ArgumentIteratorImpl.cpp:518-520. -/
def joinFlags : List Str → Str
  | [] => []
  | [f] => f
  | f :: fs => f ++ b!", " ++ joinFlags fs

/-- `has_all_mandatory_options`, ArgumentIteratorImpl.cpp:510-527. `o->flags.front()` of an option
without flags would be `ub`. -/
def hasAllMandatory (values : Values) : List OptData → ParserM Bool
  | [] => pure true
  | o :: os =>
    if !o.optional && !values.has o.valueId then
      if o.flags.isEmpty then lift .ub
      else do
        error (b!"Mandatory option is missing: " ++ joinFlags o.flags)
        pure false
    else hasAllMandatory values os

/-- The digits of a number, `std::to_string`. -/
def natToStr (n : Nat) : Str := (Nat.toDigits 10 n).map fun c => UInt8.ofNat c.toNat

/-- `check_argument_and_option_counts`, ArgumentIteratorImpl.cpp:406-435. Dereferencing an empty
`require_subcommand` is `ub`. -/
def checkCounts : ParserM Bool := do
  let n ← back
  let s ← get
  let ok ← hasAllMandatory n.values s.command.options
  if !ok then pure false
  else match s.command.requireSubcommand with
    | none => lift .ub
    | some req =>
      if req && n.subs.isEmpty then do
        error b!"No command was given."
        pure false
      else if s.counter.isComplete then do
        modify fun s => { s with
          mode := .done
          stack := s.stack.map fun n => { n with code := .success } }
        pure true
      else do
        let (lo, hi) := Counter.getMinMaxCount s.command.arguments
        error ((if lo = hi then b!"Too few arguments. Expected "
                else b!"Too few arguments. Expected at least ")
          ++ natToStr lo ++ b!", received " ++ natToStr s.counter.counter ++ b!".")
        pure false

/-- The counter for a command that is entered, ArgumentIteratorImpl.cpp:65-73 and 324-332. -/
def initCounter : ParserM Unit := fun s =>
  if !Counter.requiresArgumentCount s.command.arguments then
    (.ok (), { s with counter := Counter.ofArgs s.command.arguments })
  else match countArguments s with
    | .ok n => (.ok (), { s with counter := Counter.ofArgsN s.command.arguments n })
    | .throw m => (.throw m, s)
    | .outOfRange => (.outOfRange, s)
    | .exit c => (.exit c, s)
    | .ub => (.ub, s)
    | .diverges => (.diverges, s)

/-- `update_arguments`, ArgumentIteratorImpl.cpp:480-494. -/
def updateArguments (args : List Str) : ParserM Unit :=
  if args.isEmpty then pure ()
  else do
    iterInsert args
    let s ← get
    if !Counter.requiresArgumentCount s.command.arguments then pure ()
    else do
      let current := s.counter.counter
      let more ← lift (countArguments s)
      modify fun s =>
        { s with counter := Counter.ofArgsN s.command.arguments (current + more) current }

/-- The builder calls made by a callback, in order; the result tells if the entries stored under
`vid` were overwritten or erased. A call with an unknown name throws. -/
def applyOps (vid : Nat) : List BuilderOp → (touched : Bool) → ParserM Bool
  | [], touched => pure touched
  | op :: ops, touched => fun s =>
    match s.stack with
    | [] => (.ub, s)
    | n :: ns =>
      match op.apply n with
      | .ok (n', t) => applyOps vid ops (touched || t == some vid) { s with stack := n' :: ns }
      | .throw m => (.throw m, s)
      | .outOfRange => (.outOfRange, s)
      | .exit c => (.exit c, s)
      | .ub => (.ub, s)
      | .diverges => (.diverges, s)

/-- `ParsedArgumentsImpl::error(message)`, ParsedArgumentsImpl.cpp:231-238, called by a callback. -/
def builderError (msg : Str) : ParserM Unit := do
  let n ← back
  emit (.error n.command msg)
  let s ← get
  if s.settings.autoExit then lift (.exit s.settings.errorExitCode)
  else lift (.throw b!"Error while parsing arguments.")

/-- One callback invocation followed by `update_arguments`, ArgumentIteratorImpl.cpp:188-199 and
296-309. `value` is a `string_view` into the entry just stored under `vid` (when `stored`); the
result is the view afterwards: it dangles if the callback overwrote or erased the entry. -/
def runCallback (env : Env) (cb : Nat) (view : ViewRef) (vid : Nat) (stored : Bool)
    (value : Option Str) : ParserM (Option Str) := do
  let n ← back
  let s ← get
  let r := env.callback cb s.calls view value n
  modify fun s => { s with calls := s.calls + 1, log := s.log ++ [.callback cb view value n.values] }
  let touched ← applyOps vid r.ops false
  match r.fin with
  | .throws m => lift (.throw m)
  | .error m => do
    builderError m
    pure none
  | .returns => do
    updateArguments r.newArguments
    pure (if stored && touched then none else value)

/-- The invocation of an optional callback. -/
def runCallbackOpt (env : Env) (cb : Option Nat) (view : ViewRef) (vid : Nat) (stored : Bool)
    (value : Option Str) : ParserM (Option Str) :=
  match cb with
  | none => pure value
  | some cb => runCallback env cb view vid stored value

/-- The first `switch` of `process_option(opt, flag)`, ArgumentIteratorImpl.cpp:150-186: the value
and whether it is a view of a stored entry, or nothing after an error. -/
def applyOperation (opt : OptData) (flag : Str) : ParserM (Option (Str × Bool)) :=
  match opt.operation with
  | .assign =>
    if !opt.constant.isEmpty then do
      modifyBack fun n => { n with values := n.values.assign opt.valueId opt.constant opt.argumentId }
      pure (some ([], false))
    else do
      match (← iterNextValue) with
      | some v => do
        modifyBack fun n => { n with values := n.values.assign opt.valueId v opt.argumentId }
        pure (some (v, true))
      | none => do
        error (flag ++ b!": no value given.")
        pure none
  | .append =>
    if !opt.constant.isEmpty then do
      modifyBack fun n => { n with values := n.values.append opt.valueId opt.constant opt.argumentId }
      pure (some ([], false))
    else do
      match (← iterNextValue) with
      | some v => do
        modifyBack fun n => { n with values := n.values.append opt.valueId v opt.argumentId }
        pure (some (v, true))
      | none => do
        error (flag ++ b!": no value given.")
        pure none
  | .clear => do
    modifyBack fun n => { n with values := n.values.clear opt.valueId }
    pure (some ([], false))
  | .none => pure (some ([], false))

/-- The second `switch` of `process_option(opt, flag)`, ArgumentIteratorImpl.cpp:201-226. -/
def applyType (opt : OptData) : ParserM OptionResult :=
  match opt.type with
  | .normal => pure .normal
  | .help => do
    let s ← get
    emit (.help s.command)
    modify fun s => { s with mode := .done }
    modifyBack fun n => { n with code := .stop, stopOption := some opt }
    pure .exit
  | .exit => do
    modify fun s => { s with mode := .done }
    modifyBack fun n => { n with code := .stop, stopOption := some opt }
    pure .exit
  | .stop => do
    modify fun s => { s with mode := .done }
    modifyBack fun n => { n with code := .stop, stopOption := some opt }
    pure .stop
  | .lastArgument => do
    modify fun s => { s with mode := .done }
    pure .lastArgument
  | .lastOption => do
    modify fun s => { s with mode := .argumentsOnly }
    pure .normal

/-- `process_option(opt, flag)`, ArgumentIteratorImpl.cpp:144-229. -/
def processOptionData (env : Env) (opt : OptData) (flag : Str) :
    ParserM (OptionResult × Option Str) := do
  match (← applyOperation opt flag) with
  | none => pure (.error, some [])
  | some (value, stored) => do
    let v ← runCallbackOpt env opt.callback (.opt opt) opt.valueId stored (some value)
    let s ← get
    let v ← runCallbackOpt env s.settings.optionCallback (.opt opt) opt.valueId stored v
    let r ← applyType opt
    pure (r, v)

/-- Leaving the innermost `k` commands: each is put in the list of sub-commands of its parent. -/
def closeFrames : Nat → List PNode → List PNode
  | 0, st => st
  | k + 1, n :: p :: st => closeFrames k ({ p with subs := p.subs ++ [n] } :: st)
  | _ + 1, st => st

/-- `reactivate_multi_command_parent`, ArgumentIteratorImpl.cpp:472-478; `size` is `index + 1`. -/
def reactivate (size : Nat) : ParserM Unit := fun s =>
  let stack := closeFrames (s.stack.length - size) s.stack
  match stack with
  | [] => (.ub, s)
  | n :: _ => (.ok (),
    { s with stack, command := n.command, counter := {}, mode := .argumentsOnly })

/-- `process_option(flag)`, ArgumentIteratorImpl.cpp:231-280. -/
def processOption (env : Env) (flag : Str) : ParserM IterResult := do
  let s ← get
  match findOption s.command.optionIndex flag s.settings.allowAbbreviatedOptions
    s.settings.caseInsensitive with
  | some opt => do
    let (res, v) ← processOptionData env opt flag
    match res with
    | .exit =>
      if s.settings.autoExit then lift (.exit s.settings.normalExitCode)
      else do
        copyRemaining
        pure (.option opt v)
    | .error => pure .error
    | .lastArgument =>
      if !(← checkCounts) then pure .error
      else do
        let s ← get
        match findMultiParent s.stack with
        | some st => do
          reactivate st.length
          pure (.option opt v)
        | none => do
          copyRemaining
          pure (.option opt v)
    | .stop => do
      copyRemaining
      pure (.option opt v)
    | .normal => pure (.option opt v)
  | none => do
    let cur ← iterCurrent
    if !s.settings.ignoreUndefinedOptions || !startsWithCs cur flag then do
      error (b!"Unknown option: " ++ cur)
      pure .error
    else do
      modifyBack fun n => { n with unprocessed := n.unprocessed ++ [cur] }
      pure (.unknown cur)

/-- `process_command`, ArgumentIteratorImpl.cpp:320-336. -/
def processCommand (c : Command) : ParserM IterResult := do
  modify fun s => { s with stack := PNode.make c :: s.stack, command := c }
  initCounter
  modify fun s => { s with mode := .argumentsAndOptions }
  let cur ← iterCurrent
  pure (.command c cur)

/-- `process_argument`, ArgumentIteratorImpl.cpp:282-318. -/
def processArgument (env : Env) (value : Str) : ParserM IterResult := do
  let s ← get
  match findSibling s value with
  | some (c, size) => do
    reactivate size
    processCommand c
  | none =>
    match s.counter.nextArgument with
    | (some a, counter') => do
      modify fun s => { s with counter := counter' }
      modifyBack fun n => { n with values := n.values.append a.valueId value a.argumentId }
      let v ← runCallbackOpt env a.callback (.arg a) a.valueId true (some value)
      let s ← get
      let v ← runCallbackOpt env s.settings.argumentCallback (.arg a) a.valueId true v
      pure (.argument a v)
    | (none, counter') => do
      modify fun s => { s with counter := counter' }
      if s.settings.ignoreUndefinedArguments then do
        modifyBack fun n => { n with unprocessed := n.unprocessed ++ [value] }
        let cur ← iterCurrent
        pure (.unknown cur)
      else do
        error (b!"Too many arguments, starting from \"" ++ value ++ b!"\".")
        pure .error

/-- `ArgumentIteratorImpl::next`, ArgumentIteratorImpl.cpp:93-130. -/
def next (env : Env) : ParserM IterResult := do
  let s ← get
  match s.mode with
  | .error => lift (.throw b!"next() called after error.")
  | .done => pure .done
  | mode => do
    let arg ← if mode = .argumentsAndOptions then iterNext else iterNextValue
    match arg with
    | none => do
      if (← checkCounts) then pure .done else pure .error
    | some arg =>
      if mode = .argumentsAndOptions ∧ isOption arg s.settings.optionStyle then
        processOption env arg
      else if s.command.commands.isEmpty then processArgument env arg
      else match findCommand s.command.commands arg s.settings.caseInsensitive with
        | some c => processCommand c
        | none => do
          error (b!"Unknown command: " ++ arg)
          pure .error

/-- The initial values appended by the constructor, ArgumentIteratorImpl.cpp:55-63. -/
def initialValues : List OptData → Values → Values
  | [], vs => vs
  | o :: os, vs =>
    initialValues os
      (if !o.initialValue.isEmpty then vs.append o.valueId o.initialValue o.argumentId else vs)

/-- The state built by the constructor up to line 63, ArgumentIteratorImpl.cpp:44-63. -/
def startState (d : ParserData) (args : List Str) : PState :=
  { settings := d.settings
    command := d.command
    stack := [{ PNode.make d.command with values := initialValues d.command.options [] }]
    iter := Iter.make d.settings.optionStyle args
    counter := {} }

/-- The constructor `ArgumentIteratorImpl(args, data)`, ArgumentIteratorImpl.cpp:44-74. -/
def start (d : ParserData) (args : List Str) : Outcome Unit × PState :=
  initCounter (startState d args)

/-- The loop of `ArgumentIteratorImpl::parse`, ArgumentIteratorImpl.cpp:81-89; `fuel` is the
maximal number of calls of `next`. -/
def run (env : Env) : (fuel : Nat) → ParserM Unit
  | 0 => lift .diverges
  | fuel + 1 => do
    match (← next env) with
    | .error => pure ()
    | .done => pure ()
    | _ => run env fuel

/-- All frames folded into the top-level node: the tree that the client sees. -/
def closeAll (stack : List PNode) : List PNode := closeFrames (stack.length - 1) stack

/-- The result of `parse`: `toplevel_parsed_arguments()`, ArgumentIteratorImpl.cpp:90. -/
def topLevel (s : PState) : Option PNode := (closeAll s.stack).getLast?

/-- `ArgumentIteratorImpl::parse`, ArgumentIteratorImpl.cpp:76-91. -/
def parse (env : Env) (d : ParserData) (args : List Str) (fuel : Nat) :
    Outcome (Option PNode) × PState :=
  match start d args with
  | (.ok (), s) =>
    match run env fuel s with
    | (.ok (), s') => (.ok (topLevel s'), s')
    | (.throw m, s') => (.throw m, s')
    | (.outOfRange, s') => (.outOfRange, s')
    | (.exit c, s') => (.exit c, s')
    | (.ub, s') => (.ub, s')
    | (.diverges, s') => (.diverges, s')
  | (.throw m, s') => (.throw m, s')
  | (.outOfRange, s') => (.outOfRange, s')
  | (.exit c, s') => (.exit c, s')
  | (.ub, s') => (.ub, s')
  | (.diverges, s') => (.diverges, s')

end Parser

end Argos
