import Verif.Model.Parsed
import Verif.Model.World

/-!
# Model of `src/Argos/ArgumentIterator.cpp`

The object owns an `ArgumentIteratorImpl`, which is a `PState` here, or null. `parsed_arguments()` gives a
`ParsedArguments`, which is a reference to one of the nodes of the tree of results: here the way from the top-level
node to it, so that it can be asked for what it refers to at a later time.
-/

namespace Argos

/-- `ArgumentIterator`: the implementation that it owns, or null. -/
abbrev IterHandle := Option PState

/-- The message of `ArgumentIterator::impl`, ArgumentIterator.cpp:72-84. -/
def iterMoved : Str := b!"This ArgumentIterator has been moved from."

/-- What `ArgumentIterator::next` stores in its parameter `arg`: an `IArgumentView`. -/
inductive IterView where
  | argument (a : ArgData)
  | option (o : OptData)
  | command (c : Command)

/-- What a call of `ArgumentIterator::next` gives: the parameters `arg` and `value` and the returned value. The value
`none` is a dangling `string_view`. -/
structure IterReport where
  arg : Option IterView
  value : Option Str
  more : Bool

namespace IterHandle

/-- The constructor, ArgumentIterator.cpp:15-19. -/
def make (d : ParserData) (args : List Str) : IterHandle := some (Parser.start d args).2

/-- The move constructor and the move assignment, ArgumentIterator.cpp:21-32: the new object and the old one. -/
def move (h : IterHandle) : IterHandle × IterHandle := (h, none)

/-- The translation of the result, ArgumentIterator.cpp:38-64. -/
def report : IterResult → IterReport
  | .argument a v => ⟨some (.argument a), v, true⟩
  | .option o v => ⟨some (.option o), v, true⟩
  | .command c v => ⟨some (.command c), some v, true⟩
  | .unknown v => ⟨none, some v, true⟩
  | .done => ⟨none, some [], false⟩
  | .error => ⟨none, some [], false⟩

/-- `ArgumentIterator::next`, ArgumentIterator.cpp:34-65: what it gives, and the object after it. -/
def next (env : Env) : IterHandle → Outcome IterReport × IterHandle
  | none => (.throw iterMoved, none)
  | some s =>
    let (r, s') := Parser.next env s
    (report <$> r, some s')

end IterHandle

/-- A `ParsedArguments`: the way from the top-level node to the node that it refers to. -/
abbrev NodeRef := List Nat

/-- The node that a `ParsedArguments` refers to. -/
def NodeRef.node : NodeRef → PNode → Option PNode
  | [], n => some n
  | i :: r, n => (n.subs[i]?).bind (NodeRef.node r)

namespace IterHandle

/-- The reference to the innermost open node, `m_parsed_args.back()` (ArgumentIteratorImpl.cpp:132-136): each of the
commands that are being read will come after the finished sub-commands of its parent. -/
def backRef (stack : List PNode) : NodeRef := (stack.tail.map (·.subs.length)).reverse

/-- `ArgumentIterator::parsed_arguments`, ArgumentIterator.cpp:67-70. -/
def parsedArguments : IterHandle → Outcome NodeRef
  | none => .throw iterMoved
  | some s => if s.stack.isEmpty then .ub else .ok (backRef s.stack)

/-- What a client sees through a `ParsedArguments` at a given time. -/
def look (h : IterHandle) (r : NodeRef) : Option PNode :=
  (h.bind Parser.topLevel).bind r.node

end IterHandle

end Argos
