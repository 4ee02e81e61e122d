import Verif.Model.Objects

/-!
# Model of `ArgumentValueIterator`s

An `ArgumentValueIterator` has an iterator of the vector in the `ArgumentValues` it comes from, a share of the results and a value id
(ArgumentValueIterator.hpp:73-77). The share is an additional variable of the client in `Model/Objects`, which only the operations of the iterator use. The
vector's iterator is the variable whose `m_values` it refers to at the time, with a position. It dangles when the vector is destroyed or assigned to; a move
of the vector takes its elements and the iterators along (as all standard libraries do it). Using an iterator that dangles is `ub`, as well as going beyond
the end and comparing iterators of different vectors.

Simplified: comparing two default-constructed iterators, which is allowed, is `ub`.
-/

namespace Argos

/-- An `ArgumentValueIterator`: the variable with the vector, or nothing if it dangles or has been default-constructed, and the position in it
(`m_iterator`); `m_value_id`; the variable with the share of the results (`m_args`). -/
structure Cursor where
  home : Option Nat
  pos : Nat
  valueId : Nat
  share : Nat
  deriving Repr, DecidableEq

/-- A client with iterators. -/
structure Walker where
  base : Client := {}
  cursors : List (Option Cursor) := []

/-- An operation of a client program. Iterators have variables of their own. -/
inductive WalkOp where
  | base (op : ObjOp)
  | newCursor
  | first (x : Nat)
  | last (x : Nat)
  | copyCursor (i : Nat)
  | assignCursor (i j : Nat)
  | destroyCursor (i : Nat)
  | next (i : Nat)
  | get (i : Nat)
  | same (i j : Nat)

/-- The variables that an operation uses. -/
def ObjOp.named : ObjOp → List Nat
  | .parsed _ => []
  | .newResults => []
  | .newValue => []
  | .copy x => [x]
  | .move x => [x]
  | .assign x y => [x, y]
  | .moveAssign x y => [x, y]
  | .destroy x => [x]
  | .subcommand x _ => [x]
  | .getValue x _ => [x]
  | .getValues x _ => [x]
  | .stopOption x => [x]
  | .command x => [x]
  | .has x _ => [x]
  | .unprocessed x => [x]
  | .resultsError x _ => [x]
  | .item x _ => [x]
  | .splitValue x _ _ _ => [x]
  | .splitValues x _ _ _ => [x]
  | .toBool x => [x]
  | .asString x _ => [x]
  | .asInt x _ _ => [x]
  | .argumentIds x => [x]
  | .valueError x _ => [x]
  | .size x => [x]
  | .asStrings x _ => [x]
  | .valuesArguments x => [x]
  | .valuesError x _ => [x]
  | .names x => [x]
  | .getValueOf x y => [x, y]

/-- Where a vector is after an operation, given where it was and the number of variables: the defaulted moves, assignments and destructor of
`ArgumentValues`, ArgumentValues.cpp:88-98. -/
def relocate (count : Nat) (op : ObjOp) (home : Option Nat) : Option Nat :=
  match op, home with
  | .move x, some z => if z = x then some count else some z
  | .assign x y, some z => if z = y ∧ x ≠ y then none else some z
  | .moveAssign x y, some z => if z = y then none else if z = x then some y else some z
  | .destroy x, some z => if z = x then none else some z
  | _, h => h

namespace Walker

/-- The iterator in a variable. -/
def cursor (w : Walker) (i : Nat) : Option Cursor := (w.cursors[i]?).join

/-- The variable is the share of an iterator. -/
def isShare (w : Walker) (x : Nat) : Bool := w.cursors.any fun
  | some c => c.share == x
  | none => false

/-- The vector that an iterator refers to, where its texts are, and the results of the list. -/
def list (w : Walker) (c : Cursor) : Option (ArgValues × Option Ref) :=
  match c.home with
  | none => none
  | some x =>
    match w.base.obj x with
    | some (.values vs text _) => some (vs, text)
    | _ => none

/-- Another position, or none, in a variable. -/
def putCursor (w : Walker) (i : Nat) (c : Option Cursor) : Walker := { w with cursors := w.cursors.set i c }

/-- A new iterator, with its share. -/
def pushCursor (w : Walker) (home : Option Nat) (pos valueId : Nat) (args : Option Ref) : Walker :=
  ⟨w.base.push (.results args), w.cursors ++ [some ⟨home, pos, valueId, w.base.vars.length⟩]⟩

/-- One operation. -/
def step (w : Walker) : WalkOp → Outcome (Sight × Walker)
  | .base op =>
    if op.named.any w.isShare then .ub
    else do
      let (s, b) ← w.base.step op
      .ok (s, ⟨b, w.cursors.map fun c => c.map fun c => { c with home := relocate w.base.vars.length op c.home }⟩)
  -- ArgumentValueIterator.cpp:14
  | .newCursor => .ok (.nothing, w.pushCursor none 0 0 none)
  -- ArgumentValues.cpp:251-254
  | .first x =>
    match w.base.obj x with
    | some (.values vs _ args) => .ok (.nothing, w.pushCursor (some x) 0 vs.valueId args)
    | _ => .ub
  -- ArgumentValues.cpp:256-259
  | .last x =>
    match w.base.obj x with
    | some (.values vs _ args) => .ok (.nothing, w.pushCursor (some x) vs.values.length vs.valueId args)
    | _ => .ub
  -- the copy constructor that the compiler makes; also the first half of `operator++(int)`, ArgumentValueIterator.cpp:31-36
  | .copyCursor i =>
    match w.cursor i with
    | some c =>
      match w.base.obj c.share with
      | some (.results args) => .ok (.nothing, w.pushCursor c.home c.pos c.valueId args)
      | _ => .ub
    | none => .ub
  -- the assignment that the compiler makes
  | .assignCursor i j =>
    match w.cursor i, w.cursor j with
    | some c, some e =>
      match w.base.obj c.share with
      | some (.results args) => .ok (.nothing, ⟨w.base.put e.share (some (.results args)), w.cursors.set j (some { c with share := e.share })⟩)
      | _ => .ub
    | _, _ => .ub
  | .destroyCursor i =>
    match w.cursor i with
    | some c => .ok (.nothing, ⟨w.base.put c.share none, w.cursors.set i none⟩)
    | none => .ub
  -- ArgumentValueIterator.cpp:25-29
  | .next i =>
    match w.cursor i with
    | some c =>
      match w.list c with
      | some (vs, _) => if c.pos < vs.values.length then .ok (.nothing, w.putCursor i (some { c with pos := c.pos + 1 })) else .ub
      | none => .ub
    | none => .ub
  -- ArgumentValueIterator.cpp:38-42
  | .get i =>
    match w.cursor i with
    | some c =>
      match w.list c, w.base.obj c.share with
      | some (vs, text), some (.results args) =>
        match vs.values[c.pos]? with
        | some (v, a) => .ok (.nothing, { w with base := w.base.push (.value ⟨some v, c.valueId, a⟩ text args) })
        | none => .ub
      | _, _ => .ub
    | none => .ub
  -- ArgumentValueIterator.cpp:49-52
  | .same i j =>
    match w.cursor i, w.cursor j with
    | some c, some e =>
      if c.home.isSome ∧ c.home = e.home then .ok (.flag (decide (c.pos = e.pos)), w) else .ub
    | _, _ => .ub

/-- A client program. -/
def run (w : Walker) : List WalkOp → Outcome (List Sight × Walker)
  | [] => .ok ([], w)
  | op :: ops => do
    let (s, w) ← w.step op
    let (ss, w) ← w.run ops
    pure (s :: ss, w)

end Walker

end Argos
