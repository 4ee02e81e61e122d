import Verif.Model.Cursors
import Verif.Spec.Objects

/-!
# Client programs that keep to the rules of iterators

An iterator belongs to a list of values. When the list is moved the iterator belongs to where it has been moved to; when it is destroyed, or another one is
assigned to it, the iterator must not be used any more. Iterators that are compared belong to the same list. The rules only look at the operations.
-/

namespace Argos.Spec

/-- What the client knows about an iterator: the variable with its list, if it has one, and the variable that keeps the results for it. -/
structure Place where
  list : Option Nat
  share : Nat
  deriving Repr, DecidableEq

/-- What the client knows about its variables. -/
structure Route where
  base : Known := {}
  places : List (Option Place) := []
  deriving Repr, DecidableEq

namespace Route

def place (t : Route) (i : Nat) : Option Place := (t.places[i]?).join

/-- The variable belongs to an iterator. -/
def reserved (t : Route) (x : Nat) : Bool := t.places.any fun p => p.elim false fun p => p.share == x

/-- The list of an iterator after an operation. -/
def goes (count : Nat) (op : ObjOp) (z : Nat) : Option Nat :=
  match op with
  | .move x => if z = x then some count else some z
  | .destroy x => if z = x then none else some z
  | .assign x y => if x = y then some z else if z = y then none else some z
  | .moveAssign x y => if z = y then none else if z = x then some y else some z
  | _ => some z

/-- The rules. -/
def step (t : Route) : WalkOp → Option Route
  | .base op =>
    if op.named.any t.reserved then none
    else (t.base.step op).map fun b => ⟨b, t.places.map fun p => p.map fun p => { p with list := p.list.bind (goes t.base.vars.length op) }⟩
  | .newCursor => some ⟨t.base.push (.blank .results), t.places ++ [some ⟨none, t.base.vars.length⟩]⟩
  | .first x => (t.base.uses x .values).map fun n => ⟨t.base.push (.live .results n), t.places ++ [some ⟨some x, t.base.vars.length⟩]⟩
  | .last x => (t.base.uses x .values).map fun n => ⟨t.base.push (.live .results n), t.places ++ [some ⟨some x, t.base.vars.length⟩]⟩
  | .copyCursor i => (t.place i).map fun p => ⟨t.base.push (t.base.var p.share), t.places ++ [some ⟨p.list, t.base.vars.length⟩]⟩
  | .assignCursor i j =>
    match t.place i, t.place j with
    | some p, some q => some ⟨t.base.put q.share (t.base.var p.share), t.places.set j (some ⟨p.list, q.share⟩)⟩
    | _, _ => none
  | .destroyCursor i => (t.place i).map fun p => ⟨t.base.put p.share .gone, t.places.set i none⟩
  | .next i =>
    match t.place i with
    | some ⟨some _, _⟩ => some t
    | _ => none
  | .get i =>
    match t.place i with
    | some ⟨some x, _⟩ => (t.base.uses x .values).map fun n => { t with base := t.base.push (.live .value n) }
    | _ => none
  | .same i j =>
    match t.place i, t.place j with
    | some ⟨some x, _⟩, some ⟨some y, _⟩ => if x = y then some t else none
    | _, _ => none

def run (t : Route) : List WalkOp → Option Route
  | [] => some t
  | op :: ops => (t.step op).bind fun t => t.run ops

end Route

/-- The program keeps to the rules. -/
def CarefulWalk (ops : List WalkOp) : Prop := (Route.run {} ops).isSome

/-- The operation goes on with the iterator, or looks at what it refers to. -/
def StepsFrom (i : Nat) : WalkOp → Prop
  | .next j => j = i
  | .get j => j = i
  | _ => False

/-- The operation changes the iterator itself. -/
def Changes (i : Nat) : WalkOp → Prop
  | .next j => j = i
  | .assignCursor _ j => j = i
  | .destroyCursor j => j = i
  | _ => False

end Argos.Spec
