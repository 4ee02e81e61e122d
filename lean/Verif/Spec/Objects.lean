import Verif.Model.Objects

/-!
# Client programs that keep to the rules

What a client has to know about its variables: which hold an object that belongs to a `parse`, which have been moved from. The rules only look at the
operations, not at results.
-/

namespace Argos.Spec

/-- The type of a variable. -/
inductive Kind where
  | results | value | values | option | command
  deriving Repr, DecidableEq

/-- What the client knows about a variable. -/
inductive Status where
  /-- The variable is out of scope. -/
  | gone
  /-- Default-constructed, or moved from. -/
  | blank (k : Kind)
  /-- It belongs to this `parse`. -/
  | live (k : Kind) (parse : Nat)
  deriving Repr, DecidableEq

/-- The type of the variable. -/
def Status.kind : Status → Option Kind
  | .gone => none
  | .blank k => some k
  | .live k _ => some k

/-- The variable has a part in keeping the results of the `parse`. -/
def Status.keeps (n : Nat) : Status → Bool
  | .live .results m => n == m
  | .live .value m => n == m
  | .live .values m => n == m
  | _ => false

/-- After a move from the variable; views are only copied. -/
def Status.moved : Status → Status
  | .gone => .gone
  | .blank k => .blank k
  | .live .option n => .live .option n
  | .live .command n => .live .command n
  | .live k _ => .blank k

/-- How many times something has been parsed, and the variables. -/
structure Known where
  parses : Nat := 0
  vars : List Status := []
  deriving Repr, DecidableEq

namespace Known

def var (t : Known) (x : Nat) : Status := t.vars[x]?.getD .gone

def push (t : Known) (s : Status) : Known := { t with vars := t.vars ++ [s] }

def put (t : Known) (x : Nat) (s : Status) : Known := { t with vars := t.vars.set x s }

/-- The number of the `parse` that the variable of the given type belongs to, if it does. -/
def uses (t : Known) (x : Nat) (k : Kind) : Option Nat :=
  match t.var x with
  | .live k' n => if k = k' then some n else none
  | _ => none

/-- The results of this `parse` are kept by some variable. -/
def kept (t : Known) (n : Nat) : Bool := t.vars.any (Status.keeps n)

/-- The rules: objects that have been default-constructed or moved from are only copied, assigned to, moved from or destroyed; views are only used as long as
a variable keeps the results. -/
def step (t : Known) : ObjOp → Option Known
  | .parsed _ => some { t.push (.live .results t.parses) with parses := t.parses + 1 }
  | .newResults => some (t.push (.blank .results))
  | .newValue => some (t.push (.blank .value))
  | .copy x => if t.var x = .gone then none else some (t.push (t.var x))
  | .move x => if t.var x = .gone then none else some ((t.put x (t.var x).moved).push (t.var x))
  | .assign x y => if t.var x ≠ .gone ∧ (t.var x).kind = (t.var y).kind then some (t.put y (t.var x)) else none
  | .moveAssign x y =>
    if t.var x ≠ .gone ∧ (t.var x).kind = (t.var y).kind ∧ x ≠ y then some ((t.put x (t.var x).moved).put y (t.var x)) else none
  | .destroy x => if t.var x = .gone then none else some (t.put x .gone)
  | .subcommand x _ => (t.uses x .results).map fun n => t.push (.live .results n)
  | .getValue x _ => (t.uses x .results).map fun n => t.push (.live .value n)
  | .getValues x _ => (t.uses x .results).map fun n => t.push (.live .values n)
  | .stopOption x => (t.uses x .results).map fun n => t.push (.live .option n)
  | .command x => (t.uses x .results).map fun n => t.push (.live .command n)
  | .has x _ => (t.uses x .results).map fun _ => t
  | .unprocessed x => (t.uses x .results).map fun _ => t
  | .resultsError x _ => (t.uses x .results).map fun _ => t
  | .item x _ => (t.uses x .values).map fun n => t.push (.live .value n)
  | .splitValue x _ _ _ => (t.uses x .value).map fun n => t.push (.live .values n)
  | .splitValues x _ _ _ => (t.uses x .values).map fun n => t.push (.live .values n)
  | .toBool x => (t.uses x .value).map fun _ => t
  | .asString x _ => (t.uses x .value).map fun _ => t
  | .asInt x _ _ => (t.uses x .value).map fun _ => t
  | .argumentIds x => (t.uses x .value).map fun _ => t
  | .valueError x _ => (t.uses x .value).map fun _ => t
  | .size x => (t.uses x .values).map fun _ => t
  | .asStrings x _ => (t.uses x .values).map fun _ => t
  | .valuesArguments x => (t.uses x .values).map fun _ => t
  | .valuesError x _ => (t.uses x .values).map fun _ => t
  | .names x =>
    match t.var x with
    | .live .option n => if t.kept n then some t else none
    | .live .command n => if t.kept n then some t else none
    | _ => none
  | .getValueOf x y =>
    match t.uses x .results, t.uses y .option with
    | some n, some m => if t.kept m then some (t.push (.live .value n)) else none
    | _, _ => none

def run (t : Known) : List ObjOp → Option Known
  | [] => some t
  | op :: ops => (t.step op).bind fun t => t.run ops

end Known

/-- The program keeps to the rules. -/
def Careful (ops : List ObjOp) : Prop := (Known.run {} ops).isSome

instance (ops : List ObjOp) : Decidable (Careful ops) := by unfold Careful; infer_instance

/-- The operation leaves the variable alone. -/
def LeavesAlone (y : Nat) : ObjOp → Prop
  | .move x => x ≠ y
  | .assign _ z => z ≠ y
  | .moveAssign x z => x ≠ y ∧ z ≠ y
  | .destroy x => x ≠ y
  | _ => True

/-- The operation only reads the variable. -/
def Reads (y : Nat) : ObjOp → Prop
  | .has x _ => x = y
  | .unprocessed x => x = y
  | .resultsError x _ => x = y
  | .toBool x => x = y
  | .asString x _ => x = y
  | .asInt x _ _ => x = y
  | .argumentIds x => x = y
  | .valueError x _ => x = y
  | .size x => x = y
  | .asStrings x _ => x = y
  | .valuesArguments x => x = y
  | .valuesError x _ => x = y
  | .names x => x = y
  | _ => False

end Argos.Spec
