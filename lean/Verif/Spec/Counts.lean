import Verif.Model.Data

/-!
# Specification of the distribution of positional arguments
-/

namespace Argos.Spec

/-- The sum of the minimum counts. -/
def minTotal (args : List ArgData) : Nat := (args.map (·.minCount)).sum

/-- The sum of the maximum counts. -/
def maxTotal (args : List ArgData) : Nat := (args.map (·.maxCount)).sum

/-- `ks[i]` values for `args[i]`: within the declared counts, `n` in total, and surplus values go to
the earliest arguments that can take them: an argument gets more than its minimum only if all arguments
before it have their maximum. -/
structure IsAllotment (args : List ArgData) (n : Nat) (ks : List Nat) : Prop where
  length : ks.length = args.length
  total : ks.sum = n
  within : ∀ (i : Nat) (h : i < args.length) (h' : i < ks.length),
    args[i].minCount ≤ ks[i] ∧ ks[i] ≤ args[i].maxCount
  earliest : ∀ (i j : Nat) (hj : j < args.length) (hj' : j < ks.length) (hij : i < j),
    args[j].minCount < ks[j] → ks[i]'(by omega) = (args[i]'(by omega)).maxCount

/-- The argument that each value belongs to, in command-line order: `ks[0]` times the first one, then
`ks[1]` times the second one, and so on. -/
def handedOut (args : List ArgData) (ks : List Nat) : List ArgData :=
  (args.zip ks).flatMap fun p => List.replicate p.2 p.1

/-- The number of values must be known before the first one is handed out: an argument that isn't the last one has a
variable count. -/
def VariableBeforeLast (args : List ArgData) : Prop :=
  ∃ before a after, args = before ++ a :: after ∧ after ≠ [] ∧ a.minCount ≠ a.maxCount

/-- There is a value for the last argument when the other arguments have taken all they can, or it can't do without. -/
def LastServed (args : List ArgData) (n : Nat) : Prop :=
  (∃ a, args.getLast? = some a ∧ 0 < a.minCount) ∨ maxTotal args.dropLast < n

end Argos.Spec
