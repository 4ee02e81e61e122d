import Verif.Model.Iteration
import Verif.Spec.Line

/-! # A client that calls `ArgumentIterator::next` until it returns false -/

namespace Argos.Spec

/-- Calling `next` repeatedly gives the reports `reps`, always with the result true, and leaves the object `h'`. -/
inductive Advances (env : Env) : IterHandle → List IterReport → IterHandle → Prop
  | nil {h : IterHandle} : Advances env h [] h
  | cons {h h1 h' : IterHandle} {rep : IterReport} {reps : List IterReport} : h.next env = (.ok rep, h1) → rep.more = true →
      Advances env h1 reps h' → Advances env h (rep :: reps) h'

/-- Calling `next` until it returns false gives the reports `reps` before that, and leaves the object `h'`. -/
inductive Iterates (env : Env) : IterHandle → List IterReport → IterHandle → Prop
  | stop {h h' : IterHandle} {rep : IterReport} : h.next env = (.ok rep, h') → rep.more = false → Iterates env h [] h'
  | more {h h1 h' : IterHandle} {rep : IterReport} {reps : List IterReport} : h.next env = (.ok rep, h1) → rep.more = true →
      Iterates env h1 reps h' → Iterates env h (rep :: reps) h'

/-- The report is about a sub-command. -/
def IsCommandReport (rep : IterReport) : Prop := ∃ c, rep.arg = some (.command c)

/-- What an option makes of the values stored for it, when it is given with the value `v`. -/
def optionValues (o : OptData) (v : Str) (before : List (Str × Nat)) : List (Str × Nat) :=
  let stored := if o.constant = [] then v else o.constant
  match o.operation with
  | .assign => [(stored, o.argumentId)]
  | .append => before ++ [(stored, o.argumentId)]
  | .clear => []
  | .none => before

/-- The part of a tree at the end of a way from the root. -/
def Tree.at? {α : Type} : List Nat → Tree α → Option (Tree α)
  | [], t => some t
  | i :: r, t => (t.subs[i]?).bind (Tree.at? r)

/-- Every way in `t` leads to the same command in `t'`. -/
def Tree.Keeps {α β : Type} (t : Tree α) (t' : Tree β) : Prop :=
  ∀ r u, t.at? r = some u → ∃ u', t'.at? r = some u' ∧ u'.command = u.command

end Argos.Spec
