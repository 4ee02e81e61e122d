import Verif.Spec.Lookup
import Verif.Spec.Results
import Verif.Spec.Trace
import Verif.Model.Parsed
import Verif.Model.Results

/-!
# Parsers that declare more options

A later version of a program has more options than an earlier one. What has to be true of the additional options so that
command lines that were accepted before are still accepted, with the same results.
-/

namespace Argos.Spec

/-- The option `x`, one of `xs`, can be added to the command: it needn't be given, it isn't an older flag with `=`, and if it has an initial value, that
is a value of its own. -/
structure Addable (ci : Bool) (c : Command) (xs : List OptData) (x : OptData) : Prop where
  optional : x.optional = true
  equals : ∀ g ∈ x.flags, ∀ f ∈ flagsOf c.options, ¬ SameFlag ci g (f ++ b!"=")
  initial : x.initialValue = [] ∨ (x.operation ≠ .none ∧ x.alias_ = [] ∧
    ∀ f ∈ x.flags, (∀ a ∈ c.arguments, a.name ≠ f ∧ a.alias_ ≠ f) ∧ ∀ o ∈ c.options ++ xs, o.alias_ ≠ f)

mutual
/-- The second command is the first one with additional options at the end, and with additional options in its sub-commands. -/
inductive Enlarged (ci : Bool) : Command → Command → Prop
  | intro (c : Command) {xs : List OptData} {cs : List Command} : (∀ x ∈ xs, Addable ci c xs x) → EnlargedAll ci c.commands cs →
      Enlarged ci c { c with options := c.options ++ xs, commands := cs }
/-- See `Enlarged`. -/
inductive EnlargedAll (ci : Bool) : List Command → List Command → Prop
  | nil : EnlargedAll ci [] []
  | cons {c c' : Command} {cs cs' : List Command} : Enlarged ci c c' → EnlargedAll ci cs cs' → EnlargedAll ci (c :: cs) (c' :: cs')
end

/-- A name under which a command gives access to the values of its arguments and options, except for options that end parsing. -/
def ValueName (c : Command) (s : Str) : Prop :=
  (∃ a ∈ c.arguments, s = a.name ∨ (a.alias_ ≠ [] ∧ s = a.alias_)) ∨
    ∃ o ∈ c.options, ¬ EndsParsing o ∧ o.operation ≠ .none ∧ (s ∈ o.flags ∨ (o.alias_ ≠ [] ∧ s = o.alias_))

/-- The second result has the values of the first one, for all commands that were given. -/
inductive KeepsValues : PNode → PNode → Prop
  | intro {n n' : PNode} (name : n.name = n'.name)
      (values : ∀ s, ValueName n.command s → ∃ vs vs', n.valuesOf s = .ok vs ∧ n'.valuesOf s = .ok vs' ∧ vs.map (·.1) = vs'.map (·.1))
      (subs : Each KeepsValues n.subs n'.subs) : KeepsValues n n'

end Argos.Spec
