import Verif.Spec.Counts
import Verif.Spec.Results
import Verif.Model.Parsed
import Verif.Model.Results

/-!
# Parsers that demand less

A later version of a program demands less than an earlier one: options needn't be given any more, sub-commands can be left out, arguments may be
given less or more often. What has to be true of this so that command lines that were accepted before are still accepted, with the same results.
-/

namespace Argos.Spec

/-- The same option, but it may be that it needn't be given any more. -/
structure EasedOpt (o o' : OptData) : Prop where
  same : { o with optional := true } = { o' with optional := true }
  optional : o.optional = true → o'.optional = true

/-- The same argument, but it may be that it can be given less or more often. -/
structure EasedArg (a a' : ArgData) : Prop where
  same : { a with minCount := 0, maxCount := 0 } = { a' with minCount := 0, maxCount := 0 }
  min : a'.minCount ≤ a.minCount
  max : a.maxCount ≤ a'.maxCount

/-- The same arguments, but it may be that they can be given less or more often.

Values that there are beyond the minimum counts go to the first arguments that can take them. So when an argument gets by with less, or one before it takes more, a value could
go to the one before: this is fine only if nothing changed, or the later argument can't give away anything, or the earlier one can't take more than it always got.

The values are counted beforehand only if some argument before the last one has a variable count, and then the library insists on a value for the last one. -/
structure EasedArgs (as as' : List ArgData) : Prop where
  each : Each EasedArg as as'
  pairs : ∀ (i j : Nat) (a a' b b' : ArgData), i < j → as[i]? = some a → as'[i]? = some a' → as[j]? = some b → as'[j]? = some b' →
    (b'.minCount = b.minCount ∧ a'.maxCount = a.maxCount) ∨ b.maxCount ≤ b'.minCount ∨ a'.maxCount ≤ a.minCount
  counted : VariableBeforeLast as' → VariableBeforeLast as ∨ ∃ a, as'.getLast? = some a ∧ 0 < a.minCount

mutual
/-- The second command is the first one, but it demands less. -/
inductive Eased : Command → Command → Prop
  | intro (c : Command) {as : List ArgData} {os : List OptData} {r : Option Bool} {cs : List Command} : EasedArgs c.arguments as → Each EasedOpt c.options os →
      (r = c.requireSubcommand ∨ r = some false) → EasedAll c.commands cs →
      Eased c { c with arguments := as, options := os, requireSubcommand := r, commands := cs }
/-- See `Eased`. -/
inductive EasedAll : List Command → List Command → Prop
  | nil : EasedAll [] []
  | cons {c c' : Command} {cs cs' : List Command} : Eased c c' → EasedAll cs cs' → EasedAll (c :: cs) (c' :: cs')
end

/-- Both results give the same answers to all questions for values, for all commands that were given. -/
inductive SameGiven : PNode → PNode → Prop
  | intro {n n' : PNode} (name : n.name = n'.name) (values : ∀ s, n.valuesOf s = n'.valuesOf s) (subs : Each SameGiven n.subs n'.subs) : SameGiven n n'

end Argos.Spec
