import Verif.Spec.Phrase

/-!
# One more option

Trees that are alike but for what is found in one place.
-/

namespace Argos.Spec

mutual
/-- The same commands, with data that are related. -/
inductive TreeAlike {α β : Type} (R : Command → α → β → Prop) : Tree α → Tree β → Prop
  | node {c : Command} {a : α} {b : β} {ts : List (Tree α)} {us : List (Tree β)} : R c a b → TreesAlike R ts us → TreeAlike R (.node c a ts) (.node c b us)

/-- The same for lists of trees. -/
inductive TreesAlike {α β : Type} (R : Command → α → β → Prop) : List (Tree α) → List (Tree β) → Prop
  | nil : TreesAlike R [] []
  | cons {t : Tree α} {u : Tree β} {ts : List (Tree α)} {us : List (Tree β)} : TreeAlike R t u → TreesAlike R ts us → TreesAlike R (t :: ts) (u :: us)
end

/-- All values are the same, except the one with this id in the command `c`. -/
def SameButFor (c : Command) (id : Nat) (k : Command) (m m' : ValueMap) : Prop := ∀ i, ¬ (k = c ∧ i = id) → m i = m' i

/-- The option doesn't remove the value of a mandatory option. -/
def KeepsMandatory (c : Command) (o : OptData) : Prop := o.operation ≠ .clear ∨ ∀ x ∈ c.options, x.optional = false → x.valueId ≠ o.valueId

/-- No mandatory option has the same value as the option. -/
def Dispensable (c : Command) (o : OptData) : Prop := ∀ x ∈ c.options, x.optional = false → x.valueId ≠ o.valueId

end Argos.Spec
