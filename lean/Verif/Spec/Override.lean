import Verif.Spec.Phrase

/-! # Options that replace what other options have given

The vocabulary of C98. -/

namespace Argos.Spec

/-- The first option replaces or removes all that is given to the value of the second one. -/
def Overrides (o2 o : OptData) : Prop := o2.valueId = o.valueId ∧ (o2.operation = .assign ∨ o2.operation = .clear)

instance (o2 o : OptData) : Decidable (Overrides o2 o) := by unfold Overrides; infer_instance

/-- The options that count, of those that are given for a value: the last one that replaces or removes all values, and those after it. -/
def effective : List (OptData × Str) → List (OptData × Str)
  | [] => []
  | x :: xs => if ∃ y ∈ xs, y.1.operation = .assign ∨ y.1.operation = .clear then effective xs else x :: xs

/-- The same arguments in the same order, and for each value the same options that count in the same order. -/
structure SameFinal (ps qs : List Piece) : Prop where
  arguments : argumentTexts ps = argumentTexts qs
  options : ∀ id, effective (optionsFor id ps) = effective (optionsFor id qs)

end Argos.Spec
