import Verif.Model.StringUtilities

/-! # Deciding what holds of the result of a concrete run, for the examples -/

namespace Argos

instance Outcome.decidableExistsOk {α : Type} {x : Outcome α} {P : α → Prop} [DecidablePred P] : Decidable (∃ a, x = .ok a ∧ P a) :=
  match x with
  | .ok a => if h : P a then .isTrue ⟨a, rfl, h⟩ else .isFalse (by rintro ⟨b, h1, h2⟩; cases h1; exact h h2)
  | .throw _ => .isFalse (by rintro ⟨b, h1, _⟩; cases h1)
  | .outOfRange => .isFalse (by rintro ⟨b, h1, _⟩; cases h1)
  | .exit _ => .isFalse (by rintro ⟨b, h1, _⟩; cases h1)
  | .ub => .isFalse (by rintro ⟨b, h1, _⟩; cases h1)
  | .diverges => .isFalse (by rintro ⟨b, h1, _⟩; cases h1)

end Argos
