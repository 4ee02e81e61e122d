import Verif.Spec.Iteration

/-! # Values that a client keeps while it goes on calling `next` -/

namespace Argos.Spec

/-- The report is about an option whose operation replaces or removes the values stored as `id`. -/
def ReportReplaces (id : Nat) (rep : IterReport) : Prop :=
  ∃ o, rep.arg = some (.option o) ∧ o.valueId = id ∧ (o.operation = .assign ∨ o.operation = .clear)

/-- The report is about an option or an argument whose values are stored as `id`. -/
def ReportConcerns (id : Nat) (rep : IterReport) : Prop :=
  (∃ o, rep.arg = some (.option o) ∧ o.valueId = id) ∨ ∃ a, rep.arg = some (.argument a) ∧ a.valueId = id

/-- Every part of `t` is also in `t'`, where only occurrences with the property `P` have been added to it. -/
def Tree.GrowsBy (P : Occ → Prop) (t t' : Tree (List Occ)) : Prop :=
  ∀ r u, t.at? r = some u → ∃ u' more, t'.at? r = some u' ∧ u'.command = u.command ∧ u'.data = u.data ++ more ∧ ∀ x ∈ more, P x

end Argos.Spec
