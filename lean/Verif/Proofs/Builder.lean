import Verif.Proofs.Store
import Verif.Proofs.Links
import Verif.Spec.Active

/-! # Builder calls and the writes they stand for -/

namespace Argos
open Spec

/-- The write does not keep what is stored under the value. -/
def touches : Write → Option Nat
  | .assign id _ _ => some id
  | .append _ _ _ => none
  | .clear id => some id

theorem touches_iff (w : Write) (id : Nat) : touches w = some id ↔ w.Replaces id := by
  cases w <;> simp [touches, Write.Replaces]

theorem apply_write {c : Command} {n n' : PNode} {op : BuilderOp} {k : Option Nat} (hn : n.ids = makeIds c)
    (h : op.apply n = .ok (n', k)) : ∃ w, WriteOf c op w ∧ n' = { n with values := w.exec n.values } ∧ k = touches w := by
  have named : ∀ {name id}, getValueId n.ids name = .ok id → NameFor c name id := by
    intro name id hg
    rw [hn] at hg
    obtain ⟨g1, g2⟩ := getValueId_makeIds c name
    by_cases hd : ∃ v, Declares c name v
    · obtain ⟨v, hv⟩ := hd
      obtain ⟨v', e, hv', hmin⟩ := g2 v hv
      rw [e, Outcome.ok.injEq] at hg
      exact hg ▸ ⟨hv', hmin⟩
    · rw [g1 hd] at hg; simp at hg
  cases op <;> simp only [BuilderOp.apply, Outcome.bind_eq_ok, Outcome.pure_eq, Outcome.ok.injEq, Prod.mk.injEq] at h
  · obtain ⟨id, e, rfl, rfl⟩ := h; exact ⟨_, .append (named e), rfl, rfl⟩
  · obtain ⟨rfl, rfl⟩ := h; exact ⟨_, .appendTo, rfl, rfl⟩
  · obtain ⟨id, e, rfl, rfl⟩ := h; exact ⟨_, .assign (named e), rfl, rfl⟩
  · obtain ⟨rfl, rfl⟩ := h; exact ⟨_, .assignTo, rfl, rfl⟩
  · obtain ⟨id, e, rfl, rfl⟩ := h; exact ⟨_, .clear (named e), rfl, rfl⟩
  · obtain ⟨rfl, rfl⟩ := h; exact ⟨_, .clearOf, rfl, rfl⟩

end Argos
