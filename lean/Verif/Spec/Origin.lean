import Verif.Spec.Tree
import Verif.Model.Parsed

/-! # Where names and values come from -/

namespace Argos.Spec

/-- Separates the parts of a path. -/
def IsSeparator (c : UInt8) : Prop := c = c!"/" ∨ c = c!"\\"

/-- `b` is the last part of the path. -/
def IsBaseName (path b : Str) : Prop :=
  (∀ c ∈ b, ¬ IsSeparator c) ∧ (b = path ∨ ∃ p c, IsSeparator c ∧ path = p ++ c :: b)

/-- The occurrence stores the value `v` under `id`, and `w` is the option or argument that occurred. -/
inductive Gives : Occ → (id : Nat) → (v : Str) → (w : View) → Prop
  | initial {o : OptData} : o.initialValue ≠ [] → Gives (.initial o) o.valueId o.initialValue (.opt o)
  | value {o : OptData} {v : Str} : o.operation = .assign ∨ o.operation = .append → o.constant = [] → Gives (.option o v) o.valueId v (.opt o)
  | constant {o : OptData} {v : Str} : o.operation = .assign ∨ o.operation = .append → o.constant ≠ [] →
      Gives (.option o v) o.valueId o.constant (.opt o)
  | argument {a : ArgData} {v : Str} : Gives (.argument a v) a.valueId v (.arg a)

end Argos.Spec
