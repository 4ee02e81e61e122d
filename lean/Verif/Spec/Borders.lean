import Verif.Spec.Strings

/-! # Where a word without a rule is split, independent of the model

Words are given by their code points. -/

namespace Argos.Spec

/-- 0-9 -/
def digitPoint (n : Nat) : Bool := 48 ≤ n && n ≤ 57

/-- 0-9, A-Z and a-z -/
def alnumPoint (n : Nat) : Bool := digitPoint n || (65 ≤ n && n ≤ 90) || (97 ≤ n && n ≤ 122)

/-- A border between the `k`th code point and the one before it, both ASCII. Between a letter or digit and something else it needs no hyphen,
between a digit and a letter it does. -/
def Border (cps : List Nat) (k : Nat) (hyphen : Bool) : Prop :=
  ∃ a b, 1 ≤ k ∧ cps[k - 1]? = some a ∧ cps[k]? = some b ∧ a < 127 ∧ b < 127 ∧
    if hyphen then alnumPoint a = alnumPoint b ∧ digitPoint a ≠ digitPoint b else alnumPoint a ≠ alnumPoint b

end Argos.Spec
