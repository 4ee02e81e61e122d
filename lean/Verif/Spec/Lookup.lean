import Verif.Model.Data
import Verif.Spec.Strings

/-!
# Specifications about flags and options
-/

namespace Argos.Spec

/-- The flags are equal in the selected case mode. -/
def SameFlag (ci : Bool) (f g : Str) : Prop := if ci then foldCase f = foldCase g else f = g

/-- `q` is an initial part of `f` in the selected case mode. -/
def IsAbbrev (ci : Bool) (q f : Str) : Prop := if ci then foldCase q <+: foldCase f else q <+: f

instance (ci : Bool) (f g : Str) : Decidable (SameFlag ci f g) := by
  unfold SameFlag; infer_instance

instance (ci : Bool) (f g : Str) : Decidable (IsAbbrev ci f g) := by
  unfold IsAbbrev; infer_instance

/-- All flags of all options, in order. -/
def flagsOf (options : List OptData) : List Str := options.flatMap (·.flags)

/-- No two flags, of the same option or of different ones, are equal. -/
def DistinctFlags (ci : Bool) (options : List OptData) : Prop :=
  (flagsOf options).Pairwise fun f g => ¬ SameFlag ci f g

/-- `q` selects `o` without or with abbreviations: it equals one of its flags, or it equals no flag
at all and is an initial part of exactly one flag, which is one of `o`. -/
def Selects (ci abbreviations : Bool) (options : List OptData) (q : Str) (o : OptData) : Prop :=
  o ∈ options ∧
    ((∃ f ∈ o.flags, SameFlag ci f q) ∨
      (abbreviations = true ∧ (∀ f ∈ flagsOf options, ¬ SameFlag ci f q) ∧
        ∃ f ∈ o.flags, IsAbbrev ci q f ∧ ∀ g ∈ flagsOf options, IsAbbrev ci q g → g = f))

/-- The bytes on which the library's case-insensitive order is consistent: ASCII except the six
characters between `Z` and `a`. -/
def RegularByte (c : UInt8) : Prop := c.toNat < 128 ∧ ¬ (90 < c.toNat ∧ c.toNat < 97)

instance (c : UInt8) : Decidable (RegularByte c) := by unfold RegularByte; infer_instance

/-- All flags consist of regular bytes, or the case matters. -/
def RegularFlags (ci : Bool) (options : List OptData) : Prop :=
  ci = true → ∀ f ∈ flagsOf options, ∀ c ∈ f, RegularByte c

instance (ci : Bool) (options : List OptData) : Decidable (RegularFlags ci options) := by
  unfold RegularFlags; infer_instance

end Argos.Spec

namespace Argos

/-- `c` is a command of the tree with the root `root`: the root itself or a sub-command at any
depth. -/
inductive Command.Within (c : Command) : Command → Prop
  | self : Within c c
  | sub {s root : Command} : s ∈ root.commands → Within c s → Within c root

end Argos

namespace Argos

/-- The command reached from `c` by choosing a sub-command by its position at each level. -/
def Command.at (c : Command) : List Nat → Option Command
  | [] => some c
  | i :: p => match c.commands[i]? with
    | none => none
    | some s => s.at p

end Argos
