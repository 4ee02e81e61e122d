import Verif.Base

/-!
# Specification of integer literals

What it means for a string to denote an integer in a base, independently of `strtol`.
-/

namespace Argos.Spec

/-- White space. -/
def whiteSpace : Str := [9, 10, 11, 12, 13, 32]

/-- The digits and letters, in the order of their value as digits. -/
def lowerDigits : Str := b!"0123456789abcdefghijklmnopqrstuvwxyz"

/-- The same with capital letters. -/
def upperDigits : Str := b!"0123456789ABCDEFGHIJKLMNOPQRSTUVWXYZ"

/-- The byte `c` is the digit for `d`. -/
def IsDigit (c : UInt8) (d : Nat) : Prop := lowerDigits[d]? = some c ∨ upperDigits[d]? = some c

/-- The digits `ds` (most significant first) denote `n` in the given base. -/
inductive Numeral (base : Nat) : Str → Nat → Prop
  | single {c d} : IsDigit c d → d < base → Numeral base [c] d
  | snoc {ds n c d} : Numeral base ds n → IsDigit c d → d < base → Numeral base (ds ++ [c]) (n * base + d)

/-- The string denotes the integer `v`: white space, a sign, a prefix `0x` (base 16 only), digits;
`neg` tells if there is a minus sign and `n` is the number after it. -/
structure Literal (base : Nat) (s : Str) (neg : Bool) (n : Nat) : Prop where
  intro ::
  split : ∃ ws sign pfx ds, s = ws ++ sign ++ pfx ++ ds ∧ (∀ c ∈ ws, c ∈ whiteSpace) ∧
    (if neg then sign = b!"-" else sign = [] ∨ sign = b!"+") ∧
    (pfx = [] ∨ base = 16 ∧ (pfx = b!"0x" ∨ pfx = b!"0X")) ∧ Numeral base ds n

/-- The integer denoted. -/
def Denotes (base : Nat) (s : Str) (v : Int) : Prop :=
  (∃ n : Nat, Literal base s false n ∧ v = n) ∨ (∃ n : Nat, Literal base s true n ∧ v = -(n : Int))

/-- The base that the beginning of an unsigned number selects: 16 for the prefix `0x`, otherwise 8 for a leading `0`,
otherwise 10. -/
inductive PrefixBase : Str → Nat → Prop
  | hex {body : Str} : b!"0x" <+: body ∨ b!"0X" <+: body → PrefixBase body 16
  | octal {body : Str} : body.head? = some c!"0" → ¬ b!"0x" <+: body → ¬ b!"0X" <+: body → PrefixBase body 8
  | decimal {body : Str} {c : UInt8} {d : Nat} : body.head? = some c → IsDigit c d → 1 ≤ d → d < 10 → PrefixBase body 10

/-- The base that is selected by the number in the string, after white space and a sign. -/
def AutoBase (s : Str) (b : Nat) : Prop :=
  ∃ ws sign body, s = ws ++ sign ++ body ∧ (∀ c ∈ ws, c ∈ whiteSpace) ∧ (sign = [] ∨ sign = b!"+" ∨ sign = b!"-") ∧ PrefixBase body b

/-- Decimal rendering of a natural number. -/
def decimalNat (n : Nat) : Str :=
  if n < 10 then [UInt8.ofNat (48 + n)] else decimalNat (n / 10) ++ [UInt8.ofNat (48 + n % 10)]

/-- Decimal rendering of an integer. -/
def decimal (v : Int) : Str := if v < 0 then c!"-" :: decimalNat v.natAbs else decimalNat v.natAbs

end Argos.Spec
