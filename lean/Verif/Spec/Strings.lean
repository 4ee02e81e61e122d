import Verif.Base

/-!
# Specifications about strings, independent of the model
-/

namespace Argos.Spec

/-- ASCII case folding of a byte, as a number: A-Z become a-z, everything else is unchanged. -/
def foldByte (c : UInt8) : Nat :=
  if 65 ≤ c.toNat ∧ c.toNat ≤ 90 then c.toNat + 32 else c.toNat

/-- ASCII case folding of a string. -/
def foldCase (s : Str) : List Nat := s.map foldByte

/-- The parts separated by `sep`, put together again. -/
def joinWith (sep : UInt8) : List Str → Str
  | [] => []
  | [p] => p
  | p :: ps => p ++ sep :: joinWith sep ps

/-- `parts` is the division of `s` at the separators into at most `max` parts: nothing is lost,
there are at most `max` parts, and a separator is left in a part only if it is the last of exactly
`max` parts. -/
structure IsSplit (s : Str) (sep : UInt8) (max : Nat) (parts : List Str) : Prop where
  join : joinWith sep parts = s
  nonempty : parts ≠ []
  bounded : parts.length ≤ max
  separated : ∀ i (h : i < parts.length), sep ∈ parts[i] → i + 1 = parts.length ∧ parts.length = max

end Argos.Spec

namespace Argos.Spec

/-- The UTF-8 encoding of a code point (RFC 3629). -/
def encodeUtf8 (n : Nat) : Str :=
  if n < 0x80 then [UInt8.ofNat n]
  else if n < 0x800 then [UInt8.ofNat (0xC0 + n / 0x40), UInt8.ofNat (0x80 + n % 0x40)]
  else if n < 0x10000 then
    [UInt8.ofNat (0xE0 + n / 0x1000), UInt8.ofNat (0x80 + n / 0x40 % 0x40),
     UInt8.ofNat (0x80 + n % 0x40)]
  else
    [UInt8.ofNat (0xF0 + n / 0x40000), UInt8.ofNat (0x80 + n / 0x1000 % 0x40),
     UInt8.ofNat (0x80 + n / 0x40 % 0x40), UInt8.ofNat (0x80 + n % 0x40)]

/-- The UTF-8 encoding of a text given by its code points. -/
def encodeText (cps : List Nat) : Str := cps.flatMap encodeUtf8

/-- All elements are Unicode code points. -/
def IsText (cps : List Nat) : Prop := ∀ n ∈ cps, n < 0x110000

end Argos.Spec
