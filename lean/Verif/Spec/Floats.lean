import Verif.Spec.Numbers
import Verif.Spec.Results
import Verif.Model.Floats

/-!
# Specification of floating-point literals

Which strings are floating-point numbers, and which number they stand for, as a grammar: independently of `strtod` and
of the way it goes through the string.
-/

namespace Argos.Spec

/-- The string is the word, each letter in any case. The word is in lower case. -/
def AnyCase (s word : Str) : Prop := Each (fun c w => c = w ∨ (c!"A" ≤ c ∧ c ≤ c!"Z" ∧ c + 32 = w)) s word

/-- Digits, with at most one point between, before or behind them. -/
def Mantissa (base : Nat) (s : Str) (x : Rat) : Prop :=
  ∃ whole fraction n, (s = whole ++ b!"." ++ fraction ∨ (s = whole ∧ fraction = [])) ∧ Numeral base (whole ++ fraction) n ∧
    x * (base : Rat) ^ fraction.length = n

/-- Nothing, or a letter and a decimal integer. -/
def Exponent (letters : Str) (s : Str) (e : Int) : Prop :=
  (s = [] ∧ e = 0) ∨
  ∃ letter ∈ letters, ∃ sign digits n, s = letter :: sign ++ digits ∧ Numeral 10 digits n ∧
    ((sign = b!"-" ∧ e = -(n : Int)) ∨ ((sign = [] ∨ sign = b!"+") ∧ e = n))

/-- A number without a sign: decimal with a decimal exponent, or hexadecimal with a binary exponent. -/
inductive Magnitude : Str → FloatMag → Prop
  | decimal {m ex : Str} {x : Rat} {e : Int} : Mantissa 10 m x → Exponent b!"eE" ex e → Magnitude (m ++ ex) (.finite (x * 10 ^ e))
  | hexadecimal {pfx m ex : Str} {x : Rat} {e : Int} : (pfx = b!"0x" ∨ pfx = b!"0X") → Mantissa 16 m x → Exponent b!"pP" ex e →
      Magnitude (pfx ++ m ++ ex) (.finite (x * 2 ^ e))
  | infinite {s : Str} : AnyCase s b!"inf" ∨ AnyCase s b!"infinity" → Magnitude s .infinite
  | nan {s : Str} : AnyCase s b!"nan" → Magnitude s .nan
  | nanWith {s cs : Str} : AnyCase s b!"nan" → (∀ c ∈ cs, c = c!"_" ∨ ∃ d, IsDigit c d) → Magnitude (s ++ b!"(" ++ cs ++ b!")") .nan

/-- A floating-point literal: white space, a sign, a number. -/
def FloatLiteral (s : Str) (x : FloatNum) : Prop :=
  ∃ ws sign body, s = ws ++ sign ++ body ∧ (∀ c ∈ ws, c ∈ whiteSpace) ∧
    (if x.neg then sign = b!"-" else sign = [] ∨ sign = b!"+") ∧ Magnitude body x.mag

end Argos.Spec
