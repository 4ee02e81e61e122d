import Verif.Model.Results

/-!
# Model of the conversion to floating-point numbers

`src/Argos/ParseValue.cpp:121-162`, `get_floating_point`, `as_float`, `as_double`, `parse_floats`, `as_floats` and
`as_doubles`.

`strtof` and `strtod` are external. Which part of a string they accept, and the exact number it stands for, is modelled
from the C standard (C locale). How the exact number is rounded, and when `errno` becomes `ERANGE`, depends on the type
and the library: it is a parameter here (`convert`).
-/

namespace Argos

/-- What a floating-point string stands for, before rounding and without the sign. -/
inductive FloatMag where
  | finite (x : Rat)
  | infinite
  | nan
  deriving Repr, DecidableEq

/-- What a floating-point string stands for, before rounding. -/
structure FloatNum where
  neg : Bool
  mag : FloatMag
  deriving Repr, DecidableEq

/-- `strtod`: the exponent after the mantissa; without a complete exponent there is none and nothing is consumed. -/
def scanExponent (lower upper : UInt8) (s : Str) : Int × Str :=
  match s with
  | [] => (0, [])
  | c :: r =>
    if c = lower ∨ c = upper then
      let (neg, r) := match r with
        | 45 :: r => (true, r)
        | 43 :: r => (false, r)
        | r => (false, r)
      if startsWithDigit 10 r then
        let (n, r) := accDigits 10 r 0
        (if neg then -(n : Int) else n, r)
      else (0, s)
    else (0, s)

/-- `strtod`: digits, possibly with a radix point; `none` = there is no digit. The result is the number that all digits
make, the number of digits after the point, and the rest. -/
def scanMantissa (base : Nat) (s : Str) : Option (Nat × Nat × Str) :=
  let whole := s.takeWhile (fun c => decide (digitVal c < base))
  let rest := s.dropWhile (fun c => decide (digitVal c < base))
  match rest with
  | 46 :: r =>
    let fraction := r.takeWhile (fun c => decide (digitVal c < base))
    if whole.isEmpty && fraction.isEmpty then none
    else some ((accDigits base (whole ++ fraction) 0).1, fraction.length, r.dropWhile (fun c => decide (digitVal c < base)))
  | _ => if whole.isEmpty then none else some ((accDigits base whole 0).1, 0, rest)

/-- `strtod`: a hexadecimal number after `0x`, or a decimal number. If nothing hexadecimal follows `0x`, the number is
the decimal `0`. -/
def scanNumber (s : Str) : Option (Rat × Str) :=
  let hex : Option (Nat × Nat × Str) :=
    match s with
    | z :: x :: rest => if z = 48 ∧ (x = 120 ∨ x = 88) then scanMantissa 16 rest else none
    | _ => none
  match hex with
  | some (m, k, rest) =>
    let (e, rest) := scanExponent 112 80 rest
    some ((m : Rat) * (2 : Rat) ^ (e - 4 * (k : Int)), rest)
  | none =>
    match scanMantissa 10 s with
    | some (m, k, rest) =>
      let (e, rest) := scanExponent 101 69 rest
      some ((m : Rat) * (10 : Rat) ^ (e - (k : Int)), rest)
    | none => none

/-- `strtod`: the rest after a word in lower case, which the string may have in any case. -/
def scanWord : Str → Str → Option Str
  | [], s => some s
  | _ :: _, [] => none
  | w :: ws, c :: s => if toLowerChar c = w then scanWord ws s else none

/-- `strtod`: the characters that may be within the parentheses after `nan`. -/
def isNanByte (c : UInt8) : Bool := decide (digitVal c < 36) || c == 95

/-- `strtod`: the optional parenthesis after `nan`. -/
def scanNan (s : Str) : Str :=
  match s with
  | 40 :: r =>
    match r.dropWhile isNanByte with
    | 41 :: rest => rest
    | _ => s
  | _ => s

/-- `strtod`: what follows white space and sign. -/
def scanFloat (s : Str) : Option (FloatMag × Str) :=
  match scanWord b!"infinity" s with
  | some rest => some (.infinite, rest)
  | none =>
    match scanWord b!"inf" s with
    | some rest => some (.infinite, rest)
    | none =>
      match scanWord b!"nan" s with
      | some rest => some (.nan, scanNan rest)
      | none => (scanNumber s).map fun (x, rest) => (.finite x, rest)

/-- `strtod`/`strtof` before rounding; `none` = no conversion. -/
def strtodRaw (s : Str) : Option (FloatNum × Str) :=
  match s.dropWhile isSpaceByte with
  | [] => none
  | c :: rest =>
    if c = 45 then (scanFloat rest).map fun (m, r) => (⟨true, m⟩, r)
    else if c = 43 then (scanFloat rest).map fun (m, r) => (⟨false, m⟩, r)
    else (scanFloat (c :: rest)).map fun (m, r) => (⟨false, m⟩, r)

/-- `parse_floating_point_impl`, ParseValue.cpp:137-148, for a type with the given rounding (`none` = `ERANGE`). The
conversion must end at the end of the string. Without a conversion `endp` is the start, which differs from the end
because the string is not empty. -/
def parseFloat {α : Type} (convert : FloatNum → Option α) (s : Str) : Option α :=
  if s.isEmpty then none
  else match strtodRaw s with
    | some (x, []) => convert x
    | _ => none

/-- `get_floating_point`, `as_float` and `as_double`, ArgumentValue.cpp:32-42 and 129-137. -/
def ArgValue.asFloat {α : Type} (st : ParserSettings) (convert : FloatNum → Option α) (default : α) (v : ArgValue) :
    Outcome α × Option ErrorReport :=
  match v.value with
  | none => (.ok default, none)
  | some s =>
    match parseFloat convert s with
    | some x => (.ok x, none)
    | none => v.error st (invalidValue s)

/-- The loop of `parse_floats`, ArgumentValues.cpp:46-53 (the error call does not return). -/
def ArgValues.floatsLoop {α : Type} (st : ParserSettings) (convert : FloatNum → Option α) (vs : ArgValues) :
    List Str → (result : List α) → Outcome (List α) × Option ErrorReport
  | [], result => (.ok result, none)
  | v :: rest, result =>
    match parseFloat convert v with
    | none => vs.error st (invalidValue v)
    | some x => floatsLoop st convert vs rest (result ++ [x])

/-- `parse_floats`, `as_floats` and `as_doubles`, ArgumentValues.cpp:37-55 and 200-210. -/
def ArgValues.asFloats {α : Type} (st : ParserSettings) (convert : FloatNum → Option α) (default : List α) (vs : ArgValues) :
    Outcome (List α) × Option ErrorReport :=
  if vs.empty then (.ok default, none) else vs.floatsLoop st convert vs.rawValues []

end Argos
