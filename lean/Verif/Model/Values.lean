import Verif.Model.Store

/-!
# Model of value conversion

`src/Argos/ParseValue.cpp`, `src/Argos/ArgumentValue.cpp`, `src/Argos/ArgumentValues.cpp`,
`ParsedArguments::filter_parsed_arguments`.

`strtol` and friends are external; they are modelled from the C standard (C locale), for 64-bit
`long` and `long long` and 32-bit `int`.
-/

namespace Argos

/-- `isspace` in the C locale: space, \t, \n, \v, \f, \r. -/
def isSpaceByte (c : UInt8) : Bool := c == 32 || (decide (9 ≤ c.toNat) && decide (c.toNat ≤ 13))

/-- The value of a digit character for `strtol` (any case), 36 or more if it is not alphanumeric. -/
def digitVal (c : UInt8) : Nat :=
  if 48 ≤ c.toNat ∧ c.toNat ≤ 57 then c.toNat - 48
  else if 97 ≤ c.toNat ∧ c.toNat ≤ 122 then c.toNat - 97 + 10
  else if 65 ≤ c.toNat ∧ c.toNat ≤ 90 then c.toNat - 65 + 10
  else 36

/-- The digits at the start of the string are accumulated; the result is the number and the rest
of the string. -/
def accDigits (base : Nat) : Str → Nat → Nat × Str
  | [], acc => (acc, [])
  | c :: s, acc => if digitVal c < base then accDigits base s (acc * base + digitVal c) else (acc, c :: s)

/-- Does the string start with a digit of the base? -/
def startsWithDigit (base : Nat) : Str → Bool
  | [] => false
  | c :: _ => decide (digitVal c < base)

/-- The subject sequence after the sign: `none` = no conversion; otherwise the magnitude and the
rest. A prefix `0x`/`0X` is skipped for bases 0 and 16 if a hexadecimal digit follows; base 0
selects 16, 8 or 10 by the prefix. -/
def strtoMagnitude (base : Nat) (s : Str) : Option (Nat × Str) :=
  let hex : Option Str :=
    if base = 0 ∨ base = 16 then
      match s with
      | z :: x :: rest =>
        if z = 48 ∧ (x = 120 ∨ x = 88) ∧ startsWithDigit 16 rest then some rest else none
      | _ => none
    else none
  match hex with
  | some rest => some (accDigits 16 rest 0)
  | none =>
    let b := if base = 0 then (if s.head? = some 48 then 8 else 10) else base
    if startsWithDigit b s then some (accDigits b s 0) else none

/-- The common part of `strtol`, `strtoul` etc.: white space, sign, magnitude; the result is
`(negative, magnitude, rest)`. For a base that isn't supported POSIX has `EINVAL` (and no conversion). -/
def strtoRaw (base : Nat) (s : Str) : Option (Bool × Nat × Str) :=
  if base = 1 ∨ 36 < base then none else
  let s := s.dropWhile isSpaceByte
  match s with
  | [] => none
  | c :: rest =>
    if c = 45 then (strtoMagnitude base rest).map fun (m, r) => (true, m, r)
    else if c = 43 then (strtoMagnitude base rest).map fun (m, r) => (false, m, r)
    else (strtoMagnitude base (c :: rest)).map fun (m, r) => (false, m, r)

/-- `strtol`/`strtoll` (64 bit): value and rest; `none` = no conversion or `ERANGE`. A string with
an embedded NUL ends there for the C function, and NUL is never a digit, a sign or a space. -/
def strtol (base : Nat) (s : Str) : Option (Int × Str) :=
  match strtoRaw base s with
  | none => none
  | some (neg, m, r) =>
    let v : Int := if neg then -(m : Int) else m
    if v < -(2 ^ 63) ∨ 2 ^ 63 - 1 < v then none else some (v, r)

/-- `strtoul`/`strtoull` (64 bit): value and rest; `none` = no conversion or `ERANGE`. A minus
sign negates the result modulo 2^64. -/
def strtoul (base : Nat) (s : Str) : Option (Nat × Str) :=
  match strtoRaw base s with
  | none => none
  | some (neg, m, r) =>
    if 2 ^ 64 - 1 < m then none
    else some (if neg then (2 ^ 64 - m) % 2 ^ 64 else m, r)

/-- `parse_integer_impl<long>`, ParseValue.cpp:49-60; also `<long long>`. The conversion must end
at the end of the string. When there was no conversion `endp` is the start, which differs from the
end because the string is not empty. -/
def parseLong (s : Str) (base : Nat) : Option Int :=
  if s.isEmpty then none
  else match strtol base s with
    | some (v, []) => some v
    | _ => none

/-- `parse_integer_impl<unsigned long>`, ParseValue.cpp:49-60; also `<unsigned long long>`. -/
def parseULong (s : Str) (base : Nat) : Option Nat :=
  if s.isEmpty then none
  else match strtoul base s with
    | some (v, []) => some v
    | _ => none

/-- `parse_integer<int>`, ParseValue.cpp:63-76. -/
def parseInt (s : Str) (base : Nat) : Option Int :=
  match parseLong s base with
  | none => none
  | some n => if n < -(2 ^ 31) ∨ 2 ^ 31 - 1 < n then none else some n

/-- `parse_integer<unsigned>`, ParseValue.cpp:78-92. -/
def parseUInt (s : Str) (base : Nat) : Option Nat :=
  match parseULong s base with
  | none => none
  | some n => if 2 ^ 32 - 1 < n then none else some n

/-- `ParsedArgumentsImpl::error`, ParsedArgumentsImpl.cpp:231-248 (the message is output). -/
def valueError {α : Type} (st : ParserSettings) : Outcome α :=
  if st.autoExit then .exit st.errorExitCode else .throw b!"Error while parsing arguments."

/-- `get_integer`, ArgumentValue.cpp:20-30, for a conversion function. -/
def getInteger {α : Type} (st : ParserSettings) (value : Option Str) (default : α)
    (parse : Str → Option α) : Outcome α :=
  match value with
  | none => .ok default
  | some s => match parse s with
    | some n => .ok n
    | none => valueError st

/-- `ArgumentValue::as_bool`, ArgumentValue.cpp:90-95. -/
def asBool (value : Option Str) (default : Bool) : Bool :=
  match value with
  | none => default
  | some s => !s.isEmpty && s != b!"0" && s != b!"false"

/-- `max_parts - 1` in `size_t` arithmetic. -/
def predSize (n : Nat) : Nat := if n = 0 then sizeMax' else n - 1
where
  /-- `SIZE_MAX`. -/
  sizeMax' : Nat := 2 ^ 64 - 1

/-- `ArgumentValue::split`, ArgumentValue.cpp:144-164, on a value that belongs to a parser. -/
def splitValue (st : ParserSettings) (value : Option Str) (sep : UInt8) (minParts maxParts : Nat) :
    Outcome (List Str) :=
  match value with
  | none => .ok []
  | some s =>
    let parts := splitString s sep (predSize maxParts)
    if parts.length < minParts then valueError st else .ok parts

/-- `ArgumentValues::split`, ArgumentValues.cpp:225-243. -/
def splitValues (st : ParserSettings) (sep : UInt8) (minParts maxParts : Nat) :
    List (Str × Nat) → Outcome (List (Str × Nat))
  | [] => .ok []
  | (v, a) :: vs => do
    let parts := splitString v sep (predSize maxParts)
    if parts.length < minParts then valueError st
    else do
      let more ← splitValues st sep minParts maxParts vs
      pure (parts.map (·, a) ++ more)

/-- `parse_integers`, ArgumentValues.cpp:57-76 (the error call does not return). -/
def parseIntegers {α : Type} (st : ParserSettings) (parse : Str → Option α) :
    List Str → Outcome (List α)
  | [] => .ok []
  | v :: vs =>
    match parse v with
    | none => valueError st
    | some n => do
      let more ← parseIntegers st parse vs
      pure (n :: more)

/-- `ArgumentValues::as_ints` etc., ArgumentValues.cpp:158-200. -/
def asIntegers {α : Type} (st : ParserSettings) (parse : Str → Option α) (default : List α)
    (values : List Str) : Outcome (List α) :=
  if values.isEmpty then .ok default else parseIntegers st parse values

/-- `ArgumentValues::value(index)`, ArgumentValues.cpp:149-156: the value (if any) and its
argument id. `vector::at` throws `std::out_of_range`. -/
def valuesAt (values : List (Str × Nat)) (index : Nat) : Outcome (Option Str × Nat) :=
  if values.isEmpty then .ok (none, 0)
  else match values[index]? with
    | some (v, a) => .ok (some v, a)
    | none => .outOfRange

/-- `get_argument_id(values)`, ArgumentValues.cpp:19-30. -/
def commonArgumentId : List (Str × Nat) → Nat
  | [] => 0
  | (_, a) :: vs => if vs.all (fun v => v.2 == a) then a else 0

/-- The loop of `filter_parsed_arguments`, ParsedArguments.cpp:146-154: the arguments kept. -/
def filterLoop : (argv unprocessed : List Str) → List Str
  | [], _ => []
  | _ :: _, [] => []
  | a :: as, u :: us => if a = u then a :: filterLoop as us else filterLoop as (u :: us)

/-- `ParsedArguments::filter_parsed_arguments`, ParsedArguments.cpp:137-157: the new `argv`
(up to the new `argc`). -/
def filterParsedArguments (argv unprocessed : List Str) : List Str :=
  match argv with
  | [] => []
  | [a] => [a]
  | a0 :: as => a0 :: filterLoop as unprocessed

end Argos
