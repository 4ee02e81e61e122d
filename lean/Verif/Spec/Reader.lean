import Verif.Model.Data

/-!
# Specification of reading a command line

The state is what has not been read yet: the concatenated short flags left in the current argument
and the arguments after it.
-/

namespace Argos.Spec

/-- What is still to be read. -/
structure Reader where
  /-- Short flag characters of the current argument that have not been read. -/
  pending : Str
  /-- The arguments after the current one. -/
  rest : List Str
  deriving Repr, DecidableEq

/-- The result of reading a flag: the flag, the value that belongs to it if it takes one, and what
is left after the flag only, and after flag and value. -/
structure Reading where
  flag : Str
  value : Option Str
  afterFlag : Reader
  afterValue : Reader
  deriving Repr, DecidableEq

/-- Divides an argument after its first '='. -/
def cutAfterEqual (a : Str) : Option (Str × Str) :=
  match a.dropWhile (· != c!"=") with
  | [] => none
  | e :: v => some (a.takeWhile (· != c!"=") ++ [e], v)

/-- The flag is a whole argument; its value is the next argument. -/
def wholeFlag (flag : Str) (rest : List Str) : Reading :=
  { flag, value := rest.head?, afterFlag := ⟨[], rest⟩, afterValue := ⟨[], rest.tail⟩ }

/-- One flag of several concatenated ones; its value is the rest of the argument, if any. -/
def shortFlag (c : UInt8) (cs : Str) (rest : List Str) : Reading :=
  if cs = [] then wholeFlag [c!"-", c] rest
  else { flag := [c!"-", c], value := some cs, afterFlag := ⟨cs, rest⟩, afterValue := ⟨[], rest⟩ }

/-- A flag with `=`; its value is the rest of the argument. -/
def equalFlag (flag value : Str) (rest : List Str) : Reading :=
  { flag, value := some value, afterFlag := ⟨[], rest⟩, afterValue := ⟨[], rest⟩ }

/-- Read the next flag (or plain argument) in the STANDARD style. -/
def Reader.readStandard (r : Reader) : Option Reading :=
  match r.pending, r.rest with
  | c :: cs, rest => some (shortFlag c cs rest)
  | [], [] => none
  | [], a :: rest =>
    match a with
    | d :: c :: x :: xs =>
      if d ≠ c!"-" then some (wholeFlag a rest)
      else if c ≠ c!"-" then some (shortFlag c (x :: xs) rest)
      else match cutAfterEqual a with
        | some (flag, value) => some (equalFlag flag value rest)
        | none => some (wholeFlag a rest)
    | _ => some (wholeFlag a rest)

/-- Read the next flag (or plain argument) in the SLASH or DASH style. -/
def Reader.readPrefixed (pfx : UInt8) (r : Reader) : Option Reading :=
  match r.rest with
  | [] => none
  | a :: rest =>
    if a.length > 2 ∧ a.head? = some pfx then
      match cutAfterEqual a with
      | some (flag, value) => some (equalFlag flag value rest)
      | none => some (wholeFlag a rest)
    else some (wholeFlag a rest)

/-- `prefix = none`: STANDARD. -/
def Reader.read (pfx : Option UInt8) (r : Reader) : Option Reading :=
  match pfx with
  | none => r.readStandard
  | some c => r.readPrefixed c

/-- The arguments that have not been read; pending short flags get their dash back. -/
def Reader.unread (r : Reader) : List Str :=
  if r.pending = [] then r.rest else (c!"-" :: r.pending) :: r.rest

/-- What the user of an iterator can do. -/
inductive ReadOp where
  | flag
  | flagAndValue
  | insert (new : List Str)
  | remaining
  deriving Repr, DecidableEq

/-- What the user observes. -/
inductive ReadOut where
  | flag (f : Option Str)
  | flagAndValue (f : Option Str) (v : Option Str)
  | inserted
  | remaining (args : List Str)
  deriving Repr, DecidableEq

/-- One operation. -/
def Reader.step (pfx : Option UInt8) (r : Reader) : ReadOp → ReadOut × Reader
  | .flag =>
    match r.read pfx with
    | none => (.flag none, r)
    | some x => (.flag (some x.flag), x.afterFlag)
  | .flagAndValue =>
    match r.read pfx with
    | none => (.flagAndValue none none, r)
    | some x => (.flagAndValue (some x.flag) x.value, x.afterValue)
  | .insert new => (.inserted, ⟨[], new ++ r.unread⟩)
  | .remaining => (.remaining r.unread, ⟨[], r.unread⟩)

/-- A history of operations. -/
def Reader.run (pfx : Option UInt8) (r : Reader) : List ReadOp → List ReadOut × Reader
  | [] => ([], r)
  | op :: ops =>
    let (o, r') := r.step pfx op
    let (os, r'') := r'.run pfx ops
    (o :: os, r'')

/-- The flags of one argument in the STANDARD style. -/
def standardTokens (a : Str) : List Str :=
  match a with
  | d :: c :: x :: xs =>
    if d ≠ c!"-" then [a]
    else if c ≠ c!"-" then (c :: x :: xs).map fun y => [c!"-", y]
    else match cutAfterEqual a with
      | some (flag, _) => [flag]
      | none => [a]
  | _ => [a]

/-- The flags of one argument in the SLASH or DASH style. -/
def prefixedTokens (pfx : UInt8) (a : Str) : List Str :=
  if a.length > 2 ∧ a.head? = some pfx then
    match cutAfterEqual a with
    | some (flag, _) => [flag]
    | none => [a]
  else [a]

/-- The flags of one argument. -/
def argTokens (pfx : Option UInt8) (a : Str) : List Str :=
  match pfx with
  | none => standardTokens a
  | some c => prefixedTokens c a

end Argos.Spec

namespace Argos

/-- The prefix character of an option style, `none` for STANDARD. -/
def stylePrefix : OptionStyle → Option UInt8
  | .standard => none
  | .slash => some c!"/"
  | .dash => some c!"-"

/-- Read the next flag (or plain argument). -/
def Spec.Reader.readIn (style : OptionStyle) (r : Spec.Reader) : Option Spec.Reading := r.read (stylePrefix style)

end Argos
