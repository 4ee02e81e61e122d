import Verif.Spec.Line
import Verif.Spec.Trace

/-!
# Several flags in one argument, and spellings of options
-/

namespace Argos

open Spec

/-- The flags that are read from the characters `w` are flags of options: reading ends with an option that takes the rest as its value or
one that changes how the rest is read. -/
def FlagsKnown (look : Str → Option OptData) : (w : Str) → Prop
  | [] => True
  | c :: w => ∃ o, look [c!"-", c] = some o ∧ (NeedsValue o ∨ o.type ≠ .normal ∨ FlagsKnown look w)

/-- The flag `-p` and then the flags `w`, in one argument or in two. -/
inductive Bunched (p : UInt8) (w : Str) : (words : List Str) → Prop
  /-- `-pw` -/
  | together : Bunched p w [c!"-" :: p :: w]
  /-- `-p -w` -/
  | apart : Bunched p w [[c!"-", p], c!"-" :: w]

/-- The arguments are a flag and a value in the STANDARD style; `flag` is the flag as it is read. -/
inductive Spelled (value : Str) : (words : List Str) → (flag : Str) → Prop
  /-- `--flag=V` -/
  | equals (f : Str) : c!"=" ∉ f → Spelled value [b!"--" ++ f ++ b!"=" ++ value] (b!"--" ++ f ++ b!"=")
  /-- `--flag V` -/
  | long (f : Str) : c!"=" ∉ f → Spelled value [b!"--" ++ f, value] (b!"--" ++ f)
  /-- `-fV` -/
  | joined (f : UInt8) : f ≠ c!"-" → value ≠ [] → Spelled value [c!"-" :: f :: value] [c!"-", f]
  /-- `-f V` -/
  | short (f : UInt8) : Spelled value [[c!"-", f], value] [c!"-", f]

end Argos
