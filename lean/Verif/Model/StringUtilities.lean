import Verif.Base

/-!
# Model of `src/Argos/StringUtilities.cpp`
-/

namespace Argos

/-- `are_equal_chars_ci`, StringUtilities.cpp:15-24. -/
def areEqualCharsCi (a b : UInt8) : Bool :=
  a == b ||
    ((a ^^^ b) == 32 && (decide (65 ≤ (a &&& 0xDF)) && decide ((a &&& 0xDF) ≤ 90)))

/-- `are_equal_ci`, StringUtilities.cpp:26-31 (`std::equal` calls the predicate
with the character of `str2` first). -/
def areEqualCi : Str → Str → Bool
  | [], [] => true
  | a :: s, b :: t => areEqualCharsCi b a && areEqualCi s t
  | _, _ => false

/-- `are_equal`, StringUtilities.cpp:33-39. -/
def areEqual (s t : Str) (ci : Bool) : Bool :=
  if ci then areEqualCi s t else s == t

/-- `starts_with(str, prefix)`, StringUtilities.cpp:41-46. -/
def startsWithCs : Str → Str → Bool
  | _, [] => true
  | [], _ :: _ => false
  | a :: s, b :: t => b == a && startsWithCs s t

/-- `starts_with_ci(str, prefix)`, StringUtilities.cpp:48-54. -/
def startsWithCi : Str → Str → Bool
  | _, [] => true
  | [], _ :: _ => false
  | a :: s, b :: t => areEqualCharsCi b a && startsWithCi s t

/-- `starts_with(str, prefix, case_insensitive)`, StringUtilities.cpp:56-62. -/
def startsWith (s t : Str) (ci : Bool) : Bool :=
  if ci then startsWithCi s t else startsWithCs s t

/-- Conversion of a (signed) `char` to `int`. -/
def charToInt (c : UInt8) : Int :=
  if c.toNat < 128 then c.toNat else (c.toNat : Int) - 256

/-- `compare_ci`, StringUtilities.cpp:64-73, applied to two characters
(`str1[i]`, `str2[i]` converted from `char` to `int`). -/
def compareCi (a b : UInt8) : Int :=
  if charToInt a = charToInt b then 0
  else
    let ic1 : Int := (a &&& 0xDF).toNat
    if ic1 < 65 ∨ 90 < ic1 then charToInt a - charToInt b
    else ic1 - ((b &&& 0xDF).toNat : Int)

/-- `is_less_ci`, StringUtilities.cpp:75-84: the first non-zero comparison decides,
otherwise the shorter string is less. -/
def isLessCi : Str → Str → Bool
  | a :: s, b :: t =>
    if compareCi a b ≠ 0 then decide (compareCi a b < 0) else isLessCi s t
  | [], _ :: _ => true
  | _, [] => false

/-- `operator<` of `std::string_view`: lexicographic on unsigned bytes. -/
def isLessCs : Str → Str → Bool
  | a :: s, b :: t => if a = b then isLessCs s t else decide (a.toNat < b.toNat)
  | [], _ :: _ => true
  | _, [] => false

/-- `is_less`, StringUtilities.cpp:86-92. -/
def isLess (s t : Str) (ci : Bool) : Bool :=
  if ci then isLessCi s t else isLessCs s t

/-- `s.substr(0, s.find(c))`: the part of the string before the first occurrence of `c`. -/
def beforeChar (c : UInt8) (s : Str) : Str := s.takeWhile (· != c)

/-- `s.find(c)` (`none` = `npos`). -/
def findChar (c : UInt8) : Str → Option Nat
  | [] => none
  | a :: s => if a = c then some 0 else (findChar c s).map (· + 1)

/-- The loop of `split_string`, StringUtilities.cpp:102-114, on the unread part of
the string; `left` is the number of further pieces that may be pushed before the rest
is taken as it is (`max_split - result.size()`). The loop is entered with `left ≥ 1`. -/
def splitLoop (delimiter : UInt8) : Str → Str → Nat → List Str
  | acc, [], _ => [acc.reverse]
  | acc, a :: s, left =>
    if a = delimiter then
      if left = 1 then [acc.reverse, s]
      else acc.reverse :: splitLoop delimiter [] s (left - 1)
    else splitLoop delimiter (a :: acc) s left

/-- `split_string(s, delimiter, max_split)`, StringUtilities.cpp:94-116.
A `max_split` that was computed as `size_t(0) - 1` in the caller is `2^64 - 1` here. -/
def splitString (s : Str) (delimiter : UInt8) (maxSplit : Nat) : List Str :=
  if maxSplit = 0 then [s] else splitLoop delimiter [] s maxSplit

/-- `get_base_name`, StringUtilities.cpp:118-122: the part after the last slash or backslash. -/
def getBaseName (s : Str) : Str :=
  (s.reverse.takeWhile (fun c => c != c!"/" && c != c!"\\")).reverse

/-- `get_code_point_length`, StringUtilities.cpp:124-140. -/
def getCodePointLength (c : UInt8) : Nat :=
  let u := c.toNat
  if u < 0x80 then 1
  else if u > 0xF7 then 0
  else match (u / 16) % 8 with
    | 7 => 4
    | 6 => 3
    | 5 => 2
    | 4 => 2
    | _ => 0

/-- `(uint8_t(c) & 0xC0) == 0x80`: a UTF-8 continuation byte. -/
def isContinuation (c : UInt8) : Bool := (c &&& 0xC0) == 0x80

/-- The loop of `count_code_points`, StringUtilities.cpp:146-164; `none` means that
the function returned `str.size()` from inside the loop. -/
def countLoop : Str → Nat → Nat → Option Nat
  | [], count, _ => some count
  | c :: s, count, charLen =>
    if charLen = 0 then
      if getCodePointLength c = 0 then none
      else countLoop s (count + 1) (getCodePointLength c - 1)
    else if isContinuation c then countLoop s count (charLen - 1)
    else none

/-- `count_code_points`, StringUtilities.cpp:142-166. -/
def countCodePoints (s : Str) : Nat := (countLoop s 0 0).getD s.length

/-- The loop of `find_nth_code_point`, StringUtilities.cpp:174-195 (result `none` = `npos`). -/
def findNthLoop (n : Nat) : Str → (i count charLen : Nat) → Option Nat
  | [], _, _, charLen => if charLen ≠ 0 then some n else none
  | c :: s, i, count, charLen =>
    if charLen = 0 then
      if count = n then some i
      else if getCodePointLength c = 0 then some n
      else findNthLoop n s (i + 1) (count + 1) (getCodePointLength c - 1)
    else if isContinuation c then findNthLoop n s (i + 1) count (charLen - 1)
    else some n

/-- `find_nth_code_point`, StringUtilities.cpp:168-196. -/
def findNthCodePoint (s : Str) (n : Nat) : Option Nat :=
  if n ≥ s.length then none else findNthLoop n s 0 0 0

/-- `to_lower(char)`, StringUtilities.cpp:198-201. The comparison is on signed
characters, which for the range A-Z is the same as on bytes. -/
def toLowerChar (c : UInt8) : UInt8 :=
  if 65 ≤ c.toNat ∧ c.toNat ≤ 90 then c + 32 else c

/-- `to_lower(std::string)`, StringUtilities.cpp:203-214. -/
def toLower (s : Str) : Str := s.map toLowerChar

/-- `is_lower`, StringUtilities.cpp:216-222. -/
def isLower (s : Str) : Bool := s.all (fun c => decide (¬ (65 ≤ c.toNat ∧ c.toNat ≤ 90)))

end Argos
