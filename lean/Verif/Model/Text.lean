import Verif.Model.StringUtilities

/-!
# Model of the text formatting

`src/Argos/TextWriter.cpp`, `src/Argos/WordSplitter.cpp` and `src/Argos/TextFormatter.cpp`. The `unsigned` widths are
natural numbers: texts and widths are assumed to be shorter than 2^32. Writing to the stream is assumed to succeed.
-/

namespace Argos

/-- `std::string_view::substr(pos, n)`. -/
def substr (s : Str) (pos n : Nat) : Outcome Str := if pos > s.length then .outOfRange else .ok ((s.drop pos).take n)

/-- `std::string_view::substr(pos)`. -/
def substrFrom (s : Str) (pos : Nat) : Outcome Str := if pos > s.length then .outOfRange else .ok (s.drop pos)

/-! ### `TextWriter` -/

/-- The members of `TextWriter`, TextWriter.hpp:53-60; `out` is what has been written to the stream. -/
structure Writer where
  out : Str := []
  line : Str := []
  lineWidth : Nat
  cur : Nat := 0
  indent : Nat := 0
  spaces : Nat := 0
  deriving Repr, DecidableEq

namespace Writer

/-- `current_width`, TextWriter.cpp:86-89. -/
def currentWidth (w : Writer) : Nat := max w.cur w.indent + w.spaces

/-- `remaining_width`, TextWriter.cpp:91-94. -/
def remainingWidth (w : Writer) : Nat := w.lineWidth - min w.currentWidth w.lineWidth

/-- `set_indentation`, TextWriter.cpp:36-42. -/
def setIndentation (w : Writer) (n : Nat) : Writer := if n ≥ w.lineWidth then w else { w with indent := n }

/-- `set_spaces`, TextWriter.cpp:81-84. -/
def setSpaces (w : Writer) (n : Nat) : Writer := { w with spaces := n }

/-- The part of `write` that appends, TextWriter.cpp:51-54. -/
def append (w : Writer) (s : Str) : Writer :=
  { w with
    line := w.line ++ List.replicate (w.currentWidth - w.cur) c!" " ++ s
    spaces := 0
    cur := w.cur + (w.currentWidth - w.cur + countCodePoints s) }

/-- `write(str)`, TextWriter.cpp:44-56. -/
def write (w : Writer) (s : Str) : Bool × Writer :=
  if countCodePoints s > max w.currentWidth w.lineWidth - w.currentWidth then (false, w) else (true, w.append s)

/-- `flush`, TextWriter.cpp:65-69. -/
def flush (w : Writer) : Writer := { w with out := w.out ++ w.line, line := [] }

/-- `newline`, TextWriter.cpp:58-63. -/
def newline (w : Writer) : Writer := flush { w with line := w.line ++ [10], cur := 0 }

/-- `tab`, TextWriter.cpp:71-74. -/
def tab (w : Writer) : Writer := { w with spaces := w.spaces + (4 - w.currentWidth % 4) }

end Writer

/-! ### `WordSplitter` -/

/-- `WordSplitter::Split`, WordSplitter.hpp:33-37; the separator is a hyphen or none. -/
structure Split where
  index : Nat
  hyphen : Bool
  deriving Repr, DecidableEq

/-- `m_splits`, WordSplitter.hpp:38, as an association list. -/
abbrev Splitter := List (Str × List Split)

/-- `remove_punctuation`, WordSplitter.cpp:24-28. -/
def removePunctuation (word : Str) : Str :=
  (word.reverse.dropWhile fun c => b!".,;:!?()[]{}<>\"'`".contains c).reverse

namespace Splitter

/-- The loop of `add_word`, WordSplitter.cpp:35-43: `prev` is the character before and `n` the number of characters
that are no spaces (`pos - offset`). The message is without the rule. -/
def splitsOf : Str → (prev : Option UInt8) → (n : Nat) → Outcome (List Split)
  | [], _, n => .ok [⟨n, false⟩]
  | c :: s, prev, n =>
    if c = c!" " then
      match prev with
      | none => .throw b!"Invalid split rule"
      | some p =>
        if p = c!" " then .throw b!"Invalid split rule"
        else do
          let rest ← splitsOf s (some c) n
          pure (⟨n, p ≠ c!"-"⟩ :: rest)
    else splitsOf s (some c) (n + 1)

/-- `add_word`, WordSplitter.cpp:31-50. `std::map::insert` keeps an older rule. -/
def addWord (sp : Splitter) (rule : Str) : Outcome Splitter := do
  let splits ← splitsOf rule none 0
  let key := toLower (rule.filter (· ≠ c!" "))
  if (sp.lookup key).isSome then pure sp else pure (sp ++ [(key, splits)])

/-- `add_words`, WordSplitter.cpp:52-56. -/
def addWords (sp : Splitter) : List Str → Outcome Splitter
  | [] => .ok sp
  | r :: rs => do
    let sp' ← addWord sp r
    addWords sp' rs

/-- The loop of `split`, WordSplitter.cpp:68-79. -/
def splitLoop (word : Str) (start maxLength : Nat) : List Split → (prev : Split) → (length : Nat) → Outcome Split
  | [], prev, _ => .ok prev
  | s :: ss, prev, length =>
    if s.index < start + 1 then splitLoop word start maxLength ss prev length
    else do
      let piece ← substr word prev.index (s.index - prev.index)
      let length' := length + countCodePoints piece
      if length' + (if s.hyphen then 1 else 0) > maxLength then pure prev
      else splitLoop word start maxLength ss s length'

/-- `while (is_utf8_continuation(word[i])) --i;`, WordSplitter.cpp:101-105 and 112-116. Reading outside the word
(also after `i` wrapped around) is undefined. -/
def retreat (word : Str) : Nat → Outcome Nat
  | 0 =>
    match word[0]? with
    | none => .ub
    | some c => if isContinuation c then .ub else .ok 0
  | i + 1 =>
    match word[i + 1]? with
    | none => .ub
    | some c => if isContinuation c then retreat word i else .ok (i + 1)

/-- The retreat, unless the word has only one-byte characters up to there, WordSplitter.cpp:100-105 and 111-116. -/
def stepBack (word : Str) (ignoreUtf8 : Bool) (i : Nat) : Outcome Nat := if ignoreUtf8 then .ok i else retreat word i

/-- `isdigit` for an ASCII character. -/
def isDigit (c : UInt8) : Bool := 48 ≤ c && c ≤ 57

/-- `isalnum` for an ASCII character. -/
def isAlnum (c : UInt8) : Bool := isDigit c || (65 ≤ c && c ≤ 90) || (97 ≤ c && c ≤ 122)

/-- The loop of `default_rule`, WordSplitter.cpp:109-123: where to split and if with a hyphen. -/
def splitPoint (word : Str) (ignoreUtf8 : Bool) (minPos : Nat) : (count : Nat) → (index : Nat) → Outcome (Option Split)
  | 0, _ => .ok none
  | count + 1, index =>
    if count + 1 > minPos then
      match index with
      | 0 => .ub
      | i + 1 => do
        let index' ← stepBack word ignoreUtf8 i
        match index' with
        | 0 => .ub
        | j + 1 =>
          match word[j]?, word[j + 1]? with
          | some a, some b =>
            if a ≥ 127 || b ≥ 127 then splitPoint word ignoreUtf8 minPos count (j + 1)
            else if isAlnum a ≠ isAlnum b then pure (some ⟨j + 1, false⟩)
            else if isDigit a ≠ isDigit b then pure (some ⟨j + 1, true⟩)
            else splitPoint word ignoreUtf8 minPos count (j + 1)
          | _, _ => .ub
    else .ok none

/-- `default_rule`, WordSplitter.cpp:91-129. -/
def defaultRule (word : Str) (maxLength : Nat) : Outcome (Str × Bool × Str) :=
  if maxLength ≤ 2 then .ok ([], false, word)
  else
    match findNthCodePoint word maxLength with
    | none => .ok (word, false, [])
    | some p => do
      let ignoreUtf8 := decide (p = maxLength)
      let maxPos ← stepBack word ignoreUtf8 (p - 1)
      match ← splitPoint word ignoreUtf8 ((maxLength + 2) / 3) (maxLength - 1) maxPos with
      | some s => pure (word.take s.index, s.hyphen, word.drop s.index)
      | none => pure (word.take maxPos, true, word.drop maxPos)

/-- The end of `split`, WordSplitter.cpp:86-88. -/
def splitDefault (word : Str) (start maxLength : Nat) (mustSplit : Bool) : Outcome (Str × Bool × Str) :=
  if mustSplit then do
    let rest ← substrFrom word start
    defaultRule rest maxLength
  else .ok ([], false, word)

/-- `split`, WordSplitter.cpp:58-89. -/
def split (sp : Splitter) (word : Str) (start maxLength : Nat) (mustSplit : Bool) : Outcome (Str × Bool × Str) :=
  let key := removePunctuation word
  match sp.lookup (if isLower key then key else toLower key) with
  | some splits => do
    let prev ← splitLoop word start maxLength splits ⟨start, false⟩ 0
    if prev.index > start + 1 then do
      let first ← substr word start (prev.index - start)
      let rest ← substrFrom word prev.index
      pure (first, prev.hyphen, rest)
    else splitDefault word start maxLength mustSplit
  | none => splitDefault word start maxLength mustSplit

end Splitter

/-! ### `TextFormatter` -/

/-- `TextFormatter::State`, TextFormatter.hpp:67-73. -/
inductive AlignState where
  | noAlignment | alignment | unalignedMarker | alignedMarker
  deriving Repr, DecidableEq

/-- The members of `TextFormatter`, TextFormatter.hpp:64-74. `indents` is the vector from back to front. -/
structure Formatter where
  writer : Writer
  indents : List Nat := [0]
  splitter : Splitter := []
  state : AlignState := .noAlignment
  deriving Repr, DecidableEq

/-- `next_line`, TextFormatter.cpp:18-30. -/
def nextLine (text : Str) : Outcome (Str × Str) :=
  let line := text.takeWhile fun c => c ≠ 10 ∧ c ≠ 13
  match text.drop line.length with
  | [] => .ok (text, [])
  | c :: rest =>
    if c = 10 then .ok (line, rest)
    else
      match rest with
      -- `text.substr(pos + 2)` where `pos + 1` is the size
      | [] => .outOfRange
      | c' :: rest' => if c' ≠ 10 then .ok (line, rest) else .ok (line, rest')

/-- The kinds of tokens of `next_token`, TextFormatter.cpp:32-59: `'\t'`, `'\n'`, `' '` and `'A'`. -/
inductive TokenType where
  | tab | newline | space | word
  deriving Repr, DecidableEq

/-- `next_token`, TextFormatter.cpp:32-59, for a text that is not empty. -/
def nextToken (c : UInt8) (text : Str) : TokenType × Str × Str :=
  if c = 9 then (.tab, [c], text)
  else if c = 13 then
    match text with
    | 10 :: rest => (.newline, [13, 10], rest)
    | _ => (.newline, [c], text)
  else if c = 10 then (.newline, [c], text)
  else if c = 32 then
    let n := text.takeWhile (· = 32)
    (.space, c :: n, text.drop n.length)
  else
    let n := text.takeWhile fun c => c ≠ 9 ∧ c ≠ 13 ∧ c ≠ 10 ∧ c ≠ 32
    (.word, c :: n, text.drop n.length)

/-- `is_list_marker`, TextFormatter.cpp:61-73. (`isdigit` gets a `char`; for a negative one it is assumed to be false.) -/
def isListMarker (s : Str) : Bool :=
  match s with
  | [] => false
  | [c] => c == c!"-" || c == c!"*"
  | _ => s.getLast? == some c!"." && s.dropLast.all Splitter.isDigit

namespace Formatter

/-- `newline`, TextFormatter.cpp:175-179. -/
def newline (f : Formatter) : Formatter := { f with writer := f.writer.newline.setSpaces 0 }

/-- `push_indentation(indent)`, TextFormatter.cpp:108-117, for a number. -/
def pushIndentation (f : Formatter) (n : Nat) : Formatter :=
  { f with indents := n :: f.indents, writer := f.writer.setIndentation n }

/-- `push_indentation(CURRENT_COLUMN)`, TextFormatter.cpp:108-117. -/
def pushCurrent (f : Formatter) : Formatter :=
  { f with
    indents := f.writer.currentWidth :: f.indents
    writer := (f.writer.setSpaces 0).setIndentation f.writer.currentWidth }

/-- `pop_indentation`, TextFormatter.cpp:119-125. -/
def popIndentation (f : Formatter) : Outcome Formatter :=
  match f.indents with
  | _ :: n :: rest => .ok { f with indents := n :: rest, writer := f.writer.setIndentation n }
  | _ => .throw b!"No more indentations to pop."

/-- The loop of `append_word`, TextFormatter.cpp:208-245. -/
def appendLoop (word : Str) : (fuel : Nat) → Formatter → (remainder : Str) → Outcome Formatter
  | 0, _, _ => .diverges
  | fuel + 1, f, remainder =>
    match f.writer.write remainder with
    | (true, w) => .ok { f with writer := w }
    | (false, _) => do
      let (first, hyphen, rest) ← f.splitter.split word (word.length - remainder.length) f.writer.remainingWidth f.writer.line.isEmpty
      if first ≠ [] then
        -- the results of `write` are ignored
        let w1 := (f.writer.write first).2
        let w2 := if hyphen then (w1.write [c!"-"]).2 else w1
        appendLoop word fuel (newline { f with writer := w2 }) rest
      else if f.writer.line.isEmpty then
        if f.writer.spaces ≠ 0 then appendLoop word fuel { f with writer := f.writer.setSpaces 0 } remainder
        else pure { f with writer := f.writer.append remainder }
      else appendLoop word fuel f.newline remainder

/-- `append_word`, TextFormatter.cpp:208-245. The loop is bounded; see `C46` for why the bound is never reached. -/
def appendWord (f : Formatter) (word : Str) : Outcome Formatter := appendLoop word (3 * word.length + 3) f word

/-- `begin_alignment`, TextFormatter.cpp:247-261. -/
def beginAlignment (f : Formatter) : Outcome Formatter :=
  if f.writer.line.isEmpty || f.state = .unalignedMarker then .ok { f.pushCurrent with state := .alignment }
  else if f.state = .alignedMarker then do
    let f' ← f.popIndentation
    pure { f'.pushCurrent with state := .alignment }
  else .ok f

/-- `update_alignment`, TextFormatter.cpp:263-271. -/
def updateAlignment (f : Formatter) (token : Str) : Formatter :=
  if f.writer.line.isEmpty && isListMarker token then
    { f with state := if f.state = .alignment then .alignedMarker else .unalignedMarker }
  else f

/-- `end_alignment`, TextFormatter.cpp:273-280. -/
def endAlignment (f : Formatter) : Outcome Formatter :=
  if f.state = .alignment ∨ f.state = .alignedMarker then do
    let f' ← f.popIndentation
    pure { f' with state := .noAlignment }
  else .ok f

/-- One token of `write_words`, TextFormatter.cpp:132-153. -/
def writeToken (f : Formatter) (type : TokenType) (token : Str) : Outcome Formatter :=
  match type with
  | .tab => beginAlignment { f with writer := f.writer.tab }
  | .newline => do
    let f' ← f.endAlignment
    pure f'.newline
  | .space => beginAlignment { f with writer := f.writer.setSpaces token.length }
  | .word => appendWord (f.updateAlignment token) token

/-- The loop of `write_words`, TextFormatter.cpp:127-157. -/
def wordsLoop : (fuel : Nat) → Formatter → Str → Outcome Formatter
  | _, f, [] => f.endAlignment
  | 0, _, _ => .diverges
  | fuel + 1, f, c :: text => do
    let (type, token, remainder) := nextToken c text
    let f' ← f.writeToken type token
    wordsLoop fuel f' remainder

/-- `write_words`, TextFormatter.cpp:127-157. Every token takes at least one character, so that the bound is never reached. -/
def writeWords (f : Formatter) (text : Str) : Outcome Formatter := wordsLoop text.length f text

/-- `if (!line.empty()) append_word(line)`, TextFormatter.cpp:165-166. -/
def appendLine (f : Formatter) (line : Str) : Outcome Formatter := if line ≠ [] then f.appendWord line else pure f

/-- The loop of `write_lines`, TextFormatter.cpp:161-170. -/
def linesLoop : (fuel : Nat) → Formatter → Str → Outcome Formatter
  | _, f, [] => .ok f
  | 0, _, _ => .diverges
  | fuel + 1, f, text => do
    let (line, rem) ← nextLine text
    let f1 ← f.appendLine line
    let f2 := if rem ≠ [] then f1.newline else f1
    linesLoop fuel f2 rem

/-- `write_lines`, TextFormatter.cpp:159-173. -/
def writeLines (f : Formatter) (text : Str) : Outcome Formatter := do
  let f' ← linesLoop text.length f text
  pure (if text.getLast? = some 10 ∨ text.getLast? = some 13 then f'.newline else f')

end Formatter

end Argos
