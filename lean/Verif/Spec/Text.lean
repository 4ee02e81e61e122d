import Verif.Spec.Strings
import Verif.Model.Text

/-! # Specifications about text formatting -/

namespace Argos.Spec

/-- A valid UTF-8 string. -/
def Utf8 (s : Str) : Prop := ∃ cps, IsText cps ∧ s = encodeText cps

/-- The number of characters of a line: the bytes that don't continue a code point. For a valid UTF-8 string it is the
number of code points. -/
def glyphs (s : Str) : Nat := s.countP fun c => c.toNat / 64 ≠ 2

/-- White space: space, tab, line feed and carriage return. -/
def isBlank (c : UInt8) : Prop := c = 32 ∨ c = 9 ∨ c = 10 ∨ c = 13

/-- What a word may end with. -/
def isPunctuation (c : UInt8) : Prop := c ∈ b!".,;:!?()[]{}<>\"'`"

/-- The word that a rule for splitting is about: the rule without its spaces. -/
def unbroken (rule : Str) : Str := rule.filter (· ≠ 32)

/-- The rule is about the word, upper and lower case and the punctuation at the end of the word aside. -/
def RuleFor (rule word : Str) : Prop :=
  ∃ w p, word = w ++ p ∧ (∀ c ∈ p, isPunctuation c) ∧ (∀ c, w.getLast? = some c → ¬ isPunctuation c) ∧ foldCase (unbroken rule) = foldCase w

/-- A rule allows to split its word at the position, with or without a hyphen: where the rule has a space, with a hyphen unless there is one in the
word, and at the end (before the punctuation), without. -/
inductive MaySplit (rule : Str) : (position : Nat) → (hyphen : Bool) → Prop
  | space {a b : Str} : rule = a ++ 32 :: b → MaySplit rule (unbroken a).length (a.getLast? ≠ some 45)
  | atEnd : MaySplit rule (unbroken rule).length false

/-- The width of the part of a word between two positions, with its hyphen. -/
def partWidth (word : Str) (a b : Nat) (hyphen : Bool) : Nat := glyphs ((word.take b).drop a) + if hyphen then 1 else 0

/-- `Reflow s t`: the text `t` is `s` with other white space and with hyphens inserted at ends of lines. No other character
is added, lost or moved. -/
inductive Reflow : Str → Str → Prop
  | nil : Reflow [] []
  | keep (c : UInt8) {s t : Str} : Reflow s t → Reflow (c :: s) (c :: t)
  | drop {c : UInt8} {s t : Str} : isBlank c → Reflow s t → Reflow (c :: s) t
  | add {c : UInt8} {s t : Str} : isBlank c → Reflow s t → Reflow s (c :: t)
  | hyphen {s t : Str} : Reflow s t → Reflow s (c!"-" :: 10 :: t)

/-- The lines of a text: what is between the line feeds. -/
def linesOf : Str → List Str
  | [] => [[]]
  | c :: s => if c = 10 then [] :: linesOf s else
    match linesOf s with
    | [] => [[c]]
    | l :: ls => (c :: l) :: ls

/-- A line has at most the given width, or its indentation leaves two columns or less. -/
def LineFits (width : Nat) (l : Str) : Prop := glyphs l ≤ width ∨ ∃ t, l = List.replicate (width - 2) 32 ++ t

/-- The lines of a text, each of which ends with a line feed, a carriage return or both. -/
def textLines : Str → List Str
  | [] => [[]]
  | 13 :: 10 :: s => [] :: textLines s
  | c :: s => if c = 10 ∨ c = 13 then [] :: textLines s else
    match textLines s with
    | [] => [[c]]
    | l :: ls => (c :: l) :: ls

/-- The lines with line feeds between them. -/
def joinLines : List Str → Str
  | [] => []
  | [l] => l
  | l :: ls => l ++ 10 :: joinLines ls

/-- An indented line; empty lines are left empty. -/
def indented (n : Nat) (l : Str) : Str := if l = [] then [] else List.replicate n 32 ++ l

/-- The white space at the beginning of a text, up to the end of the line. -/
def leading (s : Str) : Str := s.takeWhile fun c => c = 32 ∨ c = 9

/-- Lines of the text are indented by spaces or by a single tab. -/
def Tidy (text : Str) : Prop := ∀ a b : Str, text = a ++ b → (a = [] ∨ a.getLast? = some 10 ∨ a.getLast? = some 13) →
  (∀ c ∈ leading b, c = 32) ∨ leading b = [9]

end Argos.Spec

namespace Argos

/-- The operations of a text formatter. -/
inductive FormatOp where
  | words (s : Str)
  | lines (s : Str)
  | newline
  | push (n : Nat)
  | pushCurrent
  | pop
  deriving Repr, DecidableEq

/-- The text that is given to an operation. -/
def FormatOp.text : FormatOp → Str
  | .words s => s
  | .lines s => s
  | _ => []

/-- The operations are executed; the first exception ends the sequence. -/
def FormatOp.exec (f : Formatter) : FormatOp → Outcome Formatter
  | .words s => f.writeWords s
  | .lines s => f.writeLines s
  | .newline => .ok f.newline
  | .push n => .ok (f.pushIndentation n)
  | .pushCurrent => .ok f.pushCurrent
  | .pop => f.popIndentation

def FormatOp.run (f : Formatter) : List FormatOp → Outcome Formatter
  | [] => .ok f
  | op :: ops => do
    let f' ← op.exec f
    run f' ops

/-- Everything written so far: what was passed to the stream and what is left in the line buffer. -/
def Formatter.written (f : Formatter) : Str := f.writer.out ++ f.writer.line

/-- A new formatter. -/
def Formatter.fresh (lineWidth : Nat) (splitter : Splitter) : Formatter := { writer := { lineWidth }, splitter }

end Argos
