import Verif.Spec.Grammar

/-!
# Command lines as sequences of phrases

A phrase is the part of a command line that says one thing: an option with its value, or an
argument. The order of phrases matters only as far as they concern the same values.
-/

namespace Argos.Spec

section
variable (style : OptionStyle) (names : Command → Str → OptData → Prop) (subs : Command → Str → Command → Prop)

/-- The words say this piece and nothing else, whatever follows them. -/
def Says (c : Command) (words : List Str) (p : Piece) : Prop :=
  ∀ rest, Written style names c (.mixed ⟨[], words ++ rest⟩) p (.mixed ⟨[], rest⟩)

/-- Words and the piece they say. -/
abbrev Phrase := List Str × Piece

/-- The words of the phrases. -/
def wordsOf (us : List Phrase) : List Str := us.flatMap (·.1)

/-- The words lead from one command into another one: phrases for each command, and the name of a sub-command. -/
inductive LeadsTo : Command → List Str → Command → Prop
  | here {c : Command} : LeadsTo c [] c
  | enter {c c1 c' : Command} {us : List Phrase} {name : Str} {pre : List Str} : (∀ u ∈ us, Says style names c u.1 u.2) → ¬ IsFlag style name →
      c.commands ≠ [] → subs c name c1 → LeadsTo c1 pre c' → LeadsTo c (wordsOf us ++ name :: pre) c'

end

/-- A flag that can be an argument of its own: a single character in the STANDARD style, or a long flag, without `=` in it. -/
def WholeFlag (style : OptionStyle) (f : Str) : Prop :=
  IsFlag style f ∧ (style = .standard → f.length = 2 ∨ f[1]? = some c!"-") ∧ (f.length = 2 ∨ c!"=" ∉ f)

instance (style : OptionStyle) (f : Str) : Decidable (WholeFlag style f) := inferInstanceAs (Decidable (_ ∧ _))

/-- The texts of the arguments. -/
def argumentTexts (ps : List Piece) : List Str :=
  ps.filterMap fun p => match p with
    | .argument v => some v
    | _ => none

/-- What is done to the value with the given id: the options, with their texts. -/
def optionsFor (id : Nat) (ps : List Piece) : List (OptData × Str) :=
  ps.filterMap fun p => match p with
    | .option o v => if o.operation ≠ .none ∧ o.valueId = id then some (o, v) else none
    | _ => none

/-- The same arguments in the same order, and for each value the same options in the same order. -/
structure SameContent (ps qs : List Piece) : Prop where
  arguments : argumentTexts ps = argumentTexts qs
  options : ∀ id, optionsFor id ps = optionsFor id qs

/-- No option that is written changes the values of an argument. -/
def OwnValues (c : Command) (ps : List Piece) : Prop :=
  ∀ o v, .option o v ∈ ps → o.operation ≠ .none → ∀ a ∈ c.arguments, a.valueId ≠ o.valueId

end Argos.Spec

namespace Argos
open Spec

/-- The words say this piece to a command of the parser. -/
def ParserData.Says (d : ParserData) (c : Command) (words : List Str) (p : Piece) : Prop :=
  Spec.Says d.settings.optionStyle (Names d.settings.caseInsensitive d.settings.allowAbbreviatedOptions) c words p

/-- The words lead from the program to a command of the parser. -/
def ParserData.LeadsTo (d : ParserData) (words : List Str) (c : Command) : Prop :=
  Spec.LeadsTo d.settings.optionStyle (Names d.settings.caseInsensitive d.settings.allowAbbreviatedOptions) (NamesCommand d.settings.caseInsensitive)
    d.command words c

end Argos
