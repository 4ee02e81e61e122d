import Verif.Spec.Grammar

/-!
# What one may want to say on a command line

A wish is a choice of options with values, arguments and sub-commands; `Wish.words` is a way to write it down, in terms of the
declarations only.
-/

namespace Argos.Spec

/-- An option that is wanted, by one of its flags and with a value. -/
structure Wanted where
  option : OptData
  flag : Str
  value : Str

/-- Ends with `=` and has more than two characters, so that the value is written in the same argument. -/
def EndsWithEqual (f : Str) : Prop := 2 < f.length ∧ f.getLast? = some c!"="

instance (f : Str) : Decidable (EndsWithEqual f) := inferInstanceAs (Decidable (_ ∧ _))

/-- How it is written. -/
def Wanted.words (w : Wanted) : List Str :=
  if NeedsValue w.option then if EndsWithEqual w.flag then [w.flag ++ w.value] else [w.flag, w.value] else [w.flag]

/-- What is wanted: options, and then, possibly after an option that says that only arguments follow, arguments; or options and then a sub-command with
what is wanted of it. -/
inductive Wish where
  | here (options : List Wanted) (marker : Option Wanted) (arguments : List (ArgData × Str))
  | within (options : List Wanted) (sub : Command) (wish : Wish)

/-- How it is written. -/
def Wish.words : Wish → List Str
  | .here os m as => os.flatMap Wanted.words ++ m.toList.flatMap Wanted.words ++ as.map (·.2)
  | .within os c w => os.flatMap Wanted.words ++ c.name :: w.words

/-- What is to be found in the parsed arguments. -/
def Wish.tree (c : Command) (occs : List Occ) : Wish → Tree (List Occ)
  | .here os m as => .node c (occs ++ (os ++ m.toList).map (fun w => .option w.option w.value) ++ as.map (fun a => .argument a.1 a.2)) []
  | .within os c' w => .node c (occs ++ os.map (fun w => .option w.option w.value)) [w.tree c' []]

/-- The option is declared for the command, has this flag, and gets a value only if it has one. -/
structure Wanted.Declared (c : Command) (w : Wanted) : Prop where
  option : w.option ∈ c.options
  flag : w.flag ∈ w.option.flags
  value : ¬ NeedsValue w.option → w.value = []

/-- The wish is about what has been declared. -/
inductive Wish.Declared (style : OptionStyle) (ci : Bool) : Command → List Occ → Wish → Prop
  /-- Each argument gets the values that it is allotted, and nothing mandatory is missing; an argument that looks like an option comes after a marker, which
  takes no value. -/
  | here {c : Command} {occs : List Occ} {os : List Wanted} {m : Option Wanted} {as : List (ArgData × Str)} {ks : List Nat} :
      (∀ w ∈ os, w.Declared c ∧ w.option.type = .normal) →
      (∀ w ∈ m, w.Declared c ∧ w.option.type = .lastOption ∧ ¬ NeedsValue w.option ∧ w.option.argument = []) →
      (m = none → ∀ a ∈ as, ¬ IsFlag style a.2) →
      IsAllotment c.arguments as.length ks → as.map (·.1) = handedOut c.arguments ks →
      Complete c (occs ++ (os ++ m.toList).map (fun w => .option w.option w.value) ++ as.map (fun a => .argument a.1 a.2)) →
      Declared style ci c occs (.here os m as)
  /-- The sub-command is the (first) one with its name, and the name doesn't look like an option. -/
  | within {c c' : Command} {occs : List Occ} {os : List Wanted} {w : Wish} :
      (∀ w ∈ os, w.Declared c ∧ w.option.type = .normal) → NamesCommand ci c c'.name c' → ¬ IsFlag style c'.name →
      Declared style ci c' [] w → Declared style ci c occs (.within os c' w)

end Argos.Spec
