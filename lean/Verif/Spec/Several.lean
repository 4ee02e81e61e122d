import Verif.Spec.Grammar

/-!
# Command lines with several sub-commands

The grammar of `Verif.Spec.Grammar` for parsers with commands that allow several sub-commands: the line may go on with
a further sub-command of the nearest enclosing command that allows several. What has been given so far to the commands that are being
read is an `Open`.
-/

namespace Argos.Spec

/-- The nearest command around the active one that allows several sub-commands. -/
def Open.several (st : Open) : Option Command := (st.tail.map Tree.command).find? (·.multiCommand)

/-- Every mandatory option has a value and no sub-command is missing. -/
structure CompleteWith (c : Command) (occs : List Occ) (subs : List (Tree (List Occ))) : Prop where
  mandatory : ∀ o ∈ c.options, o.optional = false → valuesOf occs o.valueId ≠ []
  subcommand : c.requireSubcommand = some true → subs ≠ []

section
variable (style : OptionStyle) (names : Command → Str → OptData → Prop) (subs : Command → Str → Command → Prop)

/-- The text names a further sub-command. -/
def NamesNext (st : Open) (q : Str) (c' : Command) : Prop := ∃ m, st.several = some m ∧ subs m q c'

/-- Each of the arguments is one of the command's arguments, rather than the name of a further sub-command: it doesn't name
one, or the command had not got the arguments that it must have. -/
def Kept (st : Open) (c : Command) (ps : List Piece) : Prop :=
  ∀ before v after, ps = before ++ .argument v :: after → minTotal c.arguments ≤ argPieces before → ∀ c', ¬ NamesNext subs st v c'

/-- The line goes on with a further sub-command; what is left is for that one. -/
inductive GoesOnTo (st : Open) : Line → Command → Line → Prop
  | command {r : Reader} {x : Reading} {c' : Command} : r.readIn style = some x → ¬ IsFlag style x.flag →
      NamesNext subs st x.flag c' → GoesOnTo st (.mixed r) c' (.mixed x.afterFlag)
  | plainCommand {v : Str} {rest : List Str} {c' : Command} : NamesNext subs st v c' →
      GoesOnTo st (.plain (v :: rest)) c' (.mixed ⟨[], rest⟩)

variable (ok : Command → Nat → Prop)

/-- The line is well-formed for the commands being read (the active one first), and these are the results. What else must be true of a command and
the number of its arguments is a parameter. -/
inductive AcceptsMany : Open → Line → List IterResult → Prop
  /-- The line ends in the active command. (An option that ends the arguments of a command ends the line only if there is no
  command that allows several sub-commands around it.) -/
  | last {c : Command} {occs : List Occ} {ts : List (Tree (List Occ))} {rest : Open} {l l' : Line} {ps : List Piece} {ks : List Nat} :
      WrittenAll style names c l ps l' → l'.AtEnd style → (∀ x, l' = .closed x → Open.several (.node c occs ts :: rest) = none) →
      Kept subs (.node c occs ts :: rest) c ps → IsAllotment c.arguments (argPieces ps) ks → ok c (argPieces ps) →
      CompleteWith c (occs ++ (report ps (handedOut c.arguments ks)).filterMap occOf) ts →
      AcceptsMany (.node c occs ts :: rest) l (report ps (handedOut c.arguments ks))
  /-- The line goes on with a sub-command of the active command. -/
  | sub {c c' : Command} {occs : List Occ} {ts : List (Tree (List Occ))} {rest : Open} {l l1 l2 : Line} {ps : List Piece} {rs : List IterResult} :
      WrittenAll style names c l ps l1 → Enters style subs c l1 c' l2 →
      AcceptsMany (.node c' [] [] :: .node c (occs ++ (report ps []).filterMap occOf) ts :: rest) l2 rs →
      AcceptsMany (.node c occs ts :: rest) l (report ps [] ++ .command c' [] :: rs)
  /-- The line goes on with a further sub-command of a command around the active one. (As for a command that is left for one of its own
  sub-commands, whether the mandatory options of the command that is left are there isn't part of this: see `C24_violated`.) -/
  | next {c c' : Command} {occs : List Occ} {ts : List (Tree (List Occ))} {rest st' : Open} {l l1 l2 : Line} {ps : List Piece} {ks : List Nat}
      {rs : List IterResult} : c.commands = [] → WrittenAll style names c l ps l1 → Kept subs (.node c occs ts :: rest) c ps →
      IsAllotment c.arguments (argPieces ps) ks → ok c (argPieces ps) → GoesOnTo style subs (.node c occs ts :: rest) l1 c' l2 →
      Open.back (.node c (occs ++ (report ps (handedOut c.arguments ks)).filterMap occOf) ts :: rest) = some st' →
      AcceptsMany (.node c' [] [] :: st') l2 rs →
      AcceptsMany (.node c occs ts :: rest) l (report ps (handedOut c.arguments ks) ++ .command c' [] :: rs)
  /-- An option ends the arguments of the active command, but only sub-commands of a command around it may follow. -/
  | closed {c : Command} {occs : List Occ} {ts : List (Tree (List Occ))} {rest st' : Open} {l : Line} {r : Reader} {x : Reading}
      {ps : List Piece} {ks : List Nat} {o : OptData} {v : Str} {rs : List IterResult} : WrittenAll style names c l ps (.mixed r) →
      Kept subs (.node c occs ts :: rest) c ps → IsAllotment c.arguments (argPieces ps) ks → ok c (argPieces ps) → r.readIn style = some x → IsFlag style x.flag →
      names c x.flag o → x.valueFor o = some v → o.type = .lastArgument →
      CompleteWith c (occs ++ (report ps (handedOut c.arguments ks)).filterMap occOf ++ [.option o v]) ts →
      Open.back (.node c (occs ++ (report ps (handedOut c.arguments ks)).filterMap occOf ++ [.option o v]) ts :: rest) = some st' →
      AcceptsMany st' (.plain (x.plainBy o)) rs →
      AcceptsMany (.node c occs ts :: rest) l (report ps (handedOut c.arguments ks) ++ .option o (some v) :: rs)

end

/-- What the grammar is about: nothing is ignored, sensible declarations, and, if the case of letters doesn't matter, no flags that the
library's order of flags can't handle; in the SLASH and DASH styles, nothing after which only arguments or sub-commands may
follow (see `C04_violated`). -/
structure OrdinaryMany (d : ParserData) : Prop where
  style : d.settings.optionStyle = .standard ∨ ∀ c : Command, c.Within d.command → ∀ o ∈ c.options, o.type ≠ .lastOption ∧
    (o.type = .lastArgument → ∀ c' : Command, c'.Within d.command → c'.multiCommand = false)
  options : d.settings.ignoreUndefinedOptions = false
  arguments : d.settings.ignoreUndefinedArguments = false
  flags : ∀ c : Command, c.Within d.command → RegularFlags d.settings.caseInsensitive c.options
  counts : CountsOk d.command
  exclusive : Exclusive d.command

/-- The line is well-formed for the parser, and for each command on it and the number of its arguments `ok` holds; these are the results. -/
def _root_.Argos.ParserData.AcceptsManyIf (d : ParserData) (ok : Command → Nat → Prop) (args : List Str) (rs : List IterResult) : Prop :=
  Spec.AcceptsMany d.settings.optionStyle (Names d.settings.caseInsensitive d.settings.allowAbbreviatedOptions)
    (NamesCommand d.settings.caseInsensitive) ok (Open.start d.command) (.mixed ⟨[], args⟩) rs

/-- The line is well-formed for the parser, and these are the results. -/
def _root_.Argos.ParserData.AcceptsMany (d : ParserData) (args : List Str) (rs : List IterResult) : Prop := d.AcceptsManyIf (fun _ _ => True) args rs

/-- If the command's arguments have to be counted beforehand, and there are this many, there is one for the last argument, or it can't do without. -/
def ServedBy (c : Command) (n : Nat) : Prop := NeedsCount c → LastServed c.arguments n

end Argos.Spec
