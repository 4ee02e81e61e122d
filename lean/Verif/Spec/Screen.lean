import Verif.Spec.Help
import Verif.Spec.Calls
import Verif.Spec.Trace
import Verif.Spec.Tree
import Verif.Model.Screen

/-!
# What a user sees

Which settings let texts be written, how wide they are, and what is written for a command line, in terms of
the results that `next()` returns.
-/

namespace Argos.Spec

/-- A rule for splitting words: the parts are separated by single spaces, and there is something before the
first space. -/
def GoodRule (rule : Str) : Prop := (¬ ∃ t, rule = b!" " ++ t) ∧ ¬ ∃ s t, rule = s ++ b!"  " ++ t

/-- Settings with which something can be written. -/
structure Writable (h : HelpSettings) : Prop where
  width : h.lineWidth ≠ 1 ∧ h.lineWidth ≠ 2
  rules : ∀ r ∈ h.wordSplitRules, GoodRule r

/-- A parser whose texts can be written: the settings are fine, the rules are text, and no name ends with a
carriage return. -/
structure CanWrite (d : ParserData) : Prop where
  settings : Writable d.helpSettings
  rules : ∀ r ∈ d.helpSettings.wordSplitRules, Utf8 r
  names : ∀ c : Command, c.Within d.command → NoReturn c

/-- The number of columns, given the setting and the width of the terminal (0 if unknown). -/
inductive Width (terminal : Nat) : (lineWidth : Nat) → Nat → Prop
  | chosen {n : Nat} : n ≠ 0 → Width terminal n n
  | unknown : terminal = 0 → Width terminal 0 80
  | narrow : terminal ≠ 0 → terminal < 32 → Width terminal 0 32
  | terminal : 32 ≤ terminal → Width terminal 0 terminal

/-- The things that are written. -/
inductive Notice where
  | version
  | help (cmd : Command)
  | error (cmd : Command) (msg : Str)

/-- How they look and where they are written. -/
inductive Notice.Looks (sc : Screen) (d : ParserData) (width : Nat) : Notice → Stream × Str → Prop
  | version : Looks sc d width .version (if sc.custom then .custom else .stdout, d.command.name ++ b!" " ++ d.version ++ b!"\n")
  | help {cmd : Command} {text : Str} : Laid (helpBlocks sc.texts cmd) text → (∀ l ∈ linesOf text, LineFits width l) →
      Looks sc d width (.help cmd) (if sc.custom then .custom else .stdout, text)
  | error {cmd : Command} {msg text : Str} : Laid (errorBlocks sc.texts cmd msg) text → (∀ l ∈ linesOf text, LineFits width l) →
      Looks sc d width (.error cmd msg) (if sc.custom then .custom else .stderr, text)

/-- The number of the version option's callback is used for nothing else. -/
structure OwnCallbacks (d : ParserData) : Prop where
  options : ∀ c : Command, c.Within d.command → ∀ o ∈ c.options, o.callback ≠ some versionCallback
  arguments : ∀ c : Command, c.Within d.command → ∀ a ∈ c.arguments, a.callback ≠ some versionCallback
  settings : d.settings.optionCallback ≠ some versionCallback ∧ d.settings.argumentCallback ≠ some versionCallback

/-- The command that is being read after the results. -/
def activeCommand (root : Command) (rs : List IterResult) : Command :=
  match Open.after root rs with
  | t :: _ => t.command
  | [] => root

/-- What the user is shown for an option given to the command `cmd`. -/
def shownFor (cmd : Command) (o : OptData) : List Notice :=
  if o.callback = some versionCallback then [.version] else if o.type = .help then [.help cmd] else []

/-- What the user is shown for the last of the results. -/
def shownAtEnd (cmd : Command) (rs : List IterResult) : List Notice :=
  match rs.getLast? with
  | some (.option o _) => shownFor cmd o
  | _ => []

/-- `parse`, allowed `fuel` calls of `next()`, gets the results `rs`, and then nothing or the last result. -/
def Gets (env : Env) (d : ParserData) (args : List Str) (fuel : Nat) (rs : List IterResult) : Prop :=
  ∃ s, Trace env (Parser.start d args).2 rs s ∧ (∀ r ∈ rs, ¬ r.IsLast) ∧
    (rs.length = fuel ∨ rs.length < fuel ∧ ∀ r, (Parser.next env s).1 = .ok r → r.IsLast)

/-- What is shown, by the results and the outcome of parsing; `cmd` is the command being read at the end. -/
inductive Seen (cmd : Command) (st : ParserSettings) (rs : List IterResult) : Outcome (Option PNode) → List Notice → Prop
  | success {n : PNode} : n.code ≠ .failure → Seen cmd st rs (.ok (some n)) (shownAtEnd cmd rs)
  | failure {n : PNode} {m : Str} : n.code = .failure → Seen cmd st rs (.ok (some n)) [.error cmd m]
  /-- With `auto_exit`. The version option's callback may be followed by a general one that fails. -/
  | errorExit {v : List Notice} {m : Str} : st.autoExit = true → v = [] ∨ v = [.version] →
      Seen cmd st rs (.exit st.errorExitCode) (v ++ [.error cmd m])
  | stopExit {o : OptData} : st.autoExit = true → o ∈ cmd.options → o.type = .help ∨ o.type = .exit →
      Seen cmd st rs (.exit st.normalExitCode) (shownFor cmd o)
  /-- A callback throws an exception, after having called `error` or not. -/
  | throw {v e : List Notice} {m : Str} : v = [] ∨ v = [.version] → e = [] ∨ (∃ msg, e = [.error cmd msg]) →
      Seen cmd st rs (.throw m) (v ++ e)
  | diverges : Seen cmd st rs .diverges (shownAtEnd cmd rs)

end Argos.Spec
