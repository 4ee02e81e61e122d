import Verif.Proofs.World
import Verif.Props.Outcome

/-! # The client objects: C36, C37, C38, C51, C53 -/

set_option synthInstance.maxSize 1000

namespace Argos
open Spec Parser

/-! ### C37 -/

/-- **C37** (what holds). Once an object has been moved from, added, or, for a parser, parsed with or given up to an iterator, every
later method call on it throws and changes nothing, whatever calls lie between, if none of them gives the object new data.
It holds also when the call that used up the object threw. (The call must have reached the object:
its own receiver was usable, and it was not `make_iterator` with an empty argv.) Missing: `parse(argc, argv)`, see `C37_violated`. -/
theorem C37_partial {env : Env} {fuel : Nat} {w : World} {first last : Call} {between : List Call} {obj : Obj}
    (hu : first.usesUp = some obj) (hr : ∀ r, first.receiver = some r → ¬ w.Consumed r) (hi : ∀ i, first ≠ .makeIteratorMain i [])
    (hf : ∀ c ∈ between, c.fills ≠ some obj) (hl : last.receiver = some obj) (hm : ¬ last.isParseMain) :
    ∃ m, (World.run env fuel (w.exec env fuel first).2 between).exec env fuel last =
      (.throw m, World.run env fuel (w.exec env fuel first).2 between) :=
  exec_consumed hl (run_keeps (exec_usesUp hu hr hi) hf) hm

/-- **C37** for objects given to `add` and `ArgumentParser::copy_from`: a consumed object is rejected and nothing changes. -/
theorem C37_operand_partial {env : Env} {fuel : Nat} {w : World} {c : Call} {obj : Obj} (ho : c.operand = some obj) (hc : w.Consumed obj)
    (hm : ∀ i j, c ≠ .cmdCopyFrom i j) : ∃ m, w.exec env fuel c = (.throw m, w) :=
  exec_operand ho hc hm

-- The hypotheses can be met: a command is added to another, a new argument is made, and the first command is used.
example : ∃ m, (World.run Env.inert 9 ((World.run Env.inert 9 {} [.newCmd 0 b!"a", .newCmd 1 b!"b"]).exec Env.inert 9 (.cmdAddCmd 0 1)).2
      [.newArg 0 b!"F"]).exec Env.inert 9 (.cmdAddArg 1 0) =
    (.throw m, World.run Env.inert 9 ((World.run Env.inert 9 {} [.newCmd 0 b!"a", .newCmd 1 b!"b"]).exec Env.inert 9 (.cmdAddCmd 0 1)).2
      [.newArg 0 b!"F"]) := by
  refine C37_partial (obj := .cmd 1) rfl ?_ (by simp) (by simp [Call.fills]) rfl (by simp [Call.isParseMain])
  intro r hr
  cases hr
  simp [World.Consumed, World.run, World.exec, setAt]

/-- **C37** is violated: `parse(argc, argv)` of a parser that has been parsed with already,
`Command::copy_from` with a command that has been added already, and
`copy_from` with the command itself are undefined behaviour. -/
theorem C37_violated (env : Env) (fuel : Nat) :
    ((World.run env fuel {} [.newParser 0 b!"prog" false, .parse 0 []]).exec env fuel (.parseMain 0 [b!"prog"])).1 = .ub ∧
    ((World.run env fuel {} [.newCmd 0 b!"a", .newCmd 1 b!"b", .newCmd 2 b!"c", .cmdAddCmd 0 1]).exec env fuel (.cmdCopyFrom 2 1)).1 = .ub ∧
    ((World.run env fuel {} [.newCmd 0 b!"a", .newArg 0 b!"F", .cmdAddArg 0 0]).exec env fuel (.cmdCopyFrom 0 0)).1 = .ub := by
  refine ⟨rfl, rfl, rfl⟩

/-! ### C38 -/

/-- How the property of C38 is kept. -/
theorem kept_exclusive : Kept Command.Exclusive (fun c s => ¬ c.Mixes s) := by
  refine kept_within (Q := fun c => c.arguments = [] ∨ c.commands = []) ?_ ?_ ?_ ?_ ?_ ?_
  · intro name; exact .inl rfl
  · intro c c' h1 h2 _ h
    rcases h with h | h
    · exact .inl (h1.trans h)
    · right
      rw [h] at h2
      exact List.eq_nil_of_length_eq_zero h2
  · intro c h; exact h
  · intro c l hc _; exact .inr hc
  · intro c l hc _; exact .inl hc
  · intro c src hA _ _
    show c.arguments ++ src.arguments = [] ∨ c.commands ++ Command.copies src.commands = []
    rw [Command.copies_eq]
    simp only [Command.Mixes] at hA
    cases h1 : c.arguments <;> cases h2 : src.arguments <;> cases h3 : c.commands <;> cases h4 : src.commands <;> simp_all

/-- **C38** (what holds). In every program, whatever calls it makes in whatever order, no command of any object has both
arguments and sub-commands, at any depth, if no `copy_from` brings them together. Missing: `copy_from` does not check,
see `C38_violated`. -/
theorem C38_partial {env : Env} {fuel : Nat} (cs : List Call) : ∀ {w : World}, (∀ c, w.Has c → c.Exclusive) → NoMixing env fuel w cs →
    ∀ c, (World.run env fuel w cs).Has c → c.Exclusive := by
  induction cs with
  | nil => intro w hw _; exact hw
  | cons c cs ih =>
    intro w hw hn
    exact ih (kept_exclusive.exec hw hn.1) hn.2

-- The hypotheses can be met: programs start without data, and this one uses `copy_from`.
example : (∀ c, World.Has {} c → c.Exclusive) ∧
    NoMixing Env.inert 9 {} [.newCmd 0 b!"a", .newArg 0 b!"F", .cmdAddArg 0 0, .newCmd 1 b!"b", .cmdCopyFrom 1 0, .newArg 1 b!"G", .cmdAddArg 1 1] := by
  refine ⟨?_, ?_⟩
  · rintro c (⟨i, h⟩ | ⟨i, d, h, _⟩) <;> simp at h
  · simp [NoMixing, Call.copies, World.exec, setAt, Command.Mixes, Command.addArgument, Outcome.orKeep]

/-- **C38**, the rejection: adding an argument to a command with sub-commands, or a sub-command to a command with arguments, throws
and leaves all commands and parsers as they were (except that the sub-command that was to be added is lost). -/
theorem C38_rejected {env : Env} {fuel : Nat} {w : World} {i j : Nat} :
    (∀ c a, w.cmds i = some c → w.args j = some a → c.commands ≠ [] →
      ∃ m w', w.exec env fuel (.cmdAddArg i j) = (.throw m, w') ∧ w'.cmds = w.cmds ∧ w'.parsers = w.parsers) ∧
    (∀ d a, w.parsers i = some d → w.args j = some a → d.command.commands ≠ [] →
      ∃ m w', w.exec env fuel (.parserAddArg i j) = (.throw m, w') ∧ w'.cmds = w.cmds ∧ w'.parsers = w.parsers) ∧
    (∀ c s, w.cmds i = some c → w.cmds j = some s → i ≠ j → c.arguments ≠ [] →
      ∃ m w', w.exec env fuel (.cmdAddCmd i j) = (.throw m, w') ∧ (∀ k, k ≠ j → w'.cmds k = w.cmds k) ∧ w'.parsers = w.parsers) ∧
    (∀ d s, w.parsers i = some d → w.cmds j = some s → d.command.arguments ≠ [] →
      ∃ m w', w.exec env fuel (.parserAddCmd i j) = (.throw m, w') ∧ (∀ k, k ≠ j → w'.cmds k = w.cmds k) ∧ w'.parsers = w.parsers) := by
  refine ⟨?_, ?_, ?_, ?_⟩
  · intro c a hc ha hn
    have h : (!c.commands.isEmpty) = true := by simpa using hn
    simp only [World.exec, hc, ha, Command.addArgument, h, if_true, Outcome.orKeep, Outcome.done]
    exact ⟨_, _, rfl, by simp only; rw [← hc, setAt_self], rfl⟩
  · intro c a hc ha hn
    have h : (!c.command.commands.isEmpty) = true := by simpa using hn
    simp only [World.exec, hc, ha, Command.addArgument, h, if_true, Outcome.orKeep, Outcome.done]
    refine ⟨_, _, rfl, rfl, ?_⟩
    show setAt w.parsers i (some c) = w.parsers
    rw [← hc, setAt_self]
  · intro c s hc hs hij hn
    have h : (!c.arguments.isEmpty) = true := by simpa using hn
    simp only [World.exec, hc, hs, Command.addCommand, h, if_true, Outcome.orKeep, Outcome.done]
    refine ⟨_, _, rfl, ?_, rfl⟩
    intro k hk
    simp only
    rw [setAt_other _ _ hk, ← hc, setAt_self]
  · intro d s hc hs hn
    have h : (!d.command.arguments.isEmpty) = true := by simpa using hn
    simp only [World.exec, hc, hs, Command.addCommand, h, if_true, Outcome.orKeep, Outcome.done]
    refine ⟨_, _, rfl, ?_, ?_⟩
    · intro k hk
      exact setAt_other _ _ hk
    · show setAt w.parsers i (some d) = w.parsers
      rw [← hc, setAt_self]

-- The case of a parser with a sub-command that an argument is added to.
example : ∃ d a, (World.run Env.inert 9 {} [.newParser 0 b!"p" false, .newCmd 0 b!"a", .parserAddCmd 0 0, .newArg 0 b!"F"]).parsers 0 = some d ∧
    (World.run Env.inert 9 {} [.newParser 0 b!"p" false, .newCmd 0 b!"a", .parserAddCmd 0 0, .newArg 0 b!"F"]).args 0 = some a ∧
    d.command.commands ≠ [] :=
  ⟨_, _, rfl, rfl, by decide⟩

/-- **C38** is violated: `copy_from` gives a command with an argument a sub-command, without an exception. -/
theorem C38_violated (env : Env) (fuel : Nat) :
    ∃ (program : List Call) (last : Call) (c : Command), (∀ i c, last ≠ .newCmd i c) ∧
      ((World.run env fuel {} program).exec env fuel last).1 = .ok () ∧
      ((World.run env fuel {} program).exec env fuel last).2.cmds 0 = some c ∧ c.arguments.length = 1 ∧ c.commands.length = 1 := by
  refine ⟨[.newCmd 0 b!"a", .newArg 0 b!"F", .cmdAddArg 0 0, .newCmd 1 b!"b", .newCmd 2 b!"c", .cmdAddCmd 1 2], .cmdCopyFrom 0 1, ?_⟩
  refine ⟨_, by simp, rfl, rfl, rfl, rfl⟩

/-! ### C51 -/

/-- **C51** (what holds). A copy of a command has the same tree of sub-commands, and each command in it has the same members,
apart from the visibility (see `C51_violated`). The same holds for the copy made by the const functions of a parser; which keeps
the settings too, but not the version. -/
theorem C51_partial (c : Command) (p : List Nat) :
    (c.copy.at p).map Command.props = (c.at p).map Command.props ∧
    ∀ d : ParserData, ((makeCopy d).command.at p).map Command.props = (d.command.at p).map Command.props ∧
      (makeCopy d).settings = d.settings ∧ (makeCopy d).helpSettings = d.helpSettings := by
  have h1 : ∀ c : Command, (c.copy.at p).map Command.props = (c.at p).map Command.props := by
    intro c
    rw [Command.copy_at, Option.map_map]
    cases c.at p with
    | none => rfl
    | some x => simp [Command.copy_props]
  refine ⟨h1 c, fun d => ⟨?_, rfl, rfl⟩⟩
  rw [← h1 d.command]
  cases p with
  | nil => simp only [Command.at, makeCopy, Command.assign, Option.map_some, Command.props]
  | cons i p => rfl

-- A tree with a sub-command of a sub-command.
example : ((⟨[], [], [{ name := b!"x", commands := [{ name := b!"y", id := 4, arguments := [{ name := b!"A" }] }] }], [], b!"c", [], [], .normal,
    none, false, [], 3, 0, []⟩ : Command).copy.at [0, 0]).map (·.id) = some 4 := by decide +kernel

/-- How the option indexes of the client's commands stay empty. -/
theorem kept_index : Kept (fun c => ∀ x : Command, x.Within c → x.optionIndex = []) (fun _ _ => True) := by
  refine kept_within (Q := fun c => c.optionIndex = []) ?_ ?_ ?_ ?_ ?_ ?_
  · intro name; rfl
  · intro c c' _ _ h3 h; rw [h3, h]
  · intro c _; rfl
  · intro c l _ h; exact h
  · intro c l _ h; exact h
  · intro c src _ h _; exact h

theorem run_index {env : Env} {fuel : Nat} (cs : List Call) : ∀ {w : World},
    (∀ c, w.Has c → ∀ x : Command, x.Within c → x.optionIndex = []) →
    ∀ c, (World.run env fuel w cs).Has c → ∀ x : Command, x.Within c → x.optionIndex = [] := by
  induction cs with
  | nil => intro w hw; exact hw
  | cons c cs ih => intro w hw; exact ih (kept_index.exec hw (fun _ _ _ => trivial))

theorem empty_has (c : Command) : ¬ World.Has {} c := by
  rintro (⟨i, h⟩ | ⟨i, d, h, _⟩) <;> simp at h

/-- **C51** for visible commands: in every program, the copy of a command object whose commands are all visible equals it. -/
theorem C51_visible_partial {env : Env} {fuel : Nat} (cs : List Call) {i j : Nat} {c : Command} (hc : (World.run env fuel {} cs).cmds i = some c)
    (hv : c.Visible) : ((World.run env fuel {} cs).exec env fuel (.copyCmd i j)).2.cmds j = some c := by
  have hi := run_index (env := env) (fuel := fuel) cs (w := {}) (fun c h => absurd h (empty_has c)) c (.inl ⟨i, hc⟩)
  simp only [World.exec]
  split
  · rename_i hij; rw [← hij]; exact hc
  · simp only [setAt_same, hc, Option.map_some, Command.copy_eq c hv hi]

-- A program for which the hypotheses hold.
example : ∃ c, (World.run Env.inert 9 {} [.newCmd 0 b!"a", .newCmd 1 b!"b", .cmdAddCmd 0 1]).cmds 0 = some c ∧ c.Visible ∧ c.commands ≠ [] := by
  refine ⟨_, rfl, ?_, by decide⟩
  intro x hx
  obtain ⟨p, hp⟩ := Command.at_of_within hx
  cases p with
  | nil => cases hp; rfl
  | cons i p =>
    cases i with
    | succ i => cases hp
    | zero =>
      cases p with
      | nil => cases hp; rfl
      | cons i p => cases hp

/-- **C51** is violated: the copy of a hidden command is visible, and the copy made by the const functions of a parser has no version. -/
theorem C51_violated (env : Env) (fuel : Nat) :
    (∃ c c', (World.run env fuel {} [.newCmd 0 b!"a", .setCmd 0 (.visibility ⟨false, false⟩), .copyCmd 0 1]).cmds 0 = some c ∧
      (World.run env fuel {} [.newCmd 0 b!"a", .setCmd 0 (.visibility ⟨false, false⟩), .copyCmd 0 1]).cmds 1 = some c' ∧
      c.visibility = ⟨false, false⟩ ∧ c'.visibility = .normal) ∧
    ∀ d : ParserData, (makeCopy d).version = [] :=
  ⟨⟨_, _, rfl, rfl, rfl, rfl⟩, fun _ => rfl⟩

/-! ### C36 -/

/-- The copy that the const functions make of a parser. -/
theorem makeCopy_eq {d : ParserData} (hi : ∀ x : Command, x.Within d.command → x.optionIndex = []) (hv : d.command.Visible)
    (hver : d.version = []) : makeCopy d = d := by
  have h1 : Command.assign {} d.command = d.command := by
    show { d.command.copy with visibility := Visibility.normal, optionIndex := [] } = d.command
    rw [Command.copy_eq _ hv hi]
    have e1 := hv _ .self
    have e2 := hi _ .self
    generalize d.command = c at e1 e2 ⊢
    cases c
    simp_all
  unfold makeCopy
  rw [h1, ← hver]

/-- **C36** (what holds). In every program: `parse` and `make_iterator` of a const parser give the same result, with the same output,
as those of a parser that is given up, if no version is set and all commands are visible. `parse(argc, argv)` does too, if the
program name has been set or argv[0] is empty. Missing: see `C36_violated`. -/
theorem C36_partial {env : Env} {fuel : Nat} (cs : List Call) {i : Nat} {d : ParserData} (hd : (World.run env fuel {} cs).parsers i = some d)
    (hv : d.command.Visible) (hver : d.version = []) (args : List Str) :
    ParserHandle.parseConst env fuel (some d) args = (ParserHandle.parse env fuel (some d) args).1 ∧
    ParserHandle.makeIteratorConst (some d) args = (ParserHandle.makeIterator (some d) args).1 ∧
    ParserHandle.makeIteratorMainConst (some d) args = (ParserHandle.makeIteratorMain (some d) args).1 ∧
    (d.command.name ≠ b!"UNINITIALIZED" ∨ args.head? = some [] ∨ args = [] →
      ParserHandle.parseMainConst env fuel (some d) args = (ParserHandle.parseMain env fuel (some d) args).1) := by
  have hi := run_index (env := env) (fuel := fuel) cs (w := {}) (fun c h => absurd h (empty_has c)) _ (.inr ⟨i, d, hd, rfl⟩)
  have he := makeCopy_eq hi hv hver
  have hp : ∀ args, ParserHandle.parseConst env fuel (some d) args = (ParserHandle.parse env fuel (some d) args).1 := by
    intro args; simp only [ParserHandle.parseConst, ParserHandle.parse, he]
  have hm : ∀ args, ParserHandle.makeIteratorConst (some d) args = (ParserHandle.makeIterator (some d) args).1 := by
    intro args; simp only [ParserHandle.makeIteratorConst, ParserHandle.makeIterator, he]
  refine ⟨hp args, hm args, ?_, ?_⟩
  · cases args with
    | nil => rfl
    | cons a args => exact hm args
  · intro hn
    cases args with
    | nil => exact hp []
    | cons a args =>
      have hc : ¬ (d.command.name = defaultName ∧ a ≠ []) := by
        rintro ⟨h1, h2⟩
        rcases hn with h | h | h
        · exact h h1
        · simp only [List.head?_cons, Option.some.injEq] at h; exact h2 h
        · simp at h
      simp only [ParserHandle.parseMain, hc, if_false]
      exact hp args

/-- **C36**, the second half: a method of a const parser leaves all objects as they were, so that the same
calls give the same results again, any number of times. -/
theorem C36_repeat {env : Env} {fuel : Nat} {w : World} (cs : List Call) (h : ∀ c ∈ cs, c.isConst) : World.run env fuel w cs = w := by
  induction cs with
  | nil => rfl
  | cons c cs ih =>
    have h1 : (w.exec env fuel c).2 = w := by
      have := h c (by simp)
      cases c <;> first | rfl | simp [Call.isConst] at this
    show World.run env fuel (w.exec env fuel c).2 cs = w
    rw [h1]
    exact ih (fun c hc => h c (by simp [hc]))

-- A program with a parser that meets the hypotheses, and const calls.
example : ∃ d, (World.run Env.inert 9 {} [.newParser 0 b!"prog" false, .newArg 0 b!"F", .parserAddArg 0 0]).parsers 0 = some d ∧
    d.command.Visible ∧ d.version = [] ∧ d.command.name ≠ b!"UNINITIALIZED" ∧ d.command.arguments ≠ [] ∧
    ∀ c ∈ [Call.parseConst 0 [b!"x"], .makeIteratorConst 0 [], .writeHelp 0 []], c.isConst := by
  refine ⟨_, rfl, ?_, rfl, by decide, by decide, by simp [Call.isConst]⟩
  intro x hx
  cases hx with
  | self => rfl
  | sub hm _ => cases hm

/-- The result code of what `parse` returns. -/
def codeOf (r : Outcome (Option PNode) × Option PState) : Option ResultCode :=
  match r with
  | (.ok (some n), _) => some n.code
  | _ => none

/-- The name of the root of what `parse` returns. -/
def rootName (r : Outcome (Option PNode) × Option PState) : Option Str :=
  match r with
  | (.ok (some n), _) => some n.command.name
  | _ => none

/-- A parser with a version. -/
def versionData : ParserData := { command := { name := b!"UNINITIALIZED" }, settings := { autoExit := false }, version := b!"1.0" }

/-- **C36** is violated: with a version, `--version` is an error for a const parser; and `parse(argc, argv)` of a const parser
does not take the name of the program from argv. -/
theorem C36_violated :
    (codeOf (ParserHandle.parse Env.inert 9 (some versionData) [b!"--version"]).1 = some .stop ∧
      codeOf (ParserHandle.parseConst Env.inert 9 (some versionData) [b!"--version"]) = some .failure) ∧
    (rootName (ParserHandle.parseMain Env.inert 9 (some versionData) [b!"prog"]).1 = some b!"prog" ∧
      rootName (ParserHandle.parseMainConst Env.inert 9 (some versionData) [b!"prog"]) = some b!"UNINITIALIZED") := by
  decide +kernel

/-! ### C53 -/

/-- **C53** (what holds). After initialisation the full name of a command, which is what the usage and error messages show, is the path name
for the root and its sub-commands. For every deeper command it is the name of its parent and its own name. Missing: the names of the
commands further up, see `C53_violated`. (`full_name` cannot be set by a client, so that it is empty before.) -/
theorem C53_partial {d d' : ParserData} (h : finishInitialization d = .ok d') (hf : d.command.fullName = []) :
    (∀ p, p.length ≤ 1 → (d'.command.at p).map Command.fullName = d.command.pathName p) ∧
    (∀ p i q x, d.command.at p = some q → q.commands[i]? = some x →
      (d'.command.at (p ++ [i])).map Command.fullName = some (q.name ++ [32] ++ x.name)) := by
  unfold finishInitialization at h
  simp only at h
  rw [Outcome.bind_eq_ok] at h
  obtain ⟨c', h1, h⟩ := h
  simp only [Outcome.pure_eq, Outcome.ok.injEq] at h
  subst h
  rw [hf] at h1
  simp only [List.isEmpty_nil, if_true] at h1
  have key : ∀ p i q x, d.command.at p = some q → q.commands[i]? = some x →
      (c'.at (p ++ [i])).map Command.fullName = some (q.name ++ [32] ++ x.name) := by
    intro p i q x hq hx
    cases p with
    | nil =>
      simp only [Command.at, Option.some.injEq] at hq
      subst hq
      exact finishCommand_fullName [] h1 (i := i) (q := { d.command with
        fullName := [], options := addVersionOption d.command.options d.command.currentSection d.version d.settings }) rfl hx
    | cons j p => exact finishCommand_fullName (j :: p) h1 (i := i) hq hx
  refine ⟨?_, key⟩
  intro p hp
  match p, hp with
  | [], _ =>
    obtain ⟨c1, _, _, _, h5, _, rfl⟩ := finishCommand_ok h1
    obtain ⟨_, _, _, _, _, _, _, _, h6, _⟩ := finishSelf_ok h5
    simp only [Command.at, Option.map_some, h6, Command.pathName]
  | [i], _ =>
    cases hx : d.command.commands[i]? with
    | none =>
      have : (c'.at [i]) = none := by
        cases hc : c'.at [i] with
        | none => rfl
        | some y =>
          obtain ⟨x, _, _, _, h2, _⟩ := (finishCommand_at _ [i] h1).1 y hc
          simp only [Command.at, hx] at h2
          cases h2
      simp only [this, Command.pathName, hx, Option.bind_none, Option.map_none]
    | some x =>
      have := key [] i d.command x rfl hx
      rw [List.nil_append] at this
      rw [this]
      simp only [Command.pathName, hx, Option.bind_some, Option.map_some]

/-- A program with a sub-command of a sub-command. -/
def pathData : ParserData :=
  { command := { name := b!"prog", commands := [{ name := b!"sub", commands := [{ name := b!"leaf" }] }] }
    settings := { autoExit := false } }

example : ∃ d, finishInitialization pathData = .ok d ∧ (d.command.at [0]).map Command.fullName = some b!"prog sub" := by
  refine Outcome.exists_ok ?_
  decide +kernel

/-- **C53** is violated: the messages of `prog sub leaf` are about `sub leaf`. -/
theorem C53_violated :
    pathData.command.pathName [0, 0] = some b!"prog sub leaf" ∧
    ∃ d, finishInitialization pathData = .ok d ∧ (d.command.at [0, 0]).map Command.fullName = some b!"sub leaf" := by
  refine ⟨by decide +kernel, Outcome.exists_ok ?_⟩
  decide +kernel

end Argos
