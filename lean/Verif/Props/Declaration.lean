import Verif.Proofs.Declaration

/-! # Declarations reach the parser: C65 -/

namespace Argos
open Spec

/-- **C65** for options: in every program, between its construction and its use, an option has in each attribute the value of the last
call about it, or the default, whatever else the program does meanwhile. -/
theorem C65_option {env : Env} {fuel : Nat} (w : World) (j : Nat) (flags : List Str) (cs : List Call) (hs : ∀ c ∈ cs, c.Spares (.opt j)) :
    ∃ o, (w.run env fuel (.newOpt j flags :: cs)).opts j = some o ∧ OptAsSaid flags (callsOnOpt j cs) o := by
  refine ⟨_, run_opt cs (w := (w.exec env fuel (.newOpt j flags)).2) (o := { flags }) (setAt_same _ _ _) hs, ?_⟩
  refine ⟨?_, ?_, ?_, ?_, ?_, ?_, ?_, ?_, ?_, ?_, ?_, ?_, ?_, ?_⟩
  · exact fold_said (get := OptData.flags) (by intro s c; cases c <;> rfl) _ _
  · exact fold_said (get := OptData.help) (by intro s c; cases c <;> rfl) _ _
  · exact fold_said (get := OptData.section_) (by intro s c; cases c <;> rfl) _ _
  · exact fold_said (get := OptData.alias_) (by intro s c; cases c <;> rfl) _ _
  · exact fold_said (get := OptData.argument) (by intro s c; cases c <;> rfl) _ _
  · exact fold_said (get := OptData.constant) (by intro s c; cases c <;> rfl) _ _
  · exact fold_said (get := OptData.initialValue) (by intro s c; cases c <;> rfl) _ _
  · exact fold_said (get := OptData.callback) (by intro s c; cases c <;> rfl) _ _
  · exact fold_said (get := OptData.operation) (by intro s c; cases c <;> rfl) _ _
  · exact fold_said (get := OptData.type) (by intro s c; cases c <;> rfl) _ _
  · exact fold_said (get := OptData.visibility) (by intro s c; cases c <;> rfl) _ _
  · exact fold_said (get := OptData.optional) (by intro s c; cases c <;> rfl) _ _
  · exact fold_said (get := OptData.id) (by intro s c; cases c <;> rfl) _ _
  · constructor
    · exact (fold_said (get := OptData.valueId) (says := fun _ => none) (by intro s c; cases c <;> rfl) _ _).trans (lastSaid_none _ _)
    · exact (fold_said (get := OptData.argumentId) (says := fun _ => none) (by intro s c; cases c <;> rfl) _ _).trans (lastSaid_none _ _)

-- An option is declared while a parser is set up.
example : callsOnOpt 0 [.setOpt 0 (.mandatory true), .newParser 1 b!"prog" false, .setOpt 0 (.flag b!"-a"), .setOpt 2 (.flag b!"-b"),
      .setOpt 0 (.optional true), .setOpt 0 (.flag b!"-c")] =
    [.mandatory true, .flag b!"-a", .optional true, .flag b!"-c"] ∧
    (∀ c ∈ ([.setOpt 0 (.mandatory true), .newParser 1 b!"prog" false, .setOpt 0 (.flag b!"-a"), .setOpt 2 (.flag b!"-b"),
      .setOpt 0 (.optional true), .setOpt 0 (.flag b!"-c")] : List Call), c.Spares (.opt 0)) ∧
    lastSaid (fun | .flag f => some [f] | .flags fs => some fs | _ => none)
      [OptCall.mandatory true, .flag b!"-a", .optional true, .flag b!"-c"] [b!"-x", b!"-y"] = [b!"-c"] ∧
    lastSaid (fun | .optional b => some b | .mandatory b => some (!b) | _ => none)
      [OptCall.mandatory true, .flag b!"-a", .optional true, .flag b!"-c"] true = true := by
  refine ⟨by decide, ?_, by decide, by decide⟩
  simp [Call.Spares, Call.fills, Call.usesUp]

/-- **C65** for arguments: as for options; the counts are those of the last accepted `count`, and `optional` and
`mandatory` after it change the least count only. -/
theorem C65_argument {env : Env} {fuel : Nat} (w : World) (j : Nat) (name : Str) (cs : List Call) (hs : ∀ c ∈ cs, c.Spares (.arg j)) :
    ∃ a, (w.run env fuel (.newArg j name :: cs)).args j = some a ∧ ArgAsSaid name (callsOnArg j cs) a := by
  refine ⟨_, run_arg cs (w := (w.exec env fuel (.newArg j name)).2) (a := { name }) (setAt_same _ _ _) hs, ?_⟩
  have key : ∀ {α : Type} {get : ArgData → α} {says : ArgCall → Option α}, (∀ a n, get { a with minCount := n } = get a) →
      (∀ a n, get { a with maxCount := n } = get a) → (∀ b, says (.optional b) = none) → (∀ b, says (.mandatory b) = none) →
      (∀ n, says (.count n) = none) → (∀ n m, says (.countRange n m) = none) →
      (∀ a c, (∀ b, c ≠ .optional b) → (∀ b, c ≠ .mandatory b) → (∀ n, c ≠ .count n) → (∀ n m, c ≠ .countRange n m) →
        get (a.afterCall c) = (says c).getD (get a)) →
      ∀ a c, get (a.afterCall c) = (says c).getD (get a) := by
    intro α get says h1 h2 h3 h3' h4 h5 h6 a c
    cases c with
    | count n =>
      rw [h4]
      simp only [ArgData.afterCall, ArgHandle.call]
      split
      · rfl
      · exact (h2 _ n).trans (h1 _ n)
    | countRange n m =>
      rw [h5]
      simp only [ArgData.afterCall, ArgHandle.call]
      split
      · rfl
      · split
        · rfl
        · exact (h2 _ m).trans (h1 _ n)
    | optional b =>
      rw [h3]
      simp only [ArgData.afterCall, ArgHandle.call, ArgData.setOptional]
      split
      · exact h1 _ _
      · split
        · exact h1 _ _
        · rfl
    | mandatory b =>
      rw [h3']
      simp only [ArgData.afterCall, ArgHandle.call, ArgData.setOptional]
      split
      · exact h1 _ _
      · split
        · exact h1 _ _
        · rfl
    | _ => exact h6 a _ (by simp) (by simp) (by simp) (by simp)
  refine ⟨?_, ?_, ?_, ?_, ?_, ?_, ?_, ?_, ?_, ?_⟩
  · exact fold_said (get := ArgData.name) (key (by intros; rfl) (by intros; rfl) (by intros; rfl) (by intros; rfl) (by intros; rfl) (by intros; rfl)
      (by intro a c g1 g2 g3 g4; cases c <;> first | rfl | exact absurd rfl (g1 _) | exact absurd rfl (g2 _) | exact absurd rfl (g3 _) | exact absurd rfl (g4 _ _))) _ _
  · exact fold_said (get := ArgData.help) (key (by intros; rfl) (by intros; rfl) (by intros; rfl) (by intros; rfl) (by intros; rfl) (by intros; rfl)
      (by intro a c g1 g2 g3 g4; cases c <;> first | rfl | exact absurd rfl (g1 _) | exact absurd rfl (g2 _) | exact absurd rfl (g3 _) | exact absurd rfl (g4 _ _))) _ _
  · exact fold_said (get := ArgData.section_) (key (by intros; rfl) (by intros; rfl) (by intros; rfl) (by intros; rfl) (by intros; rfl) (by intros; rfl)
      (by intro a c g1 g2 g3 g4; cases c <;> first | rfl | exact absurd rfl (g1 _) | exact absurd rfl (g2 _) | exact absurd rfl (g3 _) | exact absurd rfl (g4 _ _))) _ _
  · exact fold_said (get := ArgData.alias_) (key (by intros; rfl) (by intros; rfl) (by intros; rfl) (by intros; rfl) (by intros; rfl) (by intros; rfl)
      (by intro a c g1 g2 g3 g4; cases c <;> first | rfl | exact absurd rfl (g1 _) | exact absurd rfl (g2 _) | exact absurd rfl (g3 _) | exact absurd rfl (g4 _ _))) _ _
  · exact fold_said (get := ArgData.callback) (key (by intros; rfl) (by intros; rfl) (by intros; rfl) (by intros; rfl) (by intros; rfl) (by intros; rfl)
      (by intro a c g1 g2 g3 g4; cases c <;> first | rfl | exact absurd rfl (g1 _) | exact absurd rfl (g2 _) | exact absurd rfl (g3 _) | exact absurd rfl (g4 _ _))) _ _
  · exact fold_said (get := ArgData.visibility) (key (by intros; rfl) (by intros; rfl) (by intros; rfl) (by intros; rfl) (by intros; rfl) (by intros; rfl)
      (by intro a c g1 g2 g3 g4; cases c <;> first | rfl | exact absurd rfl (g1 _) | exact absurd rfl (g2 _) | exact absurd rfl (g3 _) | exact absurd rfl (g4 _ _))) _ _
  · exact fold_said (get := ArgData.id) (key (by intros; rfl) (by intros; rfl) (by intros; rfl) (by intros; rfl) (by intros; rfl) (by intros; rfl)
      (by intro a c g1 g2 g3 g4; cases c <;> first | rfl | exact absurd rfl (g1 _) | exact absurd rfl (g2 _) | exact absurd rfl (g3 _) | exact absurd rfl (g4 _ _))) _ _
  · intro before c after lo hi he hr ha
    rw [he, List.foldl_append, List.foldl_cons]
    obtain ⟨h1, h2⟩ := afterCall_range (before.foldl ArgData.afterCall { name }) hr
    obtain ⟨h3, h4⟩ := fold_noRange after ((before.foldl ArgData.afterCall { name }).afterCall c) ha
    exact ⟨by rw [h3, h1], by rw [h4, h2]⟩
  · intro ha
    exact fold_noRange _ { name } ha
  · constructor
    · refine (fold_said (get := ArgData.valueId) (says := fun _ => none)
        (key (by intros; rfl) (by intros; rfl) (by intros; rfl) (by intros; rfl) (by intros; rfl) (by intros; rfl) ?_) _ _).trans (lastSaid_none _ _)
      intro a c g1 g2 g3 g4; cases c <;> first | rfl | exact absurd rfl (g1 _) | exact absurd rfl (g2 _) | exact absurd rfl (g3 _) | exact absurd rfl (g4 _ _)
    · refine (fold_said (get := ArgData.argumentId) (says := fun _ => none)
        (key (by intros; rfl) (by intros; rfl) (by intros; rfl) (by intros; rfl) (by intros; rfl) (by intros; rfl) ?_) _ _).trans (lastSaid_none _ _)
      intro a c g1 g2 g3 g4; cases c <;> first | rfl | exact absurd rfl (g1 _) | exact absurd rfl (g2 _) | exact absurd rfl (g3 _) | exact absurd rfl (g4 _ _)

-- The counts after `count(3)`, `optional()`, a rejected `count(0)` and `mandatory()`: at least 1, at most 3.
example : rangeSaid (.count 3) = some (3, 3) ∧ rangeSaid (.count 0) = none ∧
    leastAfter 3 ([ArgCall.optional true, .count 0, .mandatory true].filterMap optionalSaid) = 1 ∧
    ((World.run Env.inert 9 {} [.newArg 4 b!"FILE", .setArg 4 (.count 3), .setArg 4 (.optional true), .setArg 4 (.count 0),
      .setArg 4 (.mandatory true)]).args 4).map (fun a => (a.minCount, a.maxCount)) = some (1, 3) := by
  decide

/-- **C65** for commands, apart from what is added to it (see `C65_contents`), without `copy_from` into it. -/
theorem C65_command {env : Env} {fuel : Nat} (w : World) (j : Nat) (name : Str) (cs : List Call)
    (hs : ∀ c ∈ cs, c.Spares (.cmd j) ∧ ¬ c.CopiesInto (.cmd j)) :
    ∃ c, (w.run env fuel (.newCmd j name :: cs)).cmds j = some c ∧ CmdAsSaid name (callsOnCmd j cs) c := by
  have h0 : (w.exec env fuel (.newCmd j name)).2.cmds j = some { name } := setAt_same _ _ _
  have key : ∀ {α : Type} {get : Command → α} {says : CmdCall → Option α}, (∀ c x, get (c.set x) = (says x).getD (get c)) → Additive get →
      ∀ k, (w.run env fuel (.newCmd j name :: cs)).cmds j = some k → get k = lastSaid says (callsOnCmd j cs) (get { name }) := by
    intro α get says h1 h2 k hk
    obtain ⟨k', h3, h4⟩ := run_command (get := get) (upd := fun a x => (says x).getD a) h1 h2 (env := env) (fuel := fuel) cs h0 hs
    have : k' = k := Option.some.inj (h3.symm.trans hk)
    rw [← this, h4, foldl_said]
  obtain ⟨k, hk, _⟩ := run_command (get := fun _ => ()) (upd := fun _ _ => ()) (by intros; rfl) (by intro _ _ _ _; rfl) (env := env) (fuel := fuel) cs h0 hs
  refine ⟨k, hk, ?_, ?_, ?_, ?_, ?_, ?_, ?_, ?_⟩
  · exact key (get := Command.name) (by intro c x; cases x <;> rfl) (by intro _ _ _ _; rfl) k hk
  · exact key (get := Command.section_) (by intro c x; cases x <;> rfl) (by intro _ _ _ _; rfl) k hk
  · exact key (get := Command.currentSection) (by intro c x; cases x <;> rfl) (by intro _ _ _ _; rfl) k hk
  · intro id
    refine key (get := fun c => c.texts.lookup id) ?_ (by intro _ _ _ _; rfl) k hk
    intro c x
    cases x <;> simp only [Command.set, cmdText, lookup_setText] <;> first | rfl | (split <;> rfl)
  · exact key (get := Command.visibility) (by intro c x; cases x <;> rfl) (by intro _ _ _ _; rfl) k hk
  · exact key (get := Command.id) (by intro c x; cases x <;> rfl) (by intro _ _ _ _; rfl) k hk
  · exact key (get := Command.multiCommand) (by intro c x; cases x <;> rfl) (by intro _ _ _ _; rfl) k hk
  · exact key (get := Command.requireSubcommand) (by intro c x; cases x <;> rfl) (by intro _ _ _ _; rfl) k hk

example : ((World.run Env.inert 9 {} [.newCmd 2 b!"a", .setCmd 2 (.about b!"x"), .newArg 4 b!"FILE", .cmdAddArg 2 4, .setCmd 2 (.help b!"h"),
      .setCmd 2 (.text .about (.text b!"y"))]).cmds 2).map (fun c => (c.texts.lookup .about, c.texts.lookup .help, c.texts.lookup .usage)) =
    some (some (.text b!"y"), some (.text b!"h"), none) := by
  decide

/-- **C65** for parsers: each setting has the value of the last call about it, or the default, apart from the option
style (see `C65_style`), without `copy_from` into it. -/
theorem C65_parser {env : Env} {fuel : Nat} (w : World) (j : Nat) (name : Str) (cs : List Call)
    (hs : ∀ c ∈ cs, c.Spares (.parser j) ∧ ¬ c.CopiesInto (.parser j)) :
    ∃ d, (w.run env fuel (.newParser j name false :: cs)).parsers j = some d ∧ ParserAsSaid name (callsOnParser j cs) d := by
  have h0 : (w.exec env fuel (.newParser j name false)).2.parsers j = some { command := { name } } := setAt_same _ _ _
  have gen : ∀ {α : Type} {get : ParserData → α} {upd : α → ParserCall → α}, (∀ d x, get (Outcome.orKeep d (d.set x)).2 = upd (get d) x) →
      (∀ d : ParserData, Additive (fun k => get { d with command := k })) →
      ∀ k, (w.run env fuel (.newParser j name false :: cs)).parsers j = some k →
        get k = (callsOnParser j cs).foldl upd (get { command := { name } }) := by
    intro α get upd h1 h2 k hk
    obtain ⟨k', h3, h4⟩ := run_parserObj (get := get) (upd := upd) h1 h2 (env := env) (fuel := fuel) cs h0 hs
    have : k' = k := Option.some.inj (h3.symm.trans hk)
    rw [← this, h4]
  have key : ∀ {α : Type} {get : ParserData → α} {says : ParserCall → Option α}, (∀ s, says (.optionStyle s) = none) →
      (∀ (d : ParserData) s, get { d with settings := { d.settings with optionStyle := s } } = get d) →
      (∀ d x, (∀ s, x ≠ .optionStyle s) → get (Outcome.orKeep d (d.set x)).2 = (says x).getD (get d)) →
      (∀ d : ParserData, Additive (fun k => get { d with command := k })) →
      ∀ k, (w.run env fuel (.newParser j name false :: cs)).parsers j = some k →
        get k = lastSaid says (callsOnParser j cs) (get { command := { name } }) := by
    intro α get says h1 h2 h3 h4 k hk
    rw [gen (get := get) (upd := fun a x => (says x).getD a) ?_ h4 k hk, foldl_said]
    intro d x
    cases x with
    | optionStyle s =>
      simp only [ParserData.set, h1]
      split
      · split
        · rfl
        · exact h2 d s
      · rfl
    | _ => exact h3 d _ (by simp)
  obtain ⟨k, hk, _⟩ := run_parserObj (get := fun _ => ()) (upd := fun _ _ => ()) (by intros; rfl) (by intro _ _ _ _ _; rfl) (env := env) (fuel := fuel) cs h0 hs
  have set : ∀ {α : Type} {get : ParserData → α} {says : ParserCall → Option α}, (∀ s, says (.optionStyle s) = none) →
      (∀ (d : ParserData) s, get { d with settings := { d.settings with optionStyle := s } } = get d) →
      (∀ d x, (∀ s, x ≠ .optionStyle s) → get (Outcome.orKeep d (d.set x)).2 = (says x).getD (get d)) →
      (∀ d : ParserData, Additive (fun k => get { d with command := k })) →
      get k = lastSaid says (callsOnParser j cs) (get { command := { name } }) := fun h1 h2 h3 h4 => key h1 h2 h3 h4 k hk
  refine ⟨k, hk, ?_, ?_, ?_, ?_, ?_, ?_, ?_, ?_, ?_, ?_, ?_, ?_, ?_, ?_, ?_, ?_, ?_⟩
  · exact set (get := fun d => d.command.name) (by intro s; rfl) (by intro d s; rfl)
      (by intro d x hx; cases x <;> first | rfl | exact absurd rfl (hx _)) (by intro _ _ _ _ _; rfl)
  · exact set (get := fun d => d.command.currentSection) (by intro s; rfl) (by intro d s; rfl)
      (by intro d x hx; cases x <;> first | rfl | exact absurd rfl (hx _)) (by intro _ _ _ _ _; rfl)
  · intro id
    refine set (get := fun d => d.command.texts.lookup id) (by intro s; rfl) (by intro d s; rfl) ?_ (by intro _ _ _ _ _; rfl)
    intro d x hx
    cases x <;> first | rfl | exact absurd rfl (hx _) | skip
    simp only [ParserData.set, Outcome.orKeep, lookup_setText]
    split <;> rfl
  · exact set (get := fun d => d.command.multiCommand) (by intro s; rfl) (by intro d s; rfl)
      (by intro d x hx; cases x <;> first | rfl | exact absurd rfl (hx _)) (by intro _ _ _ _ _; rfl)
  · exact set (get := fun d => d.command.requireSubcommand) (by intro s; rfl) (by intro d s; rfl)
      (by intro d x hx; cases x <;> first | rfl | exact absurd rfl (hx _)) (by intro _ _ _ _ _; rfl)
  · exact set (get := fun d => d.version) (by intro s; rfl) (by intro d s; rfl)
      (by intro d x hx; cases x <;> first | rfl | exact absurd rfl (hx _)) (by intro _ _ _ _ _; rfl)
  · exact set (get := fun d => d.helpSettings.lineWidth) (by intro s; rfl) (by intro d s; rfl)
      (by intro d x hx; cases x <;> first | rfl | exact absurd rfl (hx _)) (by intro _ _ _ _ _; rfl)
  · have fold : ∀ (xs : List ParserCall) (l : List Str), xs.foldl (fun l x => match x with | .addWordSplittingRule s => l ++ [s] | _ => l) l =
        l ++ xs.filterMap fun | .addWordSplittingRule s => some s | _ => none := by
      intro xs
      induction xs with
      | nil => intro l; simp
      | cons x xs ih =>
        intro l
        rw [List.foldl_cons, ih, List.filterMap_cons]
        cases x <;> simp
    refine (gen (get := fun d => d.helpSettings.wordSplitRules)
      (upd := fun l x => match x with | .addWordSplittingRule s => l ++ [s] | _ => l) ?_ (by intro _ _ _ _ _; rfl) k hk).trans ((fold _ _).trans ?_)
    · intro d x
      cases x with
      | optionStyle s =>
        simp only [ParserData.set]
        split
        · split <;> rfl
        · rfl
      | _ => rfl
    · rfl
  · exact set (get := fun d => d.settings.allowAbbreviatedOptions) (by intro s; rfl) (by intro d s; rfl)
      (by intro d x hx; cases x <;> first | rfl | exact absurd rfl (hx _)) (by intro _ _ _ _ _; rfl)
  · exact set (get := fun d => d.settings.autoExit) (by intro s; rfl) (by intro d s; rfl)
      (by intro d x hx; cases x <;> first | rfl | exact absurd rfl (hx _)) (by intro _ _ _ _ _; rfl)
  · exact set (get := fun d => d.settings.caseInsensitive) (by intro s; rfl) (by intro d s; rfl)
      (by intro d x hx; cases x <;> first | rfl | exact absurd rfl (hx _)) (by intro _ _ _ _ _; rfl)
  · exact set (get := fun d => d.settings.generateHelpOption) (by intro s; rfl) (by intro d s; rfl)
      (by intro d x hx; cases x <;> first | rfl | exact absurd rfl (hx _)) (by intro _ _ _ _ _; rfl)
  · exact set (get := fun d => d.settings.ignoreUndefinedArguments) (by intro s; rfl) (by intro d s; rfl)
      (by intro d x hx; cases x <;> first | rfl | exact absurd rfl (hx _)) (by intro _ _ _ _ _; rfl)
  · exact set (get := fun d => d.settings.ignoreUndefinedOptions) (by intro s; rfl) (by intro d s; rfl)
      (by intro d x hx; cases x <;> first | rfl | exact absurd rfl (hx _)) (by intro _ _ _ _ _; rfl)
  · exact set (get := fun d => d.settings.argumentCallback) (by intro s; rfl) (by intro d s; rfl)
      (by intro d x hx; cases x <;> first | rfl | exact absurd rfl (hx _)) (by intro _ _ _ _ _; rfl)
  · exact set (get := fun d => d.settings.optionCallback) (by intro s; rfl) (by intro d s; rfl)
      (by intro d x hx; cases x <;> first | rfl | exact absurd rfl (hx _)) (by intro _ _ _ _ _; rfl)
  · exact set (get := fun d => (d.settings.errorExitCode, d.settings.normalExitCode)) (by intro s; rfl) (by intro d s; rfl)
      (by intro d x hx; cases x <;> first | rfl | exact absurd rfl (hx _)) (by intro _ _ _ _ _; rfl)

example : ((World.run Env.inert 9 {} [.newParser 3 b!"prog" false, .setParser 3 (.setExitCodes 1 2), .setParser 3 (.ignoreUndefinedOptions true),
      .newOpt 4 [b!"-a"], .setParser 3 (.addWordSplittingRule b!"a b"), .parserAddOpt 3 4, .setParser 3 (.setExitCodes 5 6)]).parsers 3).map
        (fun d => (d.settings.errorExitCode, d.settings.ignoreUndefinedOptions, d.settings.ignoreUndefinedArguments, d.helpSettings.wordSplitRules)) =
    some (5, true, false, [b!"a b"]) := by
  decide

/-- **C65** for the contents: in every program, the options, arguments and sub-commands of a command or a parser are those added with the
calls of `add` that didn't throw, in that order, each as it was when it was added, in the current section of that time if it has
none of its own. (`copy_from` is left out here.) -/
theorem C65_contents {env : Env} {fuel : Nat} {w : World} {obj : Obj} {c : Command} (h : w.command obj = some c) (cs : List Call)
    (hs : ∀ x ∈ cs, x.Spares obj ∧ ¬ x.CopiesInto obj) :
    ∃ c', (w.run env fuel cs).command obj = some c' ∧
      c'.options = c.options ++ addedOptions (additions env fuel obj w cs) ∧
      c'.arguments = c.arguments ++ addedArguments (additions env fuel obj w cs) ∧
      c'.commands = c.commands ++ addedCommands (additions env fuel obj w cs) := by
  obtain ⟨c', h1, h2⟩ := run_contents (env := env) (fuel := fuel) cs h hs
  exact ⟨c', h1, h2.options, h2.arguments, h2.commands⟩

/-- The calls of the example. -/
def addingCalls : List Call :=
  [.newOpt 1 [b!"-a"], .newOpt 2 [], .newOpt 3 [b!"-c"], .parserAddOpt 0 2, .setParser 0 (.currentSection b!"More"), .parserAddOpt 0 3, .parserAddOpt 0 1,
    .newCmd 1 b!"sub", .parserAddCmd 0 1]

-- The option without flags is rejected, the others are in the section, in the order in which they were added.
example : (addedOptions (additions Env.inert 9 (.parser 0) (World.run Env.inert 9 {} [.newParser 0 b!"prog" false]) addingCalls)).map
      (fun o => (o.flags, o.section_)) = [([b!"-c"], b!"More"), ([b!"-a"], b!"More")] ∧
    (addedCommands (additions Env.inert 9 (.parser 0) (World.run Env.inert 9 {} [.newParser 0 b!"prog" false]) addingCalls)).map
      (·.name) = [b!"sub"] ∧
    ∀ x ∈ addingCalls, x.Spares (.parser 0) ∧ ¬ x.CopiesInto (.parser 0) := by
  refine ⟨by decide, by decide, ?_⟩
  simp [addingCalls, Call.Spares, Call.fills, Call.usesUp, Call.CopiesInto]

/-- **C65** for the option style: it can be set as long as there are no options; then, in every program, it stays, and the attempt to
change it throws and changes nothing. -/
theorem C65_style {env : Env} {fuel : Nat} {w : World} {i : Nat} {d : ParserData} (h : w.parsers i = some d) :
    (d.command.options = [] → ∀ s, (w.exec env fuel (.setParser i (.optionStyle s))).1 = .ok () ∧
      ((w.exec env fuel (.setParser i (.optionStyle s))).2.parsers i).map (·.settings.optionStyle) = some s) ∧
    (d.command.options ≠ [] →
      (∀ s, s ≠ d.settings.optionStyle → ∃ m, (w.exec env fuel (.setParser i (.optionStyle s))).1 = .throw m) ∧
      ∀ cs : List Call, (∀ x ∈ cs, x.Spares (.parser i) ∧ ¬ x.CopiesInto (.parser i)) →
        ((w.run env fuel cs).parsers i).map (·.settings.optionStyle) = some d.settings.optionStyle) := by
  constructor
  · intro ho s
    simp only [World.exec, h, ParserData.set, ho, List.isEmpty_nil]
    by_cases e : s = d.settings.optionStyle
    · simp [e, Outcome.orKeep, setAt_same]
    · simp [e, Outcome.orKeep, setAt_same]
  · intro ho
    have hf : d.command.options.isEmpty = false := by simpa using ho
    constructor
    · intro s hs
      simp only [World.exec, h, ParserData.set, hf]
      simp [hs, Outcome.orKeep, Outcome.done]
    · intro cs hs
      -- the style together with whether there are options
      have key : ∀ (cs : List Call) {w : World} {d : ParserData}, w.parsers i = some d → d.command.options ≠ [] →
          (∀ x ∈ cs, x.Spares (.parser i) ∧ ¬ x.CopiesInto (.parser i)) →
          ((w.run env fuel cs).parsers i).map (·.settings.optionStyle) = some d.settings.optionStyle := by
        intro cs
        induction cs with
        | nil => intro w d h _ _; simp [World.run, h]
        | cons c cs ih =>
          intro w d h ho hs
          have h1 := hs c (by simp)
          obtain ⟨d1, e1, g⟩ := exec_parser_contents (env := env) (fuel := fuel) h h1.1 h1.2
          have ho1 : d1.command.options ≠ [] := by
            rw [g.options]
            intro e
            exact ho (List.append_eq_nil_iff.mp e).1
          have hst : d1.settings.optionStyle = d.settings.optionStyle := by
            have hf : d.command.options.isEmpty = false := by simpa using ho
            obtain ⟨d2, e2, g2⟩ := exec_parser (get := fun d => d.settings.optionStyle) (upd := fun a _ => a) (k := d) (by
              intro x
              cases x with
              | optionStyle s =>
                simp only [ParserData.set, hf]
                by_cases e : s = d.settings.optionStyle <;> simp [e, Outcome.orKeep]
              | _ => rfl) (by intro _ _ _ _; rfl) (env := env) (fuel := fuel) h h1.1 h1.2
            have : d1 = d2 := Option.some.inj (e1.symm.trans e2)
            have keep : ∀ (l : List ParserCall) (a : OptionStyle), l.foldl (fun a _ => a) a = a := by
              intro l
              induction l with
              | nil => intro a; rfl
              | cons x l ih => intro a; exact ih a
            rw [this, g2, keep]
          rw [← hst]
          exact ih e1 ho1 (fun x hx => hs x (by simp [hx]))
      exact key cs h ho hs

end Argos
