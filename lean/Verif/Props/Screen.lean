import Verif.Proofs.Screen
import Verif.Props.Faults
import Verif.Props.Outcome

/-! # What users see: C74, C75 -/

set_option synthInstance.maxSize 1000

namespace Argos
open Spec Parser

/-! ### C74 -/

/-- **C74** (what holds): with the settings of `CanWrite`, every help text and error message can be written, whatever the terminal is. The
lines fit the width that was chosen, or else the width of the terminal, which is taken to be 80 if it's unknown and 32 at least. Missing:
names that end with a carriage return (C49) and rules that aren't UTF-8 (C47). -/
theorem C74_written_partial {d0 d : ParserData} (h : finishInitialization d0 = .ok d) (hw : CanWrite d) (sc : Screen) {W : Nat}
    (hW : Width sc.terminal d.helpSettings.lineWidth W) {cmd : Command} (hc : cmd.Within d.command) :
    (∃ text, sc.event d (.help cmd) = .ok [(if sc.custom then .custom else .stdout, text)] ∧ Laid (helpBlocks sc.texts cmd) text ∧
      ∀ l ∈ linesOf text, LineFits W l) ∧
    ∀ msg, ∃ text, sc.event d (.error cmd msg) = .ok [(if sc.custom then .custom else .stderr, text)] ∧
      Laid (errorBlocks sc.texts cmd msg) text ∧ ∀ l ∈ linesOf text, LineFits W l := by
  have within : ∀ {e : Event}, (e = .help cmd ∨ ∃ m, e = .error cmd m) → ∀ c m, (e = .help c ∨ e = .error c m) → c.Within d.command := by
    rintro e (rfl | ⟨m, rfl⟩) c m' (h | h) <;> simp at h
    · rw [← h]; exact hc
    · rw [← h.1]; exact hc
  constructor
  · obtain ⟨out, h1, h2⟩ := event_looks h hw hW (within (Or.inl rfl))
    cases h2 with
    | cons h3 h4 =>
      cases h4
      cases h3 with
      | help h5 h6 => exact ⟨_, h1, h5, h6⟩
  · intro msg
    obtain ⟨out, h1, h2⟩ := event_looks h hw hW (within (Or.inr ⟨msg, rfl⟩))
    cases h2 with
    | cons h3 h4 =>
      cases h4
      cases h3 with
      | error h5 h6 => exact ⟨_, h1, h5, h6⟩

/-- **C74**: with other settings nothing can be written: every attempt is an exception. -/
theorem C74_otherwise (sc : Screen) {d : ParserData} (hw : ¬ Writable d.helpSettings) (cmd : Command) :
    (∃ m, sc.event d (.help cmd) = .throw m) ∧ ∀ msg, ∃ m, sc.event d (.error cmd msg) = .throw m := by
  obtain ⟨h1, h2⟩ := makeFormatter_iff sc.terminal d
  have : ∃ m, makeFormatter (consoleWidth sc.terminal) d = .throw m := by
    rcases h1 with h1 | h1
    · exact absurd (h2.mp h1) hw
    · exact h1
  obtain ⟨m, hm⟩ := this
  constructor
  · exact ⟨m, by simp [Screen.event, writeHelpText, hm, Bind.bind, Outcome.bind]⟩
  · exact fun msg => ⟨m, by simp [Screen.event, writeErrorMessage, hm, Bind.bind, Outcome.bind]⟩

/-- A program with sub-commands, a version and help. -/
def screenData : ParserData :=
  { command :=
      { name := b!"fs"
        options := [{ flags := [b!"-v"], constant := b!"1" }]
        commands := [{ name := b!"ls", arguments := [{ name := b!"DIR", minCount := 0 }] }] }
    settings := { autoExit := false }
    version := b!"1.2" }

/-- A terminal with `n` columns. -/
def screenOf (n : Nat) : Screen := { terminal := n, texts := fun _ => [], custom := false }


/-- What can be checked of `CanWrite` and `OwnCallbacks`. -/
def canWriteCheck (d : ParserData) : Bool :=
  decide (d.helpSettings.wordSplitRules = []) && decide (d.helpSettings.lineWidth ≠ 1) && decide (d.helpSettings.lineWidth ≠ 2) &&
    d.command.checkAll (fun c => decide (NoReturn c)) 3

theorem canWriteCheck_sound {d : ParserData} (h : canWriteCheck d = true) : CanWrite d := by
  unfold canWriteCheck at h
  simp only [Bool.and_eq_true, decide_eq_true_eq] at h
  obtain ⟨⟨⟨h1, h2⟩, h3⟩, h4⟩ := h
  refine ⟨⟨⟨h2, h3⟩, by rw [h1]; simp⟩, by rw [h1]; simp, fun c hc => ?_⟩
  have := Command.checkAll_sound h4 hc
  exact of_decide_eq_true this

/-- The check of `OwnCallbacks`. -/
def ownCallbacksCheck (d : ParserData) : Bool :=
  d.command.checkAll (fun c => c.options.all (fun o => decide (o.callback ≠ some versionCallback)) && c.arguments.all (fun a => decide (a.callback ≠ some versionCallback))) 3 &&
    decide (d.settings.optionCallback ≠ some versionCallback) && decide (d.settings.argumentCallback ≠ some versionCallback)

theorem ownCallbacksCheck_sound {d : ParserData} (h : ownCallbacksCheck d = true) : OwnCallbacks d := by
  unfold ownCallbacksCheck at h
  simp only [Bool.and_eq_true, decide_eq_true_eq] at h
  obtain ⟨⟨h1, h2⟩, h3⟩ := h
  have key : ∀ c : Command, c.Within d.command → (∀ o ∈ c.options, o.callback ≠ some versionCallback) ∧ ∀ a ∈ c.arguments, a.callback ≠ some versionCallback := by
    intro c hc
    have := Command.checkAll_sound h1 hc
    simp only [Bool.and_eq_true, List.all_eq_true, decide_eq_true_eq] at this
    exact this
  exact ⟨fun c hc => (key c hc).1, fun c hc => (key c hc).2, h2, h3⟩

-- The error message of the command "ls" on a terminal with ten columns, for which 32 are used: the line is split after "arguments,".
example : ∃ d, finishInitialization screenData = .ok d ∧ CanWrite d ∧ Width (screenOf 10).terminal d.helpSettings.lineWidth 32 ∧
    ∃ cmd, cmd.Within d.command ∧ (screenOf 10).event d (.error cmd b!"Too many arguments, starting from \"b\".") =
      .ok [(.stderr, b!"fs ls: Too many arguments,\nstarting from \"b\".\nUSAGE\n  fs ls --help\n  fs ls [<DIR>]\n")] := by
  have key : ∃ d, finishInitialization screenData = .ok d ∧ canWriteCheck d = true ∧ d.helpSettings.lineWidth = 0 ∧
      ∃ cmd, d.command.commands.head? = some cmd ∧ (screenOf 10).event d (.error cmd b!"Too many arguments, starting from \"b\".") =
      .ok [(.stderr, b!"fs ls: Too many arguments,\nstarting from \"b\".\nUSAGE\n  fs ls --help\n  fs ls [<DIR>]\n")] := by
    refine Outcome.exists_ok ?_
    decide +kernel
  obtain ⟨d, h1, h2, h3, cmd, h4, h5⟩ := key
  refine ⟨d, h1, canWriteCheck_sound h2, ?_, cmd, .sub (List.mem_of_mem_head? h4) .self, h5⟩
  rw [h3]
  exact .narrow (by decide) (by decide)

/-- **C74** is violated: a line width of 2, and a rule with two spaces, are accepted when they are declared, but then no help text and no
error message can be written. -/
theorem C74_violated :
    (∃ d, finishInitialization { screenData with helpSettings := { lineWidth := 2 } } = .ok d ∧
      (screenOf 80).event d (.help d.command) = .throw b!"Line width must be greater than 2.") ∧
    ∃ d, finishInitialization { screenData with helpSettings := { wordSplitRules := [b!"in  put"] } } = .ok d ∧
      (screenOf 80).event d (.help d.command) = .throw b!"Invalid split rule" := by
  constructor
  all_goals
    refine Outcome.exists_ok ?_
    decide +kernel

/-! ### C75 -/

/-- What the events of a whole run show. -/
theorem parse_seen {d0 d : ParserData} (h : finishInitialization d0 = .ok d) (ho : OwnCallbacks d0) (env : Env) (args : List Str) (fuel : Nat) :
    ∃ rs, Gets env d args fuel rs ∧ (activeCommand d.command rs).Within d.command ∧
      Seen (activeCommand d.command rs) d0.settings rs (parse env d args fuel).1 (noticesIn (parse env d args fuel).2.log) := by
  have hr := ready_of_init h
  have hv := versionOnly_of_init h ho
  have hset : d.settings = d0.settings := (finishInitialization_ok h).1
  obtain ⟨rs, s1, ht, hl, hend⟩ := run_ends (env := env) hr fuel (start_good d args).2
  obtain ⟨hc, hg, hs, hn, hm⟩ := ht.told hv hr hl
  have gets : (rs.length = fuel ∨ rs.length < fuel ∧ ∀ r, (next env s1).1 = .ok r → r.IsLast) → Gets env d args fuel rs :=
    fun h => ⟨s1, ht, hl, h⟩
  have hw : (activeCommand d.command rs).Within d.command := by rw [hc]; exact hg.within
  have mode : ∀ {r s'}, next env s1 = (r, s') → r ≠ .ok .done → shownAtEnd (activeCommand d.command rs) rs = [] := by
    intro r s' hnx hne
    rcases hm with h | h
    · exact h
    · rw [next_of_done env h] at hnx
      simp only [Prod.mk.injEq] at hnx
      exact absurd hnx.1.symm hne
  refine ⟨rs, ?_, hw, ?_⟩
  · rcases hend with ⟨h1, _⟩ | ⟨h1, h2⟩
    · exact gets (Or.inl h1)
    · refine gets (Or.inr ⟨h1, ?_⟩)
      intro r hr'
      rcases h2 with ⟨last, s', h3, h4, _⟩ | ⟨c, s', h3, _⟩ | ⟨m, s', h3, _⟩
      · rw [h3] at hr'
        simp only [Outcome.ok.injEq] at hr'
        rw [← hr']
        exact h4
      · rw [h3] at hr'; simp at hr'
      · rw [h3] at hr'; simp at hr'
  · rw [parse_log]
    have hout : ∀ {x s'}, run env fuel (start d args).2 = (x, s') → (∀ u, x ≠ .ok u) → (parse env d args fuel).1 = x.bind fun _ => .ok none := by
      intro x s' hx hne
      unfold parse
      have hst := (start_good d args).1
      rw [hst] at hx ⊢
      simp only
      rw [hx]
      cases x with
      | ok u => exact absurd rfl (hne u)
      | _ => rfl
    rcases hend with ⟨_, h2⟩ | ⟨_, h2⟩
    · rw [hout h2 (by simp), h2, hn]
      exact .diverges
    · rcases h2 with ⟨last, s', h3, h4, h5⟩ | ⟨c, s', h3, h5⟩ | ⟨m, s', h3, h5⟩
      · have hps : Parses env d args rs last s' := ⟨⟨s1, ht, h3⟩, hl, h4⟩
        obtain ⟨n, hn1⟩ : ∃ n, topLevel s' = some n := by
          obtain ⟨a, l, e, _⟩ := (next_good hr hg h3).2.head
          exact ⟨_, topLevel_eq e⟩
        have hp : parse env d args fuel = (.ok (some n), s') := by
          unfold parse
          have hst := (start_good d args).1
          rw [hst] at h5 ⊢
          simp only
          rw [h5]
          simp only
          rw [hn1]
        have hcode := C23_failure h (n := n) ⟨s', hps, hn1⟩
        obtain ⟨ns, h6, h7⟩ := next_told hv hr hg hs h3
        rw [h5, hp]
        show Seen _ _ _ (.ok (some n)) (noticesIn s'.log)
        rw [h7, hn]
        cases last with
        | error =>
          rw [mode h3 (by simp), List.nil_append]
          cases h6 with
          | error =>
            rw [← hc]
            exact .failure (hcode.mpr rfl)
          | other _ h => exact absurd rfl h
        | done =>
          cases h6 with
          | other _ _ =>
            rw [List.append_nil]
            exact .success fun hf => absurd (hcode.mp hf) (by simp)
        | argument a v => exact absurd h4 (by simp [IterResult.IsLast])
        | option o v => exact absurd h4 (by simp [IterResult.IsLast])
        | command c t => exact absurd h4 (by simp [IterResult.IsLast])
        | unknown x => exact absurd h4 (by simp [IterResult.IsLast])
      · rw [hout h5 (by simp), h5]
        obtain ⟨ns, h6, h7⟩ := next_told hv hr hg hs h3
        show Seen _ _ _ (.exit c) (noticesIn s'.log)
        rw [h7, hn, mode h3 (by simp), List.nil_append, hc]
        rw [hset] at h6
        cases h6 with
        | errorExit h1 h2 => exact .errorExit h1 h2
        | stopExit g1 g2 g3 => exact .stopExit g1 g2 g3
      · rw [hout h5 (by simp), h5]
        obtain ⟨ns, h6, h7⟩ := next_told hv hr hg hs h3
        show Seen _ _ _ (.throw m) (noticesIn s'.log)
        rw [h7, hn, mode h3 (by simp), List.nil_append, hc]
        cases h6 with
        | throw h1 h2 => exact .throw h1 h2


/-- Only the command being read is shown. -/
theorem seen_command {cmd : Command} {st : ParserSettings} {rs : List IterResult} {o : Outcome (Option PNode)} {ns : List Notice}
    (h : Seen cmd st rs o ns) {c : Command} {m : Str} (hm : .help c ∈ ns ∨ .error c m ∈ ns) : c = cmd := by
  have for_ : ∀ {o : OptData}, .help c ∈ shownFor cmd o ∨ .error c m ∈ shownFor cmd o → c = cmd := by
    intro o h
    unfold shownFor at h
    split at h
    · simp at h
    · split at h
      · simpa using h
      · simp at h
  have atEnd : .help c ∈ shownAtEnd cmd rs ∨ .error c m ∈ shownAtEnd cmd rs → c = cmd := by
    intro h
    unfold shownAtEnd at h
    split at h
    · exact for_ h
    · simp at h
  cases h with
  | success _ => exact atEnd hm
  | failure _ => simp at hm; exact hm.1
  | errorExit _ h =>
    rcases h with rfl | rfl
    · simp at hm; exact hm.1
    · simp at hm; exact hm.1
  | stopExit _ _ _ => exact for_ hm
  | throw h1 h2 =>
    rcases h1 with rfl | rfl <;> rcases h2 with rfl | ⟨_, rfl⟩ <;> simp at hm
    · exact hm.1
    · exact hm.1
  | diverges => exact atEnd hm

theorem mem_noticesIn {es : List Event} {e : Event} (he : e ∈ es) {x : Notice} (hx : x ∈ e.notices) : x ∈ noticesIn es :=
  List.mem_flatMap.mpr ⟨e, he, hx⟩

/-- What is written by a whole run. -/
theorem parse_written {d0 d : ParserData} (h : finishInitialization d0 = .ok d) (ho : OwnCallbacks d0) (hw : CanWrite d) (sc : Screen) {W : Nat}
    (hW : Width sc.terminal d.helpSettings.lineWidth W) (env : Env) (args : List Str) (fuel : Nat) :
    (sc.parse env d args fuel).1 = (parse env d args fuel).1 ∧
    Each (Notice.Looks sc d W) (noticesIn (parse env d args fuel).2.log) (sc.parse env d args fuel).2 := by
  obtain ⟨rs, _, hc, hs⟩ := parse_seen h ho env args fuel
  obtain ⟨out, h1, h2⟩ := events_look h hw hW (es := (parse env d args fuel).2.log) (by
    intro e he c m hcm
    have : c = activeCommand d.command rs := by
      rcases hcm with rfl | rfl
      · exact seen_command (m := []) hs (Or.inl (mem_noticesIn he (by simp [Event.notices])))
      · exact seen_command (m := m) hs (Or.inr (mem_noticesIn he (by simp [Event.notices])))
    rw [this]
    exact hc)
  unfold Screen.parse
  simp only [h1]
  exact ⟨rfl, h2⟩

/-- **C75** (what holds): what is written while a command line is parsed, and how it looks. If parsing fails there is one error message in
the name of the command being read, on the error stream. If it succeeds, the help text of that command or the version is written if the
last result is the option for it, and otherwise nothing is. Programs that exit, and callbacks that throw, are covered. Missing: settings with which nothing
can be written, see `C75_violated`. -/
theorem C75_seen_partial {d0 d : ParserData} (h : finishInitialization d0 = .ok d) (ho : OwnCallbacks d0) (hw : CanWrite d) (sc : Screen) {W : Nat}
    (hW : Width sc.terminal d.helpSettings.lineWidth W) (env : Env) (args : List Str) (fuel : Nat) :
    (sc.parse env d args fuel).1 = (parse env d args fuel).1 ∧ ∃ rs ns, Gets env d args fuel rs ∧
      Seen (activeCommand d.command rs) d0.settings rs (parse env d args fuel).1 ns ∧ Each (Notice.Looks sc d W) ns (sc.parse env d args fuel).2 := by
  obtain ⟨rs, h1, _, h2⟩ := parse_seen h ho env args fuel
  obtain ⟨h3, h4⟩ := parse_written h ho hw sc hW env args fuel
  exact ⟨h3, rs, _, h1, h2, h4⟩

/-- **C75**: the results are determined by the command line. -/
theorem C75_results {env : Env} {d : ParserData} {args : List Str} {fuel : Nat} {rs rs' : List IterResult} (h : Gets env d args fuel rs)
    (h' : Gets env d args fuel rs') : rs = rs' := by
  have key : ∀ {s s1 s2 : PState} {rs rs' : List IterResult} {fuel : Nat}, Trace env s rs s1 → Trace env s rs' s2 →
      (∀ r ∈ rs, ¬ r.IsLast) → (∀ r ∈ rs', ¬ r.IsLast) →
      (rs.length = fuel ∨ rs.length < fuel ∧ ∀ r, (next env s1).1 = .ok r → r.IsLast) →
      (rs'.length = fuel ∨ rs'.length < fuel ∧ ∀ r, (next env s2).1 = .ok r → r.IsLast) → rs = rs' := by
    intro s s1 s2 rs rs' fuel h1
    induction h1 generalizing rs' fuel with
    | nil =>
      intro h2 hl hl' he he'
      cases h2 with
      | nil => rfl
      | cons hn _ =>
        rcases he with he | ⟨_, he⟩
        · rcases he' with he' | ⟨he', _⟩
          · rw [← he] at he'; simp at he'
          · rw [← he] at he'; simp at he'
        · exact absurd (he _ (by rw [hn])) (hl' _ List.mem_cons_self)
    | cons hn1 _ ih =>
      intro h2 hl hl' he he'
      cases h2 with
      | nil =>
        rcases he' with he' | ⟨_, he'⟩
        · rcases he with he | ⟨he, _⟩
          · rw [← he'] at he; simp at he
          · rw [← he'] at he; simp at he
        · exact absurd (he' _ (by rw [hn1])) (hl _ List.mem_cons_self)
      | cons hn2 h3 =>
        rw [hn1] at hn2
        simp only [Prod.mk.injEq, Outcome.ok.injEq] at hn2
        obtain ⟨rfl, rfl⟩ := hn2
        rw [ih (fuel := fuel - 1) h3 (fun r hr => hl r (List.mem_cons_of_mem _ hr)) (fun r hr => hl' r (List.mem_cons_of_mem _ hr))
          (by simp only [List.length_cons] at he; rcases he with he | ⟨he, h⟩
              · left; omega
              · right; exact ⟨by omega, h⟩)
          (by simp only [List.length_cons] at he'; rcases he' with he | ⟨he, h⟩
              · left; omega
              · right; exact ⟨by omega, h⟩)]
  obtain ⟨s1, a1, a2, a3⟩ := h
  obtain ⟨s2, b1, b2, b3⟩ := h'
  exact key a1 b1 a2 b2 a3 b3

instance (r : IterResult) : Decidable r.IsLast := by
  cases r <;> unfold IterResult.IsLast <;> infer_instance

-- One result, the command "ls", and then the end.
example : ∃ d, finishInitialization screenData = .ok d ∧ ∃ rs, Gets Env.inert d [b!"ls"] 9 rs ∧ rs.length = 1 := by
  have key : ∃ d, finishInitialization screenData = .ok d ∧
      (∃ r, (next Env.inert (start d [b!"ls"]).2).1 = .ok r ∧ ¬ r.IsLast) ∧
      ∃ r, (next Env.inert (next Env.inert (start d [b!"ls"]).2).2).1 = .ok r ∧ r.IsLast := by
    refine Outcome.exists_ok ?_
    decide +kernel
  obtain ⟨d, hd, ⟨r, h1, h2⟩, ⟨r', h3, h4⟩⟩ := key
  refine ⟨d, hd, [r], ⟨_, .cons (s1 := (next Env.inert (start d [b!"ls"]).2).2) (by rw [← h1]) .nil, by simpa using h2, Or.inr ⟨by simp, ?_⟩⟩, rfl⟩
  intro x hx
  rw [h3] at hx
  rw [← Outcome.ok.inj hx]
  exact h4

/-- **C75** (what holds): the error message on the screen is true, except for the one that isn't (see `C64_exact_partial`). Missing: what is missing
from `C64_exact_partial`, and settings with which nothing can be written. -/
theorem C75_exact_partial {d0 d : ParserData} (h : finishInitialization d0 = .ok d) (hoc : OwnCallbacks d0) (hw : CanWrite d) (ho : Ordinary d)
    (hf : Predictable d) (hcap : ∀ c : Command, c.Within d.command → minTotal c.arguments < sizeMax) {env : Env} (hsi : env.Silent)
    {args : List Str} (hne : d0.settings.optionStyle = .standard ∨ [] ∉ args) (hsz : args.length ≤ sizeMax) (fuel : Nat) (sc : Screen) {W : Nat}
    (hW : Width sc.terminal d.helpSettings.lineWidth W) {s : Stream} {text : Str} (hcu : sc.custom = false)
    (hs : (s, text) ∈ (sc.parse env d args fuel).2) (he : s = .stderr) :
    ∃ cmd msg, (d.Rejects args cmd msg ∨ ∃ n, Overlooked cmd n ∧ msg = tooFewText cmd n) ∧ Laid (errorBlocks sc.texts cmd msg) text ∧ ∀ l ∈ linesOf text, LineFits W l := by
  obtain ⟨_, h1⟩ := parse_written h hoc hw sc hW env args fuel
  obtain ⟨x, hx, hl⟩ := Each.mem_right h1 hs
  cases hl with
  | version => simp [hcu] at he
  | help _ _ => simp [hcu] at he
  | @error cmd msg _ h2 h3 =>
    obtain ⟨e, he1, he2⟩ := List.mem_flatMap.mp hx
    have : e = .error cmd msg := by
      cases e with
      | error c m => simp [Event.notices] at he2; rw [he2.1, he2.2]
      | help c => simp [Event.notices] at he2
      | callback cb v w vs =>
        simp only [Event.notices] at he2
        split at he2 <;> simp at he2
    rw [this] at he1
    exact ⟨cmd, msg, (C64_exact_partial h ho hf hcap hsi hne hsz fuel he1).2.1.imp_right (·.2), h2, h3⟩

/-- **C75** (what holds): the error message on the screen is true (see C64). Missing: what is missing from `C64_truth_partial`, and settings
with which nothing can be written. -/
theorem C75_truth_partial {d0 d : ParserData} (h : finishInitialization d0 = .ok d) (hoc : OwnCallbacks d0) (hw : CanWrite d) (ho : Ordinary d)
    (hf : Foreseeable d) (hcap : ∀ c : Command, c.Within d.command → minTotal c.arguments < sizeMax) {env : Env} (hsi : env.Silent)
    {args : List Str} (hne : d0.settings.optionStyle = .standard ∨ [] ∉ args) (hsz : args.length ≤ sizeMax) (fuel : Nat) (sc : Screen) {W : Nat}
    (hW : Width sc.terminal d.helpSettings.lineWidth W) {s : Stream} {text : Str} (hcu : sc.custom = false)
    (hs : (s, text) ∈ (sc.parse env d args fuel).2) (he : s = .stderr) :
    ∃ cmd msg, d.Rejects args cmd msg ∧ Laid (errorBlocks sc.texts cmd msg) text ∧ ∀ l ∈ linesOf text, LineFits W l := by
  obtain ⟨_, h1⟩ := parse_written h hoc hw sc hW env args fuel
  obtain ⟨x, hx, hl⟩ := Each.mem_right h1 hs
  cases hl with
  | version => simp [hcu] at he
  | help _ _ => simp [hcu] at he
  | @error cmd msg _ h2 h3 =>
    obtain ⟨e, he1, he2⟩ := List.mem_flatMap.mp hx
    have : e = .error cmd msg := by
      cases e with
      | error c m => simp [Event.notices] at he2; rw [he2.1, he2.2]
      | help c => simp [Event.notices] at he2
      | callback cb v w vs =>
        simp only [Event.notices] at he2
        split at he2 <;> simp at he2
    rw [this] at he1
    exact ⟨cmd, msg, (C64_truth_partial h ho hf hcap hsi hne hsz fuel he1).2.1, h2, h3⟩

-- The version; the help texts of the program and of the command "ls"; nothing; an error of "ls".
example : ∃ d, finishInitialization screenData = .ok d ∧ (OwnCallbacks screenData ∧ CanWrite d ∧ Width 60 d.helpSettings.lineWidth 60) ∧
    ((screenOf 60).parse Env.inert d [b!"--version"] 9).2 = [(.stdout, b!"fs 1.2\n")] ∧
    ((screenOf 60).parse Env.inert d [b!"ls", b!"-h"] 9).2 =
      [(.stdout, b!"USAGE\n  fs ls --help\n  fs ls [<DIR>]\n\nARGUMENTS\n  [<DIR>]\n\nOPTIONS\n  -h, --help Display this help text.\n")] ∧
    ((screenOf 60).parse Env.inert d [b!"-v", b!"ls", b!"a"] 9).2 = [] ∧
    ((screenOf 60).parse Env.inert d [b!"ls", b!"-x"] 9).2 = [(.stderr, b!"fs ls: Unknown option: -x\nUSAGE\n  fs ls --help\n  fs ls [<DIR>]\n")] := by
  have key : ∃ d, finishInitialization screenData = .ok d ∧ (ownCallbacksCheck screenData = true ∧ canWriteCheck d = true ∧ d.helpSettings.lineWidth = 0) ∧
    ((screenOf 60).parse Env.inert d [b!"--version"] 9).2 = [(.stdout, b!"fs 1.2\n")] ∧
    ((screenOf 60).parse Env.inert d [b!"ls", b!"-h"] 9).2 =
      [(.stdout, b!"USAGE\n  fs ls --help\n  fs ls [<DIR>]\n\nARGUMENTS\n  [<DIR>]\n\nOPTIONS\n  -h, --help Display this help text.\n")] ∧
    ((screenOf 60).parse Env.inert d [b!"-v", b!"ls", b!"a"] 9).2 = [] ∧
    ((screenOf 60).parse Env.inert d [b!"ls", b!"-x"] 9).2 = [(.stderr, b!"fs ls: Unknown option: -x\nUSAGE\n  fs ls --help\n  fs ls [<DIR>]\n")] := by
    refine Outcome.exists_ok ?_
    decide +kernel
  obtain ⟨d, hd, ⟨h1, h2, h3⟩, h4⟩ := key
  exact ⟨d, hd, ⟨ownCallbacksCheck_sound h1, canWriteCheck_sound h2, by rw [h3]; exact .terminal (by decide)⟩, h4⟩

-- `C75_truth_partial`: the error on the screen is one of the messages that `grammarData` may give for the line.
example : ∃ d, finishInitialization grammarData = .ok d ∧ (OwnCallbacks grammarData ∧ CanWrite d ∧ Ordinary d ∧ Foreseeable d) ∧
    ((screenOf 60).parse Env.inert d [b!"cp", b!"a", b!"b"] 9).2 =
      [(.stderr, b!"fs cp: Mandatory option is missing: --mode\nUSAGE\n  fs cp --mode <MODE> <FROM> [<FROM>]... <TO>\n")] := by
  have key : ∃ d, finishInitialization grammarData = .ok d ∧ (ownCallbacksCheck grammarData = true ∧ canWriteCheck d = true ∧
      ordinaryCheck 3 d = true ∧ foreseeableCheck 3 d = true) ∧
    ((screenOf 60).parse Env.inert d [b!"cp", b!"a", b!"b"] 9).2 =
      [(.stderr, b!"fs cp: Mandatory option is missing: --mode\nUSAGE\n  fs cp --mode <MODE> <FROM> [<FROM>]... <TO>\n")] := by
    refine Outcome.exists_ok ?_
    decide +kernel
  obtain ⟨d, hd, ⟨h1, h2, h3, h4⟩, h5⟩ := key
  exact ⟨d, hd, ⟨ownCallbacksCheck_sound h1, canWriteCheck_sound h2, ordinaryCheck_sound h3, foreseeableCheck_sound h4⟩, h5⟩

-- `C75_exact_partial`: the false message for `gapData`.
example : ∃ d, finishInitialization gapData = .ok d ∧ (OwnCallbacks gapData ∧ CanWrite d ∧ Ordinary d ∧ Predictable d) ∧
    ((screenOf 60).parse Env.inert d [b!"a"] 9).2 =
      [(.stderr, b!"cli: Too few arguments. Expected at least 1, received 1.\nUSAGE\n  cli <A> [<A>] [<B>]\n")] := by
  have key : ∃ d, finishInitialization gapData = .ok d ∧ (ownCallbacksCheck gapData = true ∧ canWriteCheck d = true ∧
      ordinaryCheck 3 d = true ∧ predictableCheck 3 d = true) ∧
    ((screenOf 60).parse Env.inert d [b!"a"] 9).2 =
      [(.stderr, b!"cli: Too few arguments. Expected at least 1, received 1.\nUSAGE\n  cli <A> [<A>] [<B>]\n")] := by
    refine Outcome.exists_ok ?_
    decide +kernel
  obtain ⟨d, hd, ⟨h1, h2, h3, h4⟩, h5⟩ := key
  exact ⟨d, hd, ⟨ownCallbacksCheck_sound h1, canWriteCheck_sound h2, ordinaryCheck_sound h3, predictableCheck_sound h4⟩, h5⟩

/-- **C75** is violated: with a line width of 2 a mistake of the user isn't reported: there is no message, and `parse` throws an exception
about the line width instead of returning. -/
theorem C75_violated : ∃ d, finishInitialization { screenData with helpSettings := { lineWidth := 2 } } = .ok d ∧
    parseCode Env.inert d [b!"ls", b!"-x"] 9 = some .failure ∧ ((screenOf 60).parse Env.inert d [b!"ls", b!"-x"] 9).2 = [] ∧
    ((screenOf 60).parse Env.inert d [b!"ls", b!"-x"] 9).1 = .throw b!"Line width must be greater than 2." := by
  have key : ∃ d, finishInitialization { screenData with helpSettings := { lineWidth := 2 } } = .ok d ∧
      parseCode Env.inert d [b!"ls", b!"-x"] 9 = some .failure ∧ ((screenOf 60).parse Env.inert d [b!"ls", b!"-x"] 9).2 = [] ∧
      (((screenOf 60).parse Env.inert d [b!"ls", b!"-x"] 9).1.bind fun _ => .ok ()) = .throw b!"Line width must be greater than 2." := by
    refine Outcome.exists_ok ?_
    decide +kernel
  obtain ⟨d, h1, h2, h3, h4⟩ := key
  refine ⟨d, h1, h2, h3, ?_⟩
  generalize ((screenOf 60).parse Env.inert d [b!"ls", b!"-x"] 9).1 = x at h4
  cases x <;> simp [Outcome.bind] at h4
  rw [h4]

end Argos
