import Verif.Proofs.Faults
import Verif.Proofs.Calls
import Verif.Props.Grammar

/-! # The error messages: C64 -/

set_option synthInstance.maxSize 1000

namespace Argos
open Spec Parser

theorem parse_log (env : Env) (d : ParserData) (args : List Str) (fuel : Nat) :
    (parse env d args fuel).2.log = (run env fuel (start d args).2).2.log := by
  unfold parse
  rw [(start_good d args).1]
  simp only
  generalize run env fuel _ = q
  obtain ⟨o, s⟩ := q
  cases o <;> rfl

/-- **C64** (what holds): there is one false message at most that `parse` writes: that there are too few arguments for a command whose arguments
must be counted beforehand, when there are enough of them, but none for the last argument. Every other error message is true: it tells what is
wrong with the command line, at the first place where something is wrong, in the name of the command that it is wrong for. There is never a second
message. Missing: parsers for which the arguments must be counted beforehand and aren't counted correctly, see `C64_violated`; and empty arguments
in the SLASH and DASH styles. -/
theorem C64_exact_partial {d0 d : ParserData} (h : finishInitialization d0 = .ok d) (ho : Ordinary d) (hf : Predictable d)
    (hcap : ∀ c : Command, c.Within d.command → minTotal c.arguments < sizeMax) {env : Env} (hsi : env.Silent) {args : List Str}
    (hne : d0.settings.optionStyle = .standard ∨ [] ∉ args) (hsz : args.length ≤ sizeMax) (fuel : Nat) {cmd : Command} {msg : Str}
    (he : .error cmd msg ∈ (parse env d args fuel).2.log) : cmd.Within d.command ∧
      (d.Rejects args cmd msg ∨ (d.RejectsIf Overlooked args cmd msg ∧ ∃ n, Overlooked cmd n ∧ msg = tooFewText cmd n)) ∧
      (parse env d args fuel).2.log.filter Event.isError = [.error cmd msg] := by
  have hrd := ready_of_init h
  have hg := (start_good d args).2
  have hsg := (start_good d args).1
  have hcm : (start d args).2.command = d.command := by rw [hsg]; rfl
  have hmem : Event.error cmd msg ∈ errorsIn (parse env d args fuel).2.log := List.mem_filter.mpr ⟨he, rfl⟩
  show _ ∧ _ ∧ errorsIn _ = _
  rw [parse_log] at hmem ⊢
  have h0 : errorsIn (start d args).2.log = [] := by rw [start_log]; rfl
  rcases run_errors hsi hrd fuel hg (by rw [hsg]; simp [startState]) with e | ⟨rs, s1, m, ht, hl, hc, e⟩
  · rw [e, h0] at hmem; simp at hmem
  · rw [e, h0] at hmem
    simp only [List.nil_append, List.mem_singleton, Event.error.injEq] at hmem
    obtain ⟨rfl, rfl⟩ := hmem
    have hg1 := ht.good hrd hg
    refine ⟨hg1.within, ?_, by rw [e, h0]; rfl⟩
    have hns : NoStop rs := by
      intro o v hm hends
      obtain ⟨_, _, _, _, _, _, _, hd⟩ := ht.stop_last hrd hg hl hm hends
      have := hc.mode
      exact this hd
    have := rejects hsi.passive (rules_of h ho) hrd ho.exclusive ho.counts (fun c hc => reckonable_of h ho.flags hf hc) hcap ht hg
      (by rw [start_line, (finishInitialization_ok h).1]; exact hne) hl hns hc (by rw [hsg]; rfl)
      (occs := d.command.options.map .initial) (argsGiven_map_initial _) (rest := []) (by rw [hcm]; exact agrees_start d args)
      (by rw [hcm]; exact start_counted d args)
      (foreseen_start (s0 := startState d args) (rules_of h ho) hg (by rw [hcm]; exact reckonable_of h ho.flags hf .self) (by rw [hsg]; rfl)
        (by rw [hsg]; exact ⟨rfl, rfl, rfl⟩) (by rw [hsg]) (by rw [hsg]; rfl))
      (by rw [start_line]; simpa [lineSize] using hsz)
    rw [hcm, start_line] at this
    exact this.split

/-- **C64** (what holds): every error message that `parse` writes is true, as in `C64_exact_partial`, if the last argument is mandatory where arguments
must be counted beforehand. -/
theorem C64_truth_partial {d0 d : ParserData} (h : finishInitialization d0 = .ok d) (ho : Ordinary d) (hf : Foreseeable d)
    (hcap : ∀ c : Command, c.Within d.command → minTotal c.arguments < sizeMax) {env : Env} (hsi : env.Silent) {args : List Str}
    (hne : d0.settings.optionStyle = .standard ∨ [] ∉ args) (hsz : args.length ≤ sizeMax) (fuel : Nat) {cmd : Command} {msg : Str}
    (he : .error cmd msg ∈ (parse env d args fuel).2.log) : cmd.Within d.command ∧ d.Rejects args cmd msg ∧
      (parse env d args fuel).2.log.filter Event.isError = [.error cmd msg] := by
  obtain ⟨h1, h2 | ⟨_, n, h2, _⟩, h3⟩ := C64_exact_partial h ho hf.1 hcap hsi hne hsz fuel he
  · exact ⟨h1, h2, h3⟩
  · exact absurd (Or.inl (hf.2 _ h1 h2.1)) h2.2.2.2

/-- **C64**: what a message can say is true of malformed command lines only. -/
theorem C64_exclusive {d0 d : ParserData} (h : finishInitialization d0 = .ok d) (ho : Ordinary d) {args : List Str} {who : Command} {msg : Str}
    (hr : d.Rejects args who msg) : ¬ ∃ rs, d.Accepts args rs := by
  rintro ⟨rs, ha⟩
  refine Rejects.not_accepts (d := d) (fun c hc => (rules_of h ho).functional hc) ?_ ?_ .self (argsGiven_map_initial _) hr ha
  · intro c q c1 c2 e1 e2
    unfold NamesCommand at e1 e2
    rw [e1] at e2
    exact Option.some.inj e2
  · intro c q c' e
    exact List.mem_of_find?_eq_some e

/-- **C64** (what holds): for a parser without options that end parsing, and with `auto_exit` off, there is an error message exactly when
the command line isn't well-formed. -/
theorem C64_told_partial {d0 d : ParserData} (h : finishInitialization d0 = .ok d) (ho : Ordinary d) (hf : Foreseeable d)
    (hno : ∀ c : Command, c.Within d.command → ∀ o ∈ c.options, ¬ EndsParsing o) (hae : d0.settings.autoExit = false) {env : Env}
    (hsi : env.Silent) {args : List Str} (hne : d0.settings.optionStyle = .standard ∨ [] ∉ args) (hsz : args.length ≤ sizeMax) {fuel : Nat}
    (hfu : cmdSize args + 1 < fuel) : (∃ cmd msg, .error cmd msg ∈ (parse env d args fuel).2.log) ↔ ¬ ∃ rs, d.Accepts args rs := by
  obtain ⟨n, s', hp, _, h2⟩ := C57_verdict_partial h ho hf hno hae hsi hne hsz hfu
  rw [← h2, C23_failure_reported h hp, hp]

/-- **C64** (what holds): without the condition that the last argument is mandatory where arguments must be counted beforehand, the message is also there
when that argument has got no value. -/
theorem C64_told_exact_partial {d0 d : ParserData} (h : finishInitialization d0 = .ok d) (ho : Ordinary d) (hf : Predictable d)
    (hno : ∀ c : Command, c.Within d.command → ∀ o ∈ c.options, ¬ EndsParsing o) (hae : d0.settings.autoExit = false) {env : Env}
    (hsi : env.Silent) {args : List Str} (hne : d0.settings.optionStyle = .standard ∨ [] ∉ args) (hsz : args.length ≤ sizeMax) {fuel : Nat}
    (hfu : cmdSize args + 1 < fuel) :
    (∃ cmd msg, .error cmd msg ∈ (parse env d args fuel).2.log) ↔ ¬ ∃ rs, d.Accepts args rs ∧ Served d.command rs := by
  obtain ⟨n, s', hp, _, h2⟩ := C57_exact_partial h ho hf hno hae hsi hne hsz hfu
  rw [← h2, C23_failure_reported h hp, hp]

/-- **C64** (what holds): the only message for a well-formed command line is the false one. -/
theorem C64_false_partial {d0 d : ParserData} (h : finishInitialization d0 = .ok d) (ho : Ordinary d) (hf : Predictable d)
    (hcap : ∀ c : Command, c.Within d.command → minTotal c.arguments < sizeMax) {env : Env} (hsi : env.Silent) {args : List Str}
    (hne : d0.settings.optionStyle = .standard ∨ [] ∉ args) (hsz : args.length ≤ sizeMax) (fuel : Nat) {cmd : Command} {msg : Str}
    (he : .error cmd msg ∈ (parse env d args fuel).2.log) {rs : List IterResult} (ha : d.Accepts args rs) :
    ∃ n, Overlooked cmd n ∧ msg = tooFewText cmd n := by
  obtain ⟨_, h1 | h1, _⟩ := C64_exact_partial h ho hf hcap hsi hne hsz fuel he
  · exact absurd ⟨rs, ha⟩ (C64_exclusive h ho h1)
  · exact h1.2

/-- Command lines for `grammarData`, and the messages. -/
def faultyLines : List (List Str × Str × Str) :=
  [([], b!"fs", b!"No command was given."),
   ([b!"ls", b!"-x"], b!"fs ls", b!"Unknown option: -x"),
   ([b!"-vx", b!"ls"], b!"fs", b!"Unknown option: -vx"),
   ([b!"-v", b!"-l"], b!"fs", b!"-l: no value given."),
   ([b!"ls", b!"a", b!"b", b!"c"], b!"fs ls", b!"Too many arguments, starting from \"c\"."),
   ([b!"cp", b!"a", b!"b"], b!"fs cp", b!"Mandatory option is missing: --mode"),
   ([b!"--log=x", b!"mv"], b!"fs", b!"Unknown command: mv"),
   ([b!"cp", b!"a", b!"--mode=m"], b!"fs cp", b!"Too few arguments. Expected at least 2, received 1.")]

-- Every kind of message occurs; all of them are true, by `C64_truth_partial`, and none of the lines is well-formed, by `C64_exclusive`.
example : ∃ d, finishInitialization grammarData = .ok d ∧ (Ordinary d ∧ Foreseeable d) ∧ ∀ x ∈ faultyLines,
    (parse Env.inert d x.1 99).2.log.filterMap Event.shown = [(x.2.1, x.2.2)] ∧ (∃ who, x.2.1 = who.fullName ∧ d.Rejects x.1 who x.2.2) ∧
    ¬ ∃ rs, d.Accepts x.1 rs := by
  have key : ∃ d, finishInitialization grammarData = .ok d ∧ ((ordinaryCheck 3 d = true ∧ foreseeableCheck 3 d = true) ∧
      d.command.checkAll (fun c => decide (minTotal c.arguments < sizeMax)) 3 = true) ∧
      (faultyLines.all fun x => decide (x.1.length ≤ 9 ∧ (parse Env.inert d x.1 99).2.log.filterMap Event.shown = [(x.2.1, x.2.2)])) = true := by
    refine Outcome.exists_ok ?_
    decide +kernel
  obtain ⟨d, hd, ⟨⟨h1, h2⟩, h3⟩, h4⟩ := key
  have ho := ordinaryCheck_sound h1
  have hf := foreseeableCheck_sound h2
  refine ⟨d, hd, ⟨ho, hf⟩, fun x hx => ?_⟩
  have h5 := List.all_eq_true.mp h4 x hx
  simp only [decide_eq_true_eq] at h5
  have hm : ∃ ev ∈ (parse Env.inert d x.1 99).2.log, ev.shown = some (x.2.1, x.2.2) := by
    have : (x.2.1, x.2.2) ∈ (parse Env.inert d x.1 99).2.log.filterMap Event.shown := by rw [h5.2]; simp
    exact List.mem_filterMap.mp this
  obtain ⟨ev, hev, hsh⟩ := hm
  cases ev with
  | help c => simp [Event.shown] at hsh
  | callback _ _ _ _ => simp [Event.shown] at hsh
  | error who msg =>
  simp only [Event.shown, Option.some.injEq, Prod.mk.injEq] at hsh
  obtain ⟨e, rfl⟩ := hsh
  obtain ⟨_, hr, _⟩ := C64_truth_partial hd ho hf (fun c hc => of_decide_eq_true (Command.checkAll_sound h3 hc)) silent_inert
    (Or.inl rfl) (by have : (9 : Nat) ≤ sizeMax := by decide
                     omega) 99 hev
  exact ⟨h5.2, ⟨who, e.symm, hr⟩, C64_exclusive hd ho hr⟩

-- `C64_exact_partial`, `C64_told_exact_partial` and `C64_false_partial` for `gapData`: there is a message for the line, although it is well-formed.
example : ∃ d, finishInitialization gapData = .ok d ∧ (Ordinary d ∧ Predictable d) ∧ (∃ rs, d.Accepts [b!"a"] rs) ∧
    (¬ ∃ rs, d.Accepts [b!"a"] rs ∧ Served d.command rs) ∧
    ∃ cmd msg n, .error cmd msg ∈ (parse Env.inert d [b!"a"] 9).2.log ∧ Overlooked cmd n ∧ msg = tooFewText cmd n := by
  obtain ⟨d, hd, ho, ⟨rs, ha⟩, _⟩ := C57_violated
  have key : ∃ d, finishInitialization gapData = .ok d ∧ (predictableCheck 3 d = true ∧ endlessCheck 3 d = true ∧
      d.command.checkAll (fun c => decide (minTotal c.arguments < sizeMax)) 3 = true) ∧
      (parse Env.inert d [b!"a"] 9).2.log.map Event.shown = [some (b!"cli", b!"Too few arguments. Expected at least 1, received 1.")] := by
    refine Outcome.exists_ok ?_
    decide +kernel
  obtain ⟨d', hd', ⟨h1, h2, h3⟩, h4⟩ := key
  rw [hd] at hd'
  obtain rfl := Outcome.ok.inj hd'
  have hf := predictableCheck_sound h1
  have hm : ∃ cmd msg, .error cmd msg ∈ (parse Env.inert d [b!"a"] 9).2.log := by
    generalize (parse Env.inert d [b!"a"] 9).2.log = log at h4
    match log, h4 with
    | [.error cmd msg], _ => exact ⟨cmd, msg, by simp⟩
    | [.help _], h => simp [Event.shown] at h
    | [.callback _ _ _ _], h => simp [Event.shown] at h
    | [], h => simp at h
    | _ :: _ :: _, h => simp at h
  have hsz : [b!"a"].length ≤ sizeMax := by decide
  refine ⟨d, hd, ⟨ho, hf⟩, ⟨rs, ha⟩, (C64_told_exact_partial hd ho hf (endlessCheck_sound h2) rfl silent_inert (Or.inl rfl) hsz
    (by decide)).mp hm, ?_⟩
  obtain ⟨cmd, msg, he⟩ := hm
  obtain ⟨n, h5, h6⟩ := C64_false_partial hd ho hf (fun c hc => of_decide_eq_true (Command.checkAll_sound h3 hc)) silent_inert (Or.inl rfl) hsz 9 he ha
  exact ⟨cmd, msg, n, he, h5, h6⟩

/-- **C64** is violated: one argument has been given to `gapData`, whose arguments need one at least, and `aheadData` can have two
arguments, but the messages claim that there are too few and too many. Both lines are well-formed, or would be. -/
theorem C64_violated :
    (∃ d, finishInitialization gapData = .ok d ∧
      (minTotal d.command.arguments = 1 ∧ (parse Env.inert d [b!"a"] 9).2.log.map Event.shown = [some (b!"cli", b!"Too few arguments. Expected at least 1, received 1.")]) ∧
      (∃ rs, d.Accepts [b!"a"] rs) ∧ ¬ ∃ who msg, d.Rejects [b!"a"] who msg) ∧
    ∃ d, finishInitialization aheadData = .ok d ∧ maxTotal d.command.arguments = 2 ∧
      (parse Env.inert d [b!"--odd", b!"a", b!"b"] 9).2.log.map Event.shown = [some (b!"cli", b!"Too many arguments, starting from \"b\".")] := by
  constructor
  · obtain ⟨d, hd, ho, ha, _⟩ := C57_violated
    have key : ∃ d, finishInitialization gapData = .ok d ∧ minTotal d.command.arguments = 1 ∧
        (parse Env.inert d [b!"a"] 9).2.log.map Event.shown = [some (b!"cli", b!"Too few arguments. Expected at least 1, received 1.")] := by
      refine Outcome.exists_ok ?_
      decide +kernel
    obtain ⟨d', hd', h1⟩ := key
    rw [hd] at hd'
    obtain rfl := Outcome.ok.inj hd'
    exact ⟨d, hd, h1, ha, fun ⟨who, msg, hr⟩ => C64_exclusive hd ho hr ha⟩
  · refine Outcome.exists_ok ?_
    decide +kernel

end Argos
