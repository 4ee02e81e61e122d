import Verif.Proofs.Several
import Verif.Props.Grammar

/-! # Command lines with several sub-commands: C66 -/

set_option synthInstance.maxSize 1000

namespace Argos
open Spec Parser

theorem rulesMany_of {d0 d : ParserData} (h : finishInitialization d0 = .ok d) (ho : OrdinaryMany d) :
    RulesMany d (Names d.settings.caseInsensitive d.settings.allowAbbreviatedOptions) (NamesCommand d.settings.caseInsensitive) where
  names := fun c hc q o => names_of h hc (ho.flags c hc) q o
  subs := fun c _ q c' => subs_of _ c q c'
  styled := by
    refine ho.style.imp id fun h c hc q o hn => h c hc o ?_
    rcases hn with hn | ⟨_, _, _, _, hn, _⟩
    · exact hn.1
    · exact hn.1
  options := ho.options
  arguments := ho.arguments

theorem AcceptsMany.results {d : ParserData} {st : Open} {l : Line} {rs : List IterResult} {names : Command → Str → OptData → Prop}
    {subs : Command → Str → Command → Prop} {ok : Command → Nat → Prop} (h : AcceptsMany d.settings.optionStyle names subs ok st l rs) :
    ∀ r ∈ rs, ¬ r.IsLast ∧ ∀ o v, r = .option o v → ¬ EndsParsing o := by
  induction h with
  | last hw _ _ _ _ _ _ => exact hw.results _
  | sub hw _ _ ih =>
    intro r hr
    simp only [List.mem_append, List.mem_cons] at hr
    rcases hr with hr | rfl | hr
    · exact hw.results _ r hr
    · exact ⟨id, by simp⟩
    · exact ih r hr
  | next _ hw _ _ _ _ _ _ ih =>
    intro r hr
    simp only [List.mem_append, List.mem_cons] at hr
    rcases hr with hr | rfl | hr
    · exact hw.results _ r hr
    · exact ⟨id, by simp⟩
    · exact ih r hr
  | closed hw _ _ _ _ _ _ _ hty _ _ _ ih =>
    intro r hr
    simp only [List.mem_append, List.mem_cons] at hr
    rcases hr with hr | rfl | hr
    · exact hw.results _ r hr
    · refine ⟨id, ?_⟩
      rintro o' v' e
      cases e
      exact not_ends (Or.inr (Or.inr hty))
    · exact ih r hr

theorem foresees_begin {d0 d : ParserData} (h : finishInitialization d0 = .ok d) (ho : OrdinaryMany d) (hf : Predictable d) (args : List Str)
    (hr : Counter.requiresArgumentCount (start d args).2.command.arguments = true) : Foresees (startState d args) (start d args).2 0 := by
  have hsg := (start_good d args).1
  have hg := (start_good d args).2
  have hcm : (startState d args).command = (start d args).2.command := by rw [hsg]
  refine foresees_start (rulesMany_of h ho) rfl (by rw [hcm]; exact hg.within) (by rw [hcm]; exact reckonable_of h ho.flags hf hg.within)
    (by rw [hcm]; exact hr) ?_ rfl (by rw [hsg]; rfl) (by rw [hsg]) (by rw [hsg]; exact ⟨rfl, rfl, rfl⟩) (by rw [hsg]; rfl)
  have := hg.iterOk
  rw [hsg] at this
  exact this

/-- Whatever holds of the parser's commands can be left out. -/
theorem acceptsMany_weaken {d : ParserData} {ok ok' : Command → Nat → Prop} (hok : ∀ c n, c.Within d.command → ok c n → ok' c n) {args : List Str}
    {rs : List IterResult} (h : d.AcceptsManyIf ok args rs) : d.AcceptsManyIf ok' args rs := by
  refine AcceptsMany.weaken (P := fun c => c.Within d.command) ?_ hok h ?_
  · intro c q c' hc hn
    exact (Command.Within.sub (List.mem_of_find?_eq_some hn) .self).trans hc
  · intro c hc
    simp only [Open.start, List.map_cons, List.map_nil, List.mem_singleton, Tree.command] at hc
    rw [hc]
    exact .self

/-- **C66**, one direction, exactly: when `parse` succeeds and no option has ended parsing, the command line is well-formed, with each sub-command
where it belongs, and the results are what is written on it; and every command on the line whose arguments have to be counted
beforehand has got a value for its last argument, or can't do without. Missing: parsers whose options confuse the count
(see `C55_violated`), and empty arguments in the SLASH and DASH styles, see `C57_empty_violated`. -/
theorem C66_sound_exact_partial {d0 d : ParserData} (h : finishInitialization d0 = .ok d) (ho : OrdinaryMany d) (hf : Predictable d) {env : Env}
    (hp : env.Passive) {args : List Str} (hne : d0.settings.optionStyle = .standard ∨ [] ∉ args) (hsz : args.length ≤ sizeMax)
    {rs : List IterResult} {n : PNode} (hr : Returns env d args rs .done n) (hns : NoStop rs) : d.AcceptsManyIf ServedBy args (rs.map forgetText) := by
  obtain ⟨s', ⟨⟨s, ht, hd⟩, hl, _⟩, _⟩ := hr
  have hg := (start_good d args).2
  have hcm : (start d args).2.command = d.command := by rw [(start_good d args).1]; rfl
  have hmid : Midway d (Names d.settings.caseInsensitive d.settings.allowAbbreviatedOptions) (NamesCommand d.settings.caseInsensitive) (start d args).2
      (lineOf (start d args).2) (d.command.options.map .initial) [] [] [] [] := by
    refine midway_new hg (by rw [start_line, (finishInitialization_ok h).1]; exact hne) (by rw [hcm]; exact agrees_start d args)
      (by rw [hcm]; exact start_counted d args) (argsGiven_map_initial _) (by rw [(start_good d args).1]; simp [startState]) ?_ ?_
    · rw [start_line]; simpa [lineSize] using hsz
    · intro hreq
      exact ⟨_, foresees_begin h ho hf args hreq⟩
  have := sound_many hp (rulesMany_of h ho) (ready_of_init h) ho.exclusive ho.counts (fun c hc => reckonable_of h ho.flags hf hc) ht hl hns hd hmid
  rw [hcm, start_line] at this
  exact this

/-- **C66**, the other direction, exactly: every well-formed command line on which every command whose arguments have to be counted beforehand
has got a value for its last argument, or can't do without, is accepted, with the results that are written on it. Missing: as in
`C66_sound_exact_partial`. -/
theorem C66_complete_exact_partial {d0 d : ParserData} (h : finishInitialization d0 = .ok d) (ho : OrdinaryMany d) (hf : Predictable d) {env : Env}
    (hsi : env.Silent) {args : List Str} (hne : d0.settings.optionStyle = .standard ∨ [] ∉ args) (hsz : args.length ≤ sizeMax)
    {rs : List IterResult} (ha : d.AcceptsManyIf ServedBy args rs) :
    ∃ rs' n, Returns env d args rs' .done n ∧ NoStop rs' ∧ rs'.map forgetText = rs ∧ n.code = .success := by
  have hrd := ready_of_init h
  have hg := (start_good d args).2
  have hsg := (start_good d args).1
  have hb : Begins d (start d args).2 (Open.start d.command) (.mixed ⟨[], args⟩) := by
    refine ⟨hg, ?_, start_line d args, by rw [hsg]; simp [startState], agrees_start d args, by simpa [lineSize] using hsz, ?_⟩
    · rw [(finishInitialization_ok h).1]; exact hne
    · refine ⟨ahead (startState d args), by rw [hsg]; rfl, fun hreq => ⟨_, foresees_begin h ho hf args hreq, rfl⟩⟩
  obtain ⟨rs', s1, s', h1, h2, h3⟩ := complete_many hsi (rulesMany_of h ho) hrd ho.exclusive ho.counts (fun c hc => reckonable_of h ho.flags hf hc) ha hb
  obtain ⟨g1, g2⟩ := forgetText_results (rs := rs') (by rw [h3]; exact AcceptsMany.results ha)
  have hgs := h1.good hrd hg
  have hgs' := (next_good hrd hgs h2).2
  obtain ⟨k, ks, hk, _⟩ := hgs'.head
  have hret : Returns env d args rs' .done _ := ⟨s', ⟨⟨s1, h1, h2⟩, g1, trivial⟩, topLevel_eq hk⟩
  exact ⟨rs', _, hret, g2, h3, (C23_success h hret g2).1⟩

/-- **C66**, exactly: for a parser without options that end parsing, and with `auto_exit` off, `parse` returns, and the code is `SUCCESS` exactly when the
command line is well-formed and every command on it whose arguments have to be counted beforehand has got a value for its last argument,
or can't do without; and `FAILURE` otherwise. -/
theorem C66_exact_partial {d0 d : ParserData} (h : finishInitialization d0 = .ok d) (ho : OrdinaryMany d) (hf : Predictable d)
    (hno : ∀ c : Command, c.Within d.command → ∀ o ∈ c.options, ¬ EndsParsing o) (hae : d0.settings.autoExit = false) {env : Env}
    (hsi : env.Silent) {args : List Str} (hne : d0.settings.optionStyle = .standard ∨ [] ∉ args) (hsz : args.length ≤ sizeMax) {fuel : Nat}
    (hfu : cmdSize args + 1 < fuel) :
    ∃ n s', parse env d args fuel = (.ok (some n), s') ∧ (n.code = .success ↔ ∃ rs, d.AcceptsManyIf ServedBy args rs) ∧
      (n.code = .failure ↔ ¬ ∃ rs, d.AcceptsManyIf ServedBy args rs) := by
  obtain ⟨n, s', rs, last, hp, hret, hns, hv⟩ := parse_verdict h hno hae hsi hfu
  refine ⟨n, s', hp, ?_⟩
  have hacc : (∃ rs, d.AcceptsManyIf ServedBy args rs) ↔ last = .done := by
    constructor
    · rintro ⟨rs1, ha⟩
      obtain ⟨rs2, n2, hr2, _, _, hc2⟩ := C66_complete_exact_partial h ho hf hsi hne hsz ha
      obtain ⟨s1, hp1, _⟩ := hret
      obtain ⟨s2, hp2, _⟩ := hr2
      exact (hp1.unique hp2).2
    · rintro rfl
      exact ⟨_, C66_sound_exact_partial h ho hf hsi.passive hne hsz hret hns⟩
  rcases hv with ⟨rfl, hs⟩ | ⟨rfl, hs⟩
  · exact ⟨iff_of_true hs (hacc.mpr rfl), iff_of_false (by rw [hs]; simp) (fun h => h (hacc.mpr rfl))⟩
  · have hn : ¬ ∃ rs, d.AcceptsManyIf ServedBy args rs := fun h => by have := hacc.mp h; simp at this
    exact ⟨iff_of_false (by rw [hs]; simp) hn, iff_of_true hs hn⟩

/-- Where the last argument is mandatory, it is always served. -/
theorem acceptsMany_served {d : ParserData} (hf : Foreseeable d) (args : List Str) (rs : List IterResult) :
    d.AcceptsManyIf ServedBy args rs ↔ d.AcceptsMany args rs :=
  ⟨acceptsMany_weaken fun _ _ _ _ => trivial, acceptsMany_weaken fun _ _ hc _ hn => Or.inl (hf.2 _ hc hn)⟩

/-- **C66**, one direction (what holds): when `parse` succeeds and no option has ended parsing, the command line is well-formed, with
each sub-command where it belongs, and the results are what is written on it. Missing: as in `C66_sound_exact_partial`. -/
theorem C66_sound_partial {d0 d : ParserData} (h : finishInitialization d0 = .ok d) (ho : OrdinaryMany d) (hf : Predictable d) {env : Env}
    (hp : env.Passive) {args : List Str} (hne : d0.settings.optionStyle = .standard ∨ [] ∉ args) (hsz : args.length ≤ sizeMax)
    {rs : List IterResult} {n : PNode} (hr : Returns env d args rs .done n) (hns : NoStop rs) : d.AcceptsMany args (rs.map forgetText) :=
  acceptsMany_weaken (fun _ _ _ _ => trivial) (C66_sound_exact_partial h ho hf hp hne hsz hr hns)

/-- **C66**, the other direction (what holds): every well-formed command line is accepted, with the results that are written on it.
Missing: as in `C66_sound_exact_partial`, and parsers for which the last argument isn't mandatory where arguments have to be counted, see `C66_violated`. -/
theorem C66_complete_partial {d0 d : ParserData} (h : finishInitialization d0 = .ok d) (ho : OrdinaryMany d) (hf : Foreseeable d) {env : Env}
    (hsi : env.Silent) {args : List Str} (hne : d0.settings.optionStyle = .standard ∨ [] ∉ args) (hsz : args.length ≤ sizeMax)
    {rs : List IterResult} (ha : d.AcceptsMany args rs) :
    ∃ rs' n, Returns env d args rs' .done n ∧ NoStop rs' ∧ rs'.map forgetText = rs ∧ n.code = .success :=
  C66_complete_exact_partial h ho hf.1 hsi hne hsz ((acceptsMany_served hf args rs).mpr ha)

/-- **C66** (what holds): for a parser without options that end parsing, and with `auto_exit` off, `parse` returns, the code is
`SUCCESS` exactly when the command line is well-formed and `FAILURE` otherwise. -/
theorem C66_verdict_partial {d0 d : ParserData} (h : finishInitialization d0 = .ok d) (ho : OrdinaryMany d) (hf : Foreseeable d)
    (hno : ∀ c : Command, c.Within d.command → ∀ o ∈ c.options, ¬ EndsParsing o) (hae : d0.settings.autoExit = false) {env : Env}
    (hsi : env.Silent) {args : List Str} (hne : d0.settings.optionStyle = .standard ∨ [] ∉ args) (hsz : args.length ≤ sizeMax) {fuel : Nat}
    (hfu : cmdSize args + 1 < fuel) :
    ∃ n s', parse env d args fuel = (.ok (some n), s') ∧ (n.code = .success ↔ ∃ rs, d.AcceptsMany args rs) ∧
      (n.code = .failure ↔ ¬ ∃ rs, d.AcceptsMany args rs) := by
  have := C66_exact_partial h ho hf.1 hno hae hsi hne hsz hfu
  simp only [acceptsMany_served hf] at this
  exact this

/-- **C66**: a command line has one meaning at most (for the parsers and command lines of the other theorems). -/
theorem C66_unique {d0 d : ParserData} (h : finishInitialization d0 = .ok d) (ho : OrdinaryMany d) (hf : Foreseeable d) {args : List Str}
    (hne : d0.settings.optionStyle = .standard ∨ [] ∉ args) (hsz : args.length ≤ sizeMax) {rs rs' : List IterResult}
    (h1 : d.AcceptsMany args rs) (h2 : d.AcceptsMany args rs') : rs = rs' := by
  obtain ⟨r1, n1, ⟨s1, p1, _⟩, _, e1, _⟩ := C66_complete_partial h ho hf (env := Env.inert) silent_inert hne hsz h1
  obtain ⟨r2, n2, ⟨s2, p2, _⟩, _, e2, _⟩ := C66_complete_partial h ho hf (env := Env.inert) silent_inert hne hsz h2
  rw [← e1, ← e2, (p1.unique p2).1]

/-- **C66**: where no command allows several sub-commands, these are the command lines of C57. -/
theorem C66_single {d0 d : ParserData} (h : finishInitialization d0 = .ok d) (ho : Ordinary d) (hf : Foreseeable d) {args : List Str}
    (hne : d0.settings.optionStyle = .standard ∨ [] ∉ args) (hsz : args.length ≤ sizeMax) (rs : List IterResult) :
    d.AcceptsMany args rs ↔ d.Accepts args rs := by
  have hm : OrdinaryMany d := by
    refine ⟨ho.style.imp id fun hs c hc o ho' => ⟨hs c hc o ho', fun _ c' hc' => ho.single c' hc'⟩, ho.options, ho.arguments, ho.flags, ho.counts, ho.exclusive⟩
  constructor
  · intro ha
    obtain ⟨r1, n1, hr, hns, rfl, _⟩ := C66_complete_partial h hm hf (env := Env.inert) silent_inert hne hsz ha
    exact C57_sound_partial h ho (env := Env.inert) silent_inert.passive hne hr hns
  · intro ha
    obtain ⟨r1, n1, hr, hns, rfl, _⟩ := C57_complete_partial h ho hf (env := Env.inert) silent_inert hne hsz ha
    exact C66_sound_partial h hm hf.1 (env := Env.inert) silent_inert.passive hne hsz hr hns

/-! ### Concrete cases -/

/-- The conditions of `OrdinaryMany` on one command in the STANDARD style, decided by evaluation. -/
def ordinaryManyCheck (depth : Nat) (d : ParserData) : Bool :=
  decide (d.settings.optionStyle = .standard) && !d.settings.ignoreUndefinedOptions && !d.settings.ignoreUndefinedArguments &&
    d.command.checkAll (fun c => decide (RegularFlags d.settings.caseInsensitive c.options) && countsCheck c) depth

theorem ordinaryManyCheck_sound {depth : Nat} {d : ParserData} (h : ordinaryManyCheck depth d = true) : OrdinaryMany d := by
  simp only [ordinaryManyCheck, Bool.and_eq_true, Bool.not_eq_true', decide_eq_true_eq] at h
  obtain ⟨⟨⟨h1, h2⟩, h3⟩, h4⟩ := h
  have hc : ∀ c : Command, c.Within d.command → RegularFlags d.settings.caseInsensitive c.options := by
    intro c hc
    have := Command.checkAll_sound h4 hc
    simp only [Bool.and_eq_true, decide_eq_true_eq] at this
    exact this.1
  have hcc := countsCheck_sound (Command.checkAll_mono (q := countsCheck) (fun c hp => by
    simp only [Bool.and_eq_true] at hp; exact hp.2) h4)
  exact ⟨Or.inl h1, h2, h3, hc, hcc.2, hcc.1⟩

/-- A parser that allows several sub-commands: one whose arguments have to be counted, one with an optional argument, and one with
an option that ends its arguments. -/
def severalData : ParserData :=
  { command :=
      { name := b!"vcs"
        multiCommand := true
        options := [{ flags := [b!"-v"], constant := b!"1" }]
        commands := [
          { name := b!"mv", arguments := [{ name := b!"FROM", minCount := 1, maxCount := 3 }, { name := b!"TO" }] },
          { name := b!"log", arguments := [{ name := b!"N", minCount := 0, maxCount := 1 }] },
          { name := b!"run", options := [{ flags := [b!"--end"], constant := b!"1", type := .lastArgument }],
            arguments := [{ name := b!"CMD", minCount := 0, maxCount := 9 }] }] }
    settings := { autoExit := false, generateHelpOption := false } }

-- The hypotheses of the theorems hold for `severalData`; by `C66_verdict_partial` and the runs, the first lines are well-formed: several
-- sub-commands; names that are arguments (`mv` must have two); sub-commands after `--end`. The others aren't: `mv` without its
-- arguments, too many arguments, something that isn't a sub-command after `--end`, an option of the parser after a sub-command.
example : ∃ d, finishInitialization severalData = .ok d ∧ (OrdinaryMany d ∧ Foreseeable d) ∧
    (∀ args ∈ [[b!"-v", b!"mv", b!"a", b!"b", b!"log", b!"log", b!"3"], [b!"mv", b!"log", b!"mv"], [b!"mv", b!"log", b!"b", b!"c", b!"log"],
      [b!"run", b!"a", b!"--end", b!"log", b!"1"]], ∃ rs, d.AcceptsMany args rs) ∧
    (∀ args ∈ [[b!"mv", b!"a"], [b!"log", b!"1", b!"2"], [b!"run", b!"--end", b!"x"], [b!"log", b!"-v"]], ¬ ∃ rs, d.AcceptsMany args rs) := by
  have key : ∃ d, finishInitialization severalData = .ok d ∧ ((ordinaryManyCheck 3 d = true ∧ foreseeableCheck 3 d = true) ∧ endlessCheck 3 d = true) ∧
      (∀ args ∈ [[b!"-v", b!"mv", b!"a", b!"b", b!"log", b!"log", b!"3"], [b!"mv", b!"log", b!"mv"], [b!"mv", b!"log", b!"b", b!"c", b!"log"],
        [b!"run", b!"a", b!"--end", b!"log", b!"1"]],
        args.length ≤ sizeMax ∧ cmdSize args + 1 < 99 ∧ parseCode Env.inert d args 99 = some .success) ∧
      (∀ args ∈ [[b!"mv", b!"a"], [b!"log", b!"1", b!"2"], [b!"run", b!"--end", b!"x"], [b!"log", b!"-v"]],
        args.length ≤ sizeMax ∧ cmdSize args + 1 < 99 ∧ parseCode Env.inert d args 99 = some .failure) := by
    refine Outcome.exists_ok ?_
    decide +kernel
  obtain ⟨d, hd, ⟨⟨h1, h2⟩, h3⟩, h4, h5⟩ := key
  have ho := ordinaryManyCheck_sound h1
  have hf := foreseeableCheck_sound h2
  refine ⟨d, hd, ⟨ho, hf⟩, fun args ha => ?_, fun args ha => ?_⟩
  · obtain ⟨hs, hfu, hc⟩ := h4 args ha
    obtain ⟨n, s', e1, e2, _⟩ := C66_verdict_partial hd ho hf (endlessCheck_sound h3) rfl silent_inert (Or.inl rfl) hs hfu
    have hcode : parseCode Env.inert d args 99 = some n.code := by simp [parseCode, parseTo, e1]
    rw [hc] at hcode
    exact e2.mp (by simpa using hcode.symm)
  · obtain ⟨hs, hfu, hc⟩ := h5 args ha
    obtain ⟨n, s', e1, _, e2⟩ := C66_verdict_partial hd ho hf (endlessCheck_sound h3) rfl silent_inert (Or.inl rfl) hs hfu
    have hcode : parseCode Env.inert d args 99 = some n.code := by simp [parseCode, parseTo, e1]
    rw [hc] at hcode
    exact e2.mp (by simpa using hcode.symm)

/-- A parser that allows several sub-commands; the first has an argument that takes one or two values and one that takes at most one. -/
def severalGapData : ParserData :=
  { command :=
      { name := b!"cli"
        multiCommand := true
        commands := [
          { name := b!"a", arguments := [{ name := b!"A", minCount := 1, maxCount := 2 }, { name := b!"B", minCount := 0, maxCount := 1 }] },
          { name := b!"b" }] }
    settings := { autoExit := false, generateHelpOption := false } }

/-- **C66** is violated in one direction: in `a x b` the command `a` has one value, which is enough, and `b` is a further sub-command, but
`parse` takes `b` for an argument and fails. -/
theorem C66_violated : ∃ d, finishInitialization severalGapData = .ok d ∧ OrdinaryMany d ∧ (∃ rs, d.AcceptsMany [b!"a", b!"x", b!"b"] rs) ∧
    parseCode Env.inert d [b!"a", b!"x", b!"b"] 99 = some .failure := by
  have key : ∃ d, finishInitialization severalGapData = .ok d ∧ (ordinaryManyCheck 3 d = true ∧
      (d.command.multiCommand = true ∧ d.settings.caseInsensitive = false ∧
        d.command.commands.map (fun c => (c.name, c.options.length, c.commands.length, c.arguments.map (fun a => (a.minCount, a.maxCount)), c.requireSubcommand, c.multiCommand)) =
          [(b!"a", 0, 0, [(1, 2), (0, 1)], some false, false), (b!"b", 0, 0, [], some false, false)])) ∧ parseCode Env.inert d [b!"a", b!"x", b!"b"] 99 = some .failure := by
    refine Outcome.exists_ok ?_
    decide +kernel
  obtain ⟨d, hd, ⟨h1, hmc, hci, h2⟩, h6⟩ := key
  have h0 : d.settings.optionStyle = .standard := by rw [(finishInitialization_ok hd).1]; rfl
  obtain ⟨ca, cb, hcs⟩ : ∃ a b, d.command.commands = [a, b] := by
    have hlen : d.command.commands.length = 2 := by simpa using congrArg List.length h2
    generalize d.command.commands = as at hlen
    obtain _ | ⟨a, _ | ⟨b, _ | ⟨_, _⟩⟩⟩ := as <;> simp at hlen
    exact ⟨a, b, rfl⟩
  rw [hcs] at h2
  simp only [List.map_cons, List.map_nil, List.cons.injEq, Prod.mk.injEq, and_true, List.length_eq_zero_iff, List.map_eq_nil_iff] at h2
  obtain ⟨⟨na, oa, sa, aa, ra, ma⟩, nb, ob, sb, ab, rb, mb⟩ := h2
  obtain ⟨a, b, ha⟩ : ∃ a b, ca.arguments = [a, b] := by
    have hlen : ca.arguments.length = 2 := by simpa using congrArg List.length aa
    generalize ca.arguments = as at hlen
    obtain _ | ⟨a, _ | ⟨b, _ | ⟨_, _⟩⟩⟩ := as <;> simp at hlen
    exact ⟨a, b, rfl⟩
  rw [ha] at aa
  simp only [List.map_cons, List.map_nil, List.cons.injEq, Prod.mk.injEq, and_true] at aa
  obtain ⟨⟨e1, e2⟩, e3, e4⟩ := aa
  have hsb : NamesCommand false d.command b!"b" cb := by simp [NamesCommand, hcs, na, nb, SameFlag]
  have hlast : ∀ (ts : List (Tree (List Occ))) (rest : Open), AcceptsMany .standard (Names false d.settings.allowAbbreviatedOptions) (NamesCommand false) (fun _ _ => True)
      (.node cb [] ts :: rest) (.mixed ⟨[], []⟩) (report [] (handedOut cb.arguments [])) := by
    intro ts rest
    refine AcceptsMany.last (ps := []) (ks := []) .nil rfl nofun ?_ ?_ trivial ⟨by rw [ob]; simp, by rw [rb]; simp⟩
    · intro before v after h
      simp at h
    · rw [ab]
      exact ⟨rfl, rfl, by simp, by simp⟩
  have hnext : ∀ l : List Occ, ∃ rs, AcceptsMany .standard (Names false d.settings.allowAbbreviatedOptions) (NamesCommand false) (fun _ _ => True)
      [.node ca [] [], .node d.command l []] (.mixed ⟨[], [b!"x", b!"b"]⟩) rs := by
    intro l
    refine ⟨_, AcceptsMany.next (ps := [.argument b!"x"]) (ks := [1, 0]) (c' := cb) (st' := [.node d.command l [.node ca _ []]]) sa
      (.cons (.argument (x := wholeFlag b!"x" [b!"b"]) rfl (by decide) sa) .nil) ?_ ?_ trivial
      (.command (x := wholeFlag b!"b" []) rfl (by decide) ⟨d.command, by simp [Open.several, hmc, Tree.command], hsb⟩)
      (by simp [Open.back, Open.back.go, hmc]; rfl) (hlast _ _)⟩
    · intro before v after h hle
      obtain _ | ⟨p, before⟩ := before
      · rw [ha] at hle
        simp [minTotal, argPieces, e1, e3] at hle
      · simp at h
    · rw [ha]
      refine ⟨rfl, rfl, ?_, ?_⟩
      · intro i hi hi'
        match i, hi with
        | 0, _ => simp; omega
        | 1, _ => simp; omega
      · intro i j hj hj' hij hlt
        match j, hj with
        | 0, _ => omega
        | 1, _ => simp at hlt
  refine ⟨d, hd, ordinaryManyCheck_sound h1, ?_, h6⟩
  unfold ParserData.AcceptsMany ParserData.AcceptsManyIf Open.start
  rw [h0, hci]
  obtain ⟨rs, hrs⟩ := hnext (d.command.options.map .initial)
  exact ⟨_, AcceptsMany.sub (ps := []) (c' := ca) .nil (.command (x := wholeFlag b!"a" [b!"x", b!"b"]) rfl (by decide) (by rw [hcs]; simp)
    (by simp [NamesCommand, hcs, na, SameFlag, wholeFlag])) (by rw [show (report [] []).filterMap occOf = [] from rfl, List.append_nil]; exact hrs)⟩

-- The theorems that need only `Predictable`, for `severalGapData`: the first lines are well-formed and serve the last argument of `a`, or don't use it,
-- and the others aren't, or don't.
example : ∃ d, finishInitialization severalGapData = .ok d ∧ (OrdinaryMany d ∧ Predictable d) ∧
    (∀ args ∈ [[b!"a", b!"x", b!"y", b!"z", b!"b"], [b!"b", b!"b"]], ∃ rs, d.AcceptsManyIf ServedBy args rs) ∧
    (∀ args ∈ [[b!"a", b!"x", b!"b"], [b!"a", b!"x", b!"y"], [b!"b", b!"x"]], ¬ ∃ rs, d.AcceptsManyIf ServedBy args rs) := by
  have key : ∃ d, finishInitialization severalGapData = .ok d ∧ ((ordinaryManyCheck 3 d = true ∧ predictableCheck 3 d = true) ∧ endlessCheck 3 d = true) ∧
      (∀ args ∈ [[b!"a", b!"x", b!"y", b!"z", b!"b"], [b!"b", b!"b"]],
        args.length ≤ sizeMax ∧ cmdSize args + 1 < 99 ∧ parseCode Env.inert d args 99 = some .success) ∧
      (∀ args ∈ [[b!"a", b!"x", b!"b"], [b!"a", b!"x", b!"y"], [b!"b", b!"x"]],
        args.length ≤ sizeMax ∧ cmdSize args + 1 < 99 ∧ parseCode Env.inert d args 99 = some .failure) := by
    refine Outcome.exists_ok ?_
    decide +kernel
  obtain ⟨d, hd, ⟨⟨h1, h2⟩, h3⟩, h4, h5⟩ := key
  have ho := ordinaryManyCheck_sound h1
  have hf := predictableCheck_sound h2
  refine ⟨d, hd, ⟨ho, hf⟩, fun args ha => ?_, fun args ha => ?_⟩
  · obtain ⟨hs, hfu, hc⟩ := h4 args ha
    obtain ⟨n, s', e1, e2, _⟩ := C66_exact_partial hd ho hf (endlessCheck_sound h3) rfl silent_inert (Or.inl rfl) hs hfu
    have hcode : parseCode Env.inert d args 99 = some n.code := by simp [parseCode, parseTo, e1]
    rw [hc] at hcode
    exact e2.mp (by simpa using hcode.symm)
  · obtain ⟨hs, hfu, hc⟩ := h5 args ha
    obtain ⟨n, s', e1, _, e2⟩ := C66_exact_partial hd ho hf (endlessCheck_sound h3) rfl silent_inert (Or.inl rfl) hs hfu
    have hcode : parseCode Env.inert d args 99 = some n.code := by simp [parseCode, parseTo, e1]
    rw [hc] at hcode
    exact e2.mp (by simpa using hcode.symm)

end Argos
