import Verif.Proofs.Bare
import Verif.Proofs.Loosen
import Verif.Props.Spelled

/-! # Settings that allow more -/

namespace Argos

open Spec Parser

/-! ## C82 -/

mutual
theorem finishCommand_looser {σ σ' : ParserSettings} (hl : Looser σ σ') (fullName : Str) (startId argId : Nat) : (c : Command) →
    finishCommand σ' fullName startId argId c = finishCommand σ fullName startId argId c
  | ⟨arguments, options, commands, currentSection, name, fn, texts, visibility, requireSubcommand, multiCommand, section_, id, argumentId, optionIndex⟩ => by
    have h : ∀ c s a, finishSelf σ' fullName c s a = finishSelf σ fullName c s a := by
      intro c s a
      rw [hl.same]; rfl
    simp only [finishCommand, h]
    refine congrArg _ (funext fun p => ?_)
    obtain ⟨c', s', a'⟩ := p
    simp only [finishCommands_looser hl]
theorem finishCommands_looser {σ σ' : ParserSettings} (hl : Looser σ σ') (parentName : Str) (startId argId : Nat) : (cs : List Command) →
    finishCommands σ' parentName startId argId cs = finishCommands σ parentName startId argId cs
  | [] => rfl
  | c :: cs => by simp only [finishCommands, finishCommand_looser hl _ _ _ c, finishCommands_looser hl _ _ _ cs]
end

/-- **C82**: what a parser accepts as declarations does not depend on these settings, nor does what it makes of them. -/
theorem C82_init (d : ParserData) {σ' : ParserSettings} (hl : Looser d.settings σ') :
    finishInitialization { d with settings := σ' } = (finishInitialization d).mapOk fun d' => { d' with settings := σ' } := by
  have hv : addVersionOption d.command.options d.command.currentSection d.version σ' =
      addVersionOption d.command.options d.command.currentSection d.version d.settings := by
    rw [hl.same]; rfl
  simp only [finishInitialization, hv, finishCommand_looser hl]
  generalize finishCommand d.settings _ 0 0 _ = x
  cases x <;> rfl

/-- **C82**: if a command line is parsed without an error message, then it is parsed in exactly the same way (outcome, results, calls
of callbacks, output) by a parser that also allows abbreviations, undefined options or undefined arguments, whatever the callbacks do.
What is missing is turning on abbreviations in parsers that count their arguments in advance (`C82_count_violated`) or already
ignore undefined options (`C82_ignored_violated`). -/
theorem C82_parse_partial {d0 d : ParserData} (h : finishInitialization d0 = .ok d) {σ' : ParserSettings} (hl : Looser d.settings σ')
    (ha : σ'.allowAbbreviatedOptions = d.settings.allowAbbreviatedOptions ∨
      (d.settings.ignoreUndefinedOptions = false ∧ ∀ c, c.Within d.command → ¬ NeedsCount c))
    (env : Env) (args : List Str) (fuel : Nat) (hc : ¬ Complained (parse env d args fuel).2.log) :
    parse env { d with settings := σ' } args fuel = ((parse env d args fuel).1, { (parse env d args fuel).2 with settings := σ' }) := by
  have hr := ready_of_init h
  have hst : σ'.optionStyle = d.settings.optionStyle := by rw [hl.same]
  have hi : σ'.allowAbbreviatedOptions = d.settings.allowAbbreviatedOptions ∨ d.settings.ignoreUndefinedOptions = false := ha.imp id (·.1)
  have hloos : ∀ c, c.Within d.command → Loosable d.settings σ' c := by
    intro c hcw
    exact ⟨equalsLast_ready (hr c hcw), ha.imp id fun h2 => notCounted h2.2 c hcw⟩
  have hcalm : Calm d.settings σ' (startState d args) := by
    refine ⟨rfl, hloos, fun n hn => ?_⟩
    simp only [startState, List.mem_singleton] at hn
    subst hn
    exact hloos
  have hs0 : startState { d with settings := σ' } args = loosen σ' (startState d args) := by
    simp only [startState, loosen, hst]
  obtain ⟨S, hS⟩ : ∃ S, start d args = (.ok (), S) := ⟨_, (start_good d args).1⟩
  have h1 := initCounter_loosens hl (startState d args) hcalm
  have hS' : initCounter (startState d args) = (.ok (), S) := hS
  rw [hS'] at h1
  have hp : parse env d args fuel = match run env fuel S with
    | (.ok (), s') => (.ok (topLevel s'), s')
    | (.throw m, s') => (.throw m, s')
    | (.outOfRange, s') => (.outOfRange, s')
    | (.exit c, s') => (.exit c, s')
    | (.ub, s') => (.ub, s')
    | (.diverges, s') => (.diverges, s') := by
    unfold parse; rw [hS]; rfl
  have hlog : (parse env d args fuel).2.log = (run env fuel S).2.log := by
    rw [hp]
    cases hrun : run env fuel S with
    | mk r s' => cases r <;> rfl
  rw [hlog] at hc
  rcases h1 with h1 | ⟨h1, h2⟩
  · exact absurd (run_grows env fuel S h1) hc
  · have h3 : start { d with settings := σ' } args = (.ok (), loosen σ' S) := by
      unfold start
      rw [hs0, h1]
    rcases run_loosens hl hi env fuel S h2 with h4 | ⟨h4, _⟩
    · exact absurd h4 hc
    · rw [hp]
      unfold parse
      rw [h3]
      simp only [h4]
      cases hrun : run env fuel S with
      | mk r s' => cases r <;> rfl

-- `-o x -v in` gives the same with and without the three settings; `--outp x -v in -z a b c` is only accepted with them.
example : ∃ d, finishInitialization cliData = .ok d ∧ Looser d.settings { d.settings with allowAbbreviatedOptions := true, ignoreUndefinedOptions := true, ignoreUndefinedArguments := true } ∧
    d.settings.ignoreUndefinedOptions = false ∧ (∀ c, c.Within d.command → ¬ NeedsCount c) ∧ ¬ Complained (parse Env.inert d [b!"-o", b!"x", b!"-v", b!"in"] 9).2.log ∧
    parseCode Env.inert d [b!"-o", b!"x", b!"-v", b!"in"] 9 = some .success ∧
    parseCode Env.inert d [b!"--outp", b!"x", b!"-v", b!"in", b!"-z", b!"a", b!"b", b!"c"] 19 = some .failure ∧
    parseCode Env.inert { d with settings := { d.settings with allowAbbreviatedOptions := true, ignoreUndefinedOptions := true, ignoreUndefinedArguments := true } }
      [b!"--outp", b!"x", b!"-v", b!"in", b!"-z", b!"a", b!"b", b!"c"] 19 = some .success := by
  obtain ⟨d, h, h2, h3, h4, h5, h6, h7⟩ : ∃ d, finishInitialization cliData = .ok d ∧ d.settings.ignoreUndefinedOptions = false ∧
      (d.command.checkAll (fun c => !Counter.requiresArgumentCount c.arguments) 3 = true) ∧ (parse Env.inert d [b!"-o", b!"x", b!"-v", b!"in"] 9).2.log.isEmpty = true ∧
      parseCode Env.inert d [b!"-o", b!"x", b!"-v", b!"in"] 9 = some .success ∧
      parseCode Env.inert d [b!"--outp", b!"x", b!"-v", b!"in", b!"-z", b!"a", b!"b", b!"c"] 19 = some .failure ∧
      parseCode Env.inert { d with settings := { d.settings with allowAbbreviatedOptions := true, ignoreUndefinedOptions := true, ignoreUndefinedArguments := true } }
        [b!"--outp", b!"x", b!"-v", b!"in", b!"-z", b!"a", b!"b", b!"c"] 19 = some .success := by
    refine Outcome.exists_ok ?_
    decide +kernel
  refine ⟨d, h, ⟨rfl, fun _ => rfl, fun _ => rfl, fun _ => rfl⟩, h2, ?_, ?_, h5, h6, h7⟩
  · intro c hc
    have := Command.checkAll_sound h3 hc
    exact fun hn => by simp [(requires_iff _).mpr hn] at this
  · rintro ⟨c, m, hm⟩
    rw [List.isEmpty_iff.mp h4] at hm
    simp at hm

theorem acceptsNames_mono {style : OptionStyle} {names names' : Command → Str → OptData → Prop} {ci : Bool} {root : Command}
    (hn : ∀ c, c.Within root → ∀ q o, names c q o → names' c q o) {c : Command} {inits : List Occ} {l : Line} {rs : List IterResult}
    (h : Spec.Accepts style names (NamesCommand ci) c inits l rs) (hc : c.Within root) : Spec.Accepts style names' (NamesCommand ci) c inits l rs := by
  have one : ∀ {c : Command}, c.Within root → ∀ {l p l'}, Written style names c l p l' → Written style names' c l p l' := by
    intro c hc l p l' h
    cases h with
    | option h1 h2 h3 h4 h5 => exact .option h1 h2 (hn c hc _ _ h3) h4 h5
    | lastOption h1 h2 h3 h4 h5 => exact .lastOption h1 h2 (hn c hc _ _ h3) h4 h5
    | lastArgument h1 h2 h3 h4 h5 => exact .lastArgument h1 h2 (hn c hc _ _ h3) h4 h5
    | argument h1 h2 h3 => exact .argument h1 h2 h3
    | plainArgument h1 => exact .plainArgument h1
  have all : ∀ {c : Command}, c.Within root → ∀ {l ps l'}, WrittenAll style names c l ps l' → WrittenAll style names' c l ps l' := by
    intro c hc l ps l' h
    induction h with
    | nil => exact .nil
    | cons h1 _ ih => exact .cons (one hc h1) ih
  induction h with
  | last h1 h2 h3 h4 => exact .last (all hc h1) h2 h3 h4
  | sub h1 h2 _ ih =>
    refine .sub (all hc h1) h2 (ih ?_)
    have hm : ∀ {c c' : Command} {q : Str}, NamesCommand ci c q c' → c' ∈ c.commands := fun h => List.mem_of_find?_eq_some h
    cases h2 with
    | command _ _ _ h5 => exact (Command.Within.sub (hm h5) .self).trans hc
    | plainCommand _ h5 => exact (Command.Within.sub (hm h5) .self).trans hc

/-- **C82** for abbreviations, for commands that need the number of arguments in advance as well: if `parse` succeeds without abbreviations, then it succeeds with
them, with the same results and the same values. Missing: failures, callbacks that change something, and parsers that count the arguments wrongly once abbreviations
are allowed, see `C82_count_violated`. -/
theorem C82_counted_partial {d0 d : ParserData} (h : finishInitialization d0 = .ok d) {σ' : ParserSettings}
    (hσ : σ' = { d.settings with allowAbbreviatedOptions := true }) (ho : Ordinary d) (hf : Predictable { d with settings := σ' }) {env : Env} (hsi : env.Silent)
    {args : List Str} (hne : d0.settings.optionStyle = .standard ∨ [] ∉ args) (hsz : args.length ≤ sizeMax) {rs : List IterResult} {n : PNode}
    (hr : Returns env d args rs .done n) (hns : NoStop rs) :
    ∃ rs' n', Returns env { d with settings := σ' } args rs' .done n' ∧ rs'.map forgetText = rs.map forgetText ∧ n'.code = .success ∧ n'.tree = n.tree := by
  have hs := (finishInitialization_ok h).1
  have hl : Looser d.settings σ' := by subst hσ; exact ⟨rfl, fun _ => rfl, id, id⟩
  have h' : finishInitialization { d0 with settings := σ' } = .ok { d with settings := σ' } := by
    rw [C82_init d0 (hs ▸ hl), h]; rfl
  have hf0 : Predictable d := fun c hc hn => ⟨by
    cases hab : d.settings.allowAbbreviatedOptions with
    | false => exact .inl rfl
    | true =>
      refine .inr (((hf c hc hn).1).resolve_left ?_)
      subst hσ; simp, (hf c hc hn).2⟩
  have ho' : Ordinary { d with settings := σ' } := by
    subst hσ
    exact ⟨ho.style, ho.options, ho.arguments, ho.single, ho.flags, ho.counts, ho.exclusive⟩
  have hacc := C57_sound_partial h ho hsi.passive hne hr hns
  have hsv := (served_forget _ _).mpr (returns_served h ho hf0 hsi.passive hne hsz hr hns)
  have hacc' : ({ d with settings := σ' } : ParserData).Accepts args (rs.map forgetText) := by
    subst hσ
    refine acceptsNames_mono (root := d.command) (fun c hc q o hq => ?_) hacc .self
    cases hab : d.settings.allowAbbreviatedOptions with
    | true => rw [hab] at hq; exact hq
    | false => rw [hab] at hq; exact names_looser (ready_of_init h c hc) hq
  have hne' : ({ d0 with settings := σ' } : ParserData).settings.optionStyle = .standard ∨ [] ∉ args := by
    subst hσ
    rw [hs]; exact hne
  obtain ⟨rs2, n2, hr2, hn2, hm2, hc2⟩ := complete_served h' ho' hf hsi hne' hsz hacc' hsv
  refine ⟨rs2, n2, hr2, hm2, hc2, ?_⟩
  obtain ⟨t, ht, hnt⟩ := C32_values h hsi.passive hr
  obtain ⟨t', ht', hnt'⟩ := C32_values h' hsi.passive hr2
  have e1 := (sameEffect_forget rs).given d.command
  have e3 := (sameEffect_forget rs2).given d.command
  rw [hm2] at e3
  have ht2 : given d.command rs2 = some t' := ht'
  rw [← e3, ht, ht2] at e1
  simp only [Option.map_some, Option.some.injEq] at e1
  rw [hnt, hnt', e1]

/-- The same parser with abbreviations. -/
def abbreviating (d : ParserData) : ParserData := { d with settings := { d.settings with allowAbbreviatedOptions := true } }

-- Counted arguments: `a -v b --mode=x` gives the same with and without abbreviations, `a -v b --mo=x` needs them.
example : ∃ d, finishInitialization orderData = .ok d ∧ Ordinary d ∧ Predictable (abbreviating d) ∧ NeedsCount d.command ∧
    parseCode Env.inert d [b!"a", b!"-v", b!"b", b!"--mode=x"] 9 = some .success ∧ parseCode Env.inert d [b!"a", b!"-v", b!"b", b!"--mo=x"] 9 = some .failure ∧
    parseCode Env.inert (abbreviating d) [b!"a", b!"-v", b!"b", b!"--mo=x"] 9 = some .success := by
  have key : ∃ d, finishInitialization orderData = .ok d ∧ (ordinaryCheck 2 d = true ∧ predictableCheck 2 (abbreviating d) = true) ∧
      Counter.requiresArgumentCount d.command.arguments = true ∧
      parseCode Env.inert d [b!"a", b!"-v", b!"b", b!"--mode=x"] 9 = some .success ∧ parseCode Env.inert d [b!"a", b!"-v", b!"b", b!"--mo=x"] 9 = some .failure ∧
      parseCode Env.inert (abbreviating d) [b!"a", b!"-v", b!"b", b!"--mo=x"] 9 = some .success := by
    refine Outcome.exists_ok ?_
    decide +kernel
  obtain ⟨d, hd, ⟨h1, h2⟩, h3, h4⟩ := key
  exact ⟨d, hd, ordinaryCheck_sound h1, predictableCheck_sound h2, (requires_iff _).mp h3, h4⟩

/-- Files are copied: the number of arguments is needed in advance. There is one flag. -/
def loneFlagData : ParserData :=
  { command :=
      { name := b!"cp"
        options := [{ flags := [b!"-n"], argument := b!"N" }]
        arguments := [{ name := b!"FROM", minCount := 1, maxCount := 3 }, { name := b!"TO" }] }
    settings := { autoExit := false, generateHelpOption := false } }

/-- **C82** is violated when abbreviations are turned on in a parser that counts its arguments: `cp - a b` copies two files, but if abbreviations are allowed, then the
argument `-` counts as an abbreviation of the only flag, with the value `a`, and the line is rejected. -/
theorem C82_count_violated : ∃ d, finishInitialization loneFlagData = .ok d ∧ parseCode Env.inert d [b!"-", b!"a", b!"b"] 9 = some .success ∧
    parseCode Env.inert (abbreviating d) [b!"-", b!"a", b!"b"] 9 = some .failure := by
  refine Outcome.exists_ok ?_
  decide +kernel

/-- **C82** is violated when abbreviations are turned on and undefined options are ignored already: `--out` was ignored and left for the client, and its value was an argument. -/
theorem C82_ignored_violated : ∃ d, finishInitialization { cliData with settings := { cliData.settings with ignoreUndefinedOptions := true } } = .ok d ∧
    parseCode Env.inert d [b!"--out", b!"x"] 9 = some .success ∧ parseCode Env.inert (abbreviating d) [b!"--out", b!"x"] 9 = some .failure := by
  refine Outcome.exists_ok ?_
  decide +kernel

end Argos
