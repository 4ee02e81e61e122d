import Verif.Proofs.Blind
import Verif.Props.Settings
import Verif.Props.Ease

/-! # C94: Ignoring the case of letters does not change accepted command lines -/

namespace Argos

open Spec Parser

/-- **C94**: if no two flags or sub-commands differ only in the case of letters, then the declarations are accepted also if the case shall be ignored. -/
theorem C94_init {d0 d : ParserData} (h : finishInitialization d0 = .ok d) (hb : ∀ c : Command, c.Within d.command → CaseBlind c) :
    ∃ d', finishInitialization d0.blind = .ok d' := by
  obtain ⟨d', h', _⟩ := init_blind h hb
  exact ⟨d', h'⟩

/-- **C94** (what holds): if `parse` succeeds on a command line, it still does when the case of letters is ignored, and all questions for values get the
answers they had. This includes commands that count their arguments, options like `-xvf`, and values in the same argument. Missing: names that differ only in the case of
letters, see `C94_help_violated`, `C94_equals_violated` and `C94_command_violated`; abbreviations, see `C94_abbreviation_violated`;
several sub-commands, callbacks that insert arguments or write values. -/
theorem C94_parse_partial {d0 d d' : ParserData} (h : finishInitialization d0 = .ok d) (hci : d0.settings.caseInsensitive = false)
    (hab : d0.settings.allowAbbreviatedOptions = false) (h' : finishInitialization d0.blind = .ok d') (hb : ∀ c : Command, c.Within d.command → CaseBlind c)
    (ho : Ordinary d) (hp : Predictable d) {env : Env} (hsi : env.Silent)
    {args : List Str} (hne : d0.settings.optionStyle = .standard ∨ [] ∉ args) (hsz : args.length ≤ sizeMax) {rs : List IterResult} {n : PNode}
    (hr : Returns env d args rs .done n) (hns : NoStop rs) :
    ∃ rs' n', Returns env d' args rs' .done n' ∧ NoStop rs' ∧ n'.code = .success ∧ SameGiven n n' := by
  obtain ⟨d1, h1, hs, hrec⟩ := init_blind h hb
  rw [h', Outcome.ok.injEq] at h1
  subst h1
  have hs0 := (finishInitialization_ok h).1
  have hf := recased_freed _ hrec
  have ho' : Ordinary d' := recased_ordinary hrec hs hb ho
  have hp' : Predictable d' := recased_predictable hrec (by rw [hs]) hp
  have hacc := C57_sound_partial h ho hsi.passive hne hr hns
  unfold ParserData.Accepts at hacc
  rw [hs0, hci, hab] at hacc
  obtain ⟨rs1, ha1, hre, hsv⟩ := accepts_eased (accepts_blind hacc hb) hf (initial_writes hf.options)
  have ha1 : d'.Accepts args rs1 := by
    unfold ParserData.Accepts
    rw [hs]
    simp only
    rw [hs0, hab]
    exact ha1
  have hsv := hsv ((served_forget _ _).mpr (returns_served h ho hp hsi.passive hne hsz hr hns))
  obtain ⟨rs2, n2, hr2, hn2, hm2, hc2⟩ := complete_served h' ho' hp' hsi hne hsz ha1 hsv
  refine ⟨rs2, n2, hr2, hn2, hc2, ?_⟩
  obtain ⟨t, ht, hnt⟩ := C32_values h hsi.passive hr
  obtain ⟨t', ht', hnt'⟩ := C32_values h' hsi.passive hr2
  have f1 : ∀ (rs : List IterResult) (c : Command), Open.after c (rs.map forgetText) = Open.after c rs := by
    intro rs c
    unfold Open.after
    generalize Open.start c = st
    induction rs generalizing st with
    | nil => rfl
    | cons r rs ih =>
      rw [List.map_cons, List.foldl_cons, List.foldl_cons, ih]
      cases r <;> rfl
  have hopen : Each TreeEased (Open.after d.command rs) (Open.after d'.command rs2) := by
    rw [← f1 rs, ← f1 rs2, hm2]
    exact opens_eased hre (.cons (.node hf (initial_writes hf.options) .nil) .nil)
  exact sameGiven n n2 hnt hnt' (close_eased hopen ht ht') (hr.treeOk (ready_of_init h)) (hr2.treeOk (ready_of_init h'))

/-- The conditions can be checked. -/
def blindCheck (c : Command) : Bool :=
  decide (RegularFlags true c.options) && decide ((flagsOf c.options).Pairwise fun f g => ¬ SameFlag true f g) &&
    decide (∀ f ∈ flagsOf c.options, ∀ g ∈ flagsOf c.options, SameFlag true g (f ++ b!"=") → g = f ++ b!"=") &&
    decide (∀ x ∈ c.commands.map (fun x : Command => x.name), ∀ y ∈ c.commands.map (fun x : Command => x.name), SameFlag true x y → x = y)

theorem blindCheck_sound {c : Command} (h : blindCheck c = true) : CaseBlind c := by
  simp only [blindCheck, Bool.and_eq_true, decide_eq_true_eq] at h
  obtain ⟨⟨⟨h1, h2⟩, h3⟩, h4⟩ := h
  exact ⟨h1, h2, h3, fun x hx y hy => h4 _ (List.mem_map_of_mem hx) _ (List.mem_map_of_mem hy)⟩

set_option synthInstance.maxSize 1000 in
-- The conditions hold for a program with a sub-command that has options and counts its arguments; in other capitals the command line is only accepted if the case is ignored.
example : ∃ d, finishInitialization (strictData true false 1 2) = .ok d ∧ ∃ d', finishInitialization (strictData true false 1 2).blind = .ok d' ∧
    (∀ c : Command, c.Within d.command → CaseBlind c) ∧ Ordinary d ∧ Predictable d ∧
    parseTo strictAnswers Env.inert d [b!"-l5", b!"show", b!"a", b!"-m", b!"2", b!"b", b!"c"] 99 = some ([b!"5"], [[b!"2"], [b!"a"], [b!"b", b!"c"]]) ∧
    parseCode Env.inert d [b!"-L5", b!"SHOW", b!"a", b!"-M", b!"2", b!"b", b!"c"] 99 = some .failure ∧
    parseTo strictAnswers Env.inert d' [b!"-l5", b!"show", b!"a", b!"-m", b!"2", b!"b", b!"c"] 99 = some ([b!"5"], [[b!"2"], [b!"a"], [b!"b", b!"c"]]) ∧
    parseTo strictAnswers Env.inert d' [b!"-L5", b!"SHOW", b!"a", b!"-M", b!"2", b!"b", b!"c"] 99 = some ([b!"5"], [[b!"2"], [b!"a"], [b!"b", b!"c"]]) := by
  have k1 : ∃ d, finishInitialization (strictData true false 1 2) = .ok d ∧ (ordinaryCheck 2 d = true ∧ predictableCheck 2 d = true ∧ d.command.checkAll blindCheck 3 = true ∧
      parseTo strictAnswers Env.inert d [b!"-l5", b!"show", b!"a", b!"-m", b!"2", b!"b", b!"c"] 99 = some ([b!"5"], [[b!"2"], [b!"a"], [b!"b", b!"c"]]) ∧
      parseCode Env.inert d [b!"-L5", b!"SHOW", b!"a", b!"-M", b!"2", b!"b", b!"c"] 99 = some .failure) := by
    refine Outcome.exists_ok ?_
    decide +kernel
  have k2 : ∃ d', finishInitialization (strictData true false 1 2).blind = .ok d' ∧
      (parseTo strictAnswers Env.inert d' [b!"-l5", b!"show", b!"a", b!"-m", b!"2", b!"b", b!"c"] 99 = some ([b!"5"], [[b!"2"], [b!"a"], [b!"b", b!"c"]]) ∧
      parseTo strictAnswers Env.inert d' [b!"-L5", b!"SHOW", b!"a", b!"-M", b!"2", b!"b", b!"c"] 99 = some ([b!"5"], [[b!"2"], [b!"a"], [b!"b", b!"c"]])) := by
    refine Outcome.exists_ok ?_
    decide +kernel
  obtain ⟨d, h, h1, h2, h3, h4, h5⟩ := k1
  obtain ⟨d', h', h6, h7⟩ := k2
  exact ⟨d, h, d', h', fun c hc => blindCheck_sound (Command.checkAll_sound h3 hc), ordinaryCheck_sound h1, predictableCheck_sound h2, h4, h5, h6, h7⟩

/-! ## Where it fails -/

/-- A program with one option. -/
def hostData : ParserData :=
  { command := { name := b!"ping", options := [{ flags := [b!"-H"], argument := b!"HOST" }] }
    settings := { autoExit := false } }

/-- **C94** is violated for generated flags: an option `-H` takes `-h` away from the help text when the case is ignored, and `-h` is an error. -/
theorem C94_help_violated : (∃ d, finishInitialization hostData = .ok d ∧ parseCode Env.inert d [b!"-h"] 9 = some .stop) ∧
    ∃ d', finishInitialization hostData.blind = .ok d' ∧ parseCode Env.inert d' [b!"-h"] 9 = some .failure := by
  constructor
  all_goals
    refine Outcome.exists_ok ?_
    decide +kernel

/-- A flag with an equal sign and one without. -/
def twinData : ParserData :=
  { command := { name := b!"prog", options := [{ flags := [b!"--foo"], argument := b!"A" }, { flags := [b!"--FOO="], argument := b!"B" }] }
    settings := { autoExit := false, generateHelpOption := false } }

/-- The values of the two options. -/
def twinAnswers (n : PNode) : List Str × List Str :=
  let strings (n : PNode) (name : Str) : List Str := match n.valuesOf name with
    | .ok l => l.map (·.1)
    | _ => []
  (strings n b!"--foo", strings n b!"--FOO=")

/-- **C94** is violated for flags that end with an equal sign: both parsers are accepted, but the value goes to another option when the case is ignored. -/
theorem C94_equals_violated : (∃ d, finishInitialization twinData = .ok d ∧ parseTo twinAnswers Env.inert d [b!"--foo=x"] 9 = some ([b!"x"], [])) ∧
    ∃ d', finishInitialization twinData.blind = .ok d' ∧ parseTo twinAnswers Env.inert d' [b!"--foo=x"] 9 = some ([], [b!"x"]) := by
  constructor
  all_goals
    refine Outcome.exists_ok ?_
    decide +kernel

/-- Two sub-commands. -/
def addData : ParserData :=
  { command := { name := b!"prog", commands := [{ name := b!"add" }, { name := b!"Add", options := [{ flags := [b!"-v"] }] }] }
    settings := { autoExit := false, generateHelpOption := false } }

/-- **C94** is violated for sub-commands: unlike flags their names aren't compared when the parser is prepared, and the first one hides the second one. -/
theorem C94_command_violated : (∃ d, finishInitialization addData = .ok d ∧ parseCode Env.inert d [b!"Add", b!"-v"] 9 = some .success) ∧
    ∃ d', finishInitialization addData.blind = .ok d' ∧ parseCode Env.inert d' [b!"Add", b!"-v"] 9 = some .failure := by
  constructor
  all_goals
    refine Outcome.exists_ok ?_
    decide +kernel

/-- Flags that can be abbreviated. -/
def versionsData : ParserData :=
  { command := { name := b!"prog", options := [{ flags := [b!"--Version"] }, { flags := [b!"--verbose"] }] }
    settings := { autoExit := false, generateHelpOption := false, allowAbbreviatedOptions := true } }

/-- **C94** is violated for abbreviations: what was the beginning of one flag may be the beginning of two when the case is ignored. -/
theorem C94_abbreviation_violated : (∃ d, finishInitialization versionsData = .ok d ∧ parseCode Env.inert d [b!"--Ver"] 9 = some .success) ∧
    ∃ d', finishInitialization versionsData.blind = .ok d' ∧ parseCode Env.inert d' [b!"--Ver"] 9 = some .failure := by
  constructor
  all_goals
    refine Outcome.exists_ok ?_
    decide +kernel

end Argos
