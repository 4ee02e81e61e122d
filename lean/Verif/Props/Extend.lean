import Verif.Proofs.ExtendInit
import Verif.Props.Phrase

/-!
# C80: additional options keep accepted command lines accepted, with the same values
-/

namespace Argos

open Spec Parser

/-- The commands of an accepted line belong to the parser. -/
theorem accepts_within_root {style : OptionStyle} {names : Command → Str → OptData → Prop} {subs : Command → Str → Command → Prop}
    (hsub : ∀ c q c', subs c q c' → c' ∈ c.commands) {root c : Command} {inits : List Occ} {l : Line} {rs : List IterResult}
    (h : Accepts style names subs c inits l rs) (hc : c.Within root) : ∀ r ∈ rs, ∀ c1 t, r = .command c1 t → c1.Within root := by
  have key : ∀ (ps : List Piece) (as : List ArgData), ∀ r ∈ report ps as, ∀ c1 t, r ≠ .command c1 t := by
    intro ps
    induction ps with
    | nil => intro as r hr; simp [report] at hr
    | cons p ps ih =>
      intro as r hr
      cases p with
      | option o v =>
        rcases List.mem_cons.mp hr with rfl | hr
        · simp
        · exact ih as r hr
      | argument v =>
        cases as with
        | nil => simp [report] at hr
        | cons a as =>
          rcases List.mem_cons.mp hr with rfl | hr
          · simp
          · exact ih as r hr
  induction h with
  | last => intro r hr c1 t e; exact absurd e (key _ _ r hr c1 t)
  | @sub c c' inits l l1 l2 ps rs hw hen _ ih =>
    have hmem : c' ∈ c.commands := by
      cases hen with
      | command _ _ _ h => exact hsub _ _ _ h
      | plainCommand _ h => exact hsub _ _ _ h
    have hin := Command.Within.trans (.sub hmem .self) hc
    intro r hr c1 t e
    rcases List.mem_append.mp hr with hr | hr
    · exact absurd e (key _ _ r hr c1 t)
    · rcases List.mem_cons.mp hr with hr | hr
      · rw [hr] at e
        cases e
        exact hin
      · exact ih hin r hr c1 t e

/-- The conditions of the theorems: both declarations are accepted and ordinary, nothing is abbreviated, the names of values aren't mentioned before their declaration. -/
structure Comparable (d0 d d' : ParserData) (c' : Command) : Prop where
  enlarged : Enlarged d0.settings.caseInsensitive d0.command c'
  init : finishInitialization d0 = .ok d
  init' : finishInitialization { d0 with command := c' } = .ok d'
  declared : ∀ x : Command, x.Within d0.command → ∀ o ∈ x.options, o.valueId = 0
  abbreviations : d0.settings.allowAbbreviatedOptions = false
  ordinary : Ordinary d
  ordinary' : Ordinary d'
  links : ∀ x : Command, x.Within d.command → BackwardLinks (items x)
  links' : ∀ x : Command, x.Within d'.command → BackwardLinks (items x)

theorem Comparable.grown {d0 d d' : ParserData} {c' : Command} (h : Comparable d0 d d' c') : Grown d0.settings.caseInsensitive d.command d'.command := by
  refine init_grown h.enlarged h.init h.init' h.declared (fun x hx => fine_of_init h.init hx (h.links x hx) ?_) fun x hx => fine_of_init h.init' hx (h.links' x hx) ?_
  · have := h.ordinary.flags x hx
    rwa [(finishInitialization_ok h.init).1] at this
  · have := h.ordinary'.flags x hx
    rwa [(finishInitialization_ok h.init').1] at this

theorem Comparable.transfer {d0 d d' : ParserData} {c' : Command} (h : Comparable d0 d d' c') {args : List Str} {rs : List IterResult} (ha : d.Accepts args rs) :
    ∃ rs', d'.Accepts args rs' ∧ ResultLink d0.settings.caseInsensitive d.command d'.command rs rs' := by
  have e := (finishInitialization_ok h.init).1
  have e' : d'.settings = d0.settings := (finishInitialization_ok h.init').1
  unfold ParserData.Accepts at ha ⊢
  rw [e, h.abbreviations] at ha
  rw [e', h.abbreviations]
  exact accepts_grown ha h.grown h.grown.initial

/-- **C80**, in terms of the grammar: a well-formed command line is still well-formed when more options are declared. -/
theorem C80_accepts {d0 d d' : ParserData} {c' : Command} (h : Comparable d0 d d' c') {args : List Str} {rs : List IterResult} (ha : d.Accepts args rs) :
    ∃ rs', d'.Accepts args rs' := by
  obtain ⟨rs', h1, _⟩ := h.transfer ha
  exact ⟨rs', h1⟩

/-- **C80** (what holds): if `parse` succeeds on a command line, it still does when more options are declared, and all arguments and options have the values they had. The new
options must be optional, and if they have initial values, these must be their own. Missing: abbreviated options, where it is false, see `C80_abbreviation_violated`, as it is for new
flags that end in `=`, see `C80_equals_violated`, and for initial values of linked options, see `C80_initial_violated`; callbacks that insert arguments or write values. -/
theorem C80_parse_partial {d0 d d' : ParserData} {c' : Command} (h : Comparable d0 d d' c') (hp : Predictable d) (hp' : Predictable d') {env : Env} (hsi : env.Silent)
    {args : List Str} (hne : d0.settings.optionStyle = .standard ∨ [] ∉ args) (hsz : args.length ≤ sizeMax) {rs : List IterResult} {n : PNode}
    (hr : Returns env d args rs .done n) (hns : NoStop rs) :
    ∃ rs' n', Returns env d' args rs' .done n' ∧ NoStop rs' ∧ n'.code = .success ∧ KeepsValues n n' := by
  have hacc := C57_sound_partial h.init h.ordinary hsi.passive hne hr hns
  obtain ⟨rs1, h1, h2⟩ := h.transfer hacc
  have hsv := h2.served h.grown ((served_forget _ _).mpr (returns_served h.init h.ordinary hp hsi.passive hne hsz hr hns))
  obtain ⟨rs2, n2, hr2, hn2, hm2, hc2⟩ := complete_served h.init' h.ordinary' hp' hsi hne hsz h1 hsv
  refine ⟨rs2, n2, hr2, hn2, hc2, ?_⟩
  obtain ⟨t, ht, hnt⟩ := C32_values h.init hsi.passive hr
  obtain ⟨t', ht', hnt'⟩ := C32_values h.init' hsi.passive hr2
  have f1 : ∀ (rs : List IterResult) (c : Command), Open.after c (rs.map forgetText) = Open.after c rs := by
    intro rs c
    unfold Open.after
    generalize Open.start c = st
    induction rs generalizing st with
    | nil => rfl
    | cons r rs ih =>
      rw [List.map_cons, List.foldl_cons, List.foldl_cons, ih]
      cases r <;> rfl
  have hsingle := h.ordinary.single
  have hsingle' := h.ordinary'.single
  have ho := h2.opens (l := d.command.options.map .initial) (l' := d'.command.options.map .initial) (ts := []) (ts' := []) (st := []) (st' := []) h.grown
    h.grown.initial .nil .nil (by
      intro x hx
      rw [List.mem_singleton.mp hx]
      exact hsingle _ .self) (by
      intro x hx
      rw [List.mem_singleton.mp hx]
      exact hsingle' _ .self) (fun r hr c1 t e => hsingle _ (accepts_within_root (namesCommand_mem _) hacc .self r hr c1 t e))
  have ho' : Each (TreeLink d0.settings.caseInsensitive) (Open.after d.command rs) (Open.after d'.command rs2) := by
    rw [← f1 rs, ← f1 rs2, hm2]
    exact ho
  exact keepsValues n n2 hnt hnt' (close_link ho' ht ht') (hr.treeOk (ready_of_init h.init)) (hr2.treeOk (ready_of_init h.init'))

/-! ## An example -/

/-- The options of a program, and those of its sub-command. -/
def earlyOptions : List OptData := [{ flags := [b!"-l", b!"--level"], argument := b!"N", initialValue := b!"3" }, { flags := [b!"--quiet"], alias_ := b!"--level", constant := b!"0" }]

/-- What is added to the program. -/
def lateOptions : List OptData := [{ flags := [b!"-f", b!"--format"], argument := b!"F", initialValue := b!"text" }, { flags := [b!"-h"], alias_ := b!"--quiet", constant := b!"9" }]

/-- What is added to its sub-command. -/
def lateSubOptions : List OptData := [{ flags := [b!"--all"], alias_ := b!"FILE", operation := .append, constant := b!"*" }]

/-- A program with some options. -/
def growingCommand (os os' : List OptData) : Command :=
  { name := b!"prog", options := earlyOptions ++ os, requireSubcommand := some false
    commands := [{ name := b!"show", options := [{ flags := [b!"-m"], argument := b!"M", optional := false }] ++ os'
                   arguments := [{ name := b!"FILE", minCount := 0, maxCount := 9 }] }] }

/-- The same as data. -/
def growingData (os os' : List OptData) : ParserData :=
  { command := growingCommand os os', version := b!"1", settings := { autoExit := false, allowAbbreviatedOptions := false } }

/-- What is asked of the results of the example. -/
def growingAnswers (n : PNode) : List (List Str) × List (List Str) :=
  let strings (n : PNode) (name : Str) : List Str := match n.valuesOf name with
    | .ok l => l.map (·.1)
    | _ => []
  ([strings n b!"-l", strings n b!"--quiet"], n.subs.flatMap fun (m : PNode) => [strings m b!"-m", strings m b!"FILE"])

theorem addable_of {ci : Bool} {c : Command} {xs : List OptData} (h : ∀ x ∈ xs, x.optional = true ∧ (∀ g ∈ x.flags, ∀ f ∈ flagsOf c.options, ¬ SameFlag ci g (f ++ b!"=")) ∧
    (x.initialValue = [] ∨ (x.operation ≠ .none ∧ x.alias_ = [] ∧
      ∀ f ∈ x.flags, (∀ a ∈ c.arguments, a.name ≠ f ∧ a.alias_ ≠ f) ∧ ∀ o ∈ c.options ++ xs, o.alias_ ≠ f))) : ∀ x ∈ xs, Addable ci c xs x :=
  fun x hx => ⟨(h x hx).1, (h x hx).2.1, (h x hx).2.2⟩

theorem growing_enlarged : Enlarged false (growingCommand [] []) (growingCommand lateOptions lateSubOptions) :=
  .intro (growingCommand [] []) (xs := lateOptions) (addable_of (by decide +kernel)) (.cons (.intro _ (xs := lateSubOptions) (addable_of (by decide +kernel)) .nil) .nil)

set_option synthInstance.maxSize 1000 in
-- The conditions hold for a program with a sub-command, a generated help option (which loses a flag), a version, links, initial values and a mandatory option.
example : ∃ d, finishInitialization (growingData [] []) = .ok d ∧ ∃ d', finishInitialization (growingData lateOptions lateSubOptions) = .ok d' ∧
    Comparable (growingData [] []) d d' (growingCommand lateOptions lateSubOptions) ∧ Predictable d ∧ Predictable d' ∧
    parseTo growingAnswers Env.inert d [b!"-l5", b!"show", b!"a", b!"-m", b!"2", b!"b"] 99 = some ([[b!"5"], [b!"5"]], [[b!"2"], [b!"a", b!"b"]]) ∧
    parseTo growingAnswers Env.inert d' [b!"-l5", b!"show", b!"a", b!"-m", b!"2", b!"b"] 99 = some ([[b!"5"], [b!"5"]], [[b!"2"], [b!"a", b!"b"]]) := by
  have key : ∀ os os', growingData os os' = growingData [] [] ∨ growingData os os' = growingData lateOptions lateSubOptions →
      ∃ d, finishInitialization (growingData os os') = .ok d ∧ (d.command.checkAll (fun x => backwardCheck [] (items x)) 2 = true ∧
      ordinaryCheck 2 d = true ∧ predictableCheck 2 d = true ∧
      parseTo growingAnswers Env.inert d [b!"-l5", b!"show", b!"a", b!"-m", b!"2", b!"b"] 99 = some ([[b!"5"], [b!"5"]], [[b!"2"], [b!"a", b!"b"]])) := by
    rintro os os' (e | e)
    all_goals
      rw [e]
      refine Outcome.exists_ok ?_
      decide +kernel
  obtain ⟨d, h, h1, h2, h3, h4⟩ := key [] [] (.inl rfl)
  obtain ⟨d', h', h1', h2', h3', h4'⟩ := key lateOptions lateSubOptions (.inr rfl)
  have hz : (growingCommand [] []).checkAll (fun x => x.options.all fun o => o.valueId == 0) 2 = true := by decide +kernel
  refine ⟨d, h, d', h', ⟨growing_enlarged, h, h', ?_, rfl, ordinaryCheck_sound h2, ordinaryCheck_sound h2', fun x hx => backwardCheck_sound _ (Command.checkAll_sound h1 hx),
    fun x hx => backwardCheck_sound _ (Command.checkAll_sound h1' hx)⟩, predictableCheck_sound h3, predictableCheck_sound h3', h4, h4'⟩
  intro x hx o ho
  have := Command.checkAll_sound hz hx
  simp only [List.all_eq_true, beq_iff_eq] at this
  exact this o ho

/-- **C80** is false with abbreviations: an option that is added makes an abbreviation ambiguous. -/
theorem C80_abbreviation_violated : ∃ (d0 : ParserData) (c' : Command) (args : List Str), Enlarged d0.settings.caseInsensitive d0.command c' ∧
    (∃ d, finishInitialization d0 = .ok d ∧ parseTo (fun n => n.code) Env.inert d args 9 = some .success) ∧
    ∃ d', finishInitialization { d0 with command := c' } = .ok d' ∧ parseTo (fun n => n.code) Env.inert d' args 9 = some .failure := by
  refine ⟨{ command := { name := b!"prog", options := [{ flags := [b!"--force"] }] }, settings := { autoExit := false, allowAbbreviatedOptions := true } },
    { name := b!"prog", options := [{ flags := [b!"--force"] }, { flags := [b!"--format"] }] }, [b!"--fo"], ?_, ?_, ?_⟩
  · exact .intro { name := b!"prog", options := [{ flags := [b!"--force"] }] } (xs := [{ flags := [b!"--format"] }]) (addable_of (by decide +kernel)) .nil
  all_goals
    refine Outcome.exists_ok ?_
    decide +kernel

/-- **C80** is false without its condition about flags that end in `=`: the new option takes the value of the old one. -/
theorem C80_equals_violated : ∃ (d0 : ParserData) (xs : List OptData) (args : List Str) (name : Str), d0.settings.allowAbbreviatedOptions = false ∧
    (∀ x ∈ xs, x.optional = true ∧ x.initialValue = [] ∧ x.alias_ = []) ∧
    (∃ d, finishInitialization d0 = .ok d ∧ parseTo (fun n => (n.code, n.has name)) Env.inert d args 9 = some (.success, .ok true)) ∧
    ∃ d', finishInitialization { d0 with command := { d0.command with options := d0.command.options ++ xs } } = .ok d' ∧
      parseTo (fun n => (n.code, n.has name)) Env.inert d' args 9 = some (.success, .ok false) := by
  refine ⟨{ command := { name := b!"prog", options := [{ flags := [b!"--file"], argument := b!"F" }] }, settings := { autoExit := false, allowAbbreviatedOptions := false } },
    [{ flags := [b!"--file="], argument := b!"F" }], [b!"--file=x"], b!"--file", rfl, by decide +kernel, ?_, ?_⟩
  all_goals
    refine Outcome.exists_ok ?_
    decide +kernel

/-- **C80** is false without its condition about initial values: an option that is added gives a value to one that wasn't given. -/
theorem C80_initial_violated : ∃ (d0 : ParserData) (xs : List OptData) (name : Str), d0.settings.allowAbbreviatedOptions = false ∧
    (∀ x ∈ xs, x.optional = true ∧ ∀ g ∈ x.flags, ∀ f ∈ flagsOf d0.command.options, ¬ SameFlag false g (f ++ b!"=")) ∧
    (∃ d, finishInitialization d0 = .ok d ∧ parseTo (fun n => (n.code, n.has name)) Env.inert d [] 9 = some (.success, .ok false)) ∧
    ∃ d', finishInitialization { d0 with command := { d0.command with options := d0.command.options ++ xs } } = .ok d' ∧
      parseTo (fun n => (n.code, n.has name)) Env.inert d' [] 9 = some (.success, .ok true) := by
  refine ⟨{ command := { name := b!"prog", options := [{ flags := [b!"--file"], argument := b!"F" }] }, settings := { autoExit := false, allowAbbreviatedOptions := false } },
    [{ flags := [b!"--input"], alias_ := b!"--file", argument := b!"F", initialValue := b!"-" }], b!"--file", rfl, by decide +kernel, ?_, ?_⟩
  all_goals
    refine Outcome.exists_ok ?_
    decide +kernel

end Argos
