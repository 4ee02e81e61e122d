import Verif.Proofs.Select

/-! # Initialisation of the tree of commands, and the automatically added options -/

namespace Argos
open Spec

theorem finishCommand_ok {s : ParserSettings} {fn : Str} {a b : Nat} {c c' : Command}
    (h : finishCommand s fn a b c = .ok c') :
    ∃ c1 x y cmds, finishSelf s fn c a b = .ok (c1, x, y) ∧
      finishCommands s c.name x y c.commands = .ok cmds ∧ c' = { c1 with commands := cmds } := by
  obtain ⟨arguments, options, commands, currentSection, name, fn0, texts, visibility,
      requireSubcommand, multiCommand, section_, id, argumentId, optionIndex⟩ := c
  unfold finishCommand at h
  rw [Outcome.bind_eq_ok] at h
  obtain ⟨⟨c1, x1, y1⟩, h1, h⟩ := h
  simp only at h
  rw [Outcome.bind_eq_ok] at h
  obtain ⟨cmds, h2, h⟩ := h
  simp only [Outcome.pure_eq, Outcome.ok.injEq] at h
  exact ⟨c1, x1, y1, cmds, h1, h2, h.symm⟩

theorem finishCommand_intro {s : ParserSettings} {fn : Str} {a b : Nat} {c c1 : Command} {x y : Nat}
    {cmds : List Command} (h1 : finishSelf s fn c a b = .ok (c1, x, y))
    (h2 : finishCommands s c.name x y c.commands = .ok cmds) :
    finishCommand s fn a b c = .ok { c1 with commands := cmds } := by
  obtain ⟨arguments, options, commands, currentSection, name, fn0, texts, visibility,
      requireSubcommand, multiCommand, section_, id, argumentId, optionIndex⟩ := c
  unfold finishCommand
  rw [h1]
  simp only [Outcome.bind_ok]
  simp only at h2
  rw [h2]
  rfl

theorem finishCommands_get {s : ParserSettings} {pn : Str} {a b : Nat} {cs cs' : List Command}
    (h : finishCommands s pn a b cs = .ok cs') :
    cs'.length = cs.length ∧ ∀ (i : Nat) (c : Command), cs[i]? = some c →
      ∃ c', cs'[i]? = some c' ∧ finishCommand s (pn ++ [32] ++ c.name) a b c = .ok c' := by
  induction cs generalizing cs' with
  | nil => simp [finishCommands] at h; subst h; simp
  | cons c cs ih =>
    unfold finishCommands at h
    rw [Outcome.bind_eq_ok] at h
    obtain ⟨c1, h1, h⟩ := h
    rw [Outcome.bind_eq_ok] at h
    obtain ⟨cs1, h2, h⟩ := h
    simp only [Outcome.pure_eq, Outcome.ok.injEq] at h
    subst h
    obtain ⟨hl, hi⟩ := ih h2
    refine ⟨by simp [hl], ?_⟩
    intro i x hx
    cases i with
    | zero => simp at hx; subst hx; exact ⟨c1, by simp, h1⟩
    | succ i => simp only [List.getElem?_cons_succ] at hx ⊢; exact hi i x hx

theorem finishCommands_intro {s : ParserSettings} {pn : Str} {a b : Nat} {cs : List Command}
    (h : ∀ c ∈ cs, ∃ c', finishCommand s (pn ++ [32] ++ c.name) a b c = .ok c') :
    ∃ cs', finishCommands s pn a b cs = .ok cs' := by
  induction cs with
  | nil => exact ⟨[], rfl⟩
  | cons c cs ih =>
    obtain ⟨c', h1⟩ := h c (by simp)
    obtain ⟨cs', h2⟩ := ih (fun c hc => h c (by simp [hc]))
    refine ⟨c' :: cs', ?_⟩
    unfold finishCommands
    rw [h1, Outcome.bind_ok, h2]
    rfl

/-- The command at a path before and after initialisation. -/
theorem finishCommand_at (s : ParserSettings) (p : List Nat) : ∀ {fn : Str} {a b : Nat} {c c' : Command},
    finishCommand s fn a b c = .ok c' →
    (∀ x', c'.at p = some x' → ∃ x fn' a' b', c.at p = some x ∧ finishCommand s fn' a' b' x = .ok x' ∧
      (p = [] → fn' = fn) ∧ (∀ i, p = [i] → fn' = c.name ++ [32] ++ x.name)) ∧
    (∀ x, c.at p = some x → ∃ x', c'.at p = some x') := by
  induction p with
  | nil =>
    intro fn a b c c' h
    constructor
    · intro x' hx
      simp only [Command.at, Option.some.injEq] at hx
      subst hx
      exact ⟨c, fn, a, b, rfl, h, fun _ => rfl, fun i hi => by simp at hi⟩
    · intro x _; exact ⟨c', rfl⟩
  | cons i p ih =>
    intro fn a b c c' h
    obtain ⟨c1, x, y, cmds, h1, h2, rfl⟩ := finishCommand_ok h
    obtain ⟨hl, hg⟩ := finishCommands_get h2
    simp only [Command.at]
    constructor
    · intro x' hx
      cases h3 : cmds[i]? with
      | none => simp [h3] at hx
      | some s' =>
        simp only [h3] at hx
        have hi : i < c.commands.length := by
          rw [← hl]; exact (List.getElem?_eq_some_iff.mp h3).1
        obtain ⟨s'', h4, h5⟩ := hg i c.commands[i] (by simp [hi])
        rw [h3] at h4
        simp only [Option.some.injEq] at h4
        subst h4
        obtain ⟨z, fn', a', b', hz1, hz2, hz3, _⟩ := (ih h5).1 x' hx
        refine ⟨z, fn', a', b', by simp only [List.getElem?_eq_getElem hi]; exact hz1, hz2, by simp, ?_⟩
        intro j hj
        simp only [List.cons.injEq] at hj
        obtain ⟨rfl, rfl⟩ := hj
        simp only [Command.at, Option.some.injEq] at hz1
        rw [hz3 rfl, hz1]
    · intro x0 hx
      cases h3 : c.commands[i]? with
      | none => simp [h3] at hx
      | some s0 =>
        simp only [h3] at hx
        obtain ⟨s', h4, h5⟩ := hg i s0 h3
        simp only [h4]
        exact (ih h5).2 x0 hx

/-- A path leads to a command of the tree. -/
theorem Command.within_of_at (p : List Nat) : ∀ {c x : Command}, c.at p = some x → x.Within c := by
  induction p with
  | nil => intro c x h; simp [Command.at] at h; subst h; exact .self
  | cons i p ih =>
    intro c x h
    simp only [Command.at] at h
    cases h3 : c.commands[i]? with
    | none => simp [h3] at h
    | some s =>
      simp only [h3] at h
      exact .sub (List.mem_of_getElem? h3) (ih h)

theorem Command.at_of_within {c x : Command} (h : x.Within c) : ∃ p, c.at p = some x := by
  induction h with
  | self => exact ⟨[], rfl⟩
  | sub hm _ ih =>
    obtain ⟨p, hp⟩ := ih
    obtain ⟨i, hi⟩ := List.mem_iff_getElem?.mp hm
    exact ⟨i :: p, by simp only [Command.at, hi]; exact hp⟩

/-! ### Automatically added options -/

theorem hasFlag_false {options : List OptData} {flag : Str} {ci : Bool}
    (h : hasFlag options flag ci = false) : ∀ g ∈ flagsOf options, ¬ SameFlag ci g flag := by
  intro g hg hs
  obtain ⟨o, ho, hgo⟩ := (mem_flagsOf options g).mp hg
  simp only [hasFlag, List.any_eq_false, Bool.not_eq_true] at h
  have := h o ho g hgo
  rw [(areEqual_key ci g flag).mpr ((sameFlag_key ci g flag).mp hs)] at this
  simp at this

theorem hasFlag_true {options : List OptData} {flag : Str} {ci : Bool}
    (h : hasFlag options flag ci = true) : ∃ g ∈ flagsOf options, SameFlag ci g flag := by
  simp only [hasFlag, List.any_eq_true] at h
  obtain ⟨o, ho, g, hg, he⟩ := h
  exact ⟨g, (mem_flagsOf _ _).mpr ⟨o, ho, hg⟩, (sameFlag_key ci g flag).mpr ((areEqual_key ci g flag).mp he)⟩

/-- The help flags of a style. -/
def Spec.helpFlagsOf : OptionStyle → List Str
  | .standard => [b!"-h", b!"--help"]
  | .slash => [b!"/?"]
  | .dash => [b!"-h", b!"-help"]

theorem helpFlags_new (options : List OptData) (style : OptionStyle) (ci : Bool) :
    (∀ f ∈ helpFlags options style ci, f ∈ helpFlagsOf style ∧ ∀ g ∈ flagsOf options, ¬ SameFlag ci g f) ∧
    (helpFlags options style ci).Pairwise (fun f g => ¬ SameFlag ci f g) ∧
    (helpFlags options style ci = [] → ∀ f ∈ helpFlagsOf style, ∃ g ∈ flagsOf options, SameFlag ci g f) := by
  cases style with
  | standard =>
    simp only [helpFlags, helpFlagsOf]
    cases h1 : hasFlag options b!"-h" ci <;> cases h2 : hasFlag options b!"--help" ci
    · refine ⟨?_, ?_, by simp⟩
      · simp only [Bool.not_false, if_true, List.cons_append, List.nil_append, List.mem_cons,
          List.not_mem_nil, or_false]
        rintro f (rfl | rfl)
        · exact ⟨Or.inl rfl, hasFlag_false h1⟩
        · exact ⟨Or.inr rfl, hasFlag_false h2⟩
      · cases ci <;> decide
    · refine ⟨?_, by simp, by simp⟩
      simp only [Bool.not_false, Bool.not_true, if_true, Bool.false_eq_true, if_false,
        List.append_nil, List.mem_cons, List.not_mem_nil, or_false]
      rintro f rfl
      exact ⟨Or.inl rfl, hasFlag_false h1⟩
    · refine ⟨?_, by simp, by simp⟩
      simp only [Bool.not_false, Bool.not_true, if_true, Bool.false_eq_true, if_false,
        List.nil_append, List.mem_cons, List.not_mem_nil, or_false]
      rintro f rfl
      exact ⟨Or.inr rfl, hasFlag_false h2⟩
    · refine ⟨by simp, by simp, ?_⟩
      intro _ f hf
      simp only [List.mem_cons, List.not_mem_nil, or_false] at hf
      rcases hf with rfl | rfl
      · exact hasFlag_true h1
      · exact hasFlag_true h2
  | slash =>
    simp only [helpFlags, helpFlagsOf]
    cases h1 : hasFlag options b!"/?" ci
    · refine ⟨?_, by simp, by simp⟩
      simp only [Bool.not_false, if_true, List.mem_cons, List.not_mem_nil, or_false]
      rintro f rfl
      exact ⟨rfl, hasFlag_false h1⟩
    · refine ⟨by simp, by simp, ?_⟩
      intro _ f hf
      simp only [List.mem_cons, List.not_mem_nil, or_false] at hf
      subst hf
      exact hasFlag_true h1
  | dash =>
    simp only [helpFlags, helpFlagsOf]
    cases h1 : hasFlag options b!"-h" ci
    · refine ⟨?_, by simp, by simp⟩
      simp only [Bool.not_false, if_true, List.mem_cons, List.not_mem_nil, or_false]
      rintro f rfl
      exact ⟨Or.inl rfl, hasFlag_false h1⟩
    · cases h2 : hasFlag options b!"-help" ci
      · refine ⟨?_, by simp, by simp⟩
        simp only [Bool.not_false, Bool.not_true, Bool.false_eq_true, if_false, if_true, List.mem_cons,
          List.not_mem_nil, or_false]
        rintro f rfl
        exact ⟨Or.inr rfl, hasFlag_false h2⟩
      · refine ⟨by simp, by simp, ?_⟩
        intro _ f hf
        simp only [List.mem_cons, List.not_mem_nil, or_false] at hf
        rcases hf with rfl | rfl
        · exact hasFlag_true h1
        · exact hasFlag_true h2

theorem flagsOf_append (a b : List OptData) : flagsOf (a ++ b) = flagsOf a ++ flagsOf b := by
  simp [flagsOf]

theorem distinct_addHelp {ci : Bool} {options : List OptData} {s : ParserSettings} {sec : Str}
    (hci : s.caseInsensitive = ci) (h : DistinctFlags ci options) :
    DistinctFlags ci (addHelpOption options sec s) := by
  rcases addHelpOption_cases options sec s with e | ⟨_, _, _, e⟩
  · rw [e]; exact h
  · rw [e]
    unfold DistinctFlags at *
    rw [flagsOf_append, List.pairwise_append]
    obtain ⟨h1, h2, _⟩ := helpFlags_new options s.optionStyle s.caseInsensitive
    refine ⟨h, ?_, ?_⟩
    · simp only [flagsOf, List.flatMap_cons, List.flatMap_nil, List.append_nil]
      rw [← hci]; exact h2
    · intro f hf g hg
      simp only [flagsOf, List.flatMap_cons, List.flatMap_nil, List.append_nil] at hg
      rw [← hci]
      exact (h1 g hg).2 f hf

theorem regular_addHelp {ci : Bool} {options : List OptData} {s : ParserSettings} {sec : Str}
    (h : RegularFlags ci options) : RegularFlags ci (addHelpOption options sec s) := by
  rcases addHelpOption_cases options sec s with e | ⟨_, _, _, e⟩
  · rw [e]; exact h
  · rw [e]
    intro hci f hf
    rw [flagsOf_append] at hf
    rcases List.mem_append.mp hf with hf | hf
    · exact h hci f hf
    · simp only [flagsOf, List.flatMap_cons, List.flatMap_nil, List.append_nil] at hf
      have := ((helpFlags_new options s.optionStyle s.caseInsensitive).1 f hf).1
      cases hs : s.optionStyle <;> rw [hs] at this <;> simp only [helpFlagsOf, List.mem_cons, List.not_mem_nil, or_false] at this
      · rcases this with rfl | rfl <;> decide
      · rcases this with rfl; decide
      · rcases this with rfl | rfl <;> decide

/-- The version flag of a style. -/
def Spec.versionFlagOf : OptionStyle → Str
  | .standard => b!"--version"
  | .slash => b!"/VERSION"
  | .dash => b!"-version"

theorem versionFlag_cases (options : List OptData) (style : OptionStyle) (ci : Bool) :
    (versionFlag options style ci = versionFlagOf style ∧
      hasFlag options (versionFlagOf style) ci = false) ∨
    (versionFlag options style ci = [] ∧ hasFlag options (versionFlagOf style) ci = true) := by
  cases style <;> simp only [versionFlag, versionFlagOf]
  · cases h : hasFlag options b!"--version" ci <;> simp
  · cases h : hasFlag options b!"/VERSION" ci <;> simp
  · cases h : hasFlag options b!"-version" ci <;> simp

theorem addVersionOption_cases (options : List OptData) (sec version : Str) (s : ParserSettings) :
    addVersionOption options sec version s = options ∨
    (version ≠ [] ∧ hasFlag options (versionFlagOf s.optionStyle) s.caseInsensitive = false ∧
     addVersionOption options sec version s = options ++
      [{ flags := [versionFlagOf s.optionStyle], type := .stop, help := .text b!"Display the program version.",
         constant := b!"1", callback := some versionCallback, section_ := sec }]) := by
  unfold addVersionOption
  split
  · exact Or.inl rfl
  · rename_i hv
    rcases versionFlag_cases options s.optionStyle s.caseInsensitive with ⟨e, h⟩ | ⟨e, _⟩
    · rw [e]
      have : (versionFlagOf s.optionStyle).isEmpty = false := by cases s.optionStyle <;> rfl
      simp only [this, Bool.false_eq_true, if_false]
      exact Or.inr ⟨by simpa using hv, h, trivial⟩
    · rw [e]; exact Or.inl rfl

theorem distinct_addVersion {ci : Bool} {options : List OptData} {s : ParserSettings} {sec v : Str}
    (hci : s.caseInsensitive = ci) (h : DistinctFlags ci options) :
    DistinctFlags ci (addVersionOption options sec v s) := by
  rcases addVersionOption_cases options sec v s with e | ⟨_, h1, e⟩
  · rw [e]; exact h
  · rw [e]
    unfold DistinctFlags at *
    rw [flagsOf_append, List.pairwise_append]
    refine ⟨h, by simp [flagsOf], ?_⟩
    intro f hf g hg
    simp only [flagsOf, List.flatMap_cons, List.flatMap_nil, List.append_nil, List.mem_cons,
      List.not_mem_nil, or_false] at hg
    subst hg
    rw [← hci]
    exact hasFlag_false h1 f hf

theorem regular_addVersion {ci : Bool} {options : List OptData} {s : ParserSettings} {sec v : Str}
    (h : RegularFlags ci options) : RegularFlags ci (addVersionOption options sec v s) := by
  rcases addVersionOption_cases options sec v s with e | ⟨_, h1, e⟩
  · rw [e]; exact h
  · rw [e]
    intro hci f hf
    rw [flagsOf_append] at hf
    rcases List.mem_append.mp hf with hf | hf
    · exact h hci f hf
    · simp only [flagsOf, List.flatMap_cons, List.flatMap_nil, List.append_nil, List.mem_cons,
        List.not_mem_nil, or_false] at hf
      subst hf
      cases s.optionStyle <;> decide

theorem validateAll_append {style : OptionStyle} {os os' : List OptData} {o o' : OptData}
    (h1 : validateAll style os = .ok os') (h2 : validateAndUpdate o style = .ok o') :
    validateAll style (os ++ [o]) = .ok (os' ++ [o']) := by
  induction os generalizing os' with
  | nil => simp [validateAll] at h1; subst h1; simp [validateAll, h2]
  | cons a os ih =>
    simp only [validateAll] at h1
    rw [Outcome.bind_eq_ok] at h1
    obtain ⟨a', e1, h1⟩ := h1
    rw [Outcome.bind_eq_ok] at h1
    obtain ⟨os1, e2, h1⟩ := h1
    simp only [Outcome.pure_eq, Outcome.ok.injEq] at h1
    subst h1
    simp only [List.cons_append, validateAll, e1, Outcome.bind_ok, ih e2]
    rfl

theorem validateAll_addVersion {options os' : List OptData} {s : ParserSettings} {sec v : Str}
    (h : validateAll s.optionStyle options = .ok os') :
    ∃ os'', validateAll s.optionStyle (addVersionOption options sec v s) = .ok os'' := by
  rcases addVersionOption_cases options sec v s with e | ⟨_, h1, e⟩
  · rw [e]; exact ⟨_, h⟩
  · rw [e]
    refine ⟨_, validateAll_append h
      (o' :=
        { flags := [versionFlagOf s.optionStyle], type := .stop,
          help := .text b!"Display the program version.", constant := b!"1",
          callback := some versionCallback, section_ := sec }) ?_⟩
    cases s.optionStyle <;> rfl

/-- Success of `finishSelf`. -/
theorem finishSelf_intro {s : ParserSettings} {fn : Str} {c : Command} {a b : Nat} {opts : List OptData}
    {req : Option Bool} (h1 : validateAll s.optionStyle c.options = .ok opts)
    (h2 : updateRequireCommand c.requireSubcommand c.commands = .ok req)
    (hreg : RegularFlags s.caseInsensitive c.options) (hd : DistinctFlags s.caseInsensitive c.options) :
    ∃ c' x y, finishSelf s fn c a b = .ok (c', x, y) := by
  unfold finishSelf
  rw [h1, Outcome.bind_ok, h2, Outcome.bind_ok]
  simp only
  have e1 := flagsOf_map_core (validateAll_ok _ _ _ h1).1
  have e2 := flagsOf_map_core (map_core_of_noIds
    (setOptIds_noIds (addHelpOption opts c.currentSection s)
      (setArgIds c.arguments (b + 1) ⟨[], a⟩).2.1 (setArgIds c.arguments (b + 1) ⟨[], a⟩).2.2))
  have hreg' : RegularFlags s.caseInsensitive opts := by
    unfold RegularFlags; rw [e1]; exact hreg
  have hd' : DistinctFlags s.caseInsensitive opts := by
    unfold DistinctFlags; rw [e1]; exact hd
  have hreg2 := regular_addHelp (sec := c.currentSection) (s := s) hreg'
  have hd2 := distinct_addHelp (sec := c.currentSection) (s := s) rfl hd'
  generalize (setOptIds (addHelpOption opts c.currentSection s)
      (setArgIds c.arguments (b + 1) ⟨[], a⟩).2.1 (setArgIds c.arguments (b + 1) ⟨[], a⟩).2.2) = os at *
  have hreg3 : RegularFlags s.caseInsensitive os.1 := by
    unfold RegularFlags; rw [e2]; exact hreg2
  have hd3 : DistinctFlags s.caseInsensitive os.1 := by
    unfold DistinctFlags; rw [e2]; exact hd2
  obtain ⟨i, hi, _⟩ := (buildOptionIndex_spec s.caseInsensitive os.1
    (regular_keyOk _ _ hreg3)).1 ((distinct_pairs _ _).mp hd3)
  rw [hi]
  exact ⟨_, _, _, rfl⟩

/-- What a successful `finishSelf` implies about the flags. -/
theorem finishSelf_distinct {s : ParserSettings} {fn : Str} {c c' : Command} {a b x y : Nat}
    (hreg : RegularFlags s.caseInsensitive c.options)
    (h : finishSelf s fn c a b = .ok (c', x, y)) : DistinctFlags s.caseInsensitive c.options := by
  obtain ⟨opts, h1, h2, ⟨h3a, h3b, _, _⟩, h4, _⟩ := finishSelf_ok h
  have e1 := flagsOf_map_core (validateAll_ok _ _ _ h1).1
  have e2 : flagsOf c'.options = flagsOf (addHelpOption opts c.currentSection s) := by
    rw [h3b]; exact flagsOf_map_core (map_core_of_noIds (setOptIds_noIds _ _ _))
  have hreg2 : RegularFlags s.caseInsensitive c'.options := by
    unfold RegularFlags; rw [e2]
    apply regular_addHelp
    unfold RegularFlags; rw [e1]; exact hreg
  obtain ⟨_, _, hd⟩ := buildOptionIndex_ok _ _ _ (regular_keyOk _ _ hreg2) h4
  replace hd := (distinct_pairs _ _).mpr hd
  unfold DistinctFlags at *
  rw [e2] at hd
  rw [← e1]
  rcases addHelpOption_cases opts c.currentSection s with e | ⟨_, _, _, e⟩
  · rwa [e] at hd
  · rw [e, flagsOf_append, List.pairwise_append] at hd
    exact hd.1

mutual
/-- Turning on the help option does not make initialisation fail. -/
theorem finishCommand_help (s s0 : ParserSettings) (hs : s0 = { s with generateHelpOption := false }) :
    ∀ (fn fn' : Str) (a b a' b' : Nat) (c c0 : Command), finishCommand s0 fn a b c = .ok c0 →
      (∀ x : Command, x.Within c → RegularFlags s.caseInsensitive x.options) →
      ∃ c', finishCommand s fn' a' b' c = .ok c'
  | fn, fn', a, b, a', b', ⟨arguments, options, commands, currentSection, name, fn0, texts, visibility,
      requireSubcommand, multiCommand, section_, id, argumentId, optionIndex⟩, c0, h, hreg => by
    obtain ⟨c1, x, y, cmds, h1, h2, _⟩ := finishCommand_ok h
    have hd := finishSelf_distinct (by rw [hs]; exact hreg _ .self) h1
    obtain ⟨opts, g1, g2, _⟩ := finishSelf_ok h1
    rw [hs] at hd g1
    obtain ⟨c2, x2, y2, k1⟩ := finishSelf_intro (fn := fn') (a := a') (b := b') (s := s) g1 g2 (hreg _ .self) hd
    obtain ⟨cmds', k2⟩ := finishCommands_help s s0 hs name name x y x2 y2 commands cmds h2
      (fun c hc x hx => hreg x (.sub hc hx))
    exact ⟨_, finishCommand_intro k1 k2⟩
theorem finishCommands_help (s s0 : ParserSettings) (hs : s0 = { s with generateHelpOption := false }) :
    ∀ (pn pn' : Str) (a b a' b' : Nat) (cs cs0 : List Command), finishCommands s0 pn a b cs = .ok cs0 →
      (∀ c ∈ cs, ∀ x : Command, x.Within c → RegularFlags s.caseInsensitive x.options) →
      ∃ cs', finishCommands s pn' a' b' cs = .ok cs'
  | pn, pn', a, b, a', b', [], cs0, h, hreg => ⟨[], rfl⟩
  | pn, pn', a, b, a', b', c :: cs, cs0, h, hreg => by
    unfold finishCommands at h
    rw [Outcome.bind_eq_ok] at h
    obtain ⟨c1, h1, h⟩ := h
    rw [Outcome.bind_eq_ok] at h
    obtain ⟨cs1, h2, h⟩ := h
    obtain ⟨c', k1⟩ := finishCommand_help s s0 hs _ (pn' ++ [32] ++ c.name) a b a' b' c c1 h1
      (fun x hx => hreg c (by simp) x hx)
    obtain ⟨cs', k2⟩ := finishCommands_help s s0 hs pn pn' a b a' b' cs cs1 h2
      (fun c hc => hreg c (by simp [hc]))
    refine ⟨c' :: cs', ?_⟩
    unfold finishCommands
    rw [k1, Outcome.bind_ok, k2]
    rfl
end

end Argos
