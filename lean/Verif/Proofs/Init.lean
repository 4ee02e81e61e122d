import Verif.Model.Options
import Verif.Spec.Lookup

/-! # What initialisation does to the definitions -/

namespace Argos
open Spec

/-- The part of an option that initialisation does not change. -/
def OptData.core (o : OptData) : OptData := { o with constant := [], argumentId := 0, valueId := 0 }

/-- The part of an option that the assignment of ids does not change. -/
def OptData.noIds (o : OptData) : OptData := { o with argumentId := 0, valueId := 0 }

/-- The part of an argument that initialisation does not change. -/
def ArgData.noIds (a : ArgData) : ArgData := { a with argumentId := 0, valueId := 0 }

theorem OptData.core_noIds (o : OptData) : o.noIds.core = o.core := rfl

theorem setOptIds_noIds (os : List OptData) (n : Nat) (m : IdMaker) :
    (setOptIds os n m).1.map OptData.noIds = os.map OptData.noIds := by
  induction os generalizing n m with
  | nil => rfl
  | cons o os ih =>
    unfold setOptIds
    by_cases h : o.operation = .none
    · rw [if_pos h]
      simp only [List.map_cons, ih]
      rfl
    · rw [if_neg h]
      simp only [List.map_cons, ih]
      rfl

theorem setArgIds_noIds (as : List ArgData) (n : Nat) (m : IdMaker) :
    (setArgIds as n m).1.map ArgData.noIds = as.map ArgData.noIds := by
  induction as generalizing n m with
  | nil => rfl
  | cons a as ih =>
    unfold setArgIds
    simp only [List.map_cons, ih]
    rfl

theorem flagsOf_map_core {os os' : List OptData} (h : os'.map OptData.core = os.map OptData.core) :
    flagsOf os' = flagsOf os := by
  have : ∀ l : List OptData, flagsOf l = (l.map OptData.core).flatMap (·.flags) := by
    intro l
    simp only [flagsOf, List.flatMap_map]
    rfl
  rw [this, this, h]

theorem map_core_of_noIds {os os' : List OptData} (h : os'.map OptData.noIds = os.map OptData.noIds) :
    os'.map OptData.core = os.map OptData.core := by
  have : ∀ l : List OptData, l.map OptData.core = (l.map OptData.noIds).map OptData.core := by
    intro l; simp only [List.map_map]; rfl
  rw [this, this os, h]

theorem checkFlags_ok (style : OptionStyle) (o : OptData) (fs : List Str) :
    checkFlags style o fs = .ok () ↔ ∀ f ∈ fs, checkFlagStyle style f o = .ok true := by
  induction fs with
  | nil => simp [checkFlags]
  | cons f fs ih =>
    simp only [checkFlags, List.mem_cons, forall_eq_or_imp, ← ih]
    cases h : checkFlagStyle style f o with
    | ok b => cases b <;> simp
    | _ => simp

/-- The outcome of validation, in one formula. -/
def validConstant (o : OptData) : Bool :=
  (o.argument.isEmpty || o.constant.isEmpty) &&
  match o.operation with
  | .none => o.constant.isEmpty && o.alias_.isEmpty
  | .assign => true
  | .append => !o.argument.isEmpty || !o.constant.isEmpty
  | .clear => o.optional

theorem validateAndUpdate_ok (o : OptData) (style : OptionStyle) (o' : OptData)
    (h : validateAndUpdate o style = .ok o') :
    o'.core = o.core ∧ o.flags ≠ [] ∧ (∀ f ∈ o.flags, checkFlagStyle style f o = .ok true) ∧
    validConstant o = true := by
  unfold validateAndUpdate at h
  split at h
  · simp at h
  rename_i hf
  rw [Outcome.bind_eq_ok] at h
  obtain ⟨u, h1, h2⟩ := h
  replace h1 := (checkFlags_ok style o o.flags).mp h1
  refine ⟨?_, by simpa using hf, h1, ?_⟩
  · split at h2
    · simp at h2
    split at h2
    · split at h2
      · simp at h2
      split at h2
      · simp at h2
      · simp at h2; rw [h2]
    · split at h2
      · simp at h2; rw [← h2]; rfl
      · simp at h2; rw [h2]
    · split at h2
      · simp at h2
      · simp at h2; rw [h2]
    · split at h2 <;> dsimp only at h2 <;> split at h2 <;> simp at h2 <;> rw [← h2] <;> rfl
  · unfold validConstant
    split at h2
    · simp at h2
    rename_i hac
    have hac' : (o.argument.isEmpty || o.constant.isEmpty) = true := by
      cases h3 : o.argument.isEmpty <;> cases h4 : o.constant.isEmpty <;> simp [h3, h4] at hac ⊢
    rw [hac', Bool.true_and]
    split at h2
    · rename_i hop
      split at h2
      · simp at h2
      rename_i hc
      split at h2
      · simp at h2
      rename_i ha
      cases h3 : o.constant.isEmpty <;> cases h4 : o.alias_.isEmpty <;> simp [h3, h4, hop] at hc ha ⊢
    · rename_i hop; simp [hop]
    · rename_i hop
      split at h2
      · simp at h2
      rename_i hc
      cases h3 : o.argument.isEmpty <;> cases h4 : o.constant.isEmpty <;> simp [h3, h4, hop] at hc ⊢
    · rename_i hop
      simp only [hop]
      cases h5 : o.optional with
      | true => rfl
      | false => split at h2 <;> simp [h5] at h2

theorem validateAll_ok (style : OptionStyle) (os os' : List OptData) (h : validateAll style os = .ok os') :
    os'.map OptData.core = os.map OptData.core ∧
    ∀ o ∈ os, o.flags ≠ [] ∧ (∀ f ∈ o.flags, checkFlagStyle style f o = .ok true) ∧
      validConstant o = true := by
  induction os generalizing os' with
  | nil => simp [validateAll] at h; subst h; simp
  | cons o os ih =>
    simp only [validateAll] at h
    rw [Outcome.bind_eq_ok] at h
    obtain ⟨o', h1, h2⟩ := h
    rw [Outcome.bind_eq_ok] at h2
    obtain ⟨os'', h2, h3⟩ := h2
    simp only [Outcome.pure_eq, Outcome.ok.injEq] at h3
    subst h3
    obtain ⟨i1, i2⟩ := ih os'' h2
    obtain ⟨v1, v2⟩ := validateAndUpdate_ok o style o' h1
    constructor
    · simp [i1, v1]
    · intro x hx
      rcases List.mem_cons.mp hx with rfl | hx
      · exact v2
      · exact i2 x hx

theorem checkFlagStyle_core (style : OptionStyle) (f : Str) (o : OptData) :
    checkFlagStyle style f o.core = checkFlagStyle style f o := rfl

/-- What a successful `finishSelf` has done. -/
theorem finishSelf_ok {s : ParserSettings} {fn : Str} {c c' : Command} {a b x y : Nat}
    (h : finishSelf s fn c a b = .ok (c', x, y)) :
    ∃ opts, validateAll s.optionStyle c.options = .ok opts ∧
      updateRequireCommand c.requireSubcommand c.commands = .ok c'.requireSubcommand ∧
      (let args := setArgIds c.arguments (b + 1) ⟨[], a⟩
       let os := setOptIds (addHelpOption opts c.currentSection s) args.2.1 args.2.2
       c'.arguments = args.1 ∧ c'.options = os.1 ∧ x = os.2.2.id ∧ y = os.2.1) ∧
      buildOptionIndex c'.options s.caseInsensitive = .ok c'.optionIndex ∧
      c'.commands = c.commands ∧ c'.currentSection = c.currentSection ∧ c'.name = c.name ∧
      c'.fullName = fn ∧ c'.texts = c.texts ∧ c'.visibility = c.visibility ∧
      c'.multiCommand = c.multiCommand ∧ c'.section_ = c.section_ ∧ c'.id = c.id ∧
      c'.argumentId = b + 1 := by
  unfold finishSelf at h
  rw [Outcome.bind_eq_ok] at h
  obtain ⟨opts, h1, h⟩ := h
  rw [Outcome.bind_eq_ok] at h
  obtain ⟨req, h2, h⟩ := h
  simp only at h
  rw [Outcome.bind_eq_ok] at h
  obtain ⟨index, h3, h⟩ := h
  simp only [Outcome.pure_eq, Outcome.ok.injEq, Prod.mk.injEq] at h
  obtain ⟨rfl, rfl, rfl⟩ := h
  exact ⟨opts, h1, h2, ⟨rfl, rfl, rfl, rfl⟩, h3, rfl, rfl, rfl, rfl, rfl, rfl, rfl, rfl, rfl, rfl⟩

mutual
theorem finishCommand_all (s : ParserSettings) (P : Command → Prop)
    (hP : ∀ fn c a b c' x y, finishSelf s fn c a b = .ok (c', x, y) →
      ∀ cmds, (cmds.length = c.commands.length) → P { c' with commands := cmds }) :
    ∀ (fn : Str) (a b : Nat) (c c' : Command), finishCommand s fn a b c = .ok c' →
      ∀ x, x.Within c' → P x
  | fn, a, b, ⟨arguments, options, commands, currentSection, name, fn0, texts, visibility,
      requireSubcommand, multiCommand, section_, id, argumentId, optionIndex⟩, c', h => by
    unfold finishCommand at h
    rw [Outcome.bind_eq_ok] at h
    obtain ⟨⟨c1, x1, y1⟩, h1, h⟩ := h
    simp only at h
    rw [Outcome.bind_eq_ok] at h
    obtain ⟨cmds, h2, h⟩ := h
    simp only [Outcome.pure_eq, Outcome.ok.injEq] at h
    subst h
    intro x hx
    obtain ⟨hl, hall⟩ := finishCommands_all s P hP name x1 y1 commands cmds h2
    cases hx with
    | self => exact hP fn _ a b c1 x1 y1 h1 cmds hl
    | sub hm hw => exact hall _ hm x hw
theorem finishCommands_all (s : ParserSettings) (P : Command → Prop)
    (hP : ∀ fn c a b c' x y, finishSelf s fn c a b = .ok (c', x, y) →
      ∀ cmds, (cmds.length = c.commands.length) → P { c' with commands := cmds }) :
    ∀ (pn : Str) (a b : Nat) (cs cs' : List Command), finishCommands s pn a b cs = .ok cs' →
      cs'.length = cs.length ∧ ∀ c' ∈ cs', ∀ x, x.Within c' → P x
  | pn, a, b, [], cs', h => by
    simp [finishCommands] at h
    subst h
    simp
  | pn, a, b, c :: cs, cs', h => by
    unfold finishCommands at h
    rw [Outcome.bind_eq_ok] at h
    obtain ⟨c1, h1, h⟩ := h
    rw [Outcome.bind_eq_ok] at h
    obtain ⟨cs1, h2, h⟩ := h
    simp only [Outcome.pure_eq, Outcome.ok.injEq] at h
    subst h
    have i1 := finishCommand_all s P hP (pn ++ [32] ++ c.name) a b c c1 h1
    obtain ⟨hl, i2⟩ := finishCommands_all s P hP pn a b cs cs1 h2
    refine ⟨by simp [hl], ?_⟩
    intro c' hc'
    rcases List.mem_cons.mp hc' with rfl | hc'
    · exact i1
    · exact i2 c' hc'
end

theorem finishInitialization_ok {d d' : ParserData} (h : finishInitialization d = .ok d') :
    d'.settings = d.settings ∧ d'.helpSettings = d.helpSettings ∧ d'.version = d.version ∧
    ∃ fn c, finishCommand d.settings fn 0 0 c = .ok d'.command ∧
      c = { d.command with
        options := addVersionOption d.command.options d.command.currentSection d.version d.settings } := by
  unfold finishInitialization at h
  simp only at h
  rw [Outcome.bind_eq_ok] at h
  obtain ⟨c', h1, h⟩ := h
  simp only [Outcome.pure_eq, Outcome.ok.injEq] at h
  subst h
  exact ⟨rfl, rfl, rfl, _, _, h1, rfl⟩

/-- A property established for each command by `finishSelf` holds in the whole tree. -/
theorem finishInitialization_all {d d' : ParserData} (h : finishInitialization d = .ok d')
    (P : Command → Prop)
    (hP : ∀ fn c a b c' x y, finishSelf d.settings fn c a b = .ok (c', x, y) →
      ∀ cmds, (cmds.length = c.commands.length) → P { c' with commands := cmds }) :
    ∀ c, c.Within d'.command → P c := by
  obtain ⟨_, _, _, fn, c, h1, _⟩ := finishInitialization_ok h
  exact finishCommand_all d.settings P hP fn 0 0 c _ h1

/-- Facts about the options of every command of an initialised parser. -/
structure OptionsReady (s : ParserSettings) (c : Command) : Prop where
  index : buildOptionIndex c.options s.caseInsensitive = .ok c.optionIndex
  flags_ne : ∀ o ∈ c.options, o.flags ≠ []
  flags_ok : ∀ o ∈ c.options, ∀ f ∈ o.flags, checkFlagStyle s.optionStyle f o = .ok true
  require : ∃ r, c.requireSubcommand = some r ∧ (r = true → c.commands ≠ [])
  operation_none : ∀ o ∈ c.options, o.operation = .none → o.alias_ = []
  clear_optional : ∀ o ∈ c.options, o.operation = .clear → o.optional = true

theorem mem_of_map_core {os os' : List OptData} (h : os'.map OptData.core = os.map OptData.core)
    {o' : OptData} (ho : o' ∈ os') : ∃ o ∈ os, o'.core = o.core := by
  have : o'.core ∈ os.map OptData.core := by rw [← h]; exact List.mem_map_of_mem ho
  obtain ⟨o, ho, e⟩ := List.mem_map.mp this
  exact ⟨o, ho, e.symm⟩

/-- The help option, if added. -/
theorem addHelpOption_cases (options : List OptData) (sec : Str) (s : ParserSettings) :
    addHelpOption options sec s = options ∨
    (s.generateHelpOption = true ∧ hasHelpOption options = false ∧
      helpFlags options s.optionStyle s.caseInsensitive ≠ [] ∧
      addHelpOption options sec s = options ++
      [{ flags := helpFlags options s.optionStyle s.caseInsensitive, type := .help,
         help := .text b!"Display this help text.", constant := b!"1", section_ := sec }]) := by
  unfold addHelpOption
  split
  · exact Or.inl rfl
  · rename_i h1
    split
    · exact Or.inl rfl
    · rename_i h2
      simp only
      split
      · exact Or.inl rfl
      · rename_i h3
        exact Or.inr ⟨by simpa using h1, by simpa using h2, by simpa using h3, rfl⟩

theorem helpFlags_valid (options : List OptData) (style : OptionStyle) (ci : Bool) (f : Str)
    (h : f ∈ helpFlags options style ci) (o : OptData) : checkFlagStyle style f o = .ok true := by
  cases style with
  | standard =>
    simp only [helpFlags] at h
    split at h <;> split at h <;> simp at h <;> first | (rcases h with rfl | rfl <;> rfl) | (subst h; rfl)
  | slash =>
    simp only [helpFlags] at h
    split at h <;> simp at h <;> subst h <;> rfl
  | dash =>
    simp only [helpFlags] at h
    split at h
    · simp at h; subst h; rfl
    · split at h <;> simp at h <;> subst h <;> rfl

theorem optionsReady {d d' : ParserData} (h : finishInitialization d = .ok d') :
    ∀ c, c.Within d'.command → OptionsReady d'.settings c := by
  have hs := (finishInitialization_ok h).1
  rw [hs]
  refine finishInitialization_all h _ ?_
  intro fn c a b c' x y hf cmds hl
  obtain ⟨opts, h1, h2, ⟨h3a, h3b, _, _⟩, h4, h5, _⟩ := finishSelf_ok hf
  obtain ⟨v1, v2⟩ := validateAll_ok _ _ _ h1
  have hm : c'.options.map OptData.core =
      (addHelpOption opts c.currentSection d.settings).map OptData.core := by
    rw [h3b]; exact map_core_of_noIds (setOptIds_noIds _ _ _)
  have hall : ∀ o ∈ c'.options, o.flags ≠ [] ∧
      (∀ f ∈ o.flags, checkFlagStyle d.settings.optionStyle f o = .ok true) ∧
      (o.operation = .none → o.alias_ = []) ∧ (o.operation = .clear → o.optional = true) := by
    intro o ho
    obtain ⟨o1, ho1, e1⟩ := mem_of_map_core hm ho
    suffices hh : o1.flags ≠ [] ∧ (∀ f ∈ o1.flags, checkFlagStyle d.settings.optionStyle f o1 = .ok true) ∧
        (o1.operation = .none → o1.alias_ = []) ∧ (o1.operation = .clear → o1.optional = true) by
      have ef : o.flags = o1.flags := (congrArg OptData.flags e1 : o.core.flags = o1.core.flags)
      have eop : o.operation = o1.operation := (congrArg OptData.operation e1 : o.core.operation = o1.core.operation)
      have eal : o.alias_ = o1.alias_ := (congrArg OptData.alias_ e1 : o.core.alias_ = o1.core.alias_)
      have eopt : o.optional = o1.optional := (congrArg OptData.optional e1 : o.core.optional = o1.core.optional)
      rw [ef, eop, eal, eopt]
      refine ⟨hh.1, ?_, hh.2.2⟩
      intro f hf
      rw [← checkFlagStyle_core, e1, checkFlagStyle_core]
      exact hh.2.1 f hf
    have hold : ∀ o1 ∈ opts, o1.flags ≠ [] ∧
        (∀ f ∈ o1.flags, checkFlagStyle d.settings.optionStyle f o1 = .ok true) ∧
        (o1.operation = .none → o1.alias_ = []) ∧ (o1.operation = .clear → o1.optional = true) := by
      intro o1 ho1
      obtain ⟨o2, ho2, e2⟩ := mem_of_map_core v1 ho1
      have ef : o1.flags = o2.flags := (congrArg OptData.flags e2 : o1.core.flags = o2.core.flags)
      have eop : o1.operation = o2.operation := (congrArg OptData.operation e2 : o1.core.operation = o2.core.operation)
      have eal : o1.alias_ = o2.alias_ := (congrArg OptData.alias_ e2 : o1.core.alias_ = o2.core.alias_)
      have eopt : o1.optional = o2.optional := (congrArg OptData.optional e2 : o1.core.optional = o2.core.optional)
      obtain ⟨w1, w2, w3⟩ := v2 o2 ho2
      rw [ef, eop, eal, eopt]
      refine ⟨w1, ?_, ?_, ?_⟩
      · intro f hf
        rw [← checkFlagStyle_core, e2, checkFlagStyle_core]
        exact w2 f hf
      · intro hop
        simp [validConstant, hop] at w3
        exact w3.2.2
      · intro hop
        simp [validConstant, hop] at w3
        exact w3.2
    rcases addHelpOption_cases opts c.currentSection d.settings with e | ⟨_, _, hne, e⟩
    · rw [e] at ho1; exact hold o1 ho1
    · rw [e] at ho1
      rcases List.mem_append.mp ho1 with ho1 | ho1
      · exact hold o1 ho1
      · simp only [List.mem_singleton] at ho1
        subst ho1
        exact ⟨hne, fun f hf => helpFlags_valid _ _ _ _ hf _, by simp, by simp⟩
  refine ⟨h4, fun o ho => (hall o ho).1, fun o ho => (hall o ho).2.1, ?_,
    fun o ho => (hall o ho).2.2.1, fun o ho => (hall o ho).2.2.2⟩
  show ∃ r, c'.requireSubcommand = some r ∧ (r = true → cmds ≠ [])
  unfold updateRequireCommand at h2
  split at h2
  · simp at h2
  · rename_i hr
    split at h2
    · rename_i hn
      simp at h2
      refine ⟨_, h2.symm, ?_⟩
      intro h6 h7
      rw [h7] at hl
      simp at hl h6
      exact h6 (List.eq_nil_of_length_eq_zero hl.symm)
    · rename_i r hn
      simp at h2
      refine ⟨_, h2.symm, ?_⟩
      intro h6 h7
      rw [h7] at hl
      subst h6
      simp [hn] at hr
      exact hr (List.eq_nil_of_length_eq_zero hl.symm)

end Argos
