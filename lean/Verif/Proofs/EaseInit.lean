import Verif.Proofs.Ease
import Verif.Proofs.Bare

/-!
# Declarations that demand less are accepted
-/

namespace Argos

open Spec

theorem checkFlags_congr {style : OptionStyle} {o o' : OptData} (h : o.argument = o'.argument) : ∀ fs : List Str, checkFlags style o fs = checkFlags style o' fs := by
  have h1 : ∀ f, checkFlagWithEqual f o = checkFlagWithEqual f o' := by intro f; unfold checkFlagWithEqual; rw [h]
  have h2 : ∀ f, checkStandardFlag f o = checkStandardFlag f o' := by intro f; unfold checkStandardFlag; simp only [h1]
  have h3 : ∀ f p, checkFlag f p o = checkFlag f p o' := by intro f p; unfold checkFlag; simp only [h1]
  have h4 : ∀ f, checkFlagStyle style f o = checkFlagStyle style f o' := by intro f; unfold checkFlagStyle; simp only [h2, h3]
  intro fs
  induction fs with
  | nil => rfl
  | cons f fs ih => simp only [checkFlags, h4, ih]

theorem validate_eased {o o' : OptData} (h : EasedOpt o o') {style : OptionStyle} {p : OptData} (hv : validateAndUpdate o style = .ok p) :
    ∃ p', validateAndUpdate o' style = .ok p' ∧ EasedOpt p p' := by
  obtain ⟨flags, help, section_, alias_, argument, constant, initialValue, callback, operation, type, visibility, optional, id, argumentId, valueId⟩ := o
  obtain ⟨flags', help', section_', alias_', argument', constant', initialValue', callback', operation', type', visibility', optional', id', argumentId', valueId'⟩ := o'
  have e := h.same
  have ho := h.optional
  simp only [OptData.mk.injEq] at e
  obtain ⟨rfl, rfl, rfl, rfl, rfl, rfl, rfl, rfl, rfl, rfl, rfl, -, rfl, rfl, rfl⟩ := e
  simp only at ho
  unfold validateAndUpdate at hv ⊢
  simp only at hv ⊢
  split at hv
  · simp at hv
  rename_i hfl
  rw [if_neg hfl]
  rw [Outcome.bind_eq_ok] at hv
  obtain ⟨u, hu, hv⟩ := hv
  have hu := (checkFlags_congr (style := style)
    (o := ⟨flags, help, section_, alias_, argument, constant, initialValue, callback, operation, type, visibility, optional', id, argumentId, valueId⟩)
    (o' := ⟨flags, help, section_, alias_, argument, constant, initialValue, callback, operation, type, visibility, optional, id, argumentId, valueId⟩) rfl flags).trans hu
  rw [hu, Outcome.bind_ok]
  split at hv
  · simp at hv
  rename_i hac
  rw [if_neg hac]
  cases operation with
  | none =>
    simp only at hv ⊢
    split at hv
    · simp at hv
    rename_i h1
    split at hv
    · simp at hv
    rename_i h2
    rw [if_neg h1, if_neg h2]
    simp only [Outcome.ok.injEq] at hv
    subst hv
    exact ⟨_, rfl, rfl, ho⟩
  | assign =>
    simp only at hv ⊢
    split at hv
    · rename_i h1
      rw [if_pos h1]
      simp only [Outcome.ok.injEq] at hv
      subst hv
      exact ⟨_, rfl, rfl, ho⟩
    · rename_i h1
      rw [if_neg h1]
      simp only [Outcome.ok.injEq] at hv
      subst hv
      exact ⟨_, rfl, rfl, ho⟩
  | append =>
    simp only at hv ⊢
    split at hv
    · simp at hv
    · rename_i h1
      rw [if_neg h1]
      simp only [Outcome.ok.injEq] at hv
      subst hv
      exact ⟨_, rfl, rfl, ho⟩
  | clear =>
    simp only at hv ⊢
    by_cases hq : (!argument.isEmpty || !constant.isEmpty) = true
    · rw [if_pos hq] at hv ⊢
      cases optional with
      | false => simp at hv
      | true =>
        simp only [Bool.not_true, Bool.false_eq_true, if_false, Outcome.ok.injEq] at hv
        subst hv
        simp only [ho rfl, Bool.not_true, Bool.false_eq_true, if_false, Outcome.ok.injEq, exists_eq_left']
        exact ⟨rfl, fun _ => rfl⟩
    · rw [if_neg hq] at hv ⊢
      cases optional with
      | false => simp at hv
      | true =>
        simp only [Bool.not_true, Bool.false_eq_true, if_false, Outcome.ok.injEq] at hv
        subst hv
        simp only [ho rfl, Bool.not_true, Bool.false_eq_true, if_false, Outcome.ok.injEq, exists_eq_left']
        exact ⟨rfl, fun _ => rfl⟩

theorem validateAll_eased {style : OptionStyle} {os os' : List OptData} (h : Each EasedOpt os os') : ∀ {ps : List OptData}, validateAll style os = .ok ps →
    ∃ ps', validateAll style os' = .ok ps' ∧ Each EasedOpt ps ps' := by
  induction h with
  | nil => intro ps hv; simp only [validateAll, Outcome.ok.injEq] at hv; subst hv; exact ⟨_, rfl, .nil⟩
  | cons h1 _ ih =>
    intro ps hv
    simp only [validateAll] at hv ⊢
    rw [Outcome.bind_eq_ok] at hv
    obtain ⟨p, hp, hv⟩ := hv
    rw [Outcome.bind_eq_ok] at hv
    obtain ⟨q, hq, hv⟩ := hv
    simp only [Outcome.pure_eq, Outcome.ok.injEq] at hv
    subst hv
    obtain ⟨p', hp', he⟩ := validate_eased h1 hp
    obtain ⟨q', hq', he'⟩ := ih hq
    refine ⟨p' :: q', ?_, .cons he he'⟩
    rw [hp', Outcome.bind_ok, hq']
    rfl

theorem hasFlag_eased {os os' : List OptData} (h : Each EasedOpt os os') (flag : Str) (ci : Bool) : hasFlag os flag ci = hasFlag os' flag ci := by
  induction h with
  | nil => rfl
  | cons h1 _ ih =>
    unfold hasFlag at *
    simp only [List.any_cons, ih, h1.flags]

theorem hasHelp_eased {os os' : List OptData} (h : Each EasedOpt os os') : hasHelpOption os = hasHelpOption os' := by
  induction h with
  | nil => rfl
  | cons h1 _ ih =>
    unfold hasHelpOption at *
    simp only [List.any_cons, ih, h1.type]

theorem addHelp_eased {os os' : List OptData} (h : Each EasedOpt os os') (sec : Str) (s : ParserSettings) : Each EasedOpt (addHelpOption os sec s) (addHelpOption os' sec s) := by
  unfold addHelpOption
  simp only [← hasHelp_eased h]
  have e : helpFlags os s.optionStyle s.caseInsensitive = helpFlags os' s.optionStyle s.caseInsensitive := by
    unfold helpFlags
    simp only [hasFlag_eased h]
  rw [e]
  split
  · exact h
  split
  · exact h
  split
  · exact h
  · exact Each.append h (.cons ⟨rfl, fun k => k⟩ .nil)

theorem addVersion_eased {os os' : List OptData} (h : Each EasedOpt os os') (sec v : Str) (s : ParserSettings) :
    Each EasedOpt (addVersionOption os sec v s) (addVersionOption os' sec v s) := by
  unfold addVersionOption
  have e : versionFlag os s.optionStyle s.caseInsensitive = versionFlag os' s.optionStyle s.caseInsensitive := by
    unfold versionFlag
    simp only [hasFlag_eased h]
  rw [e]
  split
  · exact h
  dsimp only
  split
  · exact h
  · exact Each.append h (.cons ⟨rfl, fun k => k⟩ .nil)

theorem EasedArg.numbered {a a' : ArgData} (h : EasedArg a a') (n v : Nat) : EasedArg { a with argumentId := n, valueId := v } { a' with argumentId := n, valueId := v } := by
  refine ⟨?_, h.min, h.max⟩
  have := congrArg (fun x : ArgData => { x with argumentId := n, valueId := v }) h.same
  exact this

theorem EasedOpt.numbered {o o' : OptData} (h : EasedOpt o o') (n v : Nat) : EasedOpt { o with argumentId := n, valueId := v } { o' with argumentId := n, valueId := v } := by
  refine ⟨?_, h.optional⟩
  have := congrArg (fun x : OptData => { x with argumentId := n, valueId := v }) h.same
  exact this

theorem EasedOpt.counted {o o' : OptData} (h : EasedOpt o o') (n : Nat) : EasedOpt { o with argumentId := n } { o' with argumentId := n } := by
  refine ⟨?_, h.optional⟩
  have := congrArg (fun x : OptData => { x with argumentId := n }) h.same
  exact this

theorem EasedArg.exists_eq {a a' : ArgData} (h : EasedArg a a') : ∃ m k, a' = { a with minCount := m, maxCount := k } := by
  obtain ⟨name, help, section_, alias_, callback, minCount, maxCount, visibility, id, valueId, argumentId⟩ := a'
  have e := h.same
  simp only [ArgData.mk.injEq] at e
  refine ⟨minCount, maxCount, ?_⟩
  simp only [ArgData.mk.injEq]
  simp_all

theorem EasedOpt.exists_eq {o o' : OptData} (h : EasedOpt o o') : ∃ b, o' = { o with optional := b } := by
  obtain ⟨flags, help, section_, alias_, argument, constant, initialValue, callback, operation, type, visibility, optional, id, argumentId, valueId⟩ := o'
  have e := h.same
  simp only [OptData.mk.injEq] at e
  refine ⟨optional, ?_⟩
  simp only [OptData.mk.injEq]
  simp_all

theorem setArgIds_eased {as as' : List ArgData} (h : Each EasedArg as as') : ∀ (n : Nat) (m : IdMaker),
    Each EasedArg (setArgIds as n m).1 (setArgIds as' n m).1 ∧ (setArgIds as n m).2 = (setArgIds as' n m).2 := by
  induction h with
  | nil => intro n m; exact ⟨.nil, rfl⟩
  | @cons a a' as as' h1 _ ih =>
    intro n m
    obtain ⟨p, q, rfl⟩ := EasedArg.exists_eq h1
    simp only [setArgIds]
    exact ⟨.cons (EasedArg.numbered h1 _ _) (ih _ _).1, (ih _ _).2⟩

theorem setArgIds_counts (as : List ArgData) : ∀ (n : Nat) (m : IdMaker),
    (setArgIds as n m).1.map (fun a => (a.minCount, a.maxCount)) = as.map fun a => (a.minCount, a.maxCount) := by
  induction as with
  | nil => intro n m; rfl
  | cons a as ih =>
    intro n m
    simp only [setArgIds, List.map_cons, ih]

theorem setOptIds_eased {os os' : List OptData} (h : Each EasedOpt os os') : ∀ (n : Nat) (m : IdMaker),
    Each EasedOpt (setOptIds os n m).1 (setOptIds os' n m).1 ∧ (setOptIds os n m).2 = (setOptIds os' n m).2 := by
  induction h with
  | nil => intro n m; exact ⟨.nil, rfl⟩
  | @cons o o' os os' h1 _ ih =>
    intro n m
    obtain ⟨b, rfl⟩ := EasedOpt.exists_eq h1
    simp only [setOptIds]
    split
    · exact ⟨.cons (EasedOpt.counted h1 _) (ih _ _).1, (ih _ _).2⟩
    · exact ⟨.cons (EasedOpt.numbered h1 _ _) (ih _ _).1, (ih _ _).2⟩

/-- Only the counts matter. -/
theorem easedArgs_counts {as as' bs bs' : List ArgData} (h : EasedArgs as as') (hb : Each EasedArg bs bs')
    (e : bs.map (fun a => (a.minCount, a.maxCount)) = as.map fun a => (a.minCount, a.maxCount))
    (e' : bs'.map (fun a => (a.minCount, a.maxCount)) = as'.map fun a => (a.minCount, a.maxCount)) : EasedArgs bs bs' := by
  have get : ∀ {xs ys : List ArgData}, xs.map (fun a => (a.minCount, a.maxCount)) = ys.map (fun a => (a.minCount, a.maxCount)) → ∀ (i : Nat) (a : ArgData), xs[i]? = some a →
      ∃ b, ys[i]? = some b ∧ a.minCount = b.minCount ∧ a.maxCount = b.maxCount := by
    intro xs ys e i a ha
    have k := congrArg (fun l : List (Nat × Nat) => l[i]?) e
    simp only [List.getElem?_map, ha, Option.map_some] at k
    cases hy : ys[i]? with
    | none => rw [hy] at k; simp at k
    | some b =>
      rw [hy] at k
      simp only [Option.map_some, Option.some.injEq, Prod.mk.injEq] at k
      exact ⟨b, rfl, k⟩
  refine ⟨hb, ?_, ?_⟩
  · intro i j a a' b b' hij h1 h2 h3 h4
    obtain ⟨a0, k1, l1, l2⟩ := get e i a h1
    obtain ⟨a0', k2, l3, l4⟩ := get e' i a' h2
    obtain ⟨b0, k3, l5, l6⟩ := get e j b h3
    obtain ⟨b0', k4, l7, l8⟩ := get e' j b' h4
    have := h.pairs i j a0 a0' b0 b0' hij k1 k2 k3 k4
    rw [l1, l2, l4, l5, l6, l7]
    exact this
  · intro hv
    rcases h.counted (variable_counts e' hv) with k | ⟨a, ha, h0⟩
    · exact .inl (variable_counts e.symm k)
    · right
      have k := congrArg List.getLast? e'
      rw [List.getLast?_map, List.getLast?_map, ha] at k
      cases hl : bs'.getLast? with
      | none => rw [hl] at k; simp at k
      | some b =>
        rw [hl] at k
        simp only [Option.map_some, Option.some.injEq, Prod.mk.injEq] at k
        exact ⟨b, rfl, by rw [k.1]; exact h0⟩

/-- An option that needn't be given. -/
def freePair (p : Str × OptData) : Str × OptData := (p.1, { p.2 with optional := true })

theorem buildOptionIndex_free (os : List OptData) (ci : Bool) :
    buildOptionIndex (os.map fun o => { o with optional := true }) ci = (buildOptionIndex os ci).mapOk (·.map freePair) := by
  have h1 : ∀ a b : Str × OptData, isLess (freePair a).1 (freePair b).1 ci = isLess a.1 b.1 ci := fun _ _ => rfl
  have h2 : ∀ a b : Str × OptData, areEqual (freePair a).1 (freePair b).1 ci = areEqual a.1 b.1 ci := fun _ _ => rfl
  have h3 : flagPairs (os.map fun o => { o with optional := true }) = (flagPairs os).map freePair := by
    simp only [flagPairs, List.flatMap_map, List.map_flatMap, List.map_map, Function.comp_def]
    rfl
  simp only [buildOptionIndex, h3]
  rw [isStrictWeakOrder_map (less := fun a b => isLess a.1 b.1 ci) freePair h1, sortList_map (less := fun a b => isLess a.1 b.1 ci) freePair h1,
    adjacentFind_map (p := fun a b => areEqual a.1 b.1 ci) freePair h2]
  split
  · rfl
  · cases adjacentFind (fun a b => areEqual a.1 b.1 ci) (sortList (fun a b => isLess a.1 b.1 ci) (flagPairs os)) with
    | none => rfl
    | some x =>
      simp only [Option.map_some, freePair]
      split <;> rfl

theorem buildOptionIndex_eased {os os' : List OptData} (h : Each EasedOpt os os') {ci : Bool} {x : List (Str × OptData)} (hb : buildOptionIndex os ci = .ok x) :
    ∃ x', buildOptionIndex os' ci = .ok x' := by
  have e : (os.map fun o => { o with optional := true }) = os'.map fun o => { o with optional := true } := by
    clear hb
    induction h with
    | nil => rfl
    | cons h1 _ ih =>
      rw [List.map_cons, List.map_cons, ih, h1.same]
  have k := buildOptionIndex_free os ci
  rw [e, buildOptionIndex_free os' ci, hb] at k
  cases hx : buildOptionIndex os' ci with
  | ok x' => exact ⟨x', rfl⟩
  | _ => rw [hx] at k; simp [Outcome.mapOk] at k

/-- One command. -/
theorem finishSelf_eased {s : ParserSettings} {fn : Str} {c : Command} {a b : Nat} {c1 : Command} {x y : Nat} (hf : finishSelf s fn c a b = .ok (c1, x, y))
    {as : List ArgData} {os : List OptData} {r : Option Bool} {cs : List Command} (ha : EasedArgs c.arguments as) (ho : Each EasedOpt c.options os)
    (hr : r = c.requireSubcommand ∨ r = some false) (hcs : cs.isEmpty = c.commands.isEmpty) :
    ∃ c1', finishSelf s fn { c with arguments := as, options := os, requireSubcommand := r, commands := cs } a b = .ok (c1', x, y) ∧
      c1.name = c1'.name ∧ c1.multiCommand = c1'.multiCommand ∧ (c1'.requireSubcommand = some true → c1.requireSubcommand = some true) ∧
      EasedArgs c1.arguments c1'.arguments ∧ Each EasedOpt c1.options c1'.options := by
  simp only [finishSelf] at hf ⊢
  rw [Outcome.bind_eq_ok] at hf
  obtain ⟨ps, hps, hf⟩ := hf
  rw [Outcome.bind_eq_ok] at hf
  obtain ⟨r1, hr1, hf⟩ := hf
  rw [Outcome.bind_eq_ok] at hf
  obtain ⟨ix, hix, hf⟩ := hf
  simp only [Outcome.pure_eq, Outcome.ok.injEq, Prod.mk.injEq] at hf
  obtain ⟨rfl, rfl, rfl⟩ := hf
  obtain ⟨ps', hps', he⟩ := validateAll_eased ho hps
  have hreq : ∃ r1', updateRequireCommand r cs = .ok r1' ∧ (r1' = some true → r1 = some true) := by
    rcases hr with rfl | rfl
    · refine ⟨r1, ?_, fun k => k⟩
      rw [← hr1]
      unfold updateRequireCommand
      rw [hcs]
    · exact ⟨some false, by simp [updateRequireCommand], by simp⟩
  obtain ⟨r1', hr1', himp⟩ := hreq
  have k1 := setArgIds_eased ha.each (b + 1) ⟨[], a⟩
  have k2 := setOptIds_eased (addHelp_eased he c.currentSection s) (setArgIds c.arguments (b + 1) ⟨[], a⟩).2.1 (setArgIds c.arguments (b + 1) ⟨[], a⟩).2.2
  obtain ⟨ix', hix'⟩ := buildOptionIndex_eased k2.1 hix
  rw [hps', Outcome.bind_ok, hr1', Outcome.bind_ok]
  simp only [← k1.2, ← k2.2, hix', Outcome.bind_ok]
  refine ⟨_, rfl, rfl, rfl, himp, ?_, k2.1⟩
  exact easedArgs_counts ha k1.1 (setArgIds_counts _ _ _) (setArgIds_counts _ _ _)

theorem eased_name {c c' : Command} (h : Eased c c') : c.name = c'.name := by cases h; rfl

theorem easedAll_isEmpty {cs cs' : List Command} (h : EasedAll cs cs') : cs'.isEmpty = cs.isEmpty := by cases h <;> rfl

mutual
theorem finish_eased (s : ParserSettings) : (c : Command) → ∀ {c' : Command}, Eased c c' → ∀ {fn : Str} {a b : Nat} {f : Command},
    finishCommand s fn a b c = .ok f → ∃ f', finishCommand s fn a b c' = .ok f' ∧ Freed f f'
  | ⟨arguments, options, commands, currentSection, name, fn0, texts, visibility, requireSubcommand, multiCommand, section_, id, argumentId, optionIndex⟩,
    c', h, fn, a, b, f, hf => by
    cases h with
    | @intro _ as os r cs h1 h2 h3 h4 =>
      obtain ⟨c1, x, y, cmds, k1, k2, rfl⟩ := finishCommand_ok hf
      obtain ⟨c1', k, e1, e2, e3, e4, e5⟩ := finishSelf_eased k1 h1 h2 h3 (easedAll_isEmpty h4)
      obtain ⟨cmds', k3, hall⟩ := finish_easedAll s commands h4 k2
      exact ⟨_, finishCommand_intro k k3, .intro e1 e2 e3 e4 e5 hall⟩
theorem finish_easedAll (s : ParserSettings) : (cs : List Command) → ∀ {cs' : List Command}, EasedAll cs cs' → ∀ {pn : Str} {a b : Nat} {fs : List Command},
    finishCommands s pn a b cs = .ok fs → ∃ fs', finishCommands s pn a b cs' = .ok fs' ∧ Each Freed fs fs'
  | [], _, h, _, _, _, fs, hf => by
    cases h
    simp only [finishCommands, Outcome.ok.injEq] at hf
    subst hf
    exact ⟨[], by simp [finishCommands], .nil⟩
  | c :: cs, _, h, pn, a, b, fs, hf => by
    cases h with
    | @cons _ c' _ cs' h1 h2 =>
      simp only [finishCommands] at hf ⊢
      rw [Outcome.bind_eq_ok] at hf
      obtain ⟨g, hg, hf⟩ := hf
      rw [Outcome.bind_eq_ok] at hf
      obtain ⟨gs, hgs, hf⟩ := hf
      simp only [Outcome.pure_eq, Outcome.ok.injEq] at hf
      subst hf
      obtain ⟨g', k1, k2⟩ := finish_eased s c h1 hg
      obtain ⟨gs', k3, k4⟩ := finish_easedAll s cs h2 hgs
      rw [← eased_name h1, k1, Outcome.bind_ok, k3, Outcome.bind_ok]
      exact ⟨_, rfl, .cons k2 k4⟩
end

/-- Declarations that demand less are accepted, and demand less. -/
theorem init_eased {d0 d : ParserData} {c' : Command} (he : Eased d0.command c') (h : finishInitialization d0 = .ok d) :
    ∃ d', finishInitialization { d0 with command := c' } = .ok d' ∧ d'.settings = d.settings ∧ Freed d.command d'.command := by
  simp only [finishInitialization] at h ⊢
  rw [Outcome.bind_eq_ok] at h
  obtain ⟨f, hf, h⟩ := h
  simp only [Outcome.pure_eq, Outcome.ok.injEq] at h
  subst h
  have key : Eased { d0.command with options := addVersionOption d0.command.options d0.command.currentSection d0.version d0.settings }
      { c' with options := addVersionOption c'.options c'.currentSection d0.version d0.settings } ∧ c'.fullName = d0.command.fullName ∧ c'.name = d0.command.name := by
    cases he with
    | intro _ h1 h2 h3 h4 =>
      exact ⟨.intro { d0.command with options := addVersionOption d0.command.options d0.command.currentSection d0.version d0.settings } h1
        (addVersion_eased h2 _ _ _) h3 h4, rfl, rfl⟩
  obtain ⟨k, e1, e2⟩ := key
  obtain ⟨f', hf', hfr⟩ := finish_eased d0.settings _ k hf
  refine ⟨{ d0 with command := f' }, ?_, rfl, hfr⟩
  rw [← e1, ← e2] at hf'
  rw [hf']
  rfl

end Argos
