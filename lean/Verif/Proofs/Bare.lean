import Verif.Spec.Bare

/-!
# The parser commutes with leaving out what is only shown
-/

namespace Argos

open Spec

/-- The same outcome with another result. -/
def Outcome.mapOk {α β : Type} (g : α → β) : Outcome α → Outcome β
  | .ok a => .ok (g a)
  | .throw m => .throw m
  | .outOfRange => .outOfRange
  | .exit c => .exit c
  | .ub => .ub
  | .diverges => .diverges

theorem Outcome.mapOk_ok {α β : Type} (g : α → β) (a : α) : (Outcome.ok a).mapOk g = .ok (g a) := rfl

theorem Outcome.mapOk_bind {α β γ : Type} (g : β → γ) (x : Outcome α) (f : α → Outcome β) :
    (x >>= f).mapOk g = x >>= fun a => (f a).mapOk g := by
  cases x <;> rfl

theorem Outcome.bind_mapOk {α β γ : Type} (g : α → β) (x : Outcome α) (f : β → Outcome γ) :
    x.mapOk g >>= f = x >>= fun a => f (g a) := by
  cases x <;> rfl

theorem Outcome.mapOk_mapOk {α β γ : Type} (g : α → β) (h : β → γ) (x : Outcome α) : (x.mapOk g).mapOk h = x.mapOk (h ∘ g) := by
  cases x <;> rfl

theorem Outcome.bind_congr {α β : Type} {x : Outcome α} {f g : α → Outcome β} (h : ∀ a, f a = g a) : x >>= f = x >>= g := by
  cases x <;> first | rfl | exact h _

theorem sameEnd_of_mapOk {α γ : Type} {g : α → γ} {x y : Outcome α} (h : x.mapOk g = y.mapOk g) : SameEnd (fun a b => g a = g b) x y := by
  cases x <;> cases y <;> simp_all [Outcome.mapOk, SameEnd]

theorem SameEnd.mono {α β : Type} {R S : α → β → Prop} (hRS : ∀ a b, R a b → S a b) {x : Outcome α} {y : Outcome β} (h : SameEnd R x y) : SameEnd S x y := by
  cases x <;> cases y <;> first | exact h | exact hRS _ _ h

/-! ## Lists -/

section
variable {α β γ : Type} (f : α → β)

theorem insertSorted_map {less : α → α → Bool} {less' : β → β → Bool} (h : ∀ a b, less' (f a) (f b) = less a b) (x : α) (l : List α) :
    insertSorted less' (f x) (l.map f) = (insertSorted less x l).map f := by
  induction l with
  | nil => rfl
  | cons y ys ih =>
    simp only [insertSorted, List.map_cons, h]
    split
    · rw [ih, List.map_cons]
    · rfl

theorem sortList_map {less : α → α → Bool} {less' : β → β → Bool} (h : ∀ a b, less' (f a) (f b) = less a b) (l : List α) :
    sortList less' (l.map f) = (sortList less l).map f := by
  induction l with
  | nil => rfl
  | cons y ys ih => simp only [sortList, List.map_cons, ih, insertSorted_map f h]

theorem isStrictWeakOrder_map {less : α → α → Bool} {less' : β → β → Bool} (h : ∀ a b, less' (f a) (f b) = less a b) (l : List α) :
    isStrictWeakOrder less' (l.map f) = isStrictWeakOrder less l := by
  simp only [isStrictWeakOrder, List.all_map, Function.comp_def, h]

theorem adjacentFind_map {p : α → α → Bool} {p' : β → β → Bool} (h : ∀ a b, p' (f a) (f b) = p a b) (l : List α) :
    adjacentFind p' (l.map f) = (adjacentFind p l).map (fun x => (f x.1, f x.2)) := by
  induction l with
  | nil => rfl
  | cons a l ih =>
    cases l with
    | nil => rfl
    | cons b l =>
      simp only [adjacentFind, List.map_cons, h] at ih ⊢
      split
      · rfl
      · exact ih

theorem lowerBoundLoop_map {less : α → γ → Bool} {less' : β → γ → Bool} (h : ∀ a v, less' (f a) v = less a v) (l : List α) (v : γ) (fuel first len : Nat) :
    lowerBoundLoop less' (l.map f) v fuel first len = lowerBoundLoop less l v fuel first len := by
  induction fuel generalizing first len with
  | zero => rfl
  | succ fuel ih =>
    simp only [lowerBoundLoop, List.getElem?_map]
    split
    · rfl
    · cases l[first + len / 2]? with
      | none => rfl
      | some x => simp only [Option.map_some, h, ih]

theorem lowerBound_map {less : α → γ → Bool} {less' : β → γ → Bool} (h : ∀ a v, less' (f a) v = less a v) (l : List α) (v : γ) :
    lowerBound less' (l.map f) v = lowerBound less l v := by
  unfold lowerBound
  rw [lowerBoundLoop_map f h, List.length_map]

end

/-! ## Declarations -/

/-- A flag with its option. -/
def barePair (p : Str × OptData) : Str × OptData := (p.1, bareOpt p.2)

theorem bareArg_bare (a : ArgData) : bareArg (bareArg a) = bareArg a := rfl

theorem bareOpt_argument (o : OptData) : (bareOpt o).argument.isEmpty = o.argument.isEmpty := by
  unfold bareOpt
  cases o.argument <;> rfl

theorem bareOpt_bare (o : OptData) : bareOpt (bareOpt o) = bareOpt o := by
  have := bareOpt_argument o
  unfold bareOpt at this ⊢
  simp only at this ⊢
  rw [this]

theorem bareCommands_eq (cs : List Command) : bareCommands cs = cs.map bareCommand := by
  induction cs with
  | nil => rfl
  | cons c cs ih => rw [bareCommands, ih, List.map_cons]

theorem bareNodes_eq (ns : List PNode) : bareNodes ns = ns.map bareNode := by
  induction ns with
  | nil => rfl
  | cons c cs ih => rw [bareNodes, ih, List.map_cons]

section
variable (c : Command)

theorem bareCommand_arguments : (bareCommand c).arguments = c.arguments.map bareArg := by cases c; rfl
theorem bareCommand_options : (bareCommand c).options = c.options.map bareOpt := by cases c; rfl
theorem bareCommand_commands : (bareCommand c).commands = c.commands.map bareCommand := by cases c; exact bareCommands_eq _
theorem bareCommand_name : (bareCommand c).name = c.name := by cases c; rfl
theorem bareCommand_fullName : (bareCommand c).fullName = c.fullName := by cases c; rfl
theorem bareCommand_require : (bareCommand c).requireSubcommand = c.requireSubcommand := by cases c; rfl
theorem bareCommand_multi : (bareCommand c).multiCommand = c.multiCommand := by cases c; rfl
theorem bareCommand_argumentId : (bareCommand c).argumentId = c.argumentId := by cases c; rfl
theorem bareCommand_index : (bareCommand c).optionIndex = c.optionIndex.map barePair := by cases c; rfl
theorem bareCommand_section : (bareCommand c).currentSection = [] := by cases c; rfl

end

mutual
theorem bareCommand_bare : (c : Command) → bareCommand (bareCommand c) = bareCommand c
  | ⟨arguments, options, commands, _, name, fullName, _, _, requireSubcommand, multiCommand, _, _, argumentId, optionIndex⟩ => by
    simp only [bareCommand, List.map_map, Function.comp_def, bareArg_bare, bareOpt_bare, bareCommands_bare]
theorem bareCommands_bare : (cs : List Command) → bareCommands (bareCommands cs) = bareCommands cs
  | [] => rfl
  | c :: cs => by simp only [bareCommands, bareCommand_bare c, bareCommands_bare cs]
end

theorem flagPairs_bare (os : List OptData) : flagPairs (os.map bareOpt) = (flagPairs os).map barePair := by
  simp only [flagPairs, List.flatMap_map, List.map_flatMap, List.map_map, Function.comp_def]
  rfl

theorem buildOptionIndex_bare (os : List OptData) (ci : Bool) :
    buildOptionIndex (os.map bareOpt) ci = (buildOptionIndex os ci).mapOk (·.map barePair) := by
  have h1 : ∀ a b : Str × OptData, isLess (barePair a).1 (barePair b).1 ci = isLess a.1 b.1 ci := fun _ _ => rfl
  have h2 : ∀ a b : Str × OptData, areEqual (barePair a).1 (barePair b).1 ci = areEqual a.1 b.1 ci := fun _ _ => rfl
  simp only [buildOptionIndex, flagPairs_bare]
  rw [isStrictWeakOrder_map (less := fun a b => isLess a.1 b.1 ci) barePair h1, sortList_map (less := fun a b => isLess a.1 b.1 ci) barePair h1,
    adjacentFind_map (p := fun a b => areEqual a.1 b.1 ci) barePair h2]
  split
  · rfl
  · cases adjacentFind (fun a b => areEqual a.1 b.1 ci) (sortList (fun a b => isLess a.1 b.1 ci) (flagPairs os)) with
    | none => rfl
    | some x =>
      simp only [Option.map_some, barePair]
      split <;> rfl

theorem findOptionImpl_bare (index : List (Str × OptData)) (flag : Str) (ab ci : Bool) :
    findOptionImpl (index.map barePair) flag ab ci = (findOptionImpl index flag ab ci).map bareOpt := by
  simp only [findOptionImpl]
  rw [lowerBound_map (less := fun a f => isLess a.1 f ci) barePair (fun _ _ => rfl), List.getElem?_map, List.getElem?_map]
  cases index[lowerBound (fun (a : Str × OptData) f => isLess a.1 f ci) index flag]? with
  | none => rfl
  | some it =>
    simp only [Option.map_some, barePair]
    cases index[lowerBound (fun (a : Str × OptData) f => isLess a.1 f ci) index flag + 1]? with
    | none =>
      simp only [Option.map_none]
      repeat' split
      all_goals rfl
    | some nxt =>
      simp only [Option.map_some, barePair]
      repeat' split
      all_goals rfl

theorem findOption_bare (index : List (Str × OptData)) (flag : Str) (ab ci : Bool) :
    findOption (index.map barePair) flag ab ci = (findOption index flag ab ci).map bareOpt := by
  simp only [findOption, findOptionImpl_bare]
  cases findOptionImpl index flag ab ci with
  | some o => rfl
  | none =>
    simp only [Option.map_none]
    split
    · cases findOptionImpl index flag.dropLast ab ci with
      | none => rfl
      | some o =>
        simp only [Option.map_some, bareOpt_argument]
        split <;> rfl
    · rfl

theorem findCommand_bare (cs : List Command) (name : Str) (ci : Bool) : findCommand (cs.map bareCommand) name ci = (findCommand cs name ci).map bareCommand := by
  simp only [findCommand, List.find?_map, Function.comp_def, bareCommand_name]

theorem checkFlagWithEqual_bare (flag : Str) (o : OptData) : checkFlagWithEqual flag (bareOpt o) = checkFlagWithEqual flag o := by
  simp only [checkFlagWithEqual, bareOpt_argument]

theorem checkFlagStyle_bare (style : OptionStyle) (flag : Str) (o : OptData) : checkFlagStyle style flag (bareOpt o) = checkFlagStyle style flag o := by
  cases style <;> simp only [checkFlagStyle, checkStandardFlag, checkFlag, checkFlagWithEqual_bare]

theorem checkFlags_bare (style : OptionStyle) (o : OptData) (fs : List Str) : checkFlags style (bareOpt o) fs = checkFlags style o fs := by
  induction fs with
  | nil => rfl
  | cons f fs ih => simp only [checkFlags, checkFlagStyle_bare, ih]

theorem validateAndUpdate_bare (o : OptData) (style : OptionStyle) : validateAndUpdate (bareOpt o) style = (validateAndUpdate o style).mapOk bareOpt := by
  have ha := bareOpt_argument o
  simp only [validateAndUpdate, checkFlags_bare, ha]
  have e1 : (bareOpt o).flags = o.flags := rfl
  have e2 : (bareOpt o).constant = o.constant := rfl
  have e3 : (bareOpt o).operation = o.operation := rfl
  have e4 : (bareOpt o).alias_ = o.alias_ := rfl
  have e5 : (bareOpt o).optional = o.optional := rfl
  simp only [e1, e2, e3, e4]
  split
  · rfl
  · rw [Outcome.mapOk_bind]
    refine Outcome.bind_congr fun _ => ?_
    split
    · rfl
    · split
      · repeat' split
        all_goals rfl
      · split <;> rfl
      · split <;> rfl
      · by_cases hb : (!o.argument.isEmpty || !o.constant.isEmpty) = true
        · simp only [hb, if_true, e5]
          split <;> rfl
        · simp only [hb, if_false, e5, Bool.false_eq_true]
          split <;> rfl

theorem validateAll_bare (style : OptionStyle) (os : List OptData) : validateAll style (os.map bareOpt) = (validateAll style os).mapOk (·.map bareOpt) := by
  induction os with
  | nil => rfl
  | cons o os ih =>
    simp only [validateAll, List.map_cons, validateAndUpdate_bare, ih, Outcome.mapOk_bind, Outcome.bind_mapOk]
    rfl

theorem updateRequireCommand_bare (r : Option Bool) (cs : List Command) : updateRequireCommand r (cs.map bareCommand) = updateRequireCommand r cs := by
  simp only [updateRequireCommand, List.isEmpty_map]

theorem hasFlag_bare (os : List OptData) (flag : Str) (ci : Bool) : hasFlag (os.map bareOpt) flag ci = hasFlag os flag ci := by
  simp only [hasFlag, List.any_map]
  rfl

theorem addHelpOption_bare (os : List OptData) (sec sec' : Str) (s : ParserSettings) :
    (addHelpOption (os.map bareOpt) sec s).map bareOpt = (addHelpOption os sec' s).map bareOpt := by
  have h1 : hasHelpOption (os.map bareOpt) = hasHelpOption os := by
    simp only [hasHelpOption, List.any_map]
    rfl
  have h2 : helpFlags (os.map bareOpt) s.optionStyle s.caseInsensitive = helpFlags os s.optionStyle s.caseInsensitive := by
    simp only [helpFlags, hasFlag_bare]
  have h3 : (os.map bareOpt).map bareOpt = os.map bareOpt := by simp only [List.map_map, Function.comp_def, bareOpt_bare]
  simp only [addHelpOption, h1, h2]
  repeat' split
  all_goals first
    | exact h3
    | (rw [List.map_append, List.map_append, h3]; rfl)

theorem addVersionOption_bare (os : List OptData) (sec sec' version : Str) (s : ParserSettings) :
    (addVersionOption (os.map bareOpt) sec (if version.isEmpty then [] else b!"x") s).map bareOpt = (addVersionOption os sec' version s).map bareOpt := by
  have h1 : (if version.isEmpty then [] else b!"x" : Str).isEmpty = version.isEmpty := by cases version <;> rfl
  have h2 : versionFlag (os.map bareOpt) s.optionStyle s.caseInsensitive = versionFlag os s.optionStyle s.caseInsensitive := by
    simp only [versionFlag, hasFlag_bare]
  have h3 : (os.map bareOpt).map bareOpt = os.map bareOpt := by simp only [List.map_map, Function.comp_def, bareOpt_bare]
  simp only [addVersionOption, h1, h2]
  repeat' split
  all_goals first
    | exact h3
    | (rw [List.map_append, List.map_append, h3]; rfl)

theorem setArgIds_bare (as : List ArgData) (n : Nat) (m : IdMaker) :
    setArgIds (as.map bareArg) n m = ((setArgIds as n m).1.map bareArg, (setArgIds as n m).2) := by
  induction as generalizing n m with
  | nil => rfl
  | cons a as ih =>
    simp only [setArgIds, List.map_cons, ih]
    rfl

theorem setOptIds_bare (os : List OptData) (n : Nat) (m : IdMaker) :
    setOptIds (os.map bareOpt) n m = ((setOptIds os n m).1.map bareOpt, (setOptIds os n m).2) := by
  induction os generalizing n m with
  | nil => rfl
  | cons o os ih =>
    have e : (bareOpt o).operation = o.operation := rfl
    simp only [setOptIds, List.map_cons, ih, e]
    split <;> rfl

/-- What `finishSelf` returns, without what is only shown. -/
def bareSelf (r : Command × Nat × Nat) : Command × Nat × Nat := (bareCommand r.1, r.2)

theorem index_step {β : Type} {os os' : List OptData} (h : os.map bareOpt = os'.map bareOpt) (ci : Bool) (f g : List (Str × OptData) → Outcome β)
    (K : List (Str × OptData) → Outcome β) (hf : ∀ i, f i = K (i.map barePair)) (hg : ∀ i, g i = K (i.map barePair)) :
    buildOptionIndex os ci >>= f = buildOptionIndex os' ci >>= g := by
  have h1 := buildOptionIndex_bare os ci
  rw [h, buildOptionIndex_bare os' ci] at h1
  have e1 : buildOptionIndex os ci >>= f = (buildOptionIndex os ci).mapOk (·.map barePair) >>= K := by
    rw [Outcome.bind_mapOk]
    exact Outcome.bind_congr hf
  have e2 : buildOptionIndex os' ci >>= g = (buildOptionIndex os' ci).mapOk (·.map barePair) >>= K := by
    rw [Outcome.bind_mapOk]
    exact Outcome.bind_congr hg
  rw [e1, e2, h1]

theorem finishSelf_bare (s : ParserSettings) (fullName : Str) (c : Command) (startId argId : Nat) :
    (finishSelf s fullName (bareCommand c) startId argId).mapOk bareSelf = (finishSelf s fullName c startId argId).mapOk bareSelf := by
  simp only [finishSelf, bareCommand_options, bareCommand_require, bareCommand_commands, bareCommand_arguments, bareCommand_section, validateAll_bare,
    updateRequireCommand_bare, Outcome.mapOk_bind, Outcome.bind_mapOk, setArgIds_bare]
  refine Outcome.bind_congr fun os => Outcome.bind_congr fun r => ?_
  have h0 := addHelpOption_bare os [] c.currentSection s
  generalize addHelpOption (os.map bareOpt) [] s = X' at h0
  generalize addHelpOption os c.currentSection s = X at h0
  generalize setArgIds c.arguments (argId + 1) ⟨[], startId⟩ = A
  have h1 := setOptIds_bare X' A.2.1 A.2.2
  rw [h0, setOptIds_bare X] at h1
  rw [Prod.mk.injEq] at h1
  obtain ⟨h1, h2⟩ := h1
  refine index_step h1.symm _ _ _ (fun i => .ok (⟨A.1.map bareArg, (setOptIds X A.2.1 A.2.2).1.map bareOpt, bareCommands c.commands, [], c.name, fullName, [], .normal, r,
    c.multiCommand, [], 0, argId + 1, i⟩, (setOptIds X A.2.1 A.2.2).2.2.id, (setOptIds X A.2.1 A.2.2).2.1)) (fun i => ?_) (fun i => ?_)
  · cases c
    simp only [Outcome.pure_eq, Outcome.mapOk, bareSelf, bareCommand, h1, h2, ← bareCommands_eq, bareCommands_bare, List.map_map, Function.comp_def, bareArg_bare]
    rfl
  · cases c
    rfl

theorem finishCommand_eq (s : ParserSettings) (fullName : Str) (startId argId : Nat) (c : Command) :
    finishCommand s fullName startId argId c = (do
      let r ← finishSelf s fullName c startId argId
      let commands' ← finishCommands s c.name r.2.1 r.2.2 c.commands
      pure { r.1 with commands := commands' }) := by
  cases c
  rw [finishCommand]

theorem bareCommand_with (c : Command) (cs : List Command) : bareCommand { c with commands := cs } = { bareCommand c with commands := bareCommands cs } := by
  cases c
  rfl

mutual
theorem finishCommand_bare (s : ParserSettings) (fullName : Str) (startId argId : Nat) : (c : Command) →
    (finishCommand s fullName startId argId (bareCommand c)).mapOk bareCommand = (finishCommand s fullName startId argId c).mapOk bareCommand
  | ⟨arguments, options, commands, currentSection, name, fn, texts, visibility, requireSubcommand, multiCommand, section_, id, argumentId, optionIndex⟩ => by
    have h := finishSelf_bare s fullName
      ⟨arguments, options, commands, currentSection, name, fn, texts, visibility, requireSubcommand, multiCommand, section_, id, argumentId, optionIndex⟩ startId argId
    rw [finishCommand_eq, finishCommand_eq, Outcome.mapOk_bind, Outcome.mapOk_bind]
    simp only [Outcome.mapOk_bind, Outcome.pure_eq, Outcome.mapOk_ok, bareCommand_with]
    have e : ∀ (c : Command) (r : Command × Nat × Nat), (finishCommands s name r.2.1 r.2.2 commands >>= fun cs => Outcome.ok { bareCommand r.1 with commands := bareCommands cs }) =
        (finishCommands s name (bareSelf r).2.1 (bareSelf r).2.2 commands).mapOk bareCommands >>= fun cs => Outcome.ok { (bareSelf r).1 with commands := cs } := by
      intro c r
      rw [Outcome.bind_mapOk]
      rfl
    have e' : ∀ (c : Command) (r : Command × Nat × Nat), (finishCommands s name r.2.1 r.2.2 (bareCommands commands) >>= fun cs => Outcome.ok { bareCommand r.1 with commands := bareCommands cs }) =
        (finishCommands s name (bareSelf r).2.1 (bareSelf r).2.2 commands).mapOk bareCommands >>= fun cs => Outcome.ok { (bareSelf r).1 with commands := cs } := by
      intro c r
      rw [← finishCommands_bare s name _ _ commands, Outcome.bind_mapOk]
      rfl
    have k : ∀ x : Outcome (Command × Nat × Nat), (x >>= fun r => (finishCommands s name (bareSelf r).2.1 (bareSelf r).2.2 commands).mapOk bareCommands >>= fun cs => Outcome.ok { (bareSelf r).1 with commands := cs }) =
        (x.mapOk bareSelf >>= fun r => (finishCommands s name r.2.1 r.2.2 commands).mapOk bareCommands >>= fun cs => Outcome.ok { r.1 with commands := cs }) := by
      intro x
      rw [Outcome.bind_mapOk]
    refine (Outcome.bind_congr (e' {})).trans ?_
    refine Eq.trans ?_ (Outcome.bind_congr (e {})).symm
    rw [k, k, h]
theorem finishCommands_bare (s : ParserSettings) (parentName : Str) (startId argId : Nat) : (cs : List Command) →
    (finishCommands s parentName startId argId (bareCommands cs)).mapOk bareCommands = (finishCommands s parentName startId argId cs).mapOk bareCommands
  | [] => rfl
  | c :: cs => by
    simp only [bareCommands, finishCommands, bareCommand_name, Outcome.mapOk_bind]
    have h1 := finishCommand_bare s (parentName ++ [32] ++ c.name) startId argId c
    have h2 := finishCommands_bare s parentName startId argId cs
    have k : ∀ (x : Outcome Command) (y : Outcome (List Command)), (x >>= fun c' => y >>= fun cs' => (pure (c' :: cs') : Outcome (List Command)).mapOk bareCommands) =
        (x.mapOk bareCommand >>= fun c' => y.mapOk bareCommands >>= fun cs' => Outcome.ok (c' :: cs')) := by
      intro x y
      simp only [Outcome.bind_mapOk]
      rfl
    rw [k, k, h1, h2]
end

theorem finishInitialization_bare (d : ParserData) : (finishInitialization (bareData d)).mapOk bareData = (finishInitialization d).mapOk bareData := by
  have ht : (bareData d).command = bareCommand d.command := rfl
  have hv : (bareData d).version = if d.version.isEmpty then [] else b!"x" := rfl
  have hs : (bareData d).settings = d.settings := rfl
  simp only [finishInitialization, ht, hv, hs, Outcome.mapOk_bind, bareCommand_options, bareCommand_section, bareCommand_name, bareCommand_fullName]
  have h0 := addVersionOption_bare d.command.options [] d.command.currentSection d.version d.settings
  generalize addVersionOption (d.command.options.map bareOpt) [] (if d.version.isEmpty then [] else b!"x") d.settings = X' at h0
  generalize addVersionOption d.command.options d.command.currentSection d.version d.settings = X at h0
  have hc : bareCommand { bareCommand d.command with options := X' } = bareCommand { d.command with options := X } := by
    cases d.command
    simp only [bareCommand, h0, List.map_map, Function.comp_def, bareArg_bare, bareCommands_bare, bareOpt_bare]
  have k : ∀ (e : ParserData), e.settings = d.settings → (if e.version.isEmpty then [] else b!"x" : Str) = (if d.version.isEmpty then [] else b!"x") → ∀ (x : Outcome Command),
      (x >>= fun c => (pure { e with command := c } : Outcome ParserData).mapOk bareData) = (x.mapOk bareCommand >>= fun c => .ok { bareData d with command := c }) := by
    intro e he hv x
    rw [Outcome.bind_mapOk]
    refine Outcome.bind_congr fun c => ?_
    simp only [Outcome.pure_eq, Outcome.mapOk, bareData, he, hv]
  simp only [bareCommand_name, bareCommand_fullName, bareCommand_section] at hc
  refine (k (bareData d) rfl (by simp only [bareData]; by_cases h : d.version.isEmpty = true <;> simp [h]) _).trans (Eq.trans ?_ (k d rfl rfl _).symm)
  rw [← finishCommand_bare, hc, finishCommand_bare]

theorem sameSyntax_init {d1 d2 : ParserData} (h : SameSyntax d1 d2) : SameEnd SameSyntax (finishInitialization d1) (finishInitialization d2) := by
  apply sameEnd_of_mapOk
  rw [← finishInitialization_bare d1, ← finishInitialization_bare d2, show bareData d1 = bareData d2 from h]

end Argos
