import Verif.Proofs.Say

/-! # Everything that is declared can be said: C89 -/

set_option synthInstance.maxSize 1000

namespace Argos
open Spec Parser

theorem nameable_of {d0 d : ParserData} (h : finishInitialization d0 = .ok d) (ho : Ordinary d) {c : Command} (hc : c.Within d.command) :
    Nameable d.settings.optionStyle (Names d.settings.caseInsensitive d.settings.allowAbbreviatedOptions) c := by
  intro o hoo f hf
  refine ⟨(optionsReady h c hc).flags_ok o hoo f hf, (names_of h hc (ho.flags c hc) f o).mp ?_⟩
  have hs := (finishInitialization_ok h).1
  exact (C11_typable_partial h hc (by rw [← hs]; exact ho.flags c hc) hoo hf []).2.2

/-- **C89** (what holds): whatever combination of declared options with values, of arguments within their counts and of sub-commands is wanted, the command line
written for it succeeds, and the parsed arguments hold exactly what was wanted, in each command. The option values are arbitrary, also if they look like options.
Missing: arguments that look like options without an option to announce them, see `C89_dash_violated`; sub-commands whose names look like options, see
`C89_name_violated`; and what `C57_complete_partial` leaves out. -/
theorem C89_said_partial {d0 d : ParserData} (h : finishInitialization d0 = .ok d) (ho : Ordinary d) (hf : Foreseeable d) {env : Env}
    (hsi : env.Silent) {w : Wish} (hw : w.Declared d.settings.optionStyle d.settings.caseInsensitive d.command (d.command.options.map .initial))
    (hne : d0.settings.optionStyle = .standard ∨ [] ∉ w.words) (hsz : w.words.length ≤ sizeMax) :
    ∃ rs n, Returns env d w.words rs .done n ∧ NoStop rs ∧ n.code = .success ∧
      n.tree = (w.tree d.command (d.command.options.map .initial)).map valuesOf := by
  have ha := written_wish (fun c hc => nameable_of h ho hc) ho.exclusive hw .self
  obtain ⟨rs, n, hr, hns, hrs, hcode⟩ := C57_complete_partial h ho hf hsi hne hsz ha
  refine ⟨rs, n, hr, hns, hcode, ?_⟩
  obtain ⟨t, h1, h2⟩ := C32_values h hsi.passive hr
  rw [← given_forget, hrs] at h1
  have h3 : given d.command (wishResults w) = some (w.tree d.command (d.command.options.map .initial)) := steps_wish hw _ []
  rw [h3] at h1
  cases h1
  exact h2

/-- **C89**: two wishes that are written in the same way are the same as far as the parsed arguments show. -/
theorem C89_unambiguous {d0 d : ParserData} (h : finishInitialization d0 = .ok d) (ho : Ordinary d) {w w' : Wish}
    (hw : w.Declared d.settings.optionStyle d.settings.caseInsensitive d.command (d.command.options.map .initial))
    (hw' : w'.Declared d.settings.optionStyle d.settings.caseInsensitive d.command (d.command.options.map .initial)) (he : w.words = w'.words) :
    w.tree d.command (d.command.options.map .initial) = w'.tree d.command (d.command.options.map .initial) := by
  have h1 := written_wish (fun c hc => nameable_of h ho hc) ho.exclusive hw .self
  have h2 := written_wish (fun c hc => nameable_of h ho hc) ho.exclusive hw' .self
  rw [← he] at h2
  have h3 := C57_unique h ho h1 h2
  have h4 : given d.command (wishResults w) = some (w.tree d.command (d.command.options.map .initial)) := steps_wish hw _ []
  have h5 : given d.command (wishResults w') = some (w'.tree d.command (d.command.options.map .initial)) := steps_wish hw' _ []
  rw [h3, h5] at h4
  exact (Option.some.inj h4).symm

theorem values_arguments {P : Str → Prop} (l : List Occ) (h : ∀ x ∈ l, ∃ a v, x = .argument a v ∧ P v) (id : Nat) : ∀ v ∈ valuesOf l id, P v.1 := by
  revert h
  refine list_reverse_ind (P := fun l => (∀ x ∈ l, ∃ a v, x = .argument a v ∧ P v) → ∀ v ∈ valuesOf l id, P v.1) (fun _ v hv => by simp [valuesOf, runWrites] at hv) ?_ l
  intro l x ih h v hv
  obtain ⟨a, u, rfl, hu⟩ := h x (by simp)
  have ih := ih fun y hy => h y (by simp [hy])
  rw [valuesOf_snoc] at hv
  simp only [Occ.writes, List.foldl_cons, List.foldl_nil, Write.run] at hv
  split at hv
  · rw [List.mem_append] at hv
    rcases hv with hv | hv
    · exact ih v hv
    · simp at hv
      rw [hv]
      exact hu
  · exact ih v hv

/-- Without options, nothing that looks like an option is an argument. -/
theorem written_bare {style : OptionStyle} {names : Command → Str → OptData → Prop} {c : Command} (hn : ∀ q o, ¬ names c q o) {l l' : Line} {ps : List Piece}
    (h : WrittenAll style names c l ps l') (hl : ∃ r, l = .mixed r) : ∀ p ∈ ps, ∃ v, p = .argument v ∧ ¬ IsFlag style v := by
  induction h with
  | nil => simp
  | cons hw _ ih =>
    intro p hp
    cases hw with
    | option _ _ h => exact absurd h (hn _ _)
    | lastOption _ _ h => exact absurd h (hn _ _)
    | lastArgument _ _ h => exact absurd h (hn _ _)
    | argument _ h _ =>
      rw [List.mem_cons] at hp
      rcases hp with rfl | hp
      · exact ⟨_, rfl, h⟩
      · exact ih ⟨_, rfl⟩ p hp
    | plainArgument _ => obtain ⟨r, hr⟩ := hl; simp at hr

theorem report_texts {P : Str → Prop} : ∀ (ps : List Piece) (as : List ArgData), (∀ p ∈ ps, ∃ v, p = .argument v ∧ P v) →
    ∀ r ∈ report ps as, ∃ a v, r = .argument a (some v) ∧ P v
  | [], _, _ => by simp [report]
  | .option o v :: ps, _, h => by obtain ⟨_, h, _⟩ := h _ List.mem_cons_self; simp at h
  | .argument v :: ps, [], _ => by simp [report]
  | .argument v :: ps, a :: as, h => by
    intro r hr
    simp only [report, List.mem_cons] at hr
    rcases hr with rfl | hr
    · obtain ⟨u, h1, h2⟩ := h _ List.mem_cons_self
      cases h1
      exact ⟨a, v, rfl, h2⟩
    · exact report_texts ps as (fun p hp => h p (by simp [hp])) r hr

/-- A program with arguments only. -/
theorem bare_values {d0 d : ParserData} (h : finishInitialization d0 = .ok d) (ho : Ordinary d) (hopt : d.command.options = []) (hcmd : d.command.commands = [])
    (hst : d0.settings.optionStyle = .standard) (hae : d0.settings.autoExit = false) {env : Env} (hsi : env.Silent) {args : List Str} {fuel : Nat} (hfu : cmdSize args + 1 < fuel) :
    ∃ n s', parse env d args fuel = (.ok (some n), s') ∧ (n.code = .success → ∀ id, ∀ v ∈ n.values.getValues id, ¬ IsFlag d.settings.optionStyle v.1) := by
  have hone : ∀ c : Command, c.Within d.command → c = d.command := by
    intro c hc
    cases hc with
    | self => rfl
    | sub ht _ => rw [hcmd] at ht; simp at ht
  obtain ⟨n, s', rs, last, hp, hret, hns, hv⟩ := parse_verdict h (fun c hc o hoo => by rw [hone c hc, hopt] at hoo; simp at hoo) hae hsi hfu
  refine ⟨n, s', hp, fun hc id => ?_⟩
  have hl : last = .done := by
    rcases hv with hv | hv
    · exact hv.1
    · rw [hv.2] at hc; simp at hc
  subst hl
  have ha := C57_sound_partial h ho hsi.passive (Or.inl hst) hret hns
  have hnn : ∀ q o, ¬ Names d.settings.caseInsensitive d.settings.allowAbbreviatedOptions d.command q o := by
    intro q o hn
    rcases hn with hn | ⟨_, _, _, _, hn, _⟩
    · have := hn.1; rw [hopt] at this; simp at this
    · have := hn.1; rw [hopt] at this; simp at this
  have key : ∀ r ∈ rs.map forgetText, ∃ a v, r = .argument a (some v) ∧ ¬ IsFlag d.settings.optionStyle v := by
    unfold ParserData.Accepts at ha
    generalize rs.map forgetText = rs' at ha
    cases ha with
    | last hw _ _ _ => exact report_texts _ _ (written_bare hnn hw ⟨_, rfl⟩)
    | sub _ hen _ =>
      cases hen with
      | command _ _ hne _ => exact absurd hcmd hne
      | plainCommand hne _ => exact absurd hcmd hne
  have key' : ∀ r ∈ rs, ∃ a v, r = .argument a (some v) ∧ ¬ IsFlag d.settings.optionStyle v := by
    intro r hr
    obtain ⟨a, v, e, hf⟩ := key _ (List.mem_map_of_mem hr)
    cases r <;> simp only [forgetText] at e <;> first | exact ⟨a, v, e, hf⟩ | cases e
  rw [C32_flat h hsi.passive hret (fun c x hm => by obtain ⟨a, v, e, _⟩ := key' _ hm; cases e) id, hopt]
  refine values_arguments (P := fun v => ¬ IsFlag d.settings.optionStyle v) _ ?_ id
  intro x hx
  rw [List.map_nil, List.nil_append, List.mem_filterMap] at hx
  obtain ⟨r, hr, hx⟩ := hx
  obtain ⟨a, v, rfl, hf⟩ := key' r hr
  simp only [occOf, Option.getD_some, Option.some.injEq] at hx
  exact ⟨a, v, hx.symm, hf⟩

theorem written_mixed {style : OptionStyle} {names : Command → Str → OptData → Prop} {c : Command} (hn : ∀ q o, ¬ names c q o) {l l' : Line} {ps : List Piece}
    (h : WrittenAll style names c l ps l') (hl : ∃ r, l = .mixed r) : ∃ r, l' = .mixed r := by
  induction h with
  | nil => exact hl
  | cons hw _ ih =>
    cases hw with
    | option _ _ h => exact absurd h (hn _ _)
    | lastOption _ _ h => exact absurd h (hn _ _)
    | lastArgument _ _ h => exact absurd h (hn _ _)
    | argument _ h _ => exact ih ⟨_, rfl⟩
    | plainArgument _ => obtain ⟨r, hr⟩ := hl; simp at hr

theorem report_no_command (ps : List Piece) (as : List ArgData) (c : Command) (x : Str) : .command c x ∉ report ps as := by
  induction ps generalizing as with
  | nil => simp [report]
  | cons p ps ih =>
    cases p with
    | option o v => simp [report, ih]
    | argument v => cases as <;> simp [report, ih]

/-- A program without options whose sub-commands all have names that look like options. -/
theorem unreachable_subs {d0 d : ParserData} (h : finishInitialization d0 = .ok d) (ho : Ordinary d) (hopt : ∀ c : Command, c.Within d.command → c.options = [])
    (hci : d.settings.caseInsensitive = false) (hcmd : ∀ c ∈ d.command.commands, IsFlag d.settings.optionStyle c.name)
    (hst : d0.settings.optionStyle = .standard) (hae : d0.settings.autoExit = false) {env : Env} (hsi : env.Silent) {args : List Str} {fuel : Nat} (hfu : cmdSize args + 1 < fuel) :
    ∃ n s', parse env d args fuel = (.ok (some n), s') ∧ (n.code = .success → n.subs = []) := by
  obtain ⟨n, s', rs, last, hp, hret, hns, hv⟩ := parse_verdict h (fun c hc o hoo => by rw [hopt c hc] at hoo; simp at hoo) hae hsi hfu
  refine ⟨n, s', hp, fun hc => ?_⟩
  have hl : last = .done := by
    rcases hv with hv | hv
    · exact hv.1
    · rw [hv.2] at hc; simp at hc
  subst hl
  have ha := C57_sound_partial h ho hsi.passive (Or.inl hst) hret hns
  have hnn : ∀ q o, ¬ Names d.settings.caseInsensitive d.settings.allowAbbreviatedOptions d.command q o := by
    intro q o hn
    rcases hn with hn | ⟨_, _, _, _, hn, _⟩
    · have := hn.1; rw [hopt _ .self] at this; simp at this
    · have := hn.1; rw [hopt _ .self] at this; simp at this
  have key : ∀ c x, .command c x ∉ rs.map forgetText := by
    unfold ParserData.Accepts at ha
    generalize rs.map forgetText = rs' at ha
    cases ha with
    | last hw _ _ _ => exact report_no_command _ _
    | sub hw hen _ =>
      obtain ⟨r, hr⟩ := written_mixed hnn hw ⟨_, rfl⟩
      cases hen with
      | command _ hnf _ hsub =>
        have hm := List.mem_of_find?_eq_some hsub
        have he := List.find?_some hsub
        simp only [decide_eq_true_eq, SameFlag, hci, Bool.false_eq_true, if_false] at he
        exact absurd (he ▸ hcmd _ hm) hnf
      | plainCommand _ _ => simp at hr
  have key' : ∀ c x, .command c x ∉ rs := fun c x hm => key c [] (List.mem_map.mpr ⟨_, hm, rfl⟩)
  obtain ⟨t, h1, h2⟩ := C32_values h hsi.passive hret
  unfold given at h1
  rw [after_flat _ _ key'] at h1
  simp only [Open.close, Open.close.go, Option.some.injEq] at h1
  rw [← h1, Tree.map_node] at h2
  cases n with
  | mk _ _ _ _ _ _ subs =>
    simp only [PNode.tree, Tree.node.injEq] at h2
    cases subs with
    | nil => rfl
    | cons m ms => simp [PNode.treeList] at h2

/-! ### Concrete cases -/

def numberData : ParserData :=
  { command :=
      { name := b!"double"
        arguments := [{ name := b!"NUMBER" }] }
    settings := { autoExit := false, generateHelpOption := false } }

/-- **C89** is violated: a program that takes a number and has no options can't be given a negative number of more than one character; there is no command line with
which its argument gets such a value. -/
theorem C89_dash_violated : ∃ d, finishInitialization numberData = .ok d ∧ Ordinary d ∧ Foreseeable d ∧
    (∃ a, d.command.arguments = [a] ∧ a.minCount ≤ 1 ∧ 1 ≤ a.maxCount) ∧
    ∀ env : Env, env.Silent → ∀ (args : List Str) (fuel : Nat), cmdSize args + 1 < fuel →
      ∃ n s', parse env d args fuel = (.ok (some n), s') ∧ (n.code = .success → ∀ id, ∀ v ∈ n.values.getValues id, ∀ u, v.1 ≠ c!"-" :: b!"5" ++ u) := by
  have key : ∃ d, finishInitialization numberData = .ok d ∧ (((ordinaryCheck 3 d = true ∧ foreseeableCheck 3 d = true) ∧ d.command.options = [] ∧ d.command.commands.isEmpty = true) ∧
      d.settings.optionStyle = .standard) ∧ d.command.arguments.map (fun a => (a.minCount, a.maxCount)) = [(1, 1)] :=
    Outcome.exists_ok (by decide +kernel)
  obtain ⟨d, h, ⟨⟨⟨h1, h2⟩, h3, h4⟩, h5⟩, h6⟩ := key
  refine ⟨d, h, ordinaryCheck_sound h1, foreseeableCheck_sound h2, ?_, ?_⟩
  · obtain ⟨a, ha, h7⟩ := List.map_eq_singleton_iff.mp h6
    simp only [Prod.mk.injEq] at h7
    exact ⟨a, ha, by omega, by omega⟩
  · intro env hsi args fuel hfu
    obtain ⟨n, s', hp, hv⟩ := bare_values h (ordinaryCheck_sound h1) h3 (by simpa using h4) rfl rfl hsi hfu
    refine ⟨n, s', hp, fun hc id v hm u e => hv hc id v hm ?_⟩
    rw [e, h5]
    exact ⟨by simp, rfl⟩

def dashedNameData : ParserData :=
  { command :=
      { name := b!"prog"
        commands := [{ name := b!"--list" }] }
    settings := { autoExit := false, generateHelpOption := false } }

/-- **C89** is violated: a sub-command whose name looks like an option is accepted in the declarations, but no command line leads to it. -/
theorem C89_name_violated : ∃ d, finishInitialization dashedNameData = .ok d ∧ Ordinary d ∧ Foreseeable d ∧ d.command.commands.map (·.name) = [b!"--list"] ∧
    ∀ env : Env, env.Silent → ∀ (args : List Str) (fuel : Nat), cmdSize args + 1 < fuel →
      ∃ n s', parse env d args fuel = (.ok (some n), s') ∧ (n.code = .success → n.subs = []) := by
  have key : ∃ d, finishInitialization dashedNameData = .ok d ∧ (((ordinaryCheck 3 d = true ∧ foreseeableCheck 3 d = true) ∧
      d.command.checkAll (fun c => decide (c.options = [])) 3 = true ∧ (d.command.commands.all fun c => decide (IsFlag d.settings.optionStyle c.name)) = true) ∧
      d.settings.caseInsensitive = false) ∧ d.command.commands.map (·.name) = [b!"--list"] :=
    Outcome.exists_ok (by decide +kernel)
  obtain ⟨d, h, ⟨⟨⟨h1, h2⟩, h3, h4⟩, h5⟩, h6⟩ := key
  refine ⟨d, h, ordinaryCheck_sound h1, foreseeableCheck_sound h2, h6, fun env hsi args fuel hfu => ?_⟩
  exact unreachable_subs h (ordinaryCheck_sound h1) (fun c hc => by simpa using Command.checkAll_sound h3 hc) h5
    (by simpa using h4) rfl rfl hsi hfu

/-- `IsAllotment`, decided by evaluation. -/
def allotmentCheck (args : List ArgData) (n : Nat) (ks : List Nat) : Bool :=
  decide (ks.length = args.length) && decide (ks.sum = n) &&
    decide (∀ i : Fin args.length, args[i].minCount ≤ ks.getD i 0 ∧ ks.getD i 0 ≤ args[i].maxCount) &&
    decide (∀ i j : Fin args.length, i < j → args[j].minCount < ks.getD j 0 → ks.getD i 0 = args[i].maxCount)

theorem allotmentCheck_sound {args : List ArgData} {n : Nat} {ks : List Nat} (h : allotmentCheck args n ks = true) : IsAllotment args n ks := by
  simp only [allotmentCheck, Bool.and_eq_true, decide_eq_true_eq] at h
  obtain ⟨⟨⟨h1, h2⟩, h3⟩, h4⟩ := h
  have hget : ∀ i (hi : i < ks.length), ks.getD i 0 = ks[i] := fun i hi => by simp [List.getD, hi]
  refine ⟨h1, h2, ?_, ?_⟩
  · intro i hi hi'
    have := h3 ⟨i, hi⟩
    simp only [Fin.getElem_fin, hget i hi'] at this
    exact this
  · intro i j hj hj' hij hlt
    have := h4 ⟨i, by omega⟩ ⟨j, hj⟩ hij
    simp only [Fin.getElem_fin, hget j hj', hget i (by omega)] at this
    exact this hlt

def wantedCheck (c : Command) (w : Wanted) : Bool :=
  decide (w.option ∈ c.options) && decide (w.flag ∈ w.option.flags) && decide (¬ NeedsValue w.option → w.value = [])

theorem wantedCheck_sound {c : Command} {w : Wanted} (h : wantedCheck c w = true) : w.Declared c := by
  simp only [wantedCheck, Bool.and_eq_true, decide_eq_true_eq] at h
  exact ⟨h.1.1, h.1.2, h.2⟩

/-- `Wish.Declared` for a wish without sub-commands, decided by evaluation. -/
def hereCheck (style : OptionStyle) (c : Command) (occs : List Occ) (os : List Wanted) (m : Option Wanted) (as : List (ArgData × Str)) (ks : List Nat) : Bool :=
  (os.all fun w => wantedCheck c w && decide (w.option.type = .normal)) &&
    (m.all fun w => wantedCheck c w && decide (w.option.type = .lastOption ∧ ¬ NeedsValue w.option ∧ w.option.argument = [])) &&
    (m.isSome || as.all fun a => decide (¬ IsFlag style a.2)) && allotmentCheck c.arguments as.length ks && decide (as.map (·.1) = handedOut c.arguments ks) &&
    (c.options.all fun o => o.optional || decide (valuesOf (occs ++ (os ++ m.toList).map (fun w => .option w.option w.value) ++ as.map (fun a => .argument a.1 a.2)) o.valueId ≠ [])) &&
    decide (c.requireSubcommand ≠ some true)

theorem hereCheck_sound {style : OptionStyle} {ci : Bool} {c : Command} {occs : List Occ} {os : List Wanted} {m : Option Wanted} {as : List (ArgData × Str)} {ks : List Nat}
    (h : hereCheck style c occs os m as ks = true) : Wish.Declared style ci c occs (.here os m as) := by
  simp only [hereCheck, Bool.and_eq_true, decide_eq_true_eq, List.all_eq_true, Option.all_eq_true, Bool.or_eq_true] at h
  obtain ⟨⟨⟨⟨⟨⟨h1, h2⟩, h3⟩, h4⟩, h5⟩, h6⟩, h7⟩ := h
  refine .here (fun w hw => ⟨wantedCheck_sound (h1 w hw).1, (h1 w hw).2⟩) (fun w hw => ⟨wantedCheck_sound (h2 w hw).1, (h2 w hw).2⟩) ?_
    (allotmentCheck_sound h4) h5 ⟨fun o ho e => ?_, h7⟩
  · rintro rfl
    exact h3.resolve_left (by simp)
  · exact (h6 o ho).resolve_left (by simp [e])

/-- The option with the flag. -/
def wantedOf (c : Command) (f v : Str) : List Wanted := (c.options.find? fun o => decide (f ∈ o.flags)).toList.map (⟨·, f, v⟩)

def sayData : ParserData :=
  { command :=
      { name := b!"fs"
        options := [{ flags := [b!"-v", b!"--verbose"], constant := b!"1" }, { flags := [b!"-l", b!"--log="], argument := b!"FILE", initialValue := b!"log" }]
        commands := [
          { name := b!"cp"
            options := [{ flags := [b!"--mode", b!"-m"], argument := b!"MODE", optional := false, operation := .append },
              { flags := [b!"--"], type := .lastOption, operation := .none }]
            arguments := [{ name := b!"FROM", minCount := 1, maxCount := 3 }, { name := b!"TO" }] },
          { name := b!"ls" }] }
    settings := { autoExit := false, generateHelpOption := false } }

/-- What is wanted of `sayData`: the values of options look like options, and so do two of the arguments. -/
def sayWish (root c : Command) : Wish :=
  .within (wantedOf root b!"-v" [] ++ wantedOf root b!"--log=" b!"--=-v") c
    (.here (wantedOf c b!"-m" b!"--mode" ++ wantedOf c b!"--mode" []) (wantedOf c b!"--" []).head?
      ((handedOut c.arguments [2, 1]).zip [b!"-v", b!"a", b!"--"]))

-- The hypotheses of `C89_said_partial` hold; this is the command line, and these are the values.
example : ∃ d c, finishInitialization sayData = .ok d ∧ (Ordinary d ∧ Foreseeable d) ∧
    (sayWish d.command c).Declared d.settings.optionStyle d.settings.caseInsensitive d.command (d.command.options.map .initial) ∧
    (sayWish d.command c).words = [b!"-v", b!"--log=--=-v", b!"cp", b!"-m", b!"--mode", b!"--mode", b!"", b!"--", b!"-v", b!"a", b!"--"] ∧
    parseTo (fun n => (n.code, n.command.options.map fun o => (n.values.getValues o.valueId).map (·.1))) Env.inert d (sayWish d.command c).words 99 =
      some (.success, [[b!"1"], [b!"--=-v"]]) ∧
    parseTo (fun n => n.subs.map fun (m : PNode) => (m.command.options.map (fun o => (m.values.getValues o.valueId).map (·.1)),
        m.command.arguments.map fun a => (m.values.getValues a.valueId).map (·.1))) Env.inert d (sayWish d.command c).words 99 =
      some [([[b!"--mode", b!""], []], [[b!"-v", b!"a"], [b!"--"]])] := by
  have key : ∃ d, finishInitialization sayData = .ok d ∧ ((ordinaryCheck 3 d = true ∧ foreseeableCheck 3 d = true) ∧ ∃ c ∈ d.command.commands.head?,
      (((wantedOf d.command b!"-v" [] ++ wantedOf d.command b!"--log=" b!"--=-v").all (fun w => wantedCheck d.command w && decide (w.option.type = .normal)) = true ∧
        ¬ IsFlag d.settings.optionStyle c.name) ∧
      hereCheck d.settings.optionStyle c [] (wantedOf c b!"-m" b!"--mode" ++ wantedOf c b!"--mode" []) (wantedOf c b!"--" []).head?
        ((handedOut c.arguments [2, 1]).zip [b!"-v", b!"a", b!"--"]) [2, 1] = true) ∧
      (sayWish d.command c).words = [b!"-v", b!"--log=--=-v", b!"cp", b!"-m", b!"--mode", b!"--mode", b!"", b!"--", b!"-v", b!"a", b!"--"] ∧
      parseTo (fun n => (n.code, n.command.options.map fun o => (n.values.getValues o.valueId).map (·.1))) Env.inert d (sayWish d.command c).words 99 =
        some (.success, [[b!"1"], [b!"--=-v"]]) ∧
      parseTo (fun n => n.subs.map fun (m : PNode) => (m.command.options.map (fun o => (m.values.getValues o.valueId).map (·.1)),
          m.command.arguments.map fun a => (m.values.getValues a.valueId).map (·.1))) Env.inert d (sayWish d.command c).words 99 =
        some [([[b!"--mode", b!""], []], [[b!"-v", b!"a"], [b!"--"]])]) :=
    Outcome.exists_ok (by decide +kernel)
  obtain ⟨d, h, ⟨h1, h2⟩, c, hc, ⟨⟨h3, h4⟩, h5⟩, h6⟩ := key
  refine ⟨d, c, h, ⟨ordinaryCheck_sound h1, foreseeableCheck_sound h2⟩, .within ?_ ?_ h4 (hereCheck_sound h5), h6⟩
  · intro w hw
    have := List.all_eq_true.mp h3 w hw
    simp only [Bool.and_eq_true, decide_eq_true_eq] at this
    exact ⟨wantedCheck_sound this.1, this.2⟩
  · cases hcs : d.command.commands with
    | nil => rw [hcs] at hc; simp at hc
    | cons x xs =>
      rw [hcs] at hc
      simp only [List.head?_cons, Option.mem_def, Option.some.injEq] at hc
      subst hc
      unfold NamesCommand
      rw [hcs, List.find?_cons_of_pos]
      simp only [decide_eq_true_eq]
      unfold SameFlag
      split <;> rfl

end Argos
