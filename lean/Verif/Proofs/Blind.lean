import Verif.Spec.Blind
import Verif.Proofs.EaseInit
import Verif.Proofs.Select

/-! # Lemmas: ignoring the case of letters -/

namespace Argos

open Spec

/-! ### The declarations are accepted -/

theorem sameFlag_blind {ci : Bool} {f g : Str} (h : SameFlag ci f g) : SameFlag true f g := by
  cases ci with
  | true => exact h
  | false =>
    simp only [SameFlag, Bool.false_eq_true, if_false] at h
    rw [h]
    simp [SameFlag]

theorem hasFlag_blind {os : List OptData} {g : Str} {ci : Bool} (h : hasFlag os g ci = false → ∀ f ∈ flagsOf os, ¬ SameFlag true f g) : hasFlag os g true = hasFlag os g ci := by
  cases h1 : hasFlag os g ci with
  | true =>
    obtain ⟨f, hf, hs⟩ := hasFlag_true h1
    cases h2 : hasFlag os g true with
    | true => rfl
    | false => exact absurd (sameFlag_blind hs) (hasFlag_false h2 f hf)
  | false =>
    cases h2 : hasFlag os g true with
    | false => rfl
    | true =>
      obtain ⟨f, hf, hs⟩ := hasFlag_true h2
      exact absurd hs (h h1 f hf)

theorem helpFlags_blind {os : List OptData} {style : OptionStyle} {ci : Bool} (h : ∀ g ∈ helpFlags os style ci, ∀ f ∈ flagsOf os, ¬ SameFlag true f g) :
    helpFlags os style true = helpFlags os style ci := by
  cases style with
  | standard =>
    have h1 : hasFlag os b!"-h" true = hasFlag os b!"-h" ci := hasFlag_blind fun k => h _ (by simp [helpFlags, k])
    have h2 : hasFlag os b!"--help" true = hasFlag os b!"--help" ci := hasFlag_blind fun k => h _ (by simp [helpFlags, k])
    simp only [helpFlags, h1, h2]
  | slash =>
    have h1 : hasFlag os b!"/?" true = hasFlag os b!"/?" ci := hasFlag_blind fun k => h _ (by simp [helpFlags, k])
    simp only [helpFlags, h1]
  | dash =>
    have h1 : hasFlag os b!"-h" true = hasFlag os b!"-h" ci := hasFlag_blind fun k => h _ (by simp [helpFlags, k])
    cases k : hasFlag os b!"-h" ci with
    | false => simp [helpFlags, h1, k]
    | true =>
      have h2 : hasFlag os b!"-help" true = hasFlag os b!"-help" ci := hasFlag_blind fun k2 => h _ (by simp [helpFlags, k, k2])
      simp only [helpFlags, h1, h2]

/-- The generated options are the same if the flags are different. -/
theorem addHelp_blind {os : List OptData} {sec : Str} {s : ParserSettings} (h : DistinctFlags true (addHelpOption os sec s)) :
    addHelpOption os sec { s with caseInsensitive := true } = addHelpOption os sec s := by
  unfold addHelpOption at h ⊢
  simp only at h ⊢
  split
  · rfl
  rename_i h1
  split
  · rfl
  rename_i h2
  rw [if_neg h1, if_neg h2] at h
  have e : helpFlags os s.optionStyle true = helpFlags os s.optionStyle s.caseInsensitive := by
    apply helpFlags_blind
    intro g hg f hf
    have hne : ¬ (helpFlags os s.optionStyle s.caseInsensitive).isEmpty = true := by
      intro k
      rw [List.isEmpty_iff] at k
      rw [k] at hg
      simp at hg
    rw [if_neg hne] at h
    unfold DistinctFlags at h
    rw [flagsOf_append] at h
    exact (List.pairwise_append.mp h).2.2 f hf g (by simpa [flagsOf] using hg)
  rw [e]

theorem addVersion_blind {os : List OptData} {sec v : Str} {s : ParserSettings} (h : DistinctFlags true (addVersionOption os sec v s)) :
    addVersionOption os sec v { s with caseInsensitive := true } = addVersionOption os sec v s := by
  unfold addVersionOption at h ⊢
  simp only at h ⊢
  split
  · rfl
  rename_i h1
  rw [if_neg h1] at h
  have e : versionFlag os s.optionStyle true = versionFlag os s.optionStyle s.caseInsensitive := by
    have key : ∀ g : Str, g ≠ [] → (hasFlag os g s.caseInsensitive = false → versionFlag os s.optionStyle s.caseInsensitive = g) →
        hasFlag os g true = hasFlag os g s.caseInsensitive := by
      intro g hg0 hv
      refine hasFlag_blind fun k f hf => ?_
      rw [hv k] at h
      rw [if_neg (by simpa using hg0)] at h
      unfold DistinctFlags at h
      rw [flagsOf_append] at h
      exact (List.pairwise_append.mp h).2.2 f hf g (by simp [flagsOf])
    unfold versionFlag
    cases hst : s.optionStyle with
    | standard =>
      rw [key b!"--version" (by decide) (fun k => by simp [versionFlag, hst, k])]
    | slash =>
      rw [key b!"/VERSION" (by decide) (fun k => by simp [versionFlag, hst, k])]
    | dash =>
      rw [key b!"-version" (by decide) (fun k => by simp [versionFlag, hst, k])]
  rw [e]

theorem flagsOf_setOptIds (os : List OptData) (n : Nat) (m : IdMaker) : flagsOf (setOptIds os n m).1 = flagsOf os := by
  have h := congrArg (List.map OptData.flags) (setOptIds_noIds os n m)
  rw [List.map_map, List.map_map] at h
  have e : OptData.flags ∘ OptData.noIds = OptData.flags := rfl
  rw [e] at h
  unfold flagsOf
  rw [List.flatMap_def, List.flatMap_def, h]

theorem flagsOf_validated {style : OptionStyle} {os os' : List OptData} (h : validateAll style os = .ok os') : flagsOf os' = flagsOf os := by
  have h := congrArg (List.map OptData.flags) (validateAll_ok style os os' h).1
  rw [List.map_map, List.map_map] at h
  have e : OptData.flags ∘ OptData.core = OptData.flags := rfl
  rw [e] at h
  unfold flagsOf
  rw [List.flatMap_def, List.flatMap_def, h]

theorem flagsOf_addHelp (os : List OptData) (sec : Str) (s : ParserSettings) : ∃ fs, flagsOf (addHelpOption os sec s) = flagsOf os ++ fs := by
  rcases addHelpOption_cases os sec s with h | ⟨_, _, _, h⟩
  · exact ⟨[], by rw [h]; simp⟩
  · exact ⟨_, by rw [h, flagsOf_append]⟩

/-- The same command but for the order in which its flags are kept. -/
inductive Recased : Command → Command → Prop
  | intro {c c' : Command} (name : c.name = c'.name) (multi : c.multiCommand = c'.multiCommand) (require : c.requireSubcommand = c'.requireSubcommand)
      (arguments : c.arguments = c'.arguments) (options : c.options = c'.options) (commands : Each Recased c.commands c'.commands) : Recased c c'

theorem finishSelf_blind {s : ParserSettings} {fn : Str} {c : Command} {a b : Nat} {c1 : Command} {x y : Nat} (hf : finishSelf s fn c a b = .ok (c1, x, y))
    (hr : RegularFlags true c1.options) (hd : DistinctFlags true c1.options) :
    ∃ ix, finishSelf { s with caseInsensitive := true } fn c a b = .ok ({ c1 with optionIndex := ix }, x, y) ∧
      DistinctFlags true c.options := by
  simp only [finishSelf] at hf ⊢
  rw [Outcome.bind_eq_ok] at hf
  obtain ⟨ps, hps, hf⟩ := hf
  rw [Outcome.bind_eq_ok] at hf
  obtain ⟨r1, hr1, hf⟩ := hf
  rw [Outcome.bind_eq_ok] at hf
  obtain ⟨ix, hix, hf⟩ := hf
  simp only [Outcome.pure_eq, Outcome.ok.injEq, Prod.mk.injEq] at hf
  obtain ⟨rfl, rfl, rfl⟩ := hf
  simp only at hr hd
  have hd' : DistinctFlags true (addHelpOption ps c.currentSection s) := by
    unfold DistinctFlags at hd ⊢
    rwa [flagsOf_setOptIds] at hd
  have hix' := (buildOptionIndex_spec true _ (regular_keyOk true _ hr)).1 ((distinct_pairs _ _).mp hd)
  obtain ⟨ix', hix', _⟩ := hix'
  refine ⟨ix', ?_, ?_⟩
  · rw [hps, Outcome.bind_ok, hr1, Outcome.bind_ok, addHelp_blind hd', hix']
    rfl
  · unfold DistinctFlags at hd' ⊢
    obtain ⟨fs, e⟩ := flagsOf_addHelp ps c.currentSection s
    rw [e, flagsOf_validated hps] at hd'
    exact (List.pairwise_append.mp hd').1

mutual
theorem finish_blind (s : ParserSettings) : (c : Command) → ∀ {fn : Str} {a b : Nat} {f : Command}, finishCommand s fn a b c = .ok f →
    (∀ x : Command, x.Within f → CaseBlind x) → ∃ f', finishCommand { s with caseInsensitive := true } fn a b c = .ok f' ∧ Recased f f'
  | ⟨arguments, options, commands, currentSection, name, fn0, texts, visibility, requireSubcommand, multiCommand, section_, id, argumentId, optionIndex⟩,
    fn, a, b, f, hf, hb => by
    obtain ⟨c1, x, y, cmds, k1, k2, rfl⟩ := finishCommand_ok hf
    have hself := hb _ .self
    obtain ⟨ix, k3, _⟩ := finishSelf_blind k1 hself.regular hself.flags
    obtain ⟨cmds', k4, hall⟩ := finish_blindAll s commands k2 (fun z hz w hw => hb w (.sub hz hw))
    exact ⟨_, finishCommand_intro k3 k4, .intro rfl rfl rfl rfl rfl hall⟩
theorem finish_blindAll (s : ParserSettings) : (cs : List Command) → ∀ {pn : Str} {a b : Nat} {fs : List Command}, finishCommands s pn a b cs = .ok fs →
    (∀ z ∈ fs, ∀ x : Command, x.Within z → CaseBlind x) → ∃ fs', finishCommands { s with caseInsensitive := true } pn a b cs = .ok fs' ∧ Each Recased fs fs'
  | [], _, _, _, fs, hf, _ => by
    simp only [finishCommands, Outcome.ok.injEq] at hf
    subst hf
    exact ⟨[], by simp [finishCommands], .nil⟩
  | c :: cs, pn, a, b, fs, hf, hb => by
    simp only [finishCommands] at hf ⊢
    rw [Outcome.bind_eq_ok] at hf
    obtain ⟨g, hg, hf⟩ := hf
    rw [Outcome.bind_eq_ok] at hf
    obtain ⟨gs, hgs, hf⟩ := hf
    simp only [Outcome.pure_eq, Outcome.ok.injEq] at hf
    subst hf
    obtain ⟨g', k1, k2⟩ := finish_blind s c hg (hb g (by simp))
    obtain ⟨gs', k3, k4⟩ := finish_blindAll s cs hgs (fun z hz => hb z (by simp [hz]))
    rw [k1, Outcome.bind_ok, k3, Outcome.bind_ok]
    exact ⟨_, rfl, .cons k2 k4⟩
end

/-- The declarations are accepted by a parser that doesn't look at the case, and only the order of the flags is another one. -/
theorem init_blind {d0 d : ParserData} (h : finishInitialization d0 = .ok d) (hb : ∀ c : Command, c.Within d.command → CaseBlind c) :
    ∃ d', finishInitialization d0.blind = .ok d' ∧ d'.settings = { d.settings with caseInsensitive := true } ∧ Recased d.command d'.command := by
  simp only [finishInitialization, ParserData.blind] at h ⊢
  rw [Outcome.bind_eq_ok] at h
  obtain ⟨f, hf, h⟩ := h
  simp only [Outcome.pure_eq, Outcome.ok.injEq] at h
  subst h
  have hd : DistinctFlags true (addVersionOption d0.command.options d0.command.currentSection d0.version d0.settings) := by
    obtain ⟨c1, x, y, cmds, k1, k2, rfl⟩ := finishCommand_ok hf
    have hself := hb _ .self
    exact (finishSelf_blind k1 hself.regular hself.flags).choose_spec.2
  rw [addVersion_blind hd]
  obtain ⟨f', hf', hr⟩ := finish_blind d0.settings _ hf hb
  exact ⟨{ d0 with command := f', settings := { d0.settings with caseInsensitive := true } }, Outcome.bind_eq_ok.mpr ⟨f', hf', rfl⟩, rfl, hr⟩

/-! ### The same options and sub-commands are meant -/

theorem names_blind {c : Command} (hb : CaseBlind c) {q : Str} {o : OptData} (hn : Names false false c q o) : Names true false c q o := by
  have sel : ∀ {q o}, Selects false false c.options q o → Selects true false c.options q o := by
    rintro q o ⟨ho, ⟨f, hf, hs⟩ | ⟨h, _⟩⟩
    · exact ⟨ho, .inl ⟨f, hf, sameFlag_blind hs⟩⟩
    · simp at h
  rcases hn with hn | ⟨f, rfl, h2, h3, h4, h5⟩
  · exact .inl (sel hn)
  · refine .inr ⟨f, rfl, h2, ?_, sel h4, h5⟩
    rintro o' ⟨ho', ⟨g, hg, hs⟩ | ⟨h, _⟩⟩
    · obtain ⟨ho, ⟨f', hf', hs'⟩ | ⟨h, _⟩⟩ := h4
      · simp only [SameFlag, Bool.false_eq_true, if_false] at hs'
        subst hs'
        have e := hb.equals f' ((mem_flagsOf _ _).mpr ⟨o, ho, hf'⟩) g ((mem_flagsOf _ _).mpr ⟨o', ho', hg⟩) hs
        subst e
        exact h3 o' ⟨ho', .inl ⟨_, hg, by simp [SameFlag]⟩⟩
      · simp at h
    · simp at h

theorem find_congr {α : Type} {p q : α → Bool} : ∀ {xs : List α} {x : α}, xs.find? p = some x → (∀ y, p y = true → q y = true) → (∀ y ∈ xs, q y = true → p y = true) →
    xs.find? q = some x := by
  intro xs
  induction xs with
  | nil => intro x h; simp at h
  | cons y ys ih =>
    intro x h h1 h2
    rw [List.find?_cons] at h ⊢
    cases hp : p y with
    | true =>
      rw [hp] at h
      rw [h1 y hp]
      exact h
    | false =>
      rw [hp] at h
      cases hq : q y with
      | true => rw [h2 y (by simp) hq] at hp; simp at hp
      | false => exact ih h h1 fun z hz => h2 z (by simp [hz])

theorem command_blind {c : Command} (hb : CaseBlind c) {q : Str} {c' : Command} (hn : NamesCommand false c q c') : NamesCommand true c q c' := by
  unfold NamesCommand at *
  have hm := List.mem_of_find?_eq_some hn
  have he := List.find?_some hn
  simp only [SameFlag, Bool.false_eq_true, if_false, decide_eq_true_eq] at he
  refine find_congr hn ?_ ?_
  · intro y hy
    simp only [decide_eq_true_eq] at hy ⊢
    exact sameFlag_blind hy
  · intro y hy hs
    simp only [decide_eq_true_eq] at hs ⊢
    rw [← he] at hs ⊢
    have := hb.commands y hy c' hm hs
    simpa [SameFlag] using this

theorem accepts_blind {style : OptionStyle} {c : Command} {inits : List Occ} {l : Line} {rs : List IterResult}
    (h : Spec.Accepts style (Names false false) (NamesCommand false) c inits l rs) : (∀ x : Command, x.Within c → CaseBlind x) →
    Spec.Accepts style (Names true false) (NamesCommand true) c inits l rs := by
  have one : ∀ {c : Command}, CaseBlind c → ∀ {l p l'}, Written style (Names false false) c l p l' → Written style (Names true false) c l p l' := by
    intro c hc l p l' h
    cases h with
    | option h1 h2 h3 h4 h5 => exact .option h1 h2 (names_blind hc h3) h4 h5
    | lastOption h1 h2 h3 h4 h5 => exact .lastOption h1 h2 (names_blind hc h3) h4 h5
    | lastArgument h1 h2 h3 h4 h5 => exact .lastArgument h1 h2 (names_blind hc h3) h4 h5
    | argument h1 h2 h3 => exact .argument h1 h2 h3
    | plainArgument h1 => exact .plainArgument h1
  have all : ∀ {c : Command}, CaseBlind c → ∀ {l ps l'}, WrittenAll style (Names false false) c l ps l' → WrittenAll style (Names true false) c l ps l' := by
    intro c hc l ps l' h
    induction h with
    | nil => exact .nil
    | cons h1 _ ih => exact .cons (one hc h1) ih
  induction h with
  | last h1 h2 h3 h4 => intro hb; exact .last (all (hb _ .self) h1) h2 h3 h4
  | sub h1 h2 _ ih =>
    intro hb
    have hm : ∀ {c c' : Command} {q : Str}, NamesCommand false c q c' → c' ∈ c.commands := fun h => List.mem_of_find?_eq_some h
    cases h2 with
    | command k1 k2 k3 k4 => exact .sub (all (hb _ .self) h1) (.command k1 k2 k3 (command_blind (hb _ .self) k4)) (ih fun x hx => hb x (.sub (hm k4) hx))
    | plainCommand k1 k2 => exact .sub (all (hb _ .self) h1) (.plainCommand k1 (command_blind (hb _ .self) k2)) (ih fun x hx => hb x (.sub (hm k2) hx))

/-! ### The same command -/

theorem Recased.name {c c' : Command} (h : Recased c c') : c.name = c'.name := by cases h; assumption
theorem Recased.arguments {c c' : Command} (h : Recased c c') : c.arguments = c'.arguments := by cases h; assumption
theorem Recased.options {c c' : Command} (h : Recased c c') : c.options = c'.options := by cases h; assumption
theorem Recased.commands {c c' : Command} (h : Recased c c') : Each Recased c.commands c'.commands := by cases h; assumption

theorem each_same {α : Type} {R : α → α → Prop} (h : ∀ x, R x x) : ∀ xs : List α, Each R xs xs
  | [] => .nil
  | x :: xs => .cons (h x) (each_same h xs)

theorem easedArgs_same (as : List ArgData) : EasedArgs as as := by
  refine ⟨each_same (fun a => ⟨rfl, Nat.le_refl _, Nat.le_refl _⟩) as, ?_, fun h => .inl h⟩
  intro i j a a' b b' _ h1 h2 h3 h4
  rw [h1, Option.some.injEq] at h2
  rw [h3, Option.some.injEq] at h4
  subst h2 h4
  exact .inl ⟨rfl, rfl⟩

mutual
theorem recased_freed : (c : Command) → ∀ {c' : Command}, Recased c c' → Freed c c'
  | ⟨arguments, options, commands, currentSection, name, fn0, texts, visibility, requireSubcommand, multiCommand, section_, id, argumentId, optionIndex⟩, c', h => by
    cases h with
    | intro h1 h2 h3 h4 h5 h6 =>
      refine .intro h1 h2 (fun k => h3.trans k) ?_ ?_ (recased_freedAll commands h6)
      · rw [← h4]; exact easedArgs_same _
      · rw [← h5]; exact each_same (fun o => ⟨rfl, fun k => k⟩) _
theorem recased_freedAll : (cs : List Command) → ∀ {cs' : List Command}, Each Recased cs cs' → Each Freed cs cs'
  | [], _, h => by cases h; exact .nil
  | c :: cs, _, h => by
    cases h with
    | cons h1 h2 => exact .cons (recased_freed c h1) (recased_freedAll cs h2)
end

theorem Recased.within {c c' : Command} (h : Recased c c') {x' : Command} (hx : x'.Within c') : ∃ x : Command, x.Within c ∧ Recased x x' := by
  induction hx generalizing c with
  | self => exact ⟨c, .self, h⟩
  | sub hm _ ih =>
    obtain ⟨s, hs, hr⟩ := Each.mem_right h.commands hm
    obtain ⟨x, hx, hr⟩ := ih hr
    exact ⟨x, .sub hs hx, hr⟩

theorem recased_predictable {d d' : ParserData} (h : Recased d.command d'.command) (ha : d'.settings.allowAbbreviatedOptions = d.settings.allowAbbreviatedOptions)
    (hp : Predictable d) : Predictable d' := by
  intro c' hc' hn
  obtain ⟨c, hc, hr⟩ := h.within hc'
  have := hp c hc (by unfold NeedsCount; rw [hr.arguments]; exact hn)
  rw [hr.options] at this
  rw [ha]
  exact this

theorem recased_ordinary {d d' : ParserData} (h : Recased d.command d'.command) (hs : d'.settings = { d.settings with caseInsensitive := true })
    (hb : ∀ c : Command, c.Within d.command → CaseBlind c) (ho : Ordinary d) : Ordinary d' := by
  refine Freed.ordinary (d := d.blind) (recased_freed _ h) hs ⟨ho.style, ho.options, ho.arguments, ho.single, fun c hc => ?_, ho.counts, ho.exclusive⟩
  exact (hb c hc).regular

end Argos
