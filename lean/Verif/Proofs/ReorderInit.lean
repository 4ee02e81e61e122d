import Verif.Proofs.ReorderParser
import Verif.Proofs.InitTree
import Verif.Proofs.Lookup
import Verif.Props.Store
import Verif.Spec.Tree

/-!
# Parsers whose options are declared in different orders are alike
-/

namespace Argos

open Spec

theorem eachOf {α β γ : Type} {f : α → γ} {g : β → γ} {R : α → β → Prop} {xs : List α} {ys : List β} (h : xs.map f = ys.map g)
    (hR : ∀ x ∈ xs, ∀ y ∈ ys, f x = g y → R x y) : Each R xs ys := by
  induction xs generalizing ys with
  | nil =>
    cases ys with
    | nil => exact .nil
    | cons y ys => simp at h
  | cons x xs ih =>
    cases ys with
    | nil => simp at h
    | cons y ys =>
      simp only [List.map_cons, List.cons.injEq] at h
      exact .cons (hR x (by simp) y (by simp) h.1) (ih h.2 fun x hx y hy => hR x (by simp [hx]) y (by simp [hy]))

/-! ## One command -/

/-- What is needed of a command. -/
structure Fine (s : ParserSettings) (c : Command) : Prop where
  ready : OptionsReady s c
  keys : ∀ o ∈ c.options, ∀ f ∈ o.flags, KeyOk s.caseInsensitive f
  unique : ∃ f : Str → Option Nat, ∀ i ∈ items c, ∀ n ∈ i.names, f n = some i.valueId
  sound : ∀ i ∈ items c, ∀ j ∈ items c, i.valueId = j.valueId → Connected (items c) i j
  pos : ∀ i ∈ items c, 0 < i.valueId

/-- The commands have the same arguments and options except for numbers, and these in any order. -/
structure SameSelf (c c' : Command) : Prop where
  name : c.name = c'.name
  fullName : c.fullName = c'.fullName
  require : c.requireSubcommand = c'.requireSubcommand
  multi : c.multiCommand = c'.multiCommand
  arguments : c.arguments.map plainArg = c'.arguments.map plainArg
  options : (c.options.map plainOpt).Perm (c'.options.map plainOpt)
  none : ∀ o ∈ c.options, o.operation = .none → o.valueId = 0
  none' : ∀ o ∈ c'.options, o.operation = .none → o.valueId = 0

theorem SameSelf.symm {c c' : Command} (h : SameSelf c c') : SameSelf c' c :=
  ⟨h.name.symm, h.fullName.symm, h.require.symm, h.multi.symm, h.arguments.symm, h.options.symm, h.none', h.none⟩

theorem SameSelf.option {c c' : Command} (h : SameSelf c c') {o : OptData} (ho : o ∈ c.options) : ∃ o' ∈ c'.options, plainOpt o = plainOpt o' := by
  have : plainOpt o ∈ c'.options.map plainOpt := h.options.mem_iff.mp (List.mem_map_of_mem ho)
  obtain ⟨o', h1, h2⟩ := List.mem_map.mp this
  exact ⟨o', h1, h2.symm⟩

theorem item_names_ne {s : ParserSettings} {c : Command} (hf : OptionsReady s c) {i : Item} (hi : i ∈ items c) : ∃ n, n ∈ i.own := by
  rcases List.mem_append.mp hi with h | h
  · obtain ⟨a, _, rfl⟩ := List.mem_map.mp h
    exact ⟨_, List.mem_cons_self ..⟩
  · obtain ⟨o, ho, rfl⟩ := List.mem_map.mp h
    have := hf.flags_ne o (List.mem_filter.mp ho).1
    cases hfl : o.flags with
    | nil => exact absurd hfl this
    | cons f fs => exact ⟨f, by simp [hfl]⟩

theorem item_other {c c' : Command} (h : SameSelf c c') {i : Item} (hi : i ∈ items c) : ∃ i' ∈ items c', i.own = i'.own ∧ i.alias_ = i'.alias_ := by
  rcases List.mem_append.mp hi with hi | hi
  · obtain ⟨a, ha, rfl⟩ := List.mem_map.mp hi
    have : plainArg a ∈ c'.arguments.map plainArg := by rw [← h.arguments]; exact List.mem_map_of_mem ha
    obtain ⟨a', ha', e⟩ := List.mem_map.mp this
    refine ⟨⟨[a'.name], aliasOf a'.alias_, a'.valueId⟩, List.mem_append_left _ (List.mem_map.mpr ⟨a', ha', rfl⟩), ?_, ?_⟩
    · have := congrArg ArgData.name e
      exact congrArg (fun x => [x]) this.symm
    · have := congrArg ArgData.alias_ e
      exact congrArg aliasOf this.symm
  · obtain ⟨o, ho, rfl⟩ := List.mem_map.mp hi
    obtain ⟨h1, h2⟩ := List.mem_filter.mp ho
    obtain ⟨o', ho', e⟩ := h.option h1
    have e1 : o.flags = o'.flags := by have := congrArg OptData.flags e; exact this
    have e2 : o.alias_ = o'.alias_ := by have := congrArg OptData.alias_ e; exact this
    have e3 : o.operation = o'.operation := by have := congrArg OptData.operation e; exact this
    rw [e3] at h2
    exact ⟨⟨o'.flags, aliasOf o'.alias_, o'.valueId⟩, List.mem_append_right _ (List.mem_map.mpr ⟨o', List.mem_filter.mpr ⟨ho', h2⟩, rfl⟩), e1, by simp only [e2]⟩

theorem share_other {i i' j j' : Item} (h : i.Share j) (hi : i.own = i'.own ∧ i.alias_ = i'.alias_) (hj : j.own = j'.own ∧ j.alias_ = j'.alias_) : i'.Share j' := by
  obtain ⟨n, h1, h2⟩ := h
  simp only [Item.names, hi.1, hi.2, hj.1, hj.2] at h1 h2
  exact ⟨n, h1, h2⟩

theorem share_same {i i' : Item} (hn : ∃ n, n ∈ i.own) (h : i.own = i'.own) : i.Share i' := by
  obtain ⟨n, hn⟩ := hn
  refine ⟨n, List.mem_append_left _ hn, List.mem_append_left _ ?_⟩
  rw [← h]
  exact hn

theorem connected_other {s : ParserSettings} {c c' : Command} (h : SameSelf c c') (hf : OptionsReady s c) {i j : Item} (hc : Connected (items c) i j) :
    ∀ i' ∈ items c', i.own = i'.own ∧ i.alias_ = i'.alias_ → ∀ j' ∈ items c', j.own = j'.own ∧ j.alias_ = j'.alias_ → Connected (items c') i' j' := by
  induction hc with
  | refl hi =>
    intro i' hi' ei j' hj' ej
    refine .step (.refl hi') hj' (share_other (share_same (item_names_ne hf hi) rfl) ei ej)
  | step h1 hk hs ih =>
    intro i' hi' ei k' hk' ek
    obtain ⟨j', hj', ej⟩ := item_other h h1.mem_right
    exact .step (ih i' hi' ei j' hj' ej) hk' (share_other hs ej ek)

theorem value_of_connected {s : ParserSettings} {c : Command} (hf : Fine s c) {i j : Item} (hc : Connected (items c) i j) : i.valueId = j.valueId := by
  obtain ⟨f, hu⟩ := hf.unique
  induction hc with
  | refl _ => rfl
  | step h1 hk hs ih =>
    obtain ⟨n, ha, hb⟩ := hs
    have e1 := hu _ h1.mem_right n ha
    rw [hu _ hk n hb] at e1
    rw [ih, Option.some.inj e1]

theorem corr_left {s : ParserSettings} {c c' : Command} (h : SameSelf c c') (hf : Fine s c) (hf' : Fine s c') (v w w' : Nat) (h1 : Corr c c' v w) (h2 : Corr c c' v w') :
    w = w' := by
  rcases h1 with ⟨rfl, rfl⟩ | ⟨i, hi, i', hi', e1, e2, rfl, rfl⟩
  · rcases h2 with ⟨_, rfl⟩ | ⟨j, hj, j', hj', e1, e2, e3, rfl⟩
    · rfl
    · have := hf.pos j hj
      omega
  · rcases h2 with ⟨h0, _⟩ | ⟨j, hj, j', hj', e3, e4, e5, rfl⟩
    · have := hf.pos i hi
      omega
    · exact value_of_connected hf' (connected_other h hf.ready (hf.sound i hi j hj e5.symm) i' hi' ⟨e1, e2⟩ j' hj' ⟨e3, e4⟩)

theorem Corr.symm {c c' : Command} {v w : Nat} (h : Corr c c' v w) : Corr c' c w v := by
  rcases h with ⟨rfl, rfl⟩ | ⟨i, hi, i', hi', e1, e2, e3, e4⟩
  · exact .inl ⟨rfl, rfl⟩
  · exact .inr ⟨i', hi', i, hi, e1.symm, e2.symm, e4, e3⟩

theorem option_item {c : Command} {o : OptData} (ho : o ∈ c.options) (hop : o.operation ≠ .none) : ⟨o.flags, aliasOf o.alias_, o.valueId⟩ ∈ items c :=
  List.mem_append_right _ (List.mem_map.mpr ⟨o, List.mem_filter.mpr ⟨ho, by simpa using hop⟩, rfl⟩)

theorem corr_option {c c' : Command} (h : SameSelf c c') {o o' : OptData} (ho : o ∈ c.options) (ho' : o' ∈ c'.options) (e : plainOpt o = plainOpt o') :
    SameOpt c c' o o' := by
  refine ⟨e, ?_⟩
  have e1 : o.flags = o'.flags := by have := congrArg OptData.flags e; exact this
  have e2 : o.alias_ = o'.alias_ := by have := congrArg OptData.alias_ e; exact this
  have e3 : o.operation = o'.operation := by have := congrArg OptData.operation e; exact this
  by_cases hop : o.operation = .none
  · exact .inl ⟨h.none o ho hop, h.none' o' ho' (e3 ▸ hop)⟩
  · exact .inr ⟨_, option_item ho hop, _, option_item ho' (e3 ▸ hop), e1, congrArg aliasOf e2, rfl, rfl⟩

theorem corr_argument {c c' : Command} {a a' : ArgData} (ha : a ∈ c.arguments) (ha' : a' ∈ c'.arguments) (e : plainArg a = plainArg a') : SameArg c c' a a' := by
  refine ⟨e, .inr ⟨⟨[a.name], aliasOf a.alias_, a.valueId⟩, List.mem_append_left _ (List.mem_map.mpr ⟨a, ha, rfl⟩),
    ⟨[a'.name], aliasOf a'.alias_, a'.valueId⟩, List.mem_append_left _ (List.mem_map.mpr ⟨a', ha', rfl⟩), ?_, ?_, rfl, rfl⟩⟩
  · have := congrArg ArgData.name e
    exact congrArg (fun x => [x]) this
  · have := congrArg ArgData.alias_ e
    exact congrArg aliasOf this

/-- A flag with its option without numbers. -/
def plainPair (p : Str × OptData) : Str × OptData := (p.1, plainOpt p.2)

theorem flagPairs_plain (os : List OptData) : (flagPairs os).map plainPair = flagPairs (os.map plainOpt) := by
  simp only [flagPairs, List.map_flatMap, List.flatMap_map, List.map_map]
  rfl

theorem flagPairs_perm {os os' : List OptData} (h : os.Perm os') : (flagPairs os).Perm (flagPairs os') := List.Perm.flatMap_right _ h

theorem index_same {s : ParserSettings} {c c' : Command} (h : SameSelf c c') (hf : Fine s c) (hf' : Fine s c') :
    Each (fun p p' => p.1 = p'.1 ∧ SameOpt c c' p.2 p'.2) c.optionIndex c'.optionIndex := by
  obtain ⟨⟨a1, _⟩, a2, _⟩ := buildOptionIndex_ok _ _ _ hf.keys hf.ready.index
  obtain ⟨⟨b1, _⟩, b2, _⟩ := buildOptionIndex_ok _ _ _ hf'.keys hf'.ready.index
  have hp : (c.optionIndex.map plainPair).Perm (c'.optionIndex.map plainPair) := by
    refine (a2.map plainPair).trans (List.Perm.trans ?_ (b2.map plainPair).symm)
    rw [flagPairs_plain, flagPairs_plain]
    exact flagPairs_perm h.options
  have he : c.optionIndex.map plainPair = c'.optionIndex.map plainPair := by
    refine List.Perm.eq_of_pairwise (le := fun a b => lexLess (flagKey s.caseInsensitive a.1) (flagKey s.caseInsensitive b.1) = true) ?_ ?_ ?_ hp
    · intro a b _ _ h1 h2
      rw [lexLess_asymm _ _ h1] at h2
      simp at h2
    · rw [List.pairwise_map]; exact a1
    · rw [List.pairwise_map]; exact b1
  refine eachOf he fun p hp p' hp' e => ?_
  have e1 : p.1 = p'.1 := by have := congrArg Prod.fst e; exact this
  have e2 : plainOpt p.2 = plainOpt p'.2 := by have := congrArg Prod.snd e; exact this
  have m1 : p.2 ∈ c.options := by
    have := a2.mem_iff.mp hp
    simp only [flagPairs, List.mem_flatMap, List.mem_map] at this
    obtain ⟨o, ho, f, hf, rfl⟩ := this
    exact ho
  have m2 : p'.2 ∈ c'.options := by
    have := b2.mem_iff.mp hp'
    simp only [flagPairs, List.mem_flatMap, List.mem_map] at this
    obtain ⟨o, ho, f, hf, rfl⟩ := this
    exact ho
  exact ⟨e1, corr_option h m1 m2 e2⟩

theorem lookup_fine {s : ParserSettings} {c : Command} (hf : Fine s c) {i : Item} (hi : i ∈ items c) {name : Str} (hn : name ∈ i.names) :
    getValueId (makeIds c) name = .ok i.valueId := by
  obtain ⟨f, hu⟩ := hf.unique
  obtain ⟨v, h1, ⟨j, hj, hjn, rfl⟩, _⟩ := (getValueId_makeIds c name).2 i.valueId ⟨i, hi, hn, rfl⟩
  have h2 := hu i hi name hn
  rw [hu j hj name hjn, Option.some.injEq] at h2
  rw [h1, h2]

theorem names_same {s : ParserSettings} {c c' : Command} (h : SameSelf c c') (hf : Fine s c) (hf' : Fine s c') (name : Str) :
    SameEnd (Corr c c') (getValueId (makeIds c) name) (getValueId (makeIds c') name) := by
  by_cases hn : ∃ i ∈ items c, name ∈ i.names
  · obtain ⟨i, hi, hn⟩ := hn
    obtain ⟨i', hi', e1, e2⟩ := item_other h hi
    rw [lookup_fine hf hi hn, lookup_fine hf' hi' (by simpa only [Item.names, ← e1, ← e2] using hn)]
    exact .inr ⟨i, hi, i', hi', e1, e2, rfl, rfl⟩
  · have h1 := (getValueId_makeIds c name).1 (by
      rintro ⟨v, i, hi, hin, _⟩
      exact hn ⟨i, hi, hin⟩)
    have h2 := (getValueId_makeIds c' name).1 (by
      rintro ⟨v, i', hi', hin, _⟩
      obtain ⟨i, hi, e1, e2⟩ := item_other h.symm hi'
      exact hn ⟨i, hi, by simpa only [Item.names, ← e1, ← e2] using hin⟩)
    rw [h1, h2]
    exact rfl

theorem alike_of_self {s : ParserSettings} {c c' : Command} (h : SameSelf c c') (hf : Fine s c) (hf' : Fine s c') (hc : Each Alike c.commands c'.commands) : Alike c c' := by
  refine .intro h.name h.fullName h.require h.multi (eachOf h.arguments fun a ha a' ha' e => corr_argument ha ha' e) (index_same h hf hf') ?_ ?_ hf.ready.flags_ne
    (corr_left h hf hf') (fun v v' w h1 h2 => corr_left h.symm hf' hf w v v' h1.symm h2.symm) (names_same h hf hf') hc
  · intro o ho
    obtain ⟨o', ho', e⟩ := h.option ho
    exact ⟨o', ho', corr_option h ho ho' e⟩
  · intro o' ho'
    obtain ⟨o, ho, e⟩ := h.symm.option ho'
    exact ⟨o, ho, corr_option h ho ho' e.symm⟩

/-! ## The initial values -/

theorem initialValues_entries (os : List OptData) {vs : Values} (h : vs.Sorted) :
    (Parser.initialValues os vs).Sorted ∧ ∀ v, (Parser.initialValues os vs).entries v = vs.entries v ++ initialsOf os v := by
  induction os generalizing vs with
  | nil => exact ⟨h, fun v => by simp [Parser.initialValues, initialsOf]⟩
  | cons o os ih =>
    simp only [Parser.initialValues]
    by_cases hi : o.initialValue = []
    · simp only [hi, List.isEmpty_nil, Bool.not_true, Bool.false_eq_true, if_false]
      obtain ⟨h1, h2⟩ := ih h
      refine ⟨h1, fun v => ?_⟩
      rw [h2 v]
      simp [initialsOf, hi]
    · have e : (!o.initialValue.isEmpty) = true := by
        cases ho : o.initialValue with
        | nil => exact absurd ho hi
        | cons _ _ => rfl
      rw [if_pos e]
      obtain ⟨h1, h2⟩ := ih (Values.append_sorted h o.valueId o.initialValue o.argumentId)
      refine ⟨h1, fun v => ?_⟩
      rw [h2 v, Values.append_entries h]
      by_cases hv : v = o.valueId
      · simp [hv, initialsOf, hi]
      · have : ¬ o.valueId = v := fun h => hv h.symm
        simp [hv, this, initialsOf]

theorem initials_perm {s : ParserSettings} {c c' : Command} (h : SameSelf c c') (hf : Fine s c) (hf' : Fine s c') {v v' : Nat} (hv : Corr c c' v v') :
    ((initialsOf c.options v).map (·.1)).Perm ((initialsOf c'.options v').map (·.1)) := by
  classical
  let q : OptData → Bool := fun p => decide (p.initialValue ≠ [] ∧ ∃ o ∈ c.options, plainOpt o = p ∧ o.valueId = v)
  have h1 : ((c.options.filter fun o => decide (o.valueId = v ∧ o.initialValue ≠ [])).map plainOpt) = (c.options.map plainOpt).filter q := by
    rw [List.filter_map]
    congr 1
    refine List.filter_congr fun o ho => ?_
    simp only [Function.comp, q]
    refine decide_eq_decide.mpr ⟨fun ⟨a, b⟩ => ⟨b, o, ho, rfl, a⟩, fun ⟨b, p, hp, e, a⟩ => ⟨?_, b⟩⟩
    obtain ⟨o', ho', e'⟩ := h.option ho
    have k1 := (corr_option h ho ho' e').value
    have k2 := (corr_option h hp ho' (e.trans e')).value
    rw [← a]
    exact corr_left h.symm hf' hf _ _ _ k1.symm k2.symm
  have h2 : ((c'.options.filter fun o => decide (o.valueId = v' ∧ o.initialValue ≠ [])).map plainOpt) = (c'.options.map plainOpt).filter q := by
    rw [List.filter_map]
    congr 1
    refine List.filter_congr fun o' ho' => ?_
    simp only [Function.comp, q]
    refine decide_eq_decide.mpr ⟨fun ⟨a, b⟩ => ?_, fun ⟨b, p, hp, e, a⟩ => ⟨?_, b⟩⟩
    · obtain ⟨o, ho, e⟩ := h.symm.option ho'
      refine ⟨b, o, ho, e.symm, ?_⟩
      have k := (corr_option h ho ho' e.symm).value
      rw [a] at k
      exact corr_left h.symm hf' hf _ _ _ k.symm hv.symm
    · have k := (corr_option h hp ho' e).value
      rw [a] at k
      exact corr_left h hf hf' _ _ _ k hv
  have e : ∀ os : List OptData, ∀ w, (initialsOf os w).map (·.1) = ((os.filter fun o => decide (o.valueId = w ∧ o.initialValue ≠ [])).map plainOpt).map (·.initialValue) := by
    intro os w
    simp only [initialsOf, List.map_map]
    rfl
  rw [e, e, h1, h2]
  exact (h.options.filter q).map _

theorem initial_same {s : ParserSettings} {c c' : Command} (h : SameSelf c c') (hf : Fine s c) (hf' : Fine s c') (h1 : ∀ v, (initialsOf c.options v).length ≤ 1) :
    SameStore c c' (Parser.initialValues c.options []) (Parser.initialValues c'.options []) := by
  obtain ⟨a1, a2⟩ := initialValues_entries c.options (vs := []) List.Pairwise.nil
  obtain ⟨b1, b2⟩ := initialValues_entries c'.options (vs := []) List.Pairwise.nil
  refine ⟨a1, b1, fun v v' hv => ?_⟩
  rw [a2, b2]
  have hp := initials_perm h hf hf' hv
  have hl := h1 v
  show (initialsOf c.options v).map (·.1) = (initialsOf c'.options v').map (·.1)
  have hl' : ((initialsOf c.options v).map (·.1)).length ≤ 1 := by rw [List.length_map]; exact hl
  revert hp hl'
  generalize (initialsOf c.options v).map (·.1) = x
  generalize (initialsOf c'.options v').map (·.1) = y
  intro hp hl'
  match x, hl' with
  | [], _ => exact (List.nil_perm.mp hp).symm ▸ rfl
  | [a], _ => exact (List.perm_singleton.mp hp.symm).symm

/-! ## The initialisation -/

theorem validateAll_map {style : OptionStyle} {os os' : List OptData} (h : validateAll style os = .ok os') :
    os' = os.map fun o => match validateAndUpdate o style with | .ok o' => o' | _ => o := by
  induction os generalizing os' with
  | nil => simp [validateAll] at h; subst h; rfl
  | cons o os ih =>
    simp only [validateAll] at h
    rw [Outcome.bind_eq_ok] at h
    obtain ⟨o1, h1, h⟩ := h
    rw [Outcome.bind_eq_ok] at h
    obtain ⟨os1, h2, h⟩ := h
    simp only [Outcome.pure_eq, Outcome.ok.injEq] at h
    subst h
    simp only [List.map_cons, h1, ← ih h2]

theorem validateAndUpdate_valueId {o o' : OptData} {style : OptionStyle} (h : validateAndUpdate o style = .ok o') : o'.valueId = o.valueId := by
  unfold validateAndUpdate at h
  split at h
  · simp at h
  rw [Outcome.bind_eq_ok] at h
  obtain ⟨_, _, h⟩ := h
  split at h
  · simp at h
  split at h
  · repeat' split at h
    all_goals first | (simp only [Outcome.ok.injEq] at h; subst h; rfl) | simp at h
  · repeat' split at h
    all_goals first | (simp only [Outcome.ok.injEq] at h; subst h; rfl) | simp at h
  · repeat' split at h
    all_goals first | (simp only [Outcome.ok.injEq] at h; subst h; rfl) | simp at h
  · by_cases hc : (!o.argument.isEmpty || !o.constant.isEmpty) = true
    · simp only [hc, if_true] at h
      split at h
      · simp at h
      · simp only [Outcome.ok.injEq] at h; subst h; rfl
    · simp only [if_neg hc] at h
      split at h
      · simp at h
      · simp only [Outcome.ok.injEq] at h; subst h; rfl

theorem any_perm {α : Type} {l l' : List α} (h : l.Perm l') (p : α → Bool) : l.any p = l'.any p := by
  rw [Bool.eq_iff_iff, List.any_eq_true, List.any_eq_true]
  constructor
  · rintro ⟨x, hx, hp⟩; exact ⟨x, h.mem_iff.mp hx, hp⟩
  · rintro ⟨x, hx, hp⟩; exact ⟨x, h.mem_iff.mpr hx, hp⟩

theorem addHelpOption_perm {os os' : List OptData} (h : os.Perm os') (sec : Str) (s : ParserSettings) : (addHelpOption os sec s).Perm (addHelpOption os' sec s) := by
  have h1 : hasHelpOption os = hasHelpOption os' := any_perm h _
  have h2 : ∀ f ci, hasFlag os f ci = hasFlag os' f ci := fun f ci => any_perm h _
  have h3 : helpFlags os s.optionStyle s.caseInsensitive = helpFlags os' s.optionStyle s.caseInsensitive := by simp only [helpFlags, h2]
  simp only [addHelpOption, h1, h3]
  repeat' split
  all_goals first | exact h | exact h.append_right _

theorem addVersionOption_perm {os os' : List OptData} (h : os.Perm os') (sec v : Str) (s : ParserSettings) :
    (addVersionOption os sec v s).Perm (addVersionOption os' sec v s) := by
  have h2 : ∀ f ci, hasFlag os f ci = hasFlag os' f ci := fun f ci => any_perm h _
  have h3 : versionFlag os s.optionStyle s.caseInsensitive = versionFlag os' s.optionStyle s.caseInsensitive := by simp only [versionFlag, h2]
  simp only [addVersionOption, h3]
  repeat' split
  all_goals first | exact h | exact h.append_right _

theorem addHelpOption_zero {os : List OptData} (h : ∀ o ∈ os, o.valueId = 0) (sec : Str) (s : ParserSettings) : ∀ o ∈ addHelpOption os sec s, o.valueId = 0 := by
  simp only [addHelpOption]
  repeat' split
  all_goals first | exact h | skip
  intro o ho
  rcases List.mem_append.mp ho with ho | ho
  · exact h o ho
  · rw [List.mem_singleton.mp ho]

theorem addVersionOption_zero {os : List OptData} (h : ∀ o ∈ os, o.valueId = 0) (sec v : Str) (s : ParserSettings) : ∀ o ∈ addVersionOption os sec v s, o.valueId = 0 := by
  simp only [addVersionOption]
  repeat' split
  all_goals first | exact h | skip
  intro o ho
  rcases List.mem_append.mp ho with ho | ho
  · exact h o ho
  · rw [List.mem_singleton.mp ho]

theorem setOptIds_zero {os : List OptData} (h : ∀ o ∈ os, o.valueId = 0) (n : Nat) (m : IdMaker) :
    ∀ o ∈ (setOptIds os n m).1, o.operation = .none → o.valueId = 0 := by
  induction os generalizing n m with
  | nil => intro o ho; simp [setOptIds] at ho
  | cons p os ih =>
    have ih' := fun n m => ih (fun o ho => h o (by simp [ho])) n m
    unfold setOptIds
    by_cases hop : p.operation = .none
    · rw [if_pos hop]
      intro o ho hn
      rcases List.mem_cons.mp ho with rfl | ho
      · exact h p (by simp)
      · exact ih' _ _ o ho hn
    · rw [if_neg hop]
      intro o ho hn
      rcases List.mem_cons.mp ho with rfl | ho
      · exact absurd hn hop
      · exact ih' _ _ o ho hn

theorem self_same {s : ParserSettings} {fn : Str} {c0 c0' c c' : Command} {a b a' b' x y x' y' : Nat} (ho : c0'.options.Perm c0.options)
    (harg : c0'.arguments = c0.arguments) (hname : c0'.name = c0.name) (hmulti : c0'.multiCommand = c0.multiCommand)
    (hreq : c0'.requireSubcommand = c0.requireSubcommand) (hsec : c0'.currentSection = c0.currentSection) (hcmd : c0'.commands.isEmpty = c0.commands.isEmpty)
    (hz : ∀ o ∈ c0.options, o.valueId = 0) (h : finishSelf s fn c0 a b = .ok (c, x, y)) (h' : finishSelf s fn c0' a' b' = .ok (c', x', y')) : SameSelf c c' := by
  obtain ⟨os, h1, h2, ⟨h3, h4, _, _⟩, _, _, _, h5, h6, _, _, h7, _⟩ := finishSelf_ok h
  obtain ⟨os', k1, k2, ⟨k3, k4, _, _⟩, _, _, _, k5, k6, _, _, k7, _⟩ := finishSelf_ok h'
  have e1 := validateAll_map h1
  have e2 := validateAll_map k1
  have hp : os.Perm os' := by rw [e1, e2]; exact (ho.map _).symm
  have hz1 : ∀ o ∈ os, o.valueId = 0 := by
    rw [e1]
    intro o ho
    obtain ⟨o0, ho0, rfl⟩ := List.mem_map.mp ho
    split
    · rename_i o' e
      rw [validateAndUpdate_valueId e]
      exact hz o0 ho0
    · exact hz o0 ho0
  have hz2 : ∀ o ∈ os', o.valueId = 0 := fun o ho => hz1 o (hp.mem_iff.mpr ho)
  have hp2 := addHelpOption_perm hp c0.currentSection s
  refine ⟨by rw [h5, k5, hname], by rw [h6, k6], ?_, by rw [h7, k7, hmulti], ?_, ?_, ?_, ?_⟩
  · have : updateRequireCommand c0'.requireSubcommand c0'.commands = updateRequireCommand c0.requireSubcommand c0.commands := by
      simp only [updateRequireCommand, hreq, hcmd]
    rw [this, h2] at k2
    exact Outcome.ok.inj k2
  · rw [h3, k3, harg]
    exact (setArgIds_noIds _ _ _).trans (setArgIds_noIds _ _ _).symm
  · rw [h4, k4, hsec]
    have f1 := setOptIds_noIds (addHelpOption os c0.currentSection s) (setArgIds c0.arguments (b + 1) ⟨[], a⟩).2.1 (setArgIds c0.arguments (b + 1) ⟨[], a⟩).2.2
    have f2 := setOptIds_noIds (addHelpOption os' c0.currentSection s) (setArgIds c0'.arguments (b' + 1) ⟨[], a'⟩).2.1 (setArgIds c0'.arguments (b' + 1) ⟨[], a'⟩).2.2
    have g : (plainOpt : OptData → OptData) = OptData.noIds := rfl
    rw [g, f1, f2]
    exact hp2.map _
  · rw [h4]
    exact setOptIds_zero (addHelpOption_zero hz1 _ _) _ _
  · rw [k4]
    exact setOptIds_zero (addHelpOption_zero hz2 _ _) _ _

theorem reorderedAll_isEmpty {cs cs' : List Command} (h : ReorderedAll cs cs') : cs'.isEmpty = cs.isEmpty := by
  cases h <;> rfl

mutual
theorem reordered_alike {s : ParserSettings} : (c0 : Command) → ∀ {c0' : Command}, Reordered c0 c0' → ∀ {fn : Str} {a b a' b' : Nat} {c c' : Command},
    finishCommand s fn a b c0 = .ok c → finishCommand s fn a' b' c0' = .ok c' → (∀ x : Command, x.Within c0 → ∀ o ∈ x.options, o.valueId = 0) →
    (∀ x, x.Within c → Fine s x) → (∀ x, x.Within c' → Fine s x) → Alike c c' ∧ SameSelf c c'
  | c0, _, .intro _ (os := os) (cs := cs) ho hcs, fn, a, b, a', b', c, c', h, h', hz, hf, hf' => by
    obtain ⟨c1, x, y, cmds, h1, h2, rfl⟩ := finishCommand_ok h
    obtain ⟨c1', x', y', cmds', h1', h2', rfl⟩ := finishCommand_ok h'
    have hsub : Each Alike cmds cmds' := by
      refine reorderedAll_alike c0.commands hcs h2 h2' (fun t ht x hx => hz x (.sub ht hx)) (fun t ht x hx => hf x (.sub ht hx)) fun t ht x hx => hf' x (.sub ht hx)
    have hemp : cs.isEmpty = c0.commands.isEmpty := reorderedAll_isEmpty hcs
    have hself := self_same (c0' := { c0 with options := os, commands := cs }) ho rfl rfl rfl rfl rfl hemp (hz c0 .self) h1 h1'
    have hself' : SameSelf { c1 with commands := cmds } { c1' with commands := cmds' } := by
      obtain ⟨g1, g2, g3, g4, g5, g6, g7, g8⟩ := hself
      exact ⟨g1, g2, g3, g4, g5, g6, g7, g8⟩
    exact ⟨alike_of_self hself' (hf _ .self) (hf' _ .self) hsub, hself'⟩
theorem reorderedAll_alike {s : ParserSettings} : (cs0 : List Command) → ∀ {cs0' : List Command}, ReorderedAll cs0 cs0' → ∀ {pn : Str} {a b a' b' : Nat} {cs cs' : List Command},
    finishCommands s pn a b cs0 = .ok cs → finishCommands s pn a' b' cs0' = .ok cs' → (∀ t ∈ cs0, ∀ x : Command, x.Within t → ∀ o ∈ x.options, o.valueId = 0) →
    (∀ t ∈ cs, ∀ x, x.Within t → Fine s x) → (∀ t ∈ cs', ∀ x, x.Within t → Fine s x) → Each Alike cs cs'
  | [], _, .nil, pn, a, b, a', b', cs, cs', h, h', _, _, _ => by
    simp only [finishCommands, Outcome.ok.injEq] at h h'
    subst h h'
    exact .nil
  | c0 :: cs0, _, .cons (c' := c0') hc hcs, pn, a, b, a', b', cs, cs', h, h', hz, hf, hf' => by
    unfold finishCommands at h h'
    rw [Outcome.bind_eq_ok] at h h'
    obtain ⟨c, h1, h⟩ := h
    obtain ⟨c', h1', h'⟩ := h'
    rw [Outcome.bind_eq_ok] at h h'
    obtain ⟨cs, h2, h⟩ := h
    obtain ⟨cs', h2', h'⟩ := h'
    simp only [Outcome.pure_eq, Outcome.ok.injEq] at h h'
    subst h h'
    have hn : c0'.name = c0.name := by cases hc; rfl
    rw [hn] at h1'
    refine .cons ?_ ?_
    · exact (reordered_alike c0 hc h1 h1' (fun x hx => hz c0 (by simp) x hx) (fun x hx => hf c (by simp) x hx) (fun x hx => hf' c' (by simp) x hx)).1
    · exact reorderedAll_alike cs0 hcs h2 h2' (fun t ht => hz t (by simp [ht])) (fun t ht => hf t (by simp [ht])) (fun t ht => hf' t (by simp [ht]))
end

/-! ## Numbers of values are positive -/

theorem giveAll_pos (l : List (List Str × Option Str)) (m : IdMaker) (h : ∀ n v, m.find n = some v → 0 < v) : ∀ i ∈ (m.giveAll l).1, 0 < i.valueId := by
  induction l generalizing m with
  | nil => intro i hi; simp [IdMaker.giveAll] at hi
  | cons x l ih =>
    obtain ⟨own, al⟩ := x
    have hg := give_spec m own al
    simp only at hg
    have hpos : 0 < (m.give own al).1 := by
      rcases hg.1 with ⟨⟨n, _, hn⟩, _⟩ | ⟨h1, _⟩
      · exact h n _ hn
      · omega
    intro i hi
    simp only [IdMaker.giveAll] at hi
    rcases List.mem_cons.mp hi with rfl | hi
    · exact hpos
    · refine ih _ ?_ i hi
      intro n v hv
      rcases hg.2 n with e | ⟨_, e, _⟩
      · rw [e] at hv; exact h n v hv
      · rw [e] at hv
        rw [← Option.some.inj hv]
        exact hpos

/-- Every command of an initialised parser is fine. -/
theorem fine_of_init {d d' : ParserData} (h : finishInitialization d = .ok d') {c : Command} (hc : c.Within d'.command) (hb : BackwardLinks (items c))
    (hr : RegularFlags d.settings.caseInsensitive c.options) : Fine d.settings c := by
  refine ⟨by rw [← (finishInitialization_ok h).1]; exact optionsReady h c hc, regular_keyOk _ _ hr, declares_unique h hc hb,
    fun i hi j hj => C19_sound h hc hi hj, ?_⟩
  · obtain ⟨l, a, hl⟩ := items_given h hc
    rw [hl]
    exact giveAll_pos l _ (by intro n v hv; simp [IdMaker.find] at hv)

/-! ## The flags before and after the initialisation -/

theorem regular_self {s : ParserSettings} {fn : Str} {c c' : Command} {a b x y : Nat} (hreg : RegularFlags s.caseInsensitive c.options)
    (h : finishSelf s fn c a b = .ok (c', x, y)) : RegularFlags s.caseInsensitive c'.options := by
  obtain ⟨opts, h1, h2, ⟨h3a, h3b, _, _⟩, h4, _⟩ := finishSelf_ok h
  have e1 := flagsOf_map_core (validateAll_ok _ _ _ h1).1
  have e2 : flagsOf c'.options = flagsOf (addHelpOption opts c.currentSection s) := by
    rw [h3b]; exact flagsOf_map_core (map_core_of_noIds (setOptIds_noIds _ _ _))
  unfold RegularFlags
  rw [e2]
  apply regular_addHelp
  unfold RegularFlags
  rw [e1]
  exact hreg

mutual
theorem regular_finish {s : ParserSettings} : (c0 : Command) → ∀ {fn : Str} {a b : Nat} {c : Command}, finishCommand s fn a b c0 = .ok c →
    (∀ x : Command, x.Within c0 → RegularFlags s.caseInsensitive x.options) → ∀ x : Command, x.Within c → RegularFlags s.caseInsensitive x.options
  | ⟨arguments, options, commands, currentSection, name, fn0, texts, visibility, requireSubcommand, multiCommand, section_, id, argumentId, optionIndex⟩,
      fn, a, b, c, h, hr, x, hx => by
    obtain ⟨c1, k, l, cmds, h1, h2, rfl⟩ := finishCommand_ok h
    cases hx with
    | self =>
      have := regular_self (hr _ .self) h1
      exact this
    | sub ht hx => exact regular_finishAll commands h2 (fun t ht x hx => hr x (.sub ht hx)) _ ht x hx
theorem regular_finishAll {s : ParserSettings} : (cs0 : List Command) → ∀ {pn : Str} {a b : Nat} {cs : List Command}, finishCommands s pn a b cs0 = .ok cs →
    (∀ t ∈ cs0, ∀ x : Command, x.Within t → RegularFlags s.caseInsensitive x.options) → ∀ t ∈ cs, ∀ x : Command, x.Within t → RegularFlags s.caseInsensitive x.options
  | [], pn, a, b, cs, h, hr, t, ht, x, hx => by
    simp only [finishCommands, Outcome.ok.injEq] at h
    subst h
    simp at ht
  | c0 :: cs0, pn, a, b, cs, h, hr, t, ht, x, hx => by
    unfold finishCommands at h
    rw [Outcome.bind_eq_ok] at h
    obtain ⟨c, h1, h⟩ := h
    rw [Outcome.bind_eq_ok] at h
    obtain ⟨cs, h2, h⟩ := h
    simp only [Outcome.pure_eq, Outcome.ok.injEq] at h
    subst h
    rcases List.mem_cons.mp ht with rfl | ht
    · exact regular_finish c0 h1 (hr c0 (by simp)) x hx
    · exact regular_finishAll cs0 h2 (fun t ht => hr t (by simp [ht])) t ht x hx
end

theorem regular_init {d0 d : ParserData} (h : finishInitialization d0 = .ok d)
    (hr : ∀ x : Command, x.Within d0.command → RegularFlags d0.settings.caseInsensitive x.options) :
    ∀ x : Command, x.Within d.command → RegularFlags d0.settings.caseInsensitive x.options := by
  obtain ⟨_, _, _, fn, c, h1, rfl⟩ := finishInitialization_ok h
  refine regular_finish _ h1 fun x hx => ?_
  cases hx with
  | self => exact regular_addVersion (hr _ .self)
  | sub ht hx => exact hr x (.sub ht hx)

theorem regular_perm {ci : Bool} {os os' : List OptData} (h : os'.Perm os) (hr : RegularFlags ci os) : RegularFlags ci os' := by
  intro hci f hf
  refine hr hci f ?_
  obtain ⟨o, ho, hf⟩ := List.mem_flatMap.mp hf
  exact List.mem_flatMap.mpr ⟨o, h.mem_iff.mp ho, hf⟩

mutual
theorem reordered_within : (c : Command) → ∀ {c' : Command}, Reordered c c' → ∀ x' : Command, x'.Within c' → ∃ x : Command, x.Within c ∧ x'.options.Perm x.options
  | c, _, .intro _ ho hcs, x', hx => by
    cases hx with
    | self => exact ⟨c, .self, ho⟩
    | sub ht hx =>
      obtain ⟨t, ht, x, hx, hp⟩ := reordered_withinAll c.commands hcs _ ht x' hx
      exact ⟨x, .sub ht hx, hp⟩
theorem reordered_withinAll : (cs : List Command) → ∀ {cs' : List Command}, ReorderedAll cs cs' → ∀ t' ∈ cs', ∀ x' : Command, x'.Within t' →
    ∃ t ∈ cs, ∃ x : Command, x.Within t ∧ x'.options.Perm x.options
  | [], _, .nil, t', ht, x', hx => by simp at ht
  | c :: cs, _, .cons hc hcs, t', ht, x', hx => by
    rcases List.mem_cons.mp ht with e | ht
    · obtain ⟨x, hx, hp⟩ := reordered_within c hc x' (e ▸ hx)
      exact ⟨c, by simp, x, hx, hp⟩
    · obtain ⟨t, ht, x, hx, hp⟩ := reordered_withinAll cs hcs t' ht x' hx
      exact ⟨t, by simp [ht], x, hx, hp⟩
end

theorem reordered_regular {ci : Bool} {c c' : Command} (h : Reordered c c') (hr : ∀ x : Command, x.Within c → RegularFlags ci x.options) :
    ∀ x : Command, x.Within c' → RegularFlags ci x.options := by
  intro x hx
  obtain ⟨y, hy, hp⟩ := reordered_within c h x hx
  exact regular_perm hp (hr y hy)

/-! ## Which declarations are accepted -/

theorem validateAll_perm {style : OptionStyle} {os os' os1 : List OptData} (h : os'.Perm os) (hv : validateAll style os = .ok os1) :
    ∃ os2, validateAll style os' = .ok os2 := by
  have h1 : ∀ o ∈ os, ∃ o', validateAndUpdate o style = .ok o' := by
    clear h
    induction os generalizing os1 with
    | nil => intro o ho; simp at ho
    | cons p os ih =>
      simp only [validateAll] at hv
      rw [Outcome.bind_eq_ok] at hv
      obtain ⟨p1, h1, hv⟩ := hv
      rw [Outcome.bind_eq_ok] at hv
      obtain ⟨os2, h2, _⟩ := hv
      intro o ho
      rcases List.mem_cons.mp ho with rfl | ho
      · exact ⟨_, h1⟩
      · exact ih h2 o ho
  have h2 : ∀ o ∈ os', ∃ o', validateAndUpdate o style = .ok o' := fun o ho => h1 o (h.mem_iff.mp ho)
  clear h1 h hv
  induction os' with
  | nil => exact ⟨[], rfl⟩
  | cons p os' ih =>
    obtain ⟨p', hp⟩ := h2 p (by simp)
    obtain ⟨os2, hos⟩ := ih fun o ho => h2 o (by simp [ho])
    refine ⟨p' :: os2, ?_⟩
    simp only [validateAll, hp, hos, Outcome.bind_ok]
    rfl

theorem sameFlag_symm {ci : Bool} {f g : Str} (h : SameFlag ci f g) : SameFlag ci g f := by
  unfold SameFlag at *
  split at h <;> simp_all

theorem distinct_perm {ci : Bool} {os os' : List OptData} (h : os'.Perm os) (hd : DistinctFlags ci os) : DistinctFlags ci os' := by
  unfold DistinctFlags at *
  refine (List.Perm.pairwise_iff ?_ ?_).mpr hd
  · intro a b h1 h2
    exact h1 (sameFlag_symm h2)
  · exact List.Perm.flatMap_right _ h

mutual
theorem reordered_accepted {s : ParserSettings} : (c0 : Command) → ∀ {c0' : Command}, Reordered c0 c0' → ∀ {fn : Str} {a b : Nat} {c : Command},
    finishCommand s fn a b c0 = .ok c → (∀ x : Command, x.Within c0 → RegularFlags s.caseInsensitive x.options) →
    ∀ fn' a' b', ∃ c', finishCommand s fn' a' b' c0' = .ok c'
  | c0, _, .intro _ (os := os) (cs := cs) ho hcs, fn, a, b, c, h, hr, fn', a', b' => by
    obtain ⟨c1, x, y, cmds, h1, h2, rfl⟩ := finishCommand_ok h
    have hd := finishSelf_distinct (hr _ .self) h1
    obtain ⟨opts, g1, g2, _⟩ := finishSelf_ok h1
    obtain ⟨opts', g1'⟩ := validateAll_perm ho g1
    have hemp : cs.isEmpty = c0.commands.isEmpty := reorderedAll_isEmpty hcs
    have g2' : updateRequireCommand c0.requireSubcommand cs = .ok c1.requireSubcommand := by
      rw [← g2]
      simp only [updateRequireCommand, hemp]
    obtain ⟨c2, x2, y2, k1⟩ := finishSelf_intro (c := { c0 with options := os, commands := cs }) (fn := fn') (a := a') (b := b') (s := s) g1' g2'
      (regular_perm ho (hr _ .self)) (distinct_perm ho hd)
    obtain ⟨cmds', k2⟩ := reorderedAll_accepted c0.commands hcs h2 (fun t ht x hx => hr x (.sub ht hx)) c0.name x2 y2
    exact ⟨_, finishCommand_intro k1 k2⟩
theorem reorderedAll_accepted {s : ParserSettings} : (cs0 : List Command) → ∀ {cs0' : List Command}, ReorderedAll cs0 cs0' → ∀ {pn : Str} {a b : Nat} {cs : List Command},
    finishCommands s pn a b cs0 = .ok cs → (∀ t ∈ cs0, ∀ x : Command, x.Within t → RegularFlags s.caseInsensitive x.options) →
    ∀ pn' a' b', ∃ cs', finishCommands s pn' a' b' cs0' = .ok cs'
  | [], _, .nil, pn, a, b, cs, h, hr, pn', a', b' => ⟨[], rfl⟩
  | c0 :: cs0, _, .cons (c' := c0') hc hcs, pn, a, b, cs, h, hr, pn', a', b' => by
    unfold finishCommands at h
    rw [Outcome.bind_eq_ok] at h
    obtain ⟨c, h1, h⟩ := h
    rw [Outcome.bind_eq_ok] at h
    obtain ⟨cs, h2, h⟩ := h
    obtain ⟨c', k1⟩ := reordered_accepted c0 hc h1 (hr c0 (by simp)) (pn' ++ [32] ++ c0'.name) a' b'
    obtain ⟨cs', k2⟩ := reorderedAll_accepted cs0 hcs h2 (fun t ht => hr t (by simp [ht])) pn' a' b'
    refine ⟨c' :: cs', ?_⟩
    unfold finishCommands
    rw [k1, Outcome.bind_ok, k2]
    rfl
end

/-- The version option doesn't change which commands are reorderings of each other. -/
theorem reordered_version {c c' : Command} (h : Reordered c c') (sec v : Str) (s : ParserSettings) :
    Reordered { c with options := addVersionOption c.options sec v s } { c' with options := addVersionOption c'.options sec v s } := by
  cases h with
  | intro _ ho hcs =>
    exact .intro { c with options := addVersionOption c.options sec v s } (addVersionOption_perm ho sec v s) hcs

mutual
theorem _root_.Argos.Spec.Reordered.symm : (c : Command) → ∀ {c' : Command}, Reordered c c' → Reordered c' c
  | c, _, .intro _ (os := os) (cs := cs) ho hcs => by
    have := Reordered.intro { c with options := os, commands := cs } (os := c.options) (cs := c.commands) ho.symm (Argos.Spec.ReorderedAll.symm c.commands hcs)
    cases c
    exact this
theorem _root_.Argos.Spec.ReorderedAll.symm : (cs : List Command) → ∀ {cs' : List Command}, ReorderedAll cs cs' → ReorderedAll cs' cs
  | [], _, .nil => .nil
  | c :: cs, _, .cons hc hcs => .cons (Argos.Spec.Reordered.symm c hc) (Argos.Spec.ReorderedAll.symm cs hcs)
end

theorem init_accepted {d0 d : ParserData} {c' : Command} (hr : Reordered d0.command c') (h : finishInitialization d0 = .ok d)
    (hreg : ∀ x : Command, x.Within d0.command → RegularFlags d0.settings.caseInsensitive x.options) :
    ∃ d', finishInitialization { d0 with command := c' } = .ok d' := by
  obtain ⟨_, _, _, fn, c, h1, rfl⟩ := finishInitialization_ok h
  have hv := reordered_version hr d0.command.currentSection d0.version d0.settings
  have hs : c'.currentSection = d0.command.currentSection := by cases hr; rfl
  obtain ⟨c2, h2⟩ := reordered_accepted _ hv h1 (by
    intro x hx
    cases hx with
    | self => exact regular_addVersion (hreg _ .self)
    | sub ht hx => exact hreg x (.sub ht hx)) (if c'.fullName.isEmpty then c'.name else c'.fullName) 0 0
  refine ⟨{ d0 with command := c2 }, ?_⟩
  unfold finishInitialization
  have e : addVersionOption c'.options c'.currentSection d0.version d0.settings = addVersionOption c'.options d0.command.currentSection d0.version d0.settings := by rw [hs]
  simp only [e]
  rw [h2]
  rfl

/-- Parsers with reordered options are alike after the initialisation. -/
theorem init_alike {d0 d d' : ParserData} {c' : Command} (hr : Reordered d0.command c') (h : finishInitialization d0 = .ok d)
    (h' : finishInitialization { d0 with command := c' } = .ok d') (hz : ∀ x : Command, x.Within d0.command → ∀ o ∈ x.options, o.valueId = 0)
    (hreg : ∀ x : Command, x.Within d0.command → RegularFlags d0.settings.caseInsensitive x.options)
    (hb : ∀ x : Command, x.Within d.command → BackwardLinks (items x)) (hb' : ∀ x : Command, x.Within d'.command → BackwardLinks (items x)) :
    Alike d.command d'.command ∧ SameSelf d.command d'.command ∧ Fine d0.settings d.command ∧ Fine d0.settings d'.command := by
  have hf : ∀ x : Command, x.Within d.command → Fine d0.settings x := fun x hx => fine_of_init h hx (hb x hx) (regular_init h hreg x hx)
  have hf' : ∀ x : Command, x.Within d'.command → Fine d0.settings x := fun x hx =>
    fine_of_init h' hx (hb' x hx) (regular_init h' (reordered_regular hr hreg) x hx)
  refine ⟨?_, ?_, hf _ .self, hf' _ .self⟩
  all_goals
    have hs : c'.currentSection = d0.command.currentSection := by cases hr; rfl
    have hn : c'.name = d0.command.name := by cases hr; rfl
    have hn' : c'.fullName = d0.command.fullName := by cases hr; rfl
    have hv := reordered_version hr d0.command.currentSection d0.version d0.settings
    unfold finishInitialization at h h'
    simp only at h h'
    rw [Outcome.bind_eq_ok] at h h'
    obtain ⟨c1, h1, h⟩ := h
    obtain ⟨c1', h1', h'⟩ := h'
    simp only [Outcome.pure_eq, Outcome.ok.injEq] at h h'
    subst h h'
    have e : addVersionOption c'.options c'.currentSection d0.version d0.settings = addVersionOption c'.options d0.command.currentSection d0.version d0.settings := by rw [hs]
    have e' : (if c'.fullName.isEmpty then c'.name else c'.fullName) = if d0.command.fullName.isEmpty then d0.command.name else d0.command.fullName := by rw [hn, hn']
    rw [e, e'] at h1'
    have := reordered_alike _ hv h1 h1' (by
      intro x hx
      cases hx with
      | self => exact addVersionOption_zero (hz _ .self) _ _ _
      | sub ht hx => exact hz x (.sub ht hx)) hf hf'
    first | exact this.1 | exact this.2

end Argos
