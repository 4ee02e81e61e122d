import Verif.Proofs.Order

/-! # Correctness of the option index and its bisection -/

namespace Argos

/-- An index sorted by key, without equal keys. -/
def IndexOk (ci : Bool) (index : List (Str × OptData)) : Prop :=
  index.Pairwise (fun a b => lexLess (flagKey ci a.1) (flagKey ci b.1) = true) ∧
    ∀ a ∈ index, KeyOk ci a.1

theorem strictWeakOrder_flags (ci : Bool) (l : List (Str × OptData)) (h : ∀ a ∈ l, KeyOk ci a.1) :
    isStrictWeakOrder (fun (a b : Str × OptData) => isLess a.1 b.1 ci) l = true := by
  simp only [isStrictWeakOrder, List.all_eq_true, Bool.and_eq_true, Bool.or_eq_true,
    Bool.not_eq_true', Bool.and_eq_false_iff]
  intro a ha
  rw [isLess_key ci _ _ (h a ha) (h a ha)]
  refine ⟨lexLess_irrefl _, ?_⟩
  intro b hb c hc
  rw [isLess_key ci _ _ (h a ha) (h b hb), isLess_key ci _ _ (h b hb) (h c hc),
    isLess_key ci _ _ (h a ha) (h c hc), isLess_key ci _ _ (h b hb) (h a ha),
    isLess_key ci _ _ (h c hc) (h b hb), isLess_key ci _ _ (h c hc) (h a ha)]
  constructor
  · cases h1 : lexLess (flagKey ci a.1) (flagKey ci b.1) with
    | false => simp
    | true =>
      cases h2 : lexLess (flagKey ci b.1) (flagKey ci c.1) with
      | false => simp
      | true => right; exact lexLess_trans _ _ _ h1 h2
  · cases h1 : lexLess (flagKey ci a.1) (flagKey ci b.1) <;>
      cases h2 : lexLess (flagKey ci b.1) (flagKey ci a.1) <;>
      cases h3 : lexLess (flagKey ci b.1) (flagKey ci c.1) <;>
      cases h4 : lexLess (flagKey ci c.1) (flagKey ci b.1) <;> simp
    exact ⟨lexLess_trans_not _ _ _ h3 h1, lexLess_trans_not _ _ _ h2 h4⟩

theorem sorted_flags (ci : Bool) (l : List (Str × OptData)) (h : ∀ a ∈ l, KeyOk ci a.1) :
    (sortList (fun (a b : Str × OptData) => isLess a.1 b.1 ci) l).Pairwise
      (fun a b => lexLess (flagKey ci b.1) (flagKey ci a.1) = false) := by
  have hs := sortList_sorted (fun (a b : Str × OptData) => isLess a.1 b.1 ci) l
    (by
      intro a ha b hb
      simp only [isLess_key ci _ _ (h a ha) (h b hb), isLess_key ci _ _ (h b hb) (h a ha)]
      exact lexLess_asymm _ _)
    (by
      intro a ha b hb c hc
      simp only [isLess_key ci _ _ (h b hb) (h a ha), isLess_key ci _ _ (h c hc) (h b hb),
        isLess_key ci _ _ (h c hc) (h a ha)]
      exact lexLess_trans_not _ _ _)
  have hp := sortList_perm (fun (a b : Str × OptData) => isLess a.1 b.1 ci) l
  rw [List.pairwise_iff_forall_sublist] at hs ⊢
  intro a b hab
  have := hs hab
  have hab' := hab.subset
  rw [← isLess_key ci _ _ (h b (hp.mem_iff.mp (hab' (by simp)))) (h a (hp.mem_iff.mp (hab' (by simp))))]
  exact this

/-- The list of flags is accepted exactly when no two flags have equal keys. -/
theorem buildOptionIndex_spec (ci : Bool) (options : List OptData)
    (h : ∀ o ∈ options, ∀ f ∈ o.flags, KeyOk ci f) :
    (((flagPairs options).Pairwise fun a b => flagKey ci a.1 ≠ flagKey ci b.1) →
      ∃ index, buildOptionIndex options ci = .ok index ∧ IndexOk ci index ∧
        index.Perm (flagPairs options)) ∧
    (¬ ((flagPairs options).Pairwise fun a b => flagKey ci a.1 ≠ flagKey ci b.1) →
      ∃ msg, buildOptionIndex options ci = .throw msg) := by
  have hk : ∀ a ∈ flagPairs options, KeyOk ci a.1 := by
    intro a ha
    simp only [flagPairs, List.mem_flatMap, List.mem_map] at ha
    obtain ⟨o, ho, f, hf, rfl⟩ := ha
    exact h o ho f hf
  have hswo := strictWeakOrder_flags ci _ hk
  have hsorted := sorted_flags ci _ hk
  have hperm := sortList_perm (fun (a b : Str × OptData) => isLess a.1 b.1 ci) (flagPairs options)
  simp only [buildOptionIndex, hswo, Bool.not_true, Bool.false_eq_true, if_false]
  generalize sortList (fun (a b : Str × OptData) => isLess a.1 b.1 ci) (flagPairs options) = sorted at *
  have hsym : ∀ {a b : Str × OptData}, flagKey ci a.1 ≠ flagKey ci b.1 → flagKey ci b.1 ≠ flagKey ci a.1 :=
    fun h e => h e.symm
  constructor
  · intro hd
    have hd' : sorted.Pairwise fun a b => flagKey ci a.1 ≠ flagKey ci b.1 :=
      (hperm.pairwise_iff hsym).mpr hd
    have hnone : adjacentFind (fun a b => areEqual a.1 b.1 ci) sorted = none := by
      rw [adjacentFind_none]
      intro i a b ha hb
      have hi : i + 1 < sorted.length := by
        apply Classical.byContradiction; intro hge
        rw [List.getElem?_eq_none (by omega)] at hb; simp at hb
      rw [List.getElem?_eq_getElem (by omega)] at ha hb
      simp at ha hb
      have := List.pairwise_iff_getElem.mp hd' i (i + 1) (by omega) hi (by omega)
      rw [ha, hb] at this
      cases he : areEqual a.1 b.1 ci with
      | false => rfl
      | true => exact absurd ((areEqual_key ci _ _).mp he) this
    refine ⟨sorted, by rw [hnone], ⟨?_, ?_⟩, hperm⟩
    · have := hsorted.and hd'
      refine this.imp ?_
      rintro a b ⟨h1, h2⟩
      cases h3 : lexLess (flagKey ci a.1) (flagKey ci b.1) with
      | true => rfl
      | false => exact absurd (lexLess_total _ _ h3 h1) h2
    · intro a ha; exact hk a (hperm.mem_iff.mp ha)
  · intro hd
    have hd' : ¬ sorted.Pairwise fun a b => flagKey ci a.1 ≠ flagKey ci b.1 := by
      rw [hperm.pairwise_iff hsym]; exact hd
    cases hadj : adjacentFind (fun a b => areEqual a.1 b.1 ci) sorted with
    | some p =>
      obtain ⟨a, b⟩ := p
      simp only
      split
      · exact ⟨_, rfl⟩
      · exact ⟨_, rfl⟩
    | none =>
      exfalso
      apply hd'
      rw [adjacentFind_none] at hadj
      -- neighbours strictly increase, hence all pairs
      have hadj2 : ∀ i (hi : i + 1 < sorted.length),
          lexLess (flagKey ci sorted[i].1) (flagKey ci sorted[i + 1].1) = true := by
        intro i hi
        have h1 := List.pairwise_iff_getElem.mp hsorted i (i + 1) (by omega) hi (by omega)
        have h2 := hadj i sorted[i] sorted[i + 1] (by simp) (by simp)
        cases h3 : lexLess (flagKey ci sorted[i].1) (flagKey ci sorted[i + 1].1) with
        | true => rfl
        | false =>
          have := (areEqual_key ci sorted[i].1 sorted[i + 1].1).mpr (lexLess_total _ _ h3 h1)
          rw [h2] at this; simp at this
      rw [List.pairwise_iff_getElem]
      intro i j hi hj hij
      have : ∀ d (hd : i + d + 1 < sorted.length),
          lexLess (flagKey ci sorted[i].1) (flagKey ci sorted[i + d + 1].1) = true := by
        intro d
        induction d with
        | zero => intro hd; exact hadj2 i hd
        | succ d ih =>
          intro hd
          exact lexLess_trans _ _ _ (ih (by omega)) (hadj2 (i + d + 1) (by omega))
      have h1 := this (j - i - 1) (by omega)
      have e : i + (j - i - 1) + 1 = j := by omega
      simp only [e] at h1
      intro he
      rw [he, lexLess_irrefl] at h1
      simp at h1

/-- Case-sensitive or regular: building the index never is undefined behaviour and the result, if
any, is sorted. -/
theorem buildOptionIndex_ok (ci : Bool) (options : List OptData) (index : List (Str × OptData))
    (h : ∀ o ∈ options, ∀ f ∈ o.flags, KeyOk ci f) (hb : buildOptionIndex options ci = .ok index) :
    IndexOk ci index ∧ index.Perm (flagPairs options) ∧
      (flagPairs options).Pairwise fun a b => flagKey ci a.1 ≠ flagKey ci b.1 := by
  obtain ⟨h1, h2⟩ := buildOptionIndex_spec ci options h
  by_cases hd : (flagPairs options).Pairwise fun a b => flagKey ci a.1 ≠ flagKey ci b.1
  · obtain ⟨i, h3, h4, h5⟩ := h1 hd
    rw [hb] at h3
    simp at h3
    subst h3
    exact ⟨h4, h5, hd⟩
  · obtain ⟨msg, h3⟩ := h2 hd
    rw [hb] at h3
    simp at h3

theorem findOptionImpl_spec (ci abbrev_ : Bool) (index : List (Str × OptData)) (hi : IndexOk ci index)
    (q : Str) (o : OptData) :
    findOptionImpl index q abbrev_ ci = some o ↔
      (∃ f, (f, o) ∈ index ∧ flagKey ci f = flagKey ci q) ∨
      (abbrev_ = true ∧ (∀ p ∈ index, flagKey ci p.1 ≠ flagKey ci q) ∧
        ∃ f, (f, o) ∈ index ∧ flagKey ci q <+: flagKey ci f ∧
          ∀ p ∈ index, flagKey ci q <+: flagKey ci p.1 → p = (f, o)) := by
  obtain ⟨hsort, hok⟩ := hi
  have hne : ∀ p ∈ index, flagKey ci p.1 ≠ flagKey ci q → (p.1 == q) = false ∧
      (ci && areEqualCi p.1 q) = false := by
    intro p _ hk
    constructor
    · cases h : (p.1 == q) with
      | false => rfl
      | true => simp at h; rw [h] at hk; exact absurd rfl hk
    · cases ci with
      | false => rfl
      | true =>
        cases h : areEqualCi p.1 q with
        | false => rfl
        | true =>
          exact absurd ((areEqual_key true _ _).mp (by simpa [areEqual] using h)) hk
  have heq : ∀ p ∈ index, flagKey ci p.1 = flagKey ci q → (p.1 == q) = true ∨
      (ci && areEqualCi p.1 q) = true := by
    intro p _ hk
    have := (areEqual_key ci p.1 q).mpr hk
    cases ci with
    | false => left; simpa [areEqual] using this
    | true => right; simpa [areEqual] using this
  by_cases hq : KeyOk ci q
  · -- the bisection finds the partition point
    have hless : ∀ p ∈ index, isLess p.1 q ci = lexLess (flagKey ci p.1) (flagKey ci q) :=
      fun p hp => isLess_key ci _ _ (hok p hp) hq
    obtain ⟨k, hk, h1, h2⟩ := exists_partition (fun (a : Str × OptData) f => isLess a.1 f ci) q index
      (by
        rw [List.pairwise_iff_forall_sublist] at hsort ⊢
        intro a b hab hb
        have hs := hsort hab
        have ha : a ∈ index := hab.subset (by simp)
        have hb' : b ∈ index := hab.subset (by simp)
        rw [hless b hb'] at hb
        rw [hless a ha]
        exact lexLess_trans _ _ _ hs hb)
    have hlb := lowerBound_partition (fun (a : Str × OptData) f => isLess a.1 f ci) index q k hk h1 h2
    simp only [findOptionImpl, hlb]
    have hpos : ∀ i j (hi : i < index.length) (hj : j < index.length), i < j →
        lexLess (flagKey ci index[i].1) (flagKey ci index[j].1) = true :=
      fun i j hi hj hij => List.pairwise_iff_getElem.mp hsort i j hi hj hij
    -- entries with prefix q are not before k
    have hafter : ∀ i (hi : i < index.length), flagKey ci q <+: flagKey ci index[i].1 → k ≤ i := by
      intro i hi hp
      apply Classical.byContradiction
      intro hlt
      have := h1 i index[i] (by omega) (by simp)
      rw [hless _ (by simp)] at this
      rw [lexLess_prefix _ _ hp] at this
      simp at this
    cases hx : index[k]? with
    | none =>
      have hkl : k = index.length := by
        have := List.getElem?_eq_none_iff.mp hx
        omega
      simp only [reduceCtorEq, false_iff]
      rintro (⟨f, hf, he⟩ | ⟨_, _, f, hf, hp, _⟩)
      · obtain ⟨i, hi, hif⟩ := List.mem_iff_getElem.mp hf
        have := hafter i hi (by rw [hif, he]; exact List.prefix_refl _)
        omega
      · obtain ⟨i, hi, hif⟩ := List.mem_iff_getElem.mp hf
        have := hafter i hi (by rw [hif]; exact hp)
        omega
    | some it =>
      have hkl : k < index.length := by
        apply Classical.byContradiction; intro hge
        rw [List.getElem?_eq_none (by omega)] at hx; simp at hx
      have hit : index[k] = it := by
        rw [List.getElem?_eq_getElem hkl] at hx; simpa using hx
      have hmem : it ∈ index := by rw [← hit]; simp
      have hitge : lexLess (flagKey ci it.1) (flagKey ci q) = false := by
        have := h2 k it (by omega) hx
        rwa [hless _ hmem] at this
      -- any entry with prefix q forces the same of all between k and it
      have hbetween : ∀ i j (hi : i < index.length) (hj : j < index.length), k ≤ i → i ≤ j →
          flagKey ci q <+: flagKey ci index[j].1 → flagKey ci q <+: flagKey ci index[i].1 := by
        intro i j hi hj hki hij hp
        by_cases e : i = j
        · subst e; exact hp
        · refine lexLess_between _ _ _ hp ?_ ?_
          · have := h2 i index[i] hki (by simp)
            rwa [hless _ (by simp)] at this
          · exact lexLess_asymm _ _ (hpos i j hi hj (by omega))
      simp only
      by_cases hkey : flagKey ci it.1 = flagKey ci q
      · -- exact
        suffices hs : some it.2 = some o ↔ _ by
          rcases heq it hmem hkey with h | h
          · rw [if_pos h]; exact hs
          · by_cases h' : (it.1 == q) = true
            · rw [if_pos h']; exact hs
            · rw [if_neg h', if_pos h]; exact hs
        simp only [Option.some.injEq]
        constructor
        · rintro rfl; exact Or.inl ⟨it.1, hmem, hkey⟩
        · rintro (⟨f, hf, he⟩ | ⟨_, hno, _⟩)
          · obtain ⟨i, hi, hif⟩ := List.mem_iff_getElem.mp hf
            have : i = k := by
              apply Classical.byContradiction
              intro hne
              rcases Nat.lt_or_gt_of_ne hne with hlt | hgt
              · have := hpos i k hi hkl hlt
                rw [hif, hit, he, hkey, lexLess_irrefl] at this
                simp at this
              · have := hpos k i hkl hi hgt
                rw [hif, hit, he, hkey, lexLess_irrefl] at this
                simp at this
            subst this
            rw [hit] at hif
            rw [hif]
          · exact absurd hkey (hno it hmem)
      · -- no exact match exists at all
        have hnoexact : ∀ p ∈ index, flagKey ci p.1 ≠ flagKey ci q := by
          intro p hp he
          obtain ⟨i, hi, hip⟩ := List.mem_iff_getElem.mp hp
          have hki := hafter i hi (by rw [hip, he]; exact List.prefix_refl _)
          by_cases e : i = k
          · subst e; rw [hit] at hip; rw [← hip] at he; exact hkey he
          · have := hpos k i hkl hi (by omega)
            rw [hit, hip, he, hitge] at this
            simp at this
        obtain ⟨hn1, hn2⟩ := hne it hmem hkey
        simp only [hn1, hn2, Bool.false_eq_true, if_false]
        cases abbrev_ with
        | false =>
          simp only [Bool.not_false, if_true, reduceCtorEq, false_and, or_false, false_iff]
          rintro ⟨f, hf, he⟩
          exact hnoexact _ hf he
        | true =>
          simp only [Bool.not_true, Bool.false_eq_true, if_false]
          by_cases hpre : flagKey ci q <+: flagKey ci it.1
          · have hs : startsWith it.1 q ci = true := (startsWith_key ci _ _).mpr hpre
            simp only [hs, Bool.not_true, Bool.false_eq_true, if_false]
            have hsingle : (∀ i (hi : i < index.length), flagKey ci q <+: flagKey ci index[i].1 → i = k) →
                (some it.2 = some o ↔ (∃ f, (f, o) ∈ index ∧ flagKey ci f = flagKey ci q) ∨
                  (True ∧ (∀ p ∈ index, flagKey ci p.1 ≠ flagKey ci q) ∧
                    ∃ f, (f, o) ∈ index ∧ flagKey ci q <+: flagKey ci f ∧
                      ∀ p ∈ index, flagKey ci q <+: flagKey ci p.1 → p = (f, o))) := by
              intro huniq
              constructor
              · intro h
                simp at h
                subst h
                refine Or.inr ⟨trivial, hnoexact, it.1, hmem, hpre, ?_⟩
                intro p hp hpp
                obtain ⟨i, hi, hip⟩ := List.mem_iff_getElem.mp hp
                have := huniq i hi (by rw [hip]; exact hpp)
                subst this
                rw [← hip, hit]
              · rintro (⟨f, hf, he⟩ | ⟨_, _, f, hf, hfp, huq⟩)
                · exact absurd he (hnoexact _ hf)
                · have := huq it hmem hpre
                  rw [this]
            cases hx2 : index[k + 1]? with
            | none =>
              simp only
              apply hsingle
              intro i hi hp
              have := hafter i hi hp
              have := List.getElem?_eq_none_iff.mp hx2
              omega
            | some nxt =>
              have hk1 : k + 1 < index.length := by
                apply Classical.byContradiction; intro hge
                rw [List.getElem?_eq_none (by omega)] at hx2; simp at hx2
              have hnx : index[k + 1] = nxt := by
                rw [List.getElem?_eq_getElem hk1] at hx2; simpa using hx2
              simp only
              by_cases hn : flagKey ci q <+: flagKey ci nxt.1
              · have : startsWith nxt.1 q ci = true := (startsWith_key ci _ _).mpr hn
                simp only [this, if_true, reduceCtorEq, false_iff]
                rintro (⟨f, hf, he⟩ | ⟨_, _, f, hf, hfp, huq⟩)
                · exact absurd he (hnoexact _ hf)
                · have e1 := huq it hmem hpre
                  have e2 := huq nxt (by rw [← hnx]; simp) hn
                  have := hpos k (k + 1) hkl hk1 (by omega)
                  rw [hit, hnx, e1, e2, lexLess_irrefl] at this
                  simp at this
              · have : startsWith nxt.1 q ci ≠ true := fun h => hn ((startsWith_key ci _ _).mp h)
                simp only [this, Bool.false_eq_true, if_false]
                apply hsingle
                intro i hi hp
                have := hafter i hi hp
                apply Classical.byContradiction
                intro hne2
                exact hn (by rw [← hnx]; exact hbetween (k + 1) i hk1 hi (by omega) (by omega) hp)
          · have hs : startsWith it.1 q ci = false := by
              cases h : startsWith it.1 q ci with
              | false => rfl
              | true => exact absurd ((startsWith_key ci _ _).mp h) hpre
            simp only [hs, Bool.not_false, if_true, reduceCtorEq, false_iff]
            rintro (⟨f, hf, he⟩ | ⟨_, _, f, hf, hfp, huq⟩)
            · exact absurd he (hnoexact _ hf)
            · obtain ⟨i, hi, hip⟩ := List.mem_iff_getElem.mp hf
              have hp' : flagKey ci q <+: flagKey ci index[i].1 := by rw [hip]; exact hfp
              have := hbetween k i hkl hi (by omega) (hafter i hi hp') hp'
              rw [hit] at this
              exact hpre this
  · -- the query has a byte no flag has
    have hno : ∀ p ∈ index, ¬ flagKey ci q <+: flagKey ci p.1 :=
      fun p hp h => hq (keyOk_of_prefix ci p.1 q h (hok p hp))
    have hno2 : ∀ p ∈ index, flagKey ci p.1 ≠ flagKey ci q :=
      fun p hp h => hno p hp (by rw [h]; exact List.prefix_refl _)
    have hnone : findOptionImpl index q abbrev_ ci = none := by
      simp only [findOptionImpl]
      cases hx : index[lowerBound (fun (a : Str × OptData) f => isLess a.1 f ci) index q]? with
      | none => rfl
      | some it =>
        have hmem := List.mem_of_getElem? hx
        obtain ⟨h1, h2⟩ := hne it hmem (hno2 it hmem)
        have hs : startsWith it.1 q ci = false := by
          cases h : startsWith it.1 q ci with
          | false => rfl
          | true => exact absurd ((startsWith_key ci _ _).mp h) (hno it hmem)
        simp [h1, h2, hs]
    rw [hnone]
    simp only [reduceCtorEq, false_iff]
    rintro (⟨f, hf, he⟩ | ⟨_, _, f, hf, hp, _⟩)
    · exact hno2 _ hf he
    · exact hno _ hf hp

end Argos
