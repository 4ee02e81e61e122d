import Verif.Proofs.Lookup
import Verif.Proofs.Init

/-! # Lookup in an initialised command, in terms of the specification -/

namespace Argos
open Spec

theorem sameFlag_key (ci : Bool) (f g : Str) : SameFlag ci f g ↔ flagKey ci f = flagKey ci g := by
  rw [← areEqual_key]
  cases ci with
  | false => simp [SameFlag, areEqual]
  | true => simp [SameFlag, areEqual, areEqualCi_iff]

theorem isAbbrev_key (ci : Bool) (q f : Str) : IsAbbrev ci q f ↔ flagKey ci q <+: flagKey ci f := by
  rw [← startsWith_key]
  cases ci with
  | false => simp [IsAbbrev, startsWith, startsWithCs_iff]
  | true => simp [IsAbbrev, startsWith, startsWithCi_iff]

theorem regularByte_iff (c : UInt8) : RegularByte c ↔ IsRegular c := by
  unfold RegularByte IsRegular; omega

theorem mem_flagPairs (options : List OptData) (f : Str) (o : OptData) :
    (f, o) ∈ flagPairs options ↔ o ∈ options ∧ f ∈ o.flags := by
  simp only [flagPairs, List.mem_flatMap, List.mem_map, Prod.mk.injEq]
  constructor
  · rintro ⟨a, ha, g, hg, rfl, rfl⟩; exact ⟨ha, hg⟩
  · rintro ⟨h1, h2⟩; exact ⟨o, h1, f, h2, rfl, rfl⟩

theorem mem_flagsOf (options : List OptData) (f : Str) :
    f ∈ flagsOf options ↔ ∃ o ∈ options, f ∈ o.flags := by
  simp [flagsOf, List.mem_flatMap]

theorem flagPairs_map (options : List OptData) : (flagPairs options).map (·.1) = flagsOf options := by
  simp only [flagPairs, flagsOf, List.map_flatMap, List.map_map]
  congr 1
  funext o
  have : ((fun x : Str × OptData => x.1) ∘ fun f => (f, o)) = id := rfl
  rw [this, List.map_id]

theorem distinct_pairs (ci : Bool) (options : List OptData) :
    DistinctFlags ci options ↔
      (flagPairs options).Pairwise fun a b => flagKey ci a.1 ≠ flagKey ci b.1 := by
  unfold DistinctFlags
  rw [← flagPairs_map, List.pairwise_map]
  simp only [sameFlag_key, ne_eq]

theorem regular_keyOk (ci : Bool) (options : List OptData) (h : RegularFlags ci options) :
    ∀ o ∈ options, ∀ f ∈ o.flags, KeyOk ci f := by
  intro o ho f hf hci c hc
  exact (regularByte_iff c).mp (h hci f ((mem_flagsOf options f).mpr ⟨o, ho, hf⟩) c hc)

/-- Members of a list with pairwise different keys are determined by their key. -/
theorem eq_of_key {α β : Type} (k : α → β) : ∀ {l : List α}, l.Pairwise (fun a b => k a ≠ k b) →
    ∀ {a b : α}, a ∈ l → b ∈ l → k a = k b → a = b := by
  intro l
  induction l with
  | nil => intro _ a b ha; simp at ha
  | cons x l ih =>
    intro h a b ha hb he
    rw [List.pairwise_cons] at h
    rcases List.mem_cons.mp ha with rfl | ha'
    · rcases List.mem_cons.mp hb with rfl | hb'
      · rfl
      · exact absurd he (h.1 b hb')
    · rcases List.mem_cons.mp hb with rfl | hb'
      · exact absurd he.symm (h.1 a ha')
      · exact ih h.2 ha' hb' he

theorem findOptionImpl_selects (ci ab : Bool) (options : List OptData) (index : List (Str × OptData))
    (hb : buildOptionIndex options ci = .ok index) (hreg : RegularFlags ci options) (q : Str) (o : OptData) :
    findOptionImpl index q ab ci = some o ↔ Selects ci ab options q o := by
  obtain ⟨hok, hperm, hd⟩ := buildOptionIndex_ok ci options index (regular_keyOk ci options hreg) hb
  rw [findOptionImpl_spec ci ab index hok q o]
  have hm : ∀ f o', (f, o') ∈ index ↔ o' ∈ options ∧ f ∈ o'.flags := by
    intro f o'
    rw [hperm.mem_iff, mem_flagPairs]
  unfold Selects
  simp only [hm, sameFlag_key, isAbbrev_key]
  constructor
  · rintro (⟨f, ⟨h1, h2⟩, h3⟩ | ⟨h0, h1, f, ⟨h2, h3⟩, h4, h5⟩)
    · exact ⟨h1, Or.inl ⟨f, h2, h3⟩⟩
    · refine ⟨h2, Or.inr ⟨h0, ?_, f, h3, h4, ?_⟩⟩
      · intro g hg
        obtain ⟨o', ho', hg'⟩ := (mem_flagsOf options g).mp hg
        exact h1 (g, o') ⟨ho', hg'⟩
      · intro g hg hgp
        obtain ⟨o', ho', hg'⟩ := (mem_flagsOf options g).mp hg
        have := h5 (g, o') ⟨ho', hg'⟩ hgp
        exact congrArg Prod.fst this
  · rintro ⟨h1, ⟨f, h2, h3⟩ | ⟨h0, h2, f, h3, h4, h5⟩⟩
    · exact Or.inl ⟨f, ⟨h1, h2⟩, h3⟩
    · refine Or.inr ⟨h0, ?_, f, ⟨h1, h3⟩, h4, ?_⟩
      · rintro ⟨g, o'⟩ hp
        obtain ⟨ho', hg'⟩ := hp
        exact h2 g ((mem_flagsOf options g).mpr ⟨o', ho', hg'⟩)
      · rintro ⟨g, o'⟩ hp hpp
        obtain ⟨ho', hg'⟩ := hp
        have hgf := h5 g ((mem_flagsOf options g).mpr ⟨o', ho', hg'⟩) hpp
        subst hgf
        exact eq_of_key (fun a : Str × OptData => flagKey ci a.1) hd
          ((mem_flagPairs options g o').mpr ⟨ho', hg'⟩) ((mem_flagPairs options g o).mpr ⟨h1, h3⟩) rfl

theorem findOption_selects (ci ab : Bool) (options : List OptData) (index : List (Str × OptData))
    (hb : buildOptionIndex options ci = .ok index) (hreg : RegularFlags ci options) (q : Str) (o : OptData) :
    findOption index q ab ci = some o ↔
      Selects ci ab options q o ∨
      (∃ r, q = r ++ b!"=" ∧ 2 ≤ r.length ∧ (∀ o', ¬ Selects ci ab options q o') ∧
        Selects ci ab options r o ∧ o.argument ≠ []) := by
  have hs := findOptionImpl_selects ci ab options index hb hreg
  unfold findOption
  cases h : findOptionImpl index q ab ci with
  | some o1 =>
    have h1 := (hs q o1).mp h
    simp only [Option.some.injEq]
    constructor
    · rintro rfl; exact Or.inl h1
    · rintro (h2 | ⟨r, _, _, h2, _⟩)
      · have := (hs q o).mpr h2
        rw [h] at this
        simpa using this
      · exact absurd h1 (h2 o1)
  | none =>
    have hno : ∀ o', ¬ Selects ci ab options q o' := by
      intro o' h'
      have := (hs q o').mpr h'
      rw [h] at this
      simp at this
    simp only
    by_cases hq : q.length > 2 ∧ q.getLast? = some c!"="
    · rw [if_pos hq]
      obtain ⟨hq1, hq2⟩ := hq
      have hqne : q ≠ [] := by intro e; rw [e] at hq1; simp at hq1
      have hqe : q = q.dropLast ++ b!"=" := by
        have h3 := List.dropLast_concat_getLast hqne
        have h4 : q.getLast hqne = c!"=" := by
          rw [List.getLast?_eq_some_getLast hqne] at hq2
          simpa using hq2
        rw [h4] at h3
        exact h3.symm
      cases h2 : findOptionImpl index q.dropLast ab ci with
      | none =>
        simp only [reduceCtorEq, false_iff]
        rintro (h3 | ⟨r, e, _, _, h3, _⟩)
        · exact hno o h3
        · rw [e] at h2
          simp only [List.dropLast_concat] at h2
          have := (hs r o).mpr h3
          rw [h2] at this
          simp at this
      | some o1 =>
        simp only
        constructor
        · intro h3
          split at h3
          · simp at h3
          · rename_i h4
            simp at h3
            subst h3
            refine Or.inr ⟨q.dropLast, hqe, ?_, hno, (hs _ _).mp h2, by simpa using h4⟩
            simp; omega
        · rintro (h3 | ⟨r, e, _, _, h3, h4⟩)
          · exact absurd h3 (hno o)
          · rw [e] at h2
            simp only [List.dropLast_concat] at h2
            have := (hs r o).mpr h3
            rw [h2] at this
            simp at this
            subst this
            have h5 : o1.argument.isEmpty = false := by simpa using h4
            rw [h5]
            simp
    · rw [if_neg hq]
      simp only [reduceCtorEq, false_iff]
      rintro (h3 | ⟨r, e, hr, _, h3, _⟩)
      · exact hno o h3
      · apply hq
        rw [e]
        constructor
        · simp; omega
        · simp

/-- Accepted flags have at least two characters. -/
theorem checkFlag_length (style : OptionStyle) (f : Str) (o : OptData)
    (h : checkFlagStyle style f o = .ok true) : 2 ≤ f.length := by
  match f with
  | [] => cases style <;> simp [checkFlagStyle, checkStandardFlag, checkFlag, hasWhitespace] at h
  | [c] =>
    cases style
    · simp [checkFlagStyle, checkStandardFlag] at h
    · simp [checkFlagStyle, checkFlag] at h
    · simp [checkFlagStyle, checkFlag] at h
  | _ :: _ :: _ => simp

end Argos
