import Verif.Proofs.Store

/-! # The table of names -/

namespace Argos
open Spec

/-- The byte values of a name. -/
def nameKey (s : Str) : List Nat := s.map UInt8.toNat

theorem nameKey_inj {s t : Str} (h : nameKey s = nameKey t) : s = t :=
  (List.map_inj_right (fun _ _ => UInt8.toNat_inj.mp)).mp h

theorem isLessCs_key (s t : Str) : isLessCs s t = lexLess (nameKey s) (nameKey t) := by
  have := isLess_key false s t (by simp [KeyOk]) (by simp [KeyOk])
  simpa [isLess, flagKey, nameKey] using this

/-- The encoding of an entry as a list of numbers with the same order. -/
def IdEntry.enc (e : IdEntry) : List Nat := (nameKey e.1).map (· + 1) ++ [0, e.2.1, e.2.2]

theorem lexLess_enc (s t u v : List Nat) (hs : u.head? = some 0) (ht : v.head? = some 0) :
    lexLess (s.map (· + 1) ++ u) (t.map (· + 1) ++ v) =
      (lexLess s t || (s == t && lexLess u v)) := by
  induction s generalizing t with
  | nil =>
    cases t with
    | nil => simp [lexLess]
    | cons b t =>
      cases u with
      | nil => simp at hs
      | cons x u =>
        simp at hs
        subst hs
        simp [lexLess]
  | cons a s ih =>
    cases t with
    | nil =>
      cases v with
      | nil => simp at ht
      | cons x v =>
        simp at ht
        subst ht
        simp [lexLess]
    | cons b t =>
      simp only [List.map_cons, List.cons_append, lexLess, Nat.add_right_cancel_iff]
      by_cases h : a = b
      · subst h
        simp [ih]
      · simp [h]

theorem idLess_enc (a b : IdEntry) : idLess a b = lexLess a.enc b.enc := by
  unfold IdEntry.enc idLess
  rw [lexLess_enc _ _ _ _ rfl rfl, isLessCs_key]
  congr 1
  have e1 : (a.1 == b.1) = (nameKey a.1 == nameKey b.1) := by
    by_cases h : a.1 = b.1
    · simp [h]
    · have : nameKey a.1 ≠ nameKey b.1 := fun e => h (nameKey_inj e)
      rw [beq_eq_false_iff_ne.mpr h, beq_eq_false_iff_ne.mpr this]
  rw [e1]
  congr 1
  show _ = lexLess [0, a.2.1, a.2.2] [0, b.2.1, b.2.2]
  simp only [lexLess, if_true]
  by_cases h : a.2.1 = b.2.1
  · simp only [h, Nat.lt_irrefl, decide_false, BEq.rfl, Bool.true_and, Bool.false_or, if_true]
    by_cases h2 : a.2.2 = b.2.2 <;> simp [h2]
  · simp [h]

/-- The order of the table: by name, then by value. -/
def IdEntry.Le (a b : IdEntry) : Prop :=
  lexLess (nameKey b.1) (nameKey a.1) = false ∧ (a.1 = b.1 → a.2.1 ≤ b.2.1)

theorem le_of_idLess {a b : IdEntry} (h : idLess b a = false) : a.Le b := by
  unfold idLess at h
  simp only [Bool.or_eq_false_iff] at h
  rw [isLessCs_key] at h
  refine ⟨h.1, ?_⟩
  intro e
  have h2 := h.2
  simp only [e, BEq.rfl, Bool.true_and, Bool.or_eq_false_iff, decide_eq_false_iff_not] at h2
  omega

theorem sorted_ids (l : List IdEntry) : (sortList idLess l).Pairwise IdEntry.Le := by
  have := sortList_sorted idLess l
    (by intro a _ b _; rw [idLess_enc, idLess_enc]; exact lexLess_asymm _ _)
    (by intro a _ b _ c _; rw [idLess_enc, idLess_enc, idLess_enc]; exact lexLess_trans_not _ _ _)
  exact this.imp le_of_idLess

/-- The name and the value of an entry. -/
def IdEntry.nv (e : IdEntry) : Str × Nat := (e.1, e.2.1)

theorem zeroAmbiguous_nv (p : IdEntry) (xs : List IdEntry) :
    (zeroAmbiguous p xs).map IdEntry.nv = (p :: xs).map IdEntry.nv := by
  induction xs generalizing p with
  | nil => rfl
  | cons x xs ih =>
    unfold zeroAmbiguous
    split
    · simp only [List.map_cons, ih]; rfl
    · simp only [List.map_cons, ih]

theorem uniqueList_sublist {α : Type} [DecidableEq α] (l : List α) : (uniqueList l).Sublist l := by
  fun_induction uniqueList l with
  | case1 a rest ih => exact ih.trans (List.sublist_cons_self _ _)
  | case2 a b rest h ih => exact ih.cons_cons _
  | case3 l h => exact List.Sublist.refl _

theorem mem_uniqueList {α : Type} [DecidableEq α] (l : List α) (x : α) : x ∈ uniqueList l ↔ x ∈ l := by
  fun_induction uniqueList l with
  | case1 a rest ih => rw [ih]; simp
  | case2 a b rest h ih => rw [List.mem_cons, ih, ← List.mem_cons]
  | case3 l h => exact Iff.rfl

theorem le_nv {a b a' b' : IdEntry} (ha : a.nv = a'.nv) (hb : b.nv = b'.nv) (h : a.Le b) : a'.Le b' := by
  simp only [IdEntry.nv, Prod.mk.injEq] at ha hb
  unfold IdEntry.Le at *
  rw [← ha.1, ← ha.2, ← hb.1, ← hb.2]
  exact h

theorem pairwise_nv (l l' : List IdEntry) (h : l.map IdEntry.nv = l'.map IdEntry.nv)
    (hp : l'.Pairwise IdEntry.Le) : l.Pairwise IdEntry.Le := by
  have key : ∀ l : List IdEntry, l.Pairwise IdEntry.Le ↔
      (l.map IdEntry.nv).Pairwise (fun x y => IdEntry.Le (x.1, x.2, 0) (y.1, y.2, 0)) := by
    intro l
    rw [List.pairwise_map]
    constructor
    · exact fun h => h.imp (fun h => le_nv rfl rfl h)
    · exact fun h => h.imp (fun h => le_nv rfl rfl h)
  rw [key, h, ← key]
  exact hp

theorem makeIds_sorted (c : Command) : (makeIds c).Pairwise IdEntry.Le := by
  unfold makeIds
  have hs := sorted_ids (collectIds c)
  split
  · exact List.Pairwise.nil
  · rename_i p xs e
    rw [e] at hs
    exact (pairwise_nv _ _ (zeroAmbiguous_nv p xs) hs).sublist (uniqueList_sublist _)

theorem mem_makeIds (c : Command) (name : Str) (v : Nat) :
    (∃ a, (name, v, a) ∈ makeIds c) ↔ ∃ a, (name, v, a) ∈ collectIds c := by
  have hp := sortList_perm idLess (collectIds c)
  have conv : ∀ l : List IdEntry, (∃ a, (name, v, a) ∈ l) ↔ (name, v) ∈ l.map IdEntry.nv := by
    intro l
    simp only [List.mem_map, IdEntry.nv, Prod.mk.injEq]
    constructor
    · rintro ⟨a, h⟩; exact ⟨_, h, rfl, rfl⟩
    · rintro ⟨⟨n', v', a'⟩, h, rfl, rfl⟩; exact ⟨a', h⟩
  have h0 : (∃ a, (name, v, a) ∈ collectIds c) ↔ ∃ a, (name, v, a) ∈ sortList idLess (collectIds c) := by
    simp only [hp.mem_iff]
  rw [h0]
  unfold makeIds
  cases hs : sortList idLess (collectIds c) with
  | nil => rfl
  | cons p xs =>
    simp only [mem_uniqueList]
    rw [conv, conv, zeroAmbiguous_nv]

/-- What a name lookup gives: the smallest value with this name. -/
theorem getValueId_spec (ids : List IdEntry) (hs : ids.Pairwise IdEntry.Le) (name : Str) :
    ((¬ ∃ e ∈ ids, e.1 = name) → getValueId ids name = .throw (b!"Unknown value: " ++ name)) ∧
    (∀ e ∈ ids, e.1 = name → ∃ v, getValueId ids name = .ok v ∧ (∃ a, (name, v, a) ∈ ids) ∧
      ∀ e' ∈ ids, e'.1 = name → v ≤ e'.2.1) := by
  obtain ⟨k, hk, k1, k2⟩ := exists_partition (fun (e : IdEntry) n => isLessCs e.1 n) name ids (by
    refine hs.imp ?_
    intro a b hab hb
    simp only [isLessCs_key] at *
    cases h : lexLess (nameKey a.1) (nameKey name) with
    | true => rfl
    | false =>
      have := lexLess_trans_not _ _ _ h hab.1
      rw [this] at hb
      exact absurd hb (by simp))
  have hlb := lowerBound_partition _ ids name k hk k1 k2
  unfold getValueId
  rw [hlb]
  constructor
  · intro hno
    cases h : ids[k]? with
    | none => rfl
    | some e =>
      have : e.1 ≠ name := fun hc => hno ⟨e, List.mem_of_getElem? h, hc⟩
      simp [this]
  · intro e he hen
    obtain ⟨i, hi, rfl⟩ := List.mem_iff_getElem.mp he
    have hki : k ≤ i := by
      apply Classical.byContradiction
      intro hlt
      have := k1 i ids[i] (by omega) (List.getElem?_eq_getElem hi)
      rw [isLessCs_key, hen, lexLess_irrefl] at this
      exact absurd this (by simp)
    have hkl : k < ids.length := by omega
    have hkn : ids[k].1 = name := by
      have h1 := k2 k ids[k] (Nat.le_refl _) (List.getElem?_eq_getElem hkl)
      rw [isLessCs_key] at h1
      rcases Nat.lt_or_ge k i with hlt | hge
      · have h2 := (List.pairwise_iff_getElem.mp hs k i hkl hi hlt).1
        rw [hen] at h2
        exact nameKey_inj (lexLess_total _ _ h1 h2)
      · have : i = k := by omega
        subst this
        exact hen
    rw [List.getElem?_eq_getElem hkl]
    simp only [hkn, if_true]
    refine ⟨_, rfl, ⟨ids[k].2.2, ?_⟩, ?_⟩
    · have : (name, ids[k].2.1, ids[k].2.2) = ids[k] := by rw [← hkn]
      rw [this]
      exact List.getElem_mem _
    · intro e' he' hen'
      obtain ⟨j, hj, rfl⟩ := List.mem_iff_getElem.mp he'
      have hkj : k ≤ j := by
        apply Classical.byContradiction
        intro hlt
        have := k1 j ids[j] (by omega) (List.getElem?_eq_getElem hj)
        rw [isLessCs_key, hen', lexLess_irrefl] at this
        exact absurd this (by simp)
      rcases Nat.lt_or_ge k j with hlt | hge
      · exact (List.pairwise_iff_getElem.mp hs k j hkl hj hlt).2 (by rw [hkn, hen'])
      · have : j = k := by omega
        subst this
        exact Nat.le_refl _

end Argos
