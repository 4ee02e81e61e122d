import Verif.Proofs.Phrase
import Verif.Spec.Override

/-! # Lemmas on options that replace what other options have given -/

namespace Argos
open Spec

/-- An option only writes to its own value. -/
theorem Occ.option_target {o : OptData} {v : Str} {w : Write} (h : w ∈ Occ.writes (.option o v)) : w.target = o.valueId := by
  simp only [Occ.writes] at h
  cases hop : o.operation <;> simp [hop] at h <;> subst h <;> rfl

/-- What an option does to a value before it is replaced makes no difference. -/
theorem overridden_values {o o2 : OptData} (h : Overrides o2 o) (v v2 : Str) (l m : List Occ) (id : Nat) :
    valuesOf (l ++ (m ++ [.option o2 v2])) id = valuesOf (l ++ (.option o v :: m ++ [.option o2 v2])) id := by
  by_cases hid : o.valueId = id
  · obtain ⟨e, he⟩ := h
    have key : ∀ x : List Occ, valuesOf (x ++ [.option o2 v2]) id =
        if o2.operation = .assign then [(if o2.constant = [] then v2 else o2.constant, o2.argumentId)] else [] := by
      intro x
      simp only [valuesOf, runWrites, List.flatMap_append, List.foldl_append, List.flatMap_cons, List.flatMap_nil, List.append_nil, Occ.writes]
      rcases he with he | he <;> simp [he, Write.run, e, hid]
    have e1 := key (l ++ m)
    have e2 := key (l ++ .option o v :: m)
    rw [List.append_assoc] at e1
    rw [List.append_assoc] at e2
    rw [e1]
    exact e2.symm
  · refine valuesOf_congr rfl ?_
    have : (Occ.writes (.option o v)).filter (fun w => decide (w.target = id)) = [] := by
      rw [List.filter_eq_nil_iff]
      intro w hw
      rw [Occ.option_target hw]
      simpa using hid
    simp only [List.cons_append, List.flatMap_cons, List.filter_append, this, List.nil_append]

/-- The same for what is read. -/
theorem overridden_report {o o2 : OptData} (h : Overrides o2 o) (v v2 : Str) (ps qs : List Piece) (as : List ArgData) (hlen : as.length = argPieces ps + argPieces qs)
    (l : List Occ) (id : Nat) :
    valuesOf (l ++ (report (ps ++ (qs ++ [.option o2 v2])) as).filterMap occOf) id =
      valuesOf (l ++ (report (ps ++ .option o v :: (qs ++ [.option o2 v2])) as).filterMap occOf) id := by
  have hq : ∀ bs : List ArgData, bs.length = argPieces qs → report (qs ++ [.option o2 v2]) bs = report qs bs ++ [.option o2 (some v2)] := by
    intro bs hb
    rw [report_append qs _ bs (by omega), List.take_of_length_le (by omega)]
    rfl
  rw [report_append ps _ as (by omega), report_append ps _ as (by omega)]
  simp only [report]
  rw [hq _ (by simp; omega)]
  simp only [List.filterMap_append, List.filterMap_cons, List.filterMap_nil, occOf, Option.getD_some]
  have := overridden_values h v v2 (l ++ (report ps (as.take (argPieces ps))).filterMap occOf) ((report qs (as.drop (argPieces ps))).filterMap occOf) id
  simpa only [List.append_assoc, List.cons_append] using this

/-! ### The options that count -/

theorem runs_at (id : Nat) (ws : List Write) {m m' : ValueMap} (h : m id = m' id) : ws.foldl Write.run m id = ws.foldl Write.run m' id := by
  induction ws generalizing m m' with
  | nil => exact h
  | cons w ws ih => exact ih (Write.run_at h w)

/-- The writes of options. -/
def optionWrites (l : List (OptData × Str)) : List Write := (l.map fun p => Occ.option p.1 p.2).flatMap Occ.writes

theorem optionWrites_cons (x : OptData × Str) (l : List (OptData × Str)) : optionWrites (x :: l) = Occ.writes (.option x.1 x.2) ++ optionWrites l := by
  simp [optionWrites]

/-- After an option that replaces all values, it makes no difference what they were. -/
theorem runs_override {id : Nat} : ∀ {l : List (OptData × Str)}, (∀ x ∈ l, x.1.valueId = id) → (∃ y ∈ l, y.1.operation = .assign ∨ y.1.operation = .clear) →
    ∀ m m' : ValueMap, (optionWrites l).foldl Write.run m id = (optionWrites l).foldl Write.run m' id := by
  intro l
  induction l with
  | nil => rintro _ ⟨y, hy, _⟩; simp at hy
  | cons x l ih =>
    intro hid hy m m'
    rw [optionWrites_cons, List.foldl_append, List.foldl_append]
    by_cases h : ∃ y ∈ l, y.1.operation = .assign ∨ y.1.operation = .clear
    · exact ih (fun y hy => hid y (by simp [hy])) h _ _
    · obtain ⟨y, hy, ho⟩ := hy
      rcases List.mem_cons.mp hy with rfl | hy
      · refine runs_at id _ ?_
        have := hid y (by simp)
        rcases ho with ho | ho <;> simp [Occ.writes, ho, Write.run, this]
      · exact absurd ⟨y, hy, ho⟩ h

theorem runs_effective {id : Nat} : ∀ {l : List (OptData × Str)}, (∀ x ∈ l, x.1.valueId = id) → ∀ m : ValueMap,
    (optionWrites l).foldl Write.run m id = (optionWrites (effective l)).foldl Write.run m id := by
  intro l
  induction l with
  | nil => intro _ m; rfl
  | cons x l ih =>
    intro hid m
    have hid' : ∀ y ∈ l, y.1.valueId = id := fun y hy => hid y (by simp [hy])
    unfold effective
    split
    · rename_i h
      rw [optionWrites_cons, List.foldl_append, runs_override hid' h _ m]
      exact ih hid' m
    · rfl

theorem effective_nil {l : List (OptData × Str)} (h : effective l = []) : l = [] := by
  induction l with
  | nil => rfl
  | cons x l ih =>
    unfold effective at h
    split at h
    · rename_i hy
      obtain ⟨y, hy, _⟩ := hy
      rw [ih h] at hy
      simp at hy
    · simp at h

theorem optionsFor_id {id : Nat} {ps : List Piece} {x : OptData × Str} (h : x ∈ optionsFor id ps) : x.1.valueId = id := by
  simp only [optionsFor, List.mem_filterMap] at h
  obtain ⟨p, _, he⟩ := h
  cases p with
  | argument v => simp at he
  | option o v =>
    simp only at he
    split at he
    · rename_i hc
      simp only [Option.some.injEq] at he
      rw [← he]
      exact hc.2
    · simp at he

theorem effective_mem {l : List (OptData × Str)} {x : OptData × Str} (h : x ∈ effective l) : x ∈ l := by
  induction l with
  | nil => exact h
  | cons y l ih =>
    unfold effective at h
    split at h
    · exact List.mem_cons_of_mem _ (ih h)
    · exact h

/-- The values in terms of the options that count. -/
theorem effective_values {as : List ArgData} {l : List Occ} {id : Nat} (ps : List Piece) (hlen : as.length = argPieces ps) (h : ∀ a ∈ as, a.valueId ≠ id) :
    valuesOf (l ++ (report ps as).filterMap occOf) id =
      (optionWrites (effective (optionsFor id ps))).foldl Write.run ((l.flatMap Occ.writes).foldl Write.run fun _ => []) id := by
  rw [← runs_effective (fun x hx => optionsFor_id hx)]
  unfold valuesOf runWrites
  rw [List.flatMap_append, List.foldl_append, runs_filter id _ rfl, report_writes_opt id ps as hlen h]
  exact (runs_filter id _ rfl).symm

/-- Pieces of which the same ones count lead to the same values. -/
theorem final_values {c : Command} {ps qs : List Piece} (hsf : SameFinal ps qs) (how : OwnValues c ps) {as : List ArgData}
    (has : ∀ a ∈ as, a ∈ c.arguments) (hlen : as.length = argPieces ps) (l : List Occ) (id : Nat) :
    valuesOf (l ++ (report ps as).filterMap occOf) id = valuesOf (l ++ (report qs as).filterMap occOf) id := by
  have hlen' : as.length = argPieces qs := by rw [hlen, argPieces_texts, argPieces_texts, hsf.arguments]
  by_cases h : ∀ a ∈ as, a.valueId ≠ id
  · rw [effective_values ps hlen h, effective_values qs hlen' h, hsf.options]
  · obtain ⟨a, ha, hid⟩ : ∃ a ∈ as, a.valueId = id := by
      apply Classical.byContradiction
      intro hn
      exact h fun a ha hid => hn ⟨a, ha, hid⟩
    have ho : optionsFor id ps = [] := by
      simp only [optionsFor, List.filterMap_eq_nil_iff]
      intro p hp
      cases p with
      | argument v => rfl
      | option o v =>
        simp only [ite_eq_right_iff, reduceCtorEq, imp_false]
        rintro ⟨h1, h2⟩
        exact how o v hp h1 a (has a ha) (by rw [hid, h2])
    have ho' : optionsFor id qs = [] := by
      have := hsf.options id
      rw [ho] at this
      exact effective_nil this.symm
    refine valuesOf_congr rfl ?_
    rw [report_writes_arg id ps as hlen ho, report_writes_arg id qs as hlen' ho', hsf.arguments]

end Argos
