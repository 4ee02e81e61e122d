import Verif.Proofs.Grammar
import Verif.Spec.Phrase

/-! # Lemmas on phrases -/

namespace Argos
open Spec

/-! ### What the values depend on -/

/-- The value that is written to. -/
def _root_.Argos.Spec.Write.target : Write → Nat
  | .assign id _ _ => id
  | .append id _ _ => id
  | .clear id => id

theorem Write.run_at {m m' : ValueMap} {id : Nat} (h : m id = m' id) (w : Write) : w.run m id = w.run m' id := by
  cases w <;> simp only [Write.run] <;> split <;> simp_all

theorem Write.run_other {m : ValueMap} {id : Nat} {w : Write} (h : w.target ≠ id) : w.run m id = m id := by
  cases w <;> simp only [Write.run, Write.target] at * <;> rw [if_neg (Ne.symm h)]

/-- Only the writes to a value determine it. -/
theorem runs_filter (id : Nat) : ∀ (ws : List Write) {m m' : ValueMap}, m id = m' id →
    ws.foldl Write.run m id = (ws.filter fun w => decide (w.target = id)).foldl Write.run m' id := by
  intro ws
  induction ws with
  | nil => intro m m' h; exact h
  | cons w ws ih =>
    intro m m' h
    by_cases hw : w.target = id
    · rw [List.filter_cons_of_pos (by simpa using hw)]
      exact ih (Write.run_at h w)
    · rw [List.filter_cons_of_neg (by simpa using hw)]
      exact ih (by rw [Write.run_other hw]; exact h)

theorem valuesOf_congr {l l' x y : List Occ} {id : Nat} (h : valuesOf l id = valuesOf l' id)
    (hxy : (x.flatMap Occ.writes).filter (fun w => decide (w.target = id)) = (y.flatMap Occ.writes).filter fun w => decide (w.target = id)) :
    valuesOf (l ++ x) id = valuesOf (l' ++ y) id := by
  unfold valuesOf runWrites at *
  rw [List.flatMap_append, List.flatMap_append, List.foldl_append, List.foldl_append, runs_filter id _ h, hxy]
  exact (runs_filter id _ rfl).symm

/-! ### Values of the commands being read -/

/-- Only the values. -/
def _root_.Argos.Spec.Open.vals (st : Open) : List (Tree ValueMap) := st.map (Tree.map valuesOf)

/-- The results lead to the same values. -/
def SameEffect (rs rs' : List IterResult) : Prop := ∀ st : Open, (rs.foldl Open.step st).vals = (rs'.foldl Open.step st).vals

theorem Tree.mapList_append {α β : Type} (f : α → β) (ts us : List (Tree α)) : Tree.mapList f (ts ++ us) = Tree.mapList f ts ++ Tree.mapList f us := by
  induction ts with
  | nil => simp [Tree.mapList]
  | cons t ts ih => simp [Tree.mapList, ih]

theorem node_vals {c c' : Command} {l l' : List Occ} {ts ts' : List (Tree (List Occ))}
    (h : Tree.map valuesOf (.node c l ts) = Tree.map valuesOf (.node c' l' ts')) :
    c = c' ∧ valuesOf l = valuesOf l' ∧ Tree.mapList valuesOf ts = Tree.mapList valuesOf ts' := by
  simpa [Tree.map] using h

theorem vals_add {st st' : Open} (h : st.vals = st'.vals) (x : Occ) : (st.add x).vals = (st'.add x).vals := by
  match st, st' with
  | [], [] => rfl
  | [], _ :: _ => simp [Open.vals] at h
  | _ :: _, [] => simp [Open.vals] at h
  | .node c l ts :: rest, .node c' l' ts' :: rest' =>
    simp only [Open.vals, List.map_cons, List.cons.injEq] at h
    obtain ⟨h1, h2⟩ := h
    obtain ⟨rfl, e2, e3⟩ := node_vals h1
    simp only [Open.add, Open.vals, List.map_cons, h2, Tree.map, e3]
    rw [show valuesOf (l ++ [x]) = valuesOf (l' ++ [x]) from funext fun id => valuesOf_congr (congrFun e2 id) rfl]

theorem vals_go : ∀ (rest rest' : Open) (t t' : Tree (List Occ)), t.map valuesOf = t'.map valuesOf → Open.vals rest = Open.vals rest' →
    (Open.back.go t rest).map Open.vals = (Open.back.go t' rest').map Open.vals ∧
      (Open.close.go t rest).map valuesOf = (Open.close.go t' rest').map valuesOf := by
  intro rest
  induction rest with
  | nil =>
    intro rest' t t' h h'
    match rest' with
    | [] => exact ⟨rfl, h⟩
    | _ :: _ => simp [Open.vals] at h'
  | cons q rest ih =>
    intro rest' t t' h h'
    match q, rest' with
    | _, [] => simp [Open.vals] at h'
    | .node c l ts, .node c' l' ts' :: rest' =>
      simp only [Open.vals, List.map_cons, List.cons.injEq] at h'
      obtain ⟨h1, h2⟩ := h'
      obtain ⟨rfl, e2, e3⟩ := node_vals h1
      have hn : Tree.map valuesOf (.node c l (ts ++ [t])) = Tree.map valuesOf (.node c l' (ts' ++ [t'])) := by
        simp only [Tree.map, Tree.mapList_append, Tree.mapList, e2, e3, h]
      obtain ⟨g1, g2⟩ := ih rest' _ _ hn h2
      refine ⟨?_, g2⟩
      simp only [Open.back.go]
      split
      · simp only [Option.map_some, Open.vals, List.map_cons, hn, h2]
      · exact g1

theorem vals_back {st st' : Open} (h : st.vals = st'.vals) : st.back.map Open.vals = st'.back.map Open.vals := by
  match st, st' with
  | [], [] => rfl
  | [], _ :: _ => simp [Open.vals] at h
  | _ :: _, [] => simp [Open.vals] at h
  | t :: rest, t' :: rest' =>
    simp only [Open.vals, List.map_cons, List.cons.injEq] at h
    exact (vals_go rest rest' t t' h.1 h.2).1

theorem vals_backD {st st' : Open} (h : st.vals = st'.vals) : (st.back.getD st).vals = (st'.back.getD st').vals := by
  have := vals_back h
  cases h1 : st.back <;> cases h2 : st'.back <;> simp_all

theorem vals_isLeaf {st st' : Open} (h : st.vals = st'.vals) : st.isLeaf = st'.isLeaf := by
  match st, st' with
  | [], [] => rfl
  | [], _ :: _ => simp [Open.vals] at h
  | _ :: _, [] => simp [Open.vals] at h
  | .node c l ts :: rest, .node c' l' ts' :: rest' =>
    simp only [Open.vals, List.map_cons, List.cons.injEq] at h
    obtain ⟨rfl, _, _⟩ := node_vals h.1
    rfl

theorem vals_step {st st' : Open} (h : st.vals = st'.vals) (r : IterResult) : (st.step r).vals = (st'.step r).vals := by
  cases r with
  | option o v =>
    simp only [Open.step]
    split
    · exact vals_backD (vals_add h _)
    · exact vals_add h _
  | argument a v => exact vals_add h _
  | unknown s => exact vals_add h _
  | command c x =>
    simp only [Open.step]
    rw [vals_isLeaf h]
    split
    · simp only [Open.vals, List.map_cons]
      rw [show List.map _ _ = _ from vals_backD h]
      rfl
    · simp only [Open.vals, List.map_cons]
      rw [show List.map _ _ = _ from h]
      rfl
  | done => exact h
  | error => exact h

theorem vals_steps (rs : List IterResult) : ∀ {st st' : Open}, st.vals = st'.vals → (rs.foldl Open.step st).vals = (rs.foldl Open.step st').vals := by
  induction rs with
  | nil => intro st st' h; exact h
  | cons r rs ih => intro st st' h; exact ih (vals_step h r)

theorem vals_close {st st' : Open} (h : st.vals = st'.vals) : st.close.map (Tree.map valuesOf) = st'.close.map (Tree.map valuesOf) := by
  match st, st' with
  | [], [] => rfl
  | [], _ :: _ => simp [Open.vals] at h
  | _ :: _, [] => simp [Open.vals] at h
  | t :: rest, t' :: rest' =>
    simp only [Open.vals, List.map_cons, List.cons.injEq] at h
    simp only [Open.close, Option.map_some, (vals_go rest rest' t t' h.1 h.2).2]

theorem SameEffect.given {rs rs' : List IterResult} (h : SameEffect rs rs') (c : Command) :
    (given c rs).map (Tree.map valuesOf) = (Spec.given c rs').map (Tree.map valuesOf) := vals_close (h _)

theorem SameEffect.around {rs rs' : List IterResult} (h : SameEffect rs rs') (before after : List IterResult) :
    SameEffect (before ++ rs ++ after) (before ++ rs' ++ after) := by
  intro st
  simp only [List.foldl_append]
  exact vals_steps after (h _)

theorem SameEffect.after (before rs rs' : List IterResult) (h : SameEffect rs rs') : SameEffect (before ++ rs) (before ++ rs') := by
  have := h.around before []
  simpa using this

/-- The results end in the same command, with the same number of arguments. -/
def SameEnding (rs rs' : List IterResult) : Prop := (∀ c, lastCommand c rs = lastCommand c rs') ∧ argumentCount rs = argumentCount rs'

theorem lastCommand_append (rs rs' : List IterResult) (c : Command) : lastCommand c (rs ++ rs') = lastCommand (lastCommand c rs) rs' := by
  induction rs generalizing c with
  | nil => rfl
  | cons r rs ih => cases r <;> exact ih _

theorem argumentCount_append (rs rs' : List IterResult) : argumentCount (rs ++ rs') = argumentCount rs + argumentCount rs' := by
  unfold argumentCount
  rw [List.filter_append, List.length_append]

theorem SameEnding.after (before rs rs' : List IterResult) (h : SameEnding rs rs') : SameEnding (before ++ rs) (before ++ rs') := by
  refine ⟨fun c => ?_, ?_⟩
  · rw [lastCommand_append, lastCommand_append, h.1]
  · rw [argumentCount_append, argumentCount_append, h.2]

theorem SameEnding.served {rs rs' : List IterResult} (h : SameEnding rs rs') {c : Command} (hs : Served c rs) : Served c rs' := by
  unfold Served at hs ⊢
  rwa [← h.1, ← h.2]

/-- The results have the same effect and the same ending. -/
def SameOutcome (rs rs' : List IterResult) : Prop := SameEffect rs rs' ∧ SameEnding rs rs'

theorem SameOutcome.after (before rs rs' : List IterResult) (h : SameOutcome rs rs') : SameOutcome (before ++ rs) (before ++ rs') :=
  ⟨h.1.after before _ _, h.2.after before _ _⟩

/-! ### Pieces -/

/-- An option that doesn't end the reading of options or arguments. -/
def _root_.Argos.Spec.Piece.Simple : Piece → Prop
  | .option o _ => o.type = .normal
  | .argument _ => True

/-- The results of such pieces only add to the active command. -/
theorem foldl_report : ∀ (ps : List Piece) (as : List ArgData) (_ : ∀ p ∈ ps, p.Simple) (c : Command) (l : List Occ) (ts : List (Tree (List Occ)))
    (rest : Open), (report ps as).foldl Open.step (.node c l ts :: rest) = .node c (l ++ (report ps as).filterMap occOf) ts :: rest := by
  intro ps
  induction ps with
  | nil => intro as _ c l ts rest; simp [report]
  | cons p ps ih =>
    intro as hs c l ts rest
    have hs' : ∀ p ∈ ps, p.Simple := fun q hq => hs q (by simp [hq])
    cases p with
    | option o v =>
      have ht : o.type = .normal := hs _ List.mem_cons_self
      simp only [report, List.foldl_cons, Open.step, ht, Open.add, Option.getD_some, reduceCtorEq, if_false, List.filterMap_cons, occOf]
      rw [ih as hs']
      simp
    | argument v =>
      cases as with
      | nil => simp [report]
      | cons a as =>
        simp only [report, List.foldl_cons, Open.step, Open.add, Option.getD_some, List.filterMap_cons, occOf]
        rw [ih as hs']
        simp

theorem argPieces_cons (p : Piece) (ps : List Piece) : argPieces (p :: ps) = (match p with | .argument _ => 1 | _ => 0) + argPieces ps := by
  cases p <;> simp [argPieces]; omega

theorem argPieces_texts (ps : List Piece) : argPieces ps = (argumentTexts ps).length := by
  induction ps with
  | nil => rfl
  | cons p ps ih =>
    rw [argPieces_cons, ih]
    cases p <;> simp [argumentTexts]; omega

theorem argPieces_append (ps qs : List Piece) : argPieces (ps ++ qs) = argPieces ps + argPieces qs := by
  simp [argPieces]

theorem report_append : ∀ (ps qs : List Piece) (as : List ArgData), argPieces ps ≤ as.length →
    report (ps ++ qs) as = report ps (as.take (argPieces ps)) ++ report qs (as.drop (argPieces ps)) := by
  intro ps
  induction ps with
  | nil => intro qs as _; simp [report, argPieces]
  | cons p ps ih =>
    intro qs as h
    rw [argPieces_cons] at h ⊢
    cases p with
    | option o v =>
      simp only [Nat.zero_add] at h ⊢
      simp only [List.cons_append, report, ih qs as h]
    | argument v =>
      cases as with
      | nil => simp at h
      | cons a as =>
        simp only [List.length_cons] at h
        simp only [Nat.add_comm 1, List.cons_append, report, ih qs as (by omega), List.take_succ_cons, List.drop_succ_cons]

/-- The writes of the arguments. -/
theorem report_writes_arg (id : Nat) : ∀ (ps : List Piece) (as : List ArgData), as.length = argPieces ps → optionsFor id ps = [] →
    (((report ps as).filterMap occOf).flatMap Occ.writes).filter (fun w => decide (w.target = id)) =
      (((as.zip (argumentTexts ps)).map fun p => Occ.argument p.1 p.2).flatMap Occ.writes).filter fun w => decide (w.target = id) := by
  intro ps
  induction ps with
  | nil => intro as h _; simp [argPieces] at h; simp [report, h]
  | cons p ps ih =>
    intro as h ho
    rw [argPieces_cons] at h
    cases p with
    | option o v =>
      have h : as.length = argPieces ps := by simpa using h
      have ho' : ¬ (o.operation ≠ .none ∧ o.valueId = id) ∧ optionsFor id ps = [] := by
        simp only [optionsFor, List.filterMap_cons] at ho
        split at ho
        · rename_i he
          split at he
          · simp at he
          · exact ⟨by assumption, ho⟩
        · simp at ho
      have ht : argumentTexts (.option o v :: ps) = argumentTexts ps := by simp [argumentTexts]
      rw [ht, ← ih as h ho'.2]
      simp only [report, List.filterMap_cons, occOf, List.flatMap_cons, List.filter_append]
      have : (Occ.writes (.option o ((some v).getD []))).filter (fun w => decide (w.target = id)) = [] := by
        rw [List.filter_eq_nil_iff]
        intro w hw
        simp only [Occ.writes] at hw
        simp only [decide_eq_true_eq]
        intro ht
        apply ho'.1
        cases hop : o.operation <;> simp [hop] at hw <;> subst hw <;> exact ⟨by simp, ht⟩
      rw [this, List.nil_append]
    | argument v =>
      cases as with
      | nil => simp at h; omega
      | cons a as =>
        have h : as.length = argPieces ps := by simp at h; omega
        have ho' : optionsFor id ps = [] := by simpa [optionsFor] using ho
        have ht : argumentTexts (.argument v :: ps) = v :: argumentTexts ps := by simp [argumentTexts]
        rw [ht]
        simp only [report, List.filterMap_cons, occOf, List.flatMap_cons, List.filter_append, List.zip_cons_cons, List.map_cons, ih as h ho',
          Option.getD_some]

/-- The writes of the options. -/
theorem report_writes_opt (id : Nat) : ∀ (ps : List Piece) (as : List ArgData), as.length = argPieces ps → (∀ a ∈ as, a.valueId ≠ id) →
    (((report ps as).filterMap occOf).flatMap Occ.writes).filter (fun w => decide (w.target = id)) =
      (((optionsFor id ps).map fun p => Occ.option p.1 p.2).flatMap Occ.writes).filter fun w => decide (w.target = id) := by
  intro ps
  induction ps with
  | nil => intro as _ _; simp [report, optionsFor]
  | cons p ps ih =>
    intro as h ha
    rw [argPieces_cons] at h
    cases p with
    | option o v =>
      have h : as.length = argPieces ps := by simpa using h
      simp only [report, List.filterMap_cons, occOf, List.flatMap_cons, List.filter_append, ih as h ha, Option.getD_some]
      by_cases ho : o.operation ≠ .none ∧ o.valueId = id
      · have : optionsFor id (.option o v :: ps) = (o, v) :: optionsFor id ps := by
          simp only [optionsFor, List.filterMap_cons, if_pos ho]
        rw [this]
        simp only [List.map_cons, List.flatMap_cons, List.filter_append]
      · have : optionsFor id (.option o v :: ps) = optionsFor id ps := by
          simp only [optionsFor, List.filterMap_cons, if_neg ho]
        rw [this]
        have : (Occ.writes (.option o v)).filter (fun w => decide (w.target = id)) = [] := by
          rw [List.filter_eq_nil_iff]
          intro w hw
          simp only [Occ.writes] at hw
          simp only [decide_eq_true_eq]
          intro ht
          apply ho
          cases hop : o.operation <;> simp [hop] at hw <;> subst hw <;> exact ⟨by simp, ht⟩
        rw [this, List.nil_append]
    | argument v =>
      cases as with
      | nil => simp at h; omega
      | cons a as =>
        have h : as.length = argPieces ps := by simp at h; omega
        have ho' : optionsFor id (.argument v :: ps) = optionsFor id ps := by simp [optionsFor]
        rw [ho', ← ih as h fun b hb => ha b (by simp [hb])]
        simp only [report, List.filterMap_cons, occOf, List.flatMap_cons, List.filter_append, Option.getD_some]
        have : (Occ.writes (.argument a v)).filter (fun w => decide (w.target = id)) = [] := by
          simp [Occ.writes, Write.target, ha a List.mem_cons_self]
        rw [this, List.nil_append]

/-- Pieces with the same content lead to the same values. -/
theorem same_values {c : Command} {ps qs : List Piece} (hsc : SameContent ps qs) (how : OwnValues c ps) {as : List ArgData}
    (has : ∀ a ∈ as, a ∈ c.arguments) (hlen : as.length = argPieces ps) (l : List Occ) (id : Nat) :
    valuesOf (l ++ (report ps as).filterMap occOf) id = valuesOf (l ++ (report qs as).filterMap occOf) id := by
  have hlen' : as.length = argPieces qs := by rw [hlen, argPieces_texts, argPieces_texts, hsc.arguments]
  refine valuesOf_congr rfl ?_
  by_cases h : ∀ a ∈ as, a.valueId ≠ id
  · rw [report_writes_opt id ps as hlen h, report_writes_opt id qs as hlen' h, hsc.options]
  · obtain ⟨a, ha, hid⟩ : ∃ a ∈ as, a.valueId = id := by
      apply Classical.byContradiction
      intro hn
      exact h fun a ha hid => hn ⟨a, ha, hid⟩
    have ho : optionsFor id ps = [] := by
      simp only [optionsFor, List.filterMap_eq_nil_iff]
      intro p hp
      cases p with
      | argument v => rfl
      | option o v =>
        simp only [ite_eq_right_iff, reduceCtorEq, imp_false]
        rintro ⟨h1, h2⟩
        exact how o v hp h1 a (has a ha) (by rw [hid, h2])
    rw [report_writes_arg id ps as hlen ho, report_writes_arg id qs as hlen' (by rw [← hsc.options]; exact ho), hsc.arguments]

/-! ### Lines -/

namespace Parser

section
variable {d : ParserData} {names : Command → Str → OptData → Prop} {subs : Command → Str → Command → Prop}

theorem _root_.Argos.Spec.WrittenAll.append {c : Command} {l l1 l2 : Line} {ps qs : List Piece} (h1 : WrittenAll d.settings.optionStyle names c l ps l1)
    (h2 : WrittenAll d.settings.optionStyle names c l1 qs l2) : WrittenAll d.settings.optionStyle names c l (ps ++ qs) l2 := by
  induction h1 with
  | nil => exact h2
  | cons a _ ih => exact .cons a (ih h2)

/-- What is written first is the beginning of all that is written. -/
theorem _root_.Argos.Spec.WrittenAll.split {c : Command} (hf : ∀ q o o', names c q o → names c q o' → o = o') {l l1 l2 : Line} {ps qs : List Piece}
    (h1 : WrittenAll d.settings.optionStyle names c l ps l1) (h2 : WrittenAll d.settings.optionStyle names c l qs l2)
    (hno : ∀ p l', ¬ Written d.settings.optionStyle names c l2 p l') : ∃ qs', qs = ps ++ qs' ∧ WrittenAll d.settings.optionStyle names c l1 qs' l2 := by
  induction h1 generalizing qs with
  | nil => exact ⟨qs, rfl, h2⟩
  | cons a _ ih =>
    cases h2 with
    | nil => exact absurd a (hno _ _)
    | cons b h2 =>
      obtain ⟨rfl, rfl⟩ := b.unique hf a
      obtain ⟨qs', rfl, h⟩ := ih h2
      exact ⟨qs', rfl, h⟩

theorem says_all {c : Command} {us : List Phrase} (h : ∀ u ∈ us, Says d.settings.optionStyle names c u.1 u.2) (rest : List Str) :
    WrittenAll d.settings.optionStyle names c (.mixed ⟨[], wordsOf us ++ rest⟩) (us.map (·.2)) (.mixed ⟨[], rest⟩) := by
  induction us with
  | nil => exact .nil
  | cons u us ih =>
    have := h u List.mem_cons_self (wordsOf us ++ rest)
    rw [← List.append_assoc] at this
    exact .cons this (ih fun v hv => h v (by simp [hv]))

theorem says_simple {c : Command} {u : Phrase} (h : Says d.settings.optionStyle names c u.1 u.2) : u.2.Simple := by
  have := h []
  generalize hl : Line.mixed _ = l at this
  generalize hl' : Line.mixed _ = l' at this
  generalize u.2 = p at this
  cases this with
  | option _ _ _ _ ht => exact ht
  | lastOption => simp at hl'
  | lastArgument => simp at hl'
  | argument => trivial
  | plainArgument => simp at hl

/-- Phrases with as many arguments and the same effect on the values at the beginning of the line for a command. -/
theorem accepts_exchange {c : Command} (hf : ∀ q o o', names c q o → names c q o' → o = o') {us vs : List Phrase}
    (hu : ∀ u ∈ us, Says d.settings.optionStyle names c u.1 u.2) (hv : ∀ v ∈ vs, Says d.settings.optionStyle names c v.1 v.2)
    (hn : argPieces (us.map (·.2)) = argPieces (vs.map (·.2)))
    (hval : ∀ as : List ArgData, (∀ a ∈ as, a ∈ c.arguments) → as.length = argPieces (us.map (·.2)) → ∀ l id,
      valuesOf (l ++ (report (us.map (·.2)) as).filterMap occOf) id = valuesOf (l ++ (report (vs.map (·.2)) as).filterMap occOf) id) {inits : List Occ} {rest : List Str} {rs : List IterResult}
    (ha : Accepts d.settings.optionStyle names subs c inits (.mixed ⟨[], wordsOf us ++ rest⟩) rs) :
    ∃ rs', Accepts d.settings.optionStyle names subs c inits (.mixed ⟨[], wordsOf vs ++ rest⟩) rs' ∧ SameOutcome rs rs' := by
  have hwu := says_all hu rest
  have hwv := says_all hv rest
  have hsu : ∀ p ∈ us.map (·.2), p.Simple := by
    intro p hp
    obtain ⟨u, hm, rfl⟩ := List.mem_map.mp hp
    exact says_simple (hu u hm)
  have hsv : ∀ p ∈ vs.map (·.2), p.Simple := by
    intro p hp
    obtain ⟨u, hm, rfl⟩ := List.mem_map.mp hp
    exact says_simple (hv u hm)
  generalize us.map (·.2) = ps at *
  generalize vs.map (·.2) = qs at *
  have key : ∀ (as : List ArgData), (∀ a ∈ as, a ∈ c.arguments) → as.length = argPieces ps → ∀ after,
      SameOutcome (report ps as ++ after) (report qs as ++ after) := by
    intro as has hlen after
    refine ⟨?_, fun c => ?_, ?_⟩
    rotate_left
    · rw [(report_last c ps as hlen after).1, (report_last c qs as (by omega) after).1]
    · rw [(report_last c ps as hlen after).2, (report_last c qs as (by omega) after).2, hn]
    refine SameEffect.around (before := []) ?_ after
    intro st
    match st with
    | [] =>
      have : ∀ rs : List IterResult, (∀ r ∈ rs, ∀ c x, r ≠ .command c x) → rs.foldl Open.step [] = [] := by
        intro rs
        induction rs with
        | nil => intro _; rfl
        | cons r rs ih =>
          intro h
          have hr := h r List.mem_cons_self
          have : Open.step [] r = [] := by
            cases r <;> simp [Open.step, Open.add, Open.back] at hr ⊢
          rw [List.foldl_cons, this]
          exact ih fun r hr => h r (by simp [hr])
      have hnc : ∀ (ps : List Piece) (as : List ArgData), ∀ r ∈ report ps as, ∀ c x, r ≠ .command c x := by
        intro ps
        induction ps with
        | nil => intro as r hr; simp [report] at hr
        | cons p ps ih =>
          intro as r hr
          cases p with
          | option o v =>
            simp only [report, List.mem_cons] at hr
            rcases hr with rfl | hr
            · simp
            · exact ih as r hr
          | argument v =>
            cases as with
            | nil => simp [report] at hr
            | cons a as =>
              simp only [report, List.mem_cons] at hr
              rcases hr with rfl | hr
              · simp
              · exact ih as r hr
      rw [this _ (hnc ps as), this _ (hnc qs as)]
    | .node c0 l ts :: st =>
      rw [foldl_report ps as hsu, foldl_report qs as hsv]
      simp only [Open.vals, List.map_cons, Tree.map]
      rw [show valuesOf (l ++ (report ps as).filterMap occOf) = valuesOf (l ++ (report qs as).filterMap occOf) from
        funext fun id => hval as has hlen l id]
  cases ha with
  | @last _ _ _ l' ps' ks hw he hal hco =>
    obtain ⟨ps2, rfl, hw2⟩ := hwu.split hf hw (fun p l' h => h.not_end he)
    have hal' := hal
    rw [argPieces_append, hn, ← argPieces_append] at hal'
    have hlen := handedOut_length hal
    rw [argPieces_append] at hlen
    have hmem : ∀ a ∈ handedOut c.arguments ks, a ∈ c.arguments := by
      intro a ham
      simp only [handedOut, List.mem_flatMap] at ham
      obtain ⟨p, hp, hr⟩ := ham
      rw [(List.mem_replicate.mp hr).2]
      exact (List.of_mem_zip hp).1
    have hr1 := report_append ps ps2 (handedOut c.arguments ks) (by omega)
    have hr2 := report_append qs ps2 (handedOut c.arguments ks) (by omega)
    rw [← hn] at hr2
    have htk : ∀ a ∈ (handedOut c.arguments ks).take (argPieces ps), a ∈ c.arguments := fun a ham => hmem a (List.mem_of_mem_take ham)
    have htl : ((handedOut c.arguments ks).take (argPieces ps)).length = argPieces ps := by simp; omega
    refine ⟨_, .last (hwv.append hw2) he hal' ?_, ?_⟩
    · refine ⟨fun o ho hop => ?_, hco.subcommand⟩
      have := hco.mandatory o ho hop
      rw [hr1, List.filterMap_append, ← List.append_assoc] at this
      rw [hr2, List.filterMap_append, ← List.append_assoc]
      rw [← valuesOf_congr (hval _ htk htl inits o.valueId) rfl]
      exact this
    · rw [hr1, hr2]
      exact key _ htk htl _
  | @sub _ c' _ _ l1 l2 ps' rs1 hw hen hacc =>
    obtain ⟨ps2, rfl, hw2⟩ := hwu.split hf hw (fun p l' h => hen.not_written h)
    have hps := hw.no_arguments hen.commands_ne
    rw [argPieces_append] at hps
    refine ⟨_, .sub (hwv.append hw2) hen hacc, ?_⟩
    rw [report_append ps ps2 [] (by simp; omega), report_append qs ps2 [] (by simp; omega), ← hn, List.append_assoc, List.append_assoc]
    exact key _ (by simp) (by simp; omega) _

/-- Phrases with the same content at the beginning of the line for a command. -/
theorem accepts_phrases {c : Command} (hf : ∀ q o o', names c q o → names c q o' → o = o') {us vs : List Phrase}
    (hu : ∀ u ∈ us, Says d.settings.optionStyle names c u.1 u.2) (hv : ∀ v ∈ vs, Says d.settings.optionStyle names c v.1 v.2)
    (hsc : SameContent (us.map (·.2)) (vs.map (·.2))) (how : OwnValues c (us.map (·.2))) {inits : List Occ} {rest : List Str} {rs : List IterResult}
    (ha : Accepts d.settings.optionStyle names subs c inits (.mixed ⟨[], wordsOf us ++ rest⟩) rs) :
    ∃ rs', Accepts d.settings.optionStyle names subs c inits (.mixed ⟨[], wordsOf vs ++ rest⟩) rs' ∧ SameOutcome rs rs' :=
  accepts_exchange hf hu hv (by rw [argPieces_texts, argPieces_texts, hsc.arguments]) (fun _ has hlen l id => same_values hsc how has hlen l id) ha

/-- A text that isn't an option is read as a whole. -/
theorem read_text {style : OptionStyle} {a : Str} (h : ¬ IsFlag style a) (rest : List Str) :
    Reader.readIn style ⟨[], a :: rest⟩ = some (wholeFlag a rest) := by
  have hs : ¬ IsFlag .standard a → Reader.readStandard ⟨[], a :: rest⟩ = some (wholeFlag a rest) := by
    intro h
    match a, h with
    | [], _ => rfl
    | [_], _ => rfl
    | [_, _], _ => rfl
    | x :: y :: z :: zs, h =>
      have : x ≠ c!"-" := by
        rintro rfl
        exact h ⟨by simp, rfl⟩
      simp [Reader.readStandard, this]
  have hp : ∀ c, c = flagChar style → Reader.readPrefixed c ⟨[], a :: rest⟩ = some (wholeFlag a rest) := by
    rintro c rfl
    have : ¬ (a.length > 2 ∧ a.head? = some (flagChar style)) := fun hh => h ⟨by omega, hh.2⟩
    simp only [Reader.readPrefixed, if_neg this]
  cases style with
  | standard => exact hs h
  | slash => exact hp _ rfl
  | dash => exact hp _ rfl

/-- A change of the line for a command that the line leads to. -/
theorem accepts_within (R : List IterResult → List IterResult → Prop) (hR : ∀ before rs rs', R rs rs' → R (before ++ rs) (before ++ rs')) (hf : ∀ c : Command, c.Within d.command → ∀ q o o', names c q o → names c q o' → o = o')
    (hs : ∀ c q c1 c2, subs c q c1 → subs c q c2 → c1 = c2) (hm : ∀ c q c', subs c q c' → c' ∈ c.commands)
    {root c : Command} {pre : List Str} (hl : LeadsTo d.settings.optionStyle names subs root pre c) {x y : List Str} (hroot : root.Within d.command)
    (hxy : c.Within d.command → ∀ inits rs, Accepts d.settings.optionStyle names subs c inits (.mixed ⟨[], x⟩) rs →
      ∃ rs', Accepts d.settings.optionStyle names subs c inits (.mixed ⟨[], y⟩) rs' ∧ R rs rs')
    {inits : List Occ} {rs : List IterResult}
    (ha : Accepts d.settings.optionStyle names subs root inits (.mixed ⟨[], pre ++ x⟩) rs) :
    ∃ rs', Accepts d.settings.optionStyle names subs root inits (.mixed ⟨[], pre ++ y⟩) rs' ∧ R rs rs' := by
  induction hl generalizing inits rs with
  | here => exact hxy hroot _ _ ha
  | @enter root c1 c ws name pre hws hnf hne hsub hl ih =>
    have hw : ∀ rest, WrittenAll d.settings.optionStyle names root (.mixed ⟨[], wordsOf ws ++ name :: rest⟩) (ws.map (·.2)) (.mixed ⟨[], name :: rest⟩) :=
      fun rest => says_all hws _
    have hen : ∀ rest, Enters d.settings.optionStyle subs root (.mixed ⟨[], name :: rest⟩) c1 (.mixed ⟨[], rest⟩) :=
      fun rest => .command (x := wholeFlag name rest) (read_text hnf rest) hnf hne hsub
    have hc1 : c1.Within d.command := Command.Within.trans (.sub (hm _ _ _ hsub) .self) hroot
    simp only [List.append_assoc, List.cons_append] at ha ⊢
    cases ha with
    | last hw' he _ _ =>
      obtain ⟨_, rfl⟩ := hw'.unique (hf _ hroot) (hw _) (fun p l' h => h.not_end he) (fun p l' h => (hen _).not_written h)
      exact absurd he (hen _).not_end
    | sub hw' hen' hacc =>
      obtain ⟨rfl, rfl⟩ := hw'.unique (hf _ hroot) (hw _) (fun p l' h => hen'.not_written h) (fun p l' h => (hen _).not_written h)
      obtain ⟨q, g1, g2⟩ := hen'.named (hen _)
      have e := hs _ _ _ _ g1 g2
      rw [e] at hen' hacc
      obtain rfl := hen'.line_unique (hen _)
      obtain ⟨rs', k1, k2⟩ := ih hc1 hxy hacc
      refine ⟨_, .sub (hw _) (hen _) k1, ?_⟩
      rw [e]
      have := hR (report (ws.map (·.2)) [] ++ [.command c1 []]) _ _ k2
      simpa using this

/-- Lines that go on alike after the same pieces. -/
theorem accepts_after {c : Command} (hf : ∀ q o o', names c q o → names c q o' → o = o') {ps : List Piece} {l l1 l2 l' : Line}
    (hx : WrittenAll d.settings.optionStyle names c l ps l1) (hy : WrittenAll d.settings.optionStyle names c l' ps l2) (hxy : SameFirst d names subs c l1 l2)
    {inits : List Occ} {rs : List IterResult} (ha : Accepts d.settings.optionStyle names subs c inits l rs) :
    Accepts d.settings.optionStyle names subs c inits l' rs := by
  cases ha with
  | last hw he hal hco =>
    obtain ⟨ps, rfl, hw2⟩ := hx.split hf hw (fun p l' h => h.not_end he)
    obtain ⟨l3, k1, k2⟩ := hxy.all hw2
    exact .last (hy.append k1) (k2.atEnd.mp he) hal hco
  | sub hw hen hacc =>
    obtain ⟨ps, rfl, hw2⟩ := hx.split hf hw (fun p l' h => hen.not_written h)
    obtain ⟨l3, k1, k2⟩ := hxy.all hw2
    exact .sub (hy.append k1) ((k2.enters _ _).mp hen) hacc

/-- Lines that begin alike, after phrases. -/
theorem accepts_alike {c : Command} (hf : ∀ q o o', names c q o → names c q o' → o = o') {us : List Phrase}
    (hu : ∀ u ∈ us, Says d.settings.optionStyle names c u.1 u.2) {x y : List Str} (hxy : SameFirst d names subs c (.mixed ⟨[], x⟩) (.mixed ⟨[], y⟩))
    {inits : List Occ} {rs : List IterResult} (ha : Accepts d.settings.optionStyle names subs c inits (.mixed ⟨[], wordsOf us ++ x⟩) rs) :
    Accepts d.settings.optionStyle names subs c inits (.mixed ⟨[], wordsOf us ++ y⟩) rs :=
  accepts_after hf (says_all hu x) (says_all hu y) hxy ha

/-- Flags that name the same option. -/
theorem sameFirst_flag {c : Command} {f g : Str} (hf : IsFlag d.settings.optionStyle f) (hg : IsFlag d.settings.optionStyle g)
    (hfg : ∀ o, names c f o ↔ names c g o) {rest : List Str} (h1 : Reader.readIn d.settings.optionStyle ⟨[], f :: rest⟩ = some (wholeFlag f rest))
    (h2 : Reader.readIn d.settings.optionStyle ⟨[], g :: rest⟩ = some (wholeFlag g rest)) :
    SameFirst d names subs c (.mixed ⟨[], f :: rest⟩) (.mixed ⟨[], g :: rest⟩) := by
  have key : ∀ {f g : Str}, IsFlag d.settings.optionStyle f → IsFlag d.settings.optionStyle g → (∀ o, names c f o ↔ names c g o) →
      Reader.readIn d.settings.optionStyle ⟨[], f :: rest⟩ = some (wholeFlag f rest) →
      Reader.readIn d.settings.optionStyle ⟨[], g :: rest⟩ = some (wholeFlag g rest) →
      (∀ p l', Written d.settings.optionStyle names c (.mixed ⟨[], f :: rest⟩) p l' → Written d.settings.optionStyle names c (.mixed ⟨[], g :: rest⟩) p l') ∧
      ∀ c' l', ¬ Enters d.settings.optionStyle subs c (.mixed ⟨[], f :: rest⟩) c' l' := by
    intro f g hf hg hfg h1 h2
    have hn : ∀ {o}, names c (wholeFlag f rest).flag o → names c (wholeFlag g rest).flag o := fun {o} h => (hfg o).mp h
    constructor
    · intro p l' hw
      cases hw with
      | option a1 a2 a3 a4 a5 =>
        rw [h1, Option.some.injEq] at a1; subst a1
        exact .option (x := wholeFlag g rest) h2 hg (hn a3) a4 a5
      | lastOption a1 a2 a3 a4 a5 =>
        rw [h1, Option.some.injEq] at a1; subst a1
        exact .lastOption (x := wholeFlag g rest) h2 hg (hn a3) a4 a5
      | lastArgument a1 a2 a3 a4 a5 =>
        rw [h1, Option.some.injEq] at a1; subst a1
        exact .lastArgument (x := wholeFlag g rest) h2 hg (hn a3) a4 a5
      | argument a1 a2 a3 =>
        rw [h1, Option.some.injEq] at a1; subst a1
        exact absurd hf a2
    · intro c' l' he
      cases he with
      | command a1 a2 a3 a4 =>
        rw [h1, Option.some.injEq] at a1; subst a1
        exact absurd hf a2
  obtain ⟨a1, a2⟩ := key hf hg hfg h1 h2
  obtain ⟨b1, b2⟩ := key hg hf (fun o => (hfg o).symm) h2 h1
  refine ⟨fun p l' => ⟨a1 p l', b1 p l'⟩, fun c' l' => iff_of_false (a2 c' l') (b2 c' l'), ?_⟩
  simp [Line.AtEnd, h1, h2]

/-- Different words for the same piece. -/
theorem says_alike {c : Command} (hf : ∀ q o o', names c q o → names c q o' → o = o') {us vs : List Str} {p : Piece}
    (hu : Says d.settings.optionStyle names c us p) (hv : Says d.settings.optionStyle names c vs p) (rest : List Str) :
    SameFirst d names subs c (.mixed ⟨[], us ++ rest⟩) (.mixed ⟨[], vs ++ rest⟩) := by
  refine ⟨fun q l' => ⟨fun h => ?_, fun h => ?_⟩, fun c' l' => iff_of_false (fun h => h.not_written (hu rest)) (fun h => h.not_written (hv rest)),
    iff_of_false (hu rest).not_end (hv rest).not_end⟩
  · obtain ⟨rfl, rfl⟩ := h.unique hf (hu rest)
    exact hv rest
  · obtain ⟨rfl, rfl⟩ := h.unique hf (hv rest)
    exact hu rest

theorem readIn_whole {style : OptionStyle} {f : Str} (h : WholeFlag style f) (rest : List Str) :
    Reader.readIn style ⟨[], f :: rest⟩ = some (wholeFlag f rest) := by
  obtain ⟨⟨h1, h2⟩, h3, h4⟩ := h
  have hp : ∀ c, Reader.readPrefixed c ⟨[], f :: rest⟩ = some (wholeFlag f rest) := by
    intro c
    simp only [Reader.readPrefixed]
    split
    · rename_i hl
      rw [cutAfterEqual_absent (h4.resolve_left (by omega))]
    · rfl
  have hs : style = .standard → Reader.readStandard ⟨[], f :: rest⟩ = some (wholeFlag f rest) := by
    intro hst
    have h3 := h3 hst
    subst hst
    match f, h1, h2, h3, h4 with
    | [_, _], _, _, _, _ => rfl
    | x :: y :: z :: zs, _, h2, h3, h4 =>
      have hx : x = c!"-" := by simpa [flagChar] using h2
      have hy : y = c!"-" := by simpa using h3
      subst hx hy
      have h4 := cutAfterEqual_absent (h4.resolve_left (by simp))
      simp [Reader.readStandard, h4]
  cases style with
  | standard => exact hs rfl
  | slash => exact hp _
  | dash => exact hp _

theorem readIn_equals {style : OptionStyle} {f : Str} (h : WholeFlag style f) (h3 : 3 ≤ f.length) (v : Str) (rest : List Str) :
    Reader.readIn style ⟨[], (f ++ b!"=" ++ v) :: rest⟩ = some (equalFlag (f ++ b!"=") v rest) := by
  obtain ⟨⟨h1, h2⟩, hs, h4⟩ := h
  have h4 := h4.resolve_left (by omega)
  have hcut : cutAfterEqual (f ++ b!"=" ++ v) = some (f ++ b!"=", v) := by
    have ht : ∀ f : Str, c!"=" ∉ f → (f ++ b!"=" ++ v).dropWhile (· != c!"=") = c!"=" :: v ∧ (f ++ b!"=" ++ v).takeWhile (· != c!"=") = f := by
      intro f
      induction f with
      | nil => intro _; constructor <;> rfl
      | cons x f ih =>
        intro hm
        simp only [List.mem_cons, not_or] at hm
        obtain ⟨e1, e2⟩ := ih hm.2
        have hx : (x != c!"=") = true := by simpa using Ne.symm hm.1
        simp only [List.cons_append, List.dropWhile_cons, List.takeWhile_cons, hx, if_true]
        exact ⟨e1, by rw [e2]⟩
    obtain ⟨e1, e2⟩ := ht f h4
    simp only [cutAfterEqual, e1, e2]
  have hp : ∀ c, c = flagChar style → Reader.readPrefixed c ⟨[], (f ++ b!"=" ++ v) :: rest⟩ = some (equalFlag (f ++ b!"=") v rest) := by
    rintro c rfl
    simp only [Reader.readPrefixed]
    rw [if_pos, hcut]
    refine ⟨by simp; omega, ?_⟩
    simp only [List.head?_append, h2, Option.some_or]
  cases style with
  | slash => exact hp _ rfl
  | dash => exact hp _ rfl
  | standard =>
    match f, h3, h2, hs rfl, hcut with
    | x :: y :: z :: zs, _, h2, h3, hcut =>
      have hx : x = c!"-" := by simpa [flagChar] using h2
      have hy : y = c!"-" := by simpa using h3
      subst hx hy
      simp only [Reader.readIn, Reader.read, stylePrefix]
      simp only [List.cons_append, List.append_assoc, List.nil_append] at hcut ⊢
      simp [Reader.readStandard, hcut]

end

end Parser

end Argos
