import Verif.Spec.Locality
import Verif.Proofs.Phrase

/-! # One more option -/

namespace Argos
open Spec Parser

section
variable {α β : Type} {R : Command → α → β → Prop}

theorem _root_.Argos.Spec.TreesAlike.append {ts ts' : List (Tree α)} {us us' : List (Tree β)} (h : TreesAlike R ts us) (h' : TreesAlike R ts' us') :
    TreesAlike R (ts ++ ts') (us ++ us') := by
  match ts, us, h with
  | [], [], _ => exact h'
  | _ :: _, _ :: _, .cons ht hts => exact .cons ht (hts.append h')

end

mutual
theorem _root_.Argos.Spec.TreeAlike.refl {α : Type} {R : Command → α → α → Prop} (hR : ∀ c a, R c a a) : (t : Tree α) → TreeAlike R t t
  | .node c a ts => .node (hR c a) (TreesAlike.refl hR ts)

theorem _root_.Argos.Spec.TreesAlike.refl {α : Type} {R : Command → α → α → Prop} (hR : ∀ c a, R c a a) : (ts : List (Tree α)) → TreesAlike R ts ts
  | [] => .nil
  | t :: ts => .cons (TreeAlike.refl hR t) (TreesAlike.refl hR ts)
end

mutual
theorem _root_.Argos.Spec.TreeAlike.map {α β α' β' : Type} {R : Command → α → β → Prop} {S : Command → α' → β' → Prop} {f : α → α'} {g : β → β'} (hf : ∀ c a b, R c a b → S c (f a) (g b)) :
    (t : Tree α) → (u : Tree β) → TreeAlike R t u → TreeAlike S (t.map f) (u.map g)
  | .node c a ts, .node c' b us, h => by
    cases h with
    | node h1 h2 => exact .node (hf _ _ _ h1) (TreesAlike.map hf ts us h2)

theorem _root_.Argos.Spec.TreesAlike.map {α β α' β' : Type} {R : Command → α → β → Prop} {S : Command → α' → β' → Prop} {f : α → α'} {g : β → β'} (hf : ∀ c a b, R c a b → S c (f a) (g b)) :
    (ts : List (Tree α)) → (us : List (Tree β)) → TreesAlike R ts us → TreesAlike S (Tree.mapList f ts) (Tree.mapList g us)
  | [], us, h => by cases h; exact .nil
  | t :: ts, us, h => by
    cases h with
    | @cons _ u _ us h1 h2 => exact .cons (TreeAlike.map hf t u h1) (TreesAlike.map hf ts us h2)
end

/-! ### Commands being read -/

section
variable {Q : Command → List Occ → List Occ → Prop} (hQ : ∀ c l l' x, Q c l l' → Q c (l ++ [x]) (l' ++ [x])) (hQ0 : ∀ c, Q c [] [])

include hQ in
theorem alike_add {st st' : Open} (h : TreesAlike Q st st') (x : Occ) : TreesAlike Q (st.add x) (st'.add x) := by
  cases h with
  | nil => exact .nil
  | cons ht hr =>
    cases ht with
    | node h1 h2 => exact .cons (.node (hQ _ _ _ _ h1) h2) hr

theorem alike_go : ∀ (rest rest' : Open) (t t' : Tree (List Occ)), TreeAlike Q t t' → TreesAlike Q rest rest' →
    ((Open.back.go t rest = none ∧ Open.back.go t' rest' = none) ∨
      ∃ s s', Open.back.go t rest = some s ∧ Open.back.go t' rest' = some s' ∧ TreesAlike Q s s') ∧ TreeAlike Q (Open.close.go t rest) (Open.close.go t' rest') := by
  intro rest
  induction rest with
  | nil =>
    intro rest' t t' ht hr
    cases hr
    exact ⟨.inl ⟨rfl, rfl⟩, ht⟩
  | cons q rest ih =>
    intro rest' t t' ht hr
    cases hr with
    | cons hq hr =>
      cases hq with
      | @node c l l' ts ts' h1 h2 =>
        have hn : TreeAlike Q (.node c l (ts ++ [t])) (.node c l' (ts' ++ [t'])) := .node h1 (h2.append (.cons ht .nil))
        obtain ⟨g1, g2⟩ := ih _ _ _ hn hr
        refine ⟨?_, g2⟩
        simp only [Open.back.go]
        split
        · exact .inr ⟨_, _, rfl, rfl, .cons hn hr⟩
        · exact g1

theorem alike_backD {st st' : Open} (h : TreesAlike Q st st') : TreesAlike Q (st.back.getD st) (st'.back.getD st') := by
  cases h with
  | nil => exact .nil
  | @cons t t' rest rest' ht hr =>
    rcases (alike_go rest rest' t t' ht hr).1 with ⟨e1, e2⟩ | ⟨s, s', e1, e2, h⟩
    · simp only [Open.back, e1, e2, Option.getD_none]
      exact .cons ht hr
    · simp only [Open.back, e1, e2, Option.getD_some]
      exact h

theorem alike_isLeaf {st st' : Open} (h : TreesAlike Q st st') : st.isLeaf = st'.isLeaf := by
  cases h with
  | nil => rfl
  | cons ht _ => cases ht; rfl

include hQ hQ0 in
theorem alike_step {st st' : Open} (h : TreesAlike Q st st') (r : IterResult) : TreesAlike Q (st.step r) (st'.step r) := by
  cases r with
  | option o v =>
    simp only [Open.step]
    split
    · exact alike_backD (alike_add hQ h _)
    · exact alike_add hQ h _
  | argument a v => exact alike_add hQ h _
  | unknown s => exact alike_add hQ h _
  | command c x =>
    simp only [Open.step]
    rw [alike_isLeaf h]
    refine .cons (.node (hQ0 c) .nil) ?_
    split
    · exact alike_backD h
    · exact h
  | done => exact h
  | error => exact h

include hQ hQ0 in
theorem alike_steps (rs : List IterResult) : ∀ {st st' : Open}, TreesAlike Q st st' → TreesAlike Q (rs.foldl Open.step st) (rs.foldl Open.step st') := by
  induction rs with
  | nil => intro st st' h; exact h
  | cons r rs ih => intro st st' h; exact ih (alike_step hQ hQ0 h r)

theorem alike_close {st st' : Open} (h : TreesAlike Q st st') {t t' : Tree (List Occ)} (ht : st.close = some t) (ht' : st'.close = some t') : TreeAlike Q t t' := by
  cases h with
  | nil => simp [Open.close] at ht
  | @cons q q' rest rest' hq hr =>
    simp only [Open.close, Option.some.injEq] at ht ht'
    rw [← ht, ← ht']
    exact (alike_go rest rest' q q' hq hr).2

end

/-! ### The active command -/

theorem back_single : ∀ (rest : Open) (t : Tree (List Occ)), (∀ q ∈ rest, q.command.multiCommand = false) → Open.back.go t rest = none := by
  intro rest
  induction rest with
  | nil => intro t _; rfl
  | cons q rest ih =>
    intro t h
    obtain ⟨c, l, ts⟩ := q
    have hc : c.multiCommand = false := h _ List.mem_cons_self
    simp only [Open.back.go, hc, Bool.false_eq_true, if_false]
    exact ih _ fun q hq => h q (by simp [hq])

/-- Without commands that accept several sub-commands, the active command is the last one. -/
theorem active_after (rs : List IterResult) : ∀ (t : Tree (List Occ)) (rest : Open), (∀ q ∈ t :: rest, q.command.multiCommand = false) →
    (∀ c x, .command c x ∈ rs → c.multiCommand = false) → ∃ u rest', rs.foldl Open.step (t :: rest) = u :: rest' ∧ u.command = lastCommand t.command rs := by
  induction rs with
  | nil => intro t rest _ _; exact ⟨t, rest, rfl, rfl⟩
  | cons r rs ih =>
    intro t rest h hm
    have hm' : ∀ c x, .command c x ∈ rs → c.multiCommand = false := fun c x hx => hm c x (by simp [hx])
    have hb : ∀ (t' : Tree (List Occ)), Open.back (t' :: rest) = none := fun t' => back_single rest t' fun q hq => h q (by simp [hq])
    have hadd : ∀ x, ∃ t', Open.add x (t :: rest) = t' :: rest ∧ t'.command = t.command := by
      intro x; obtain ⟨c, l, ts⟩ := t; exact ⟨_, rfl, rfl⟩
    have hgo : ∀ t', t'.command = t.command → lastCommand t.command (r :: rs) = lastCommand t.command rs → Open.step (t :: rest) r = t' :: rest →
        ∃ u rest', (r :: rs).foldl Open.step (t :: rest) = u :: rest' ∧ u.command = lastCommand t.command (r :: rs) := by
      intro t' hc hl he
      rw [List.foldl_cons, he, hl, ← hc]
      refine ih t' rest ?_ hm'
      intro q hq
      rw [List.mem_cons] at hq
      rcases hq with rfl | hq
      · rw [hc]; exact h t (by simp)
      · exact h q (by simp [hq])
    cases r with
    | option o v =>
      obtain ⟨t', e1, e2⟩ := hadd (.option o (v.getD []))
      refine hgo t' e2 rfl ?_
      simp only [Open.step, e1, hb, Option.getD_none, ite_self]
    | argument a v =>
      obtain ⟨t', e1, e2⟩ := hadd (.argument a (v.getD []))
      exact hgo t' e2 rfl e1
    | unknown s =>
      obtain ⟨t', e1, e2⟩ := hadd (.unknown s)
      exact hgo t' e2 rfl e1
    | done => exact hgo t rfl rfl rfl
    | error => exact hgo t rfl rfl rfl
    | command c x =>
      rw [List.foldl_cons]
      have : Open.step (t :: rest) (.command c x) = .node c [] [] :: t :: rest := by
        simp only [Open.step, hb, Option.getD_none, ite_self]
      rw [this]
      refine ih _ _ ?_ hm'
      intro q hq
      rw [List.mem_cons] at hq
      rcases hq with rfl | hq
      · exact hm c x (by simp)
      · exact h q hq

/-! ### Values -/

theorem writes_target {o : OptData} {v : Str} : ∀ w ∈ (Occ.option o v).writes, w.target = o.valueId := by
  intro w hw
  simp only [Occ.writes] at hw
  split at hw <;> simp at hw <;> subst hw <;> rfl

theorem runs_other {id : Nat} : ∀ (ws : List Write) (m : ValueMap), (∀ w ∈ ws, w.target ≠ id) → ws.foldl Write.run m id = m id := by
  intro ws
  induction ws with
  | nil => intro m _; rfl
  | cons w ws ih =>
    intro m h
    rw [List.foldl_cons, ih _ fun x hx => h x (by simp [hx]), Write.run_other (h w (by simp))]

/-- An option leaves all values but its own alone. -/
theorem valuesOf_insert (l1 l2 : List Occ) (o : OptData) (v : Str) {i : Nat} (hi : i ≠ o.valueId) :
    valuesOf (l1 ++ .option o v :: l2) i = valuesOf (l1 ++ l2) i := by
  have : l1 ++ .option o v :: l2 = (l1 ++ [.option o v]) ++ l2 := by simp
  rw [this]
  refine valuesOf_congr ?_ rfl
  rw [valuesOf_snoc]
  exact runs_other _ _ fun w hw e => hi (e ▸ writes_target w hw)

theorem run_filled {m m' : ValueMap} {id : Nat} (h : m id ≠ [] → m' id ≠ []) (w : Write) : w.run m id ≠ [] → w.run m' id ≠ [] := by
  cases w <;> simp only [Write.run] <;> split <;> simp_all

theorem runs_filled {id : Nat} : ∀ (ws : List Write) {m m' : ValueMap}, (m id ≠ [] → m' id ≠ []) → ws.foldl Write.run m id ≠ [] → ws.foldl Write.run m' id ≠ [] := by
  intro ws
  induction ws with
  | nil => intro m m' h; exact h
  | cons w ws ih => intro m m' h; exact ih (run_filled h w)

theorem valuesOf_kept (l1 l2 : List Occ) {o : OptData} (v : Str) (ho : o.operation ≠ .clear) {i : Nat} (h : valuesOf (l1 ++ l2) i ≠ []) :
    valuesOf (l1 ++ .option o v :: l2) i ≠ [] := by
  have e : l1 ++ .option o v :: l2 = (l1 ++ [.option o v]) ++ l2 := by simp
  rw [e]
  unfold valuesOf runWrites at h ⊢
  rw [List.flatMap_append, List.foldl_append] at h ⊢
  refine runs_filled _ ?_ h
  intro hm
  rw [List.flatMap_append, List.foldl_append]
  have : (List.flatMap Occ.writes [.option o v]) = (Occ.option o v).writes := by simp
  rw [this]
  simp only [Occ.writes]
  split
  · simp only [List.foldl_cons, List.foldl_nil, Write.run]; split <;> simp_all
  · simp only [List.foldl_cons, List.foldl_nil, Write.run]; split <;> simp_all
  · exact absurd (by assumption) ho
  · exact hm

/-! ### The command line -/

/-- The results are the same but for one more option, of the command `c`. -/
def OneMore (root c : Command) (o : OptData) (v : Str) (rs rs' : List IterResult) : Prop :=
  ∃ b a, rs = b ++ a ∧ rs' = b ++ .option o (some v) :: a ∧ lastCommand root b = c ∧ ∀ k x, .command k x ∈ b → k.Within root

theorem report_commands (ps : List Piece) (as : List ArgData) (k : Command) (x : Str) : .command k x ∉ report ps as := by
  induction ps generalizing as with
  | nil => simp [report]
  | cons p ps ih =>
    cases p with
    | option o v => simp [report, ih]
    | argument v => cases as <;> simp [report, ih]

theorem lastCommand_report (c : Command) (ps : List Piece) (as : List ArgData) : lastCommand c (report ps as) = c := by
  induction ps generalizing as with
  | nil => rfl
  | cons p ps ih =>
    cases p with
    | option o v => exact ih as
    | argument v =>
      cases as with
      | nil => rfl
      | cons a as => exact ih as

section
variable {d : ParserData} {names : Command → Str → OptData → Prop} {subs : Command → Str → Command → Prop}

/-- One more option for the command that is active, or one less. -/
theorem accepts_more {c : Command} (hf : ∀ q o o', names c q o → names c q o' → o = o') {us : List Phrase}
    (hu : ∀ u ∈ us, Says d.settings.optionStyle names c u.1 u.2) {ws : List Str} {o : OptData} {v : Str} (hw : Says d.settings.optionStyle names c ws (.option o v))
    {inits : List Occ} {rest : List Str} :
    (∀ rs, KeepsMandatory c o → Accepts d.settings.optionStyle names subs c inits (.mixed ⟨[], wordsOf us ++ rest⟩) rs →
      ∃ rs', Accepts d.settings.optionStyle names subs c inits (.mixed ⟨[], wordsOf us ++ (ws ++ rest)⟩) rs' ∧ OneMore c c o v rs rs') ∧
    (∀ rs', Dispensable c o → Accepts d.settings.optionStyle names subs c inits (.mixed ⟨[], wordsOf us ++ (ws ++ rest)⟩) rs' →
      ∃ rs, Accepts d.settings.optionStyle names subs c inits (.mixed ⟨[], wordsOf us ++ rest⟩) rs ∧ OneMore c c o v rs rs') := by
  have hwu : WrittenAll d.settings.optionStyle names c (.mixed ⟨[], wordsOf us ++ rest⟩) (us.map (·.2)) (.mixed ⟨[], rest⟩) := says_all hu rest
  have hwv : WrittenAll d.settings.optionStyle names c (.mixed ⟨[], wordsOf us ++ (ws ++ rest)⟩) (us.map (·.2) ++ [.option o v]) (.mixed ⟨[], rest⟩) :=
    (says_all hu (ws ++ rest)).append (.cons (hw rest) .nil)
  generalize us.map (·.2) = ps at *
  have hcnt : ∀ ps2, argPieces (ps ++ [.option o v] ++ ps2) = argPieces (ps ++ ps2) := by
    intro ps2
    rw [argPieces_append, argPieces_append, argPieces_append]
    rfl
  have hrep : ∀ ps2 (as : List ArgData), argPieces ps ≤ as.length → report (ps ++ ps2) as = report ps (as.take (argPieces ps)) ++ report ps2 (as.drop (argPieces ps)) ∧
      report (ps ++ [.option o v] ++ ps2) as = report ps (as.take (argPieces ps)) ++ .option o (some v) :: report ps2 (as.drop (argPieces ps)) := by
    intro ps2 as h
    refine ⟨report_append ps ps2 as h, ?_⟩
    rw [List.append_assoc, report_append ps _ as h]
    rfl
  have hocc : ∀ (x y : List IterResult), (x ++ .option o (some v) :: y).filterMap occOf = x.filterMap occOf ++ .option o v :: y.filterMap occOf := by
    intro x y
    rw [List.filterMap_append, List.filterMap_cons]
    rfl
  constructor
  · intro rs hk ha
    cases ha with
    | @last _ _ _ l' ps' ks hw' he hal hco =>
      obtain ⟨ps2, rfl, hw2⟩ := hwu.split hf hw' (fun p l' h => h.not_end he)
      have hlen := handedOut_length hal
      rw [argPieces_append] at hlen
      obtain ⟨e1, e2⟩ := hrep ps2 (handedOut c.arguments ks) (by omega)
      refine ⟨_, .last (hwv.append hw2) he (by rw [hcnt]; exact hal) ?_, _, _, e1, e2, lastCommand_report _ _ _, fun k x hm => absurd hm (report_commands _ _ _ _)⟩
      refine ⟨fun x hx hop => ?_, hco.subcommand⟩
      have := hco.mandatory x hx hop
      rw [e1, List.filterMap_append, ← List.append_assoc] at this
      rw [e2, hocc, ← List.append_assoc]
      rcases hk with hk | hk
      · exact valuesOf_kept _ _ _ hk this
      · rw [valuesOf_insert _ _ _ _ (hk x hx hop)]
        exact this
    | @sub _ c' _ _ l1 l2 ps' rs1 hw' hen hacc =>
      obtain ⟨ps2, rfl, hw2⟩ := hwu.split hf hw' (fun p l' h => hen.not_written h)
      have hps := hw'.no_arguments hen.commands_ne
      rw [argPieces_append] at hps
      obtain ⟨e1, e2⟩ := hrep ps2 [] (by simp; omega)
      refine ⟨_, .sub (hwv.append hw2) hen hacc, report ps (([] : List ArgData).take (argPieces ps)), report ps2 (([] : List ArgData).drop (argPieces ps)) ++ .command c' [] :: rs1, by rw [e1, List.append_assoc], by rw [e2, List.append_assoc]; rfl, lastCommand_report _ _ _,
        fun k x hm => absurd hm (report_commands _ _ _ _)⟩
  · intro rs hk ha
    cases ha with
    | @last _ _ _ l' ps' ks hw' he hal hco =>
      obtain ⟨ps2, rfl, hw2⟩ := hwv.split hf hw' (fun p l' h => h.not_end he)
      rw [hcnt] at hal
      have hlen := handedOut_length hal
      rw [argPieces_append] at hlen
      obtain ⟨e1, e2⟩ := hrep ps2 (handedOut c.arguments ks) (by omega)
      refine ⟨_, .last (hwu.append hw2) he hal ?_, _, _, e1, e2, lastCommand_report _ _ _, fun k x hm => absurd hm (report_commands _ _ _ _)⟩
      refine ⟨fun x hx hop => ?_, hco.subcommand⟩
      have := hco.mandatory x hx hop
      rw [e2, hocc, ← List.append_assoc, valuesOf_insert _ _ _ _ (hk x hx hop)] at this
      rw [e1, List.filterMap_append, ← List.append_assoc]
      exact this
    | @sub _ c' _ _ l1 l2 ps' rs1 hw' hen hacc =>
      obtain ⟨ps2, rfl, hw2⟩ := hwv.split hf hw' (fun p l' h => hen.not_written h)
      have hps := hw'.no_arguments hen.commands_ne
      rw [hcnt, argPieces_append] at hps
      obtain ⟨e1, e2⟩ := hrep ps2 [] (by simp; omega)
      refine ⟨_, .sub (hwu.append hw2) hen hacc, report ps (([] : List ArgData).take (argPieces ps)), report ps2 (([] : List ArgData).drop (argPieces ps)) ++ .command c' [] :: rs1, by rw [e1, List.append_assoc], by rw [e2, List.append_assoc]; rfl, lastCommand_report _ _ _,
        fun k x hm => absurd hm (report_commands _ _ _ _)⟩

/-- The same on the way to a sub-command. -/
theorem accepts_toward (R : Command → List IterResult → List IterResult → Prop)
    (hR : ∀ root c1 before rs rs', c1 ∈ root.commands → (∀ k x, .command k x ∉ before) → R c1 rs rs' →
      R root (before ++ .command c1 [] :: rs) (before ++ .command c1 [] :: rs'))
    (hf : ∀ c : Command, c.Within d.command → ∀ q o o', names c q o → names c q o' → o = o')
    (hs : ∀ c q c1 c2, subs c q c1 → subs c q c2 → c1 = c2) (hm : ∀ c q c', subs c q c' → c' ∈ c.commands)
    {root c : Command} {pre : List Str} (hl : LeadsTo d.settings.optionStyle names subs root pre c) {x y : List Str} (hroot : root.Within d.command)
    (hxy : c.Within d.command → ∀ inits rs, Accepts d.settings.optionStyle names subs c inits (.mixed ⟨[], x⟩) rs →
      ∃ rs', Accepts d.settings.optionStyle names subs c inits (.mixed ⟨[], y⟩) rs' ∧ R c rs rs')
    {inits : List Occ} {rs : List IterResult}
    (ha : Accepts d.settings.optionStyle names subs root inits (.mixed ⟨[], pre ++ x⟩) rs) :
    ∃ rs', Accepts d.settings.optionStyle names subs root inits (.mixed ⟨[], pre ++ y⟩) rs' ∧ R root rs rs' := by
  induction hl generalizing inits rs with
  | here => exact hxy hroot _ _ ha
  | @enter root c1 c ws name pre hws hnf hne hsub hl ih =>
    have hw : ∀ rest, WrittenAll d.settings.optionStyle names root (.mixed ⟨[], wordsOf ws ++ name :: rest⟩) (ws.map (·.2)) (.mixed ⟨[], name :: rest⟩) :=
      fun rest => says_all hws _
    have hen : ∀ rest, Enters d.settings.optionStyle subs root (.mixed ⟨[], name :: rest⟩) c1 (.mixed ⟨[], rest⟩) :=
      fun rest => .command (x := wholeFlag name rest) (read_text hnf rest) hnf hne hsub
    have hc1 : c1.Within d.command := Command.Within.trans (.sub (hm _ _ _ hsub) .self) hroot
    simp only [List.append_assoc, List.cons_append] at ha ⊢
    cases ha with
    | last hw' he _ _ =>
      obtain ⟨_, rfl⟩ := hw'.unique (hf _ hroot) (hw _) (fun p l' h => h.not_end he) (fun p l' h => (hen _).not_written h)
      exact absurd he (hen _).not_end
    | sub hw' hen' hacc =>
      obtain ⟨rfl, rfl⟩ := hw'.unique (hf _ hroot) (hw _) (fun p l' h => hen'.not_written h) (fun p l' h => (hen _).not_written h)
      obtain ⟨q, g1, g2⟩ := hen'.named (hen _)
      have e := hs _ _ _ _ g1 g2
      rw [e] at hen' hacc
      obtain rfl := hen'.line_unique (hen _)
      obtain ⟨rs', k1, k2⟩ := ih hc1 hxy hacc
      refine ⟨_, .sub (hw _) (hen _) k1, ?_⟩
      rw [e]
      exact hR root c1 _ _ _ (hm _ _ _ hsub) (report_commands _ _) k2

end

theorem lastCommand_skip {root c1 : Command} {before : List IterResult} (h : ∀ k x, .command k x ∉ before) (b : List IterResult) :
    lastCommand root (before ++ .command c1 [] :: b) = lastCommand c1 b := by
  induction before with
  | nil => rfl
  | cons r before ih =>
    have ih := ih fun k x hm => h k x (by simp [hm])
    cases r with
    | command k x => exact absurd List.mem_cons_self (h k x)
    | _ => exact ih

theorem OneMore.toward {c : Command} {o : OptData} {v : Str} (root c1 : Command) (before rs rs' : List IterResult) (hm : c1 ∈ root.commands) (hb : ∀ k x, .command k x ∉ before)
    (h : OneMore c1 c o v rs rs') : OneMore root c o v (before ++ .command c1 [] :: rs) (before ++ .command c1 [] :: rs') := by
  obtain ⟨b, a, rfl, rfl, h1, h2⟩ := h
  refine ⟨before ++ .command c1 [] :: b, a, by simp, by simp, by rw [lastCommand_skip hb, h1], ?_⟩
  intro k x hk
  rw [List.mem_append, List.mem_cons] at hk
  rcases hk with hk | hk | hk
  · exact absurd hk (hb k x)
  · cases hk; exact .sub hm .self
  · exact Command.Within.trans (h2 k x hk) (.sub hm .self)

/-- What one more option means for the values. -/
theorem OneMore.values {root c : Command} {o : OptData} {v : Str} {rs rs' : List IterResult} (h : OneMore root c o v rs rs') (ht : o.type = .normal)
    (hs : ∀ k : Command, k.Within root → k.multiCommand = false) {t t' : Tree (List Occ)} (h1 : given root rs = some t) (h2 : given root rs' = some t') :
    TreeAlike (SameButFor c o.valueId) (t.map valuesOf) (t'.map valuesOf) := by
  obtain ⟨b, a, rfl, rfl, hc, hw⟩ := h
  have key : ∀ k (l l' : List Occ) x, SameButFor c o.valueId k (valuesOf l) (valuesOf l') → SameButFor c o.valueId k (valuesOf (l ++ [x])) (valuesOf (l' ++ [x])) :=
    fun k l l' x h i hi => valuesOf_congr (h i hi) rfl
  unfold given Open.after at h1 h2
  rw [List.foldl_append] at h1 h2
  rw [List.foldl_cons] at h2
  obtain ⟨u, rest, e1, e2⟩ := active_after b (.node root (root.options.map .initial) []) [] (by
    intro q hq
    rw [List.mem_singleton] at hq
    rw [hq]
    exact hs root .self) fun k x hm => hs k (hw k x hm)
  have hst : Open.start root = [.node root (root.options.map .initial) []] := rfl
  rw [hst, e1] at h1 h2
  obtain ⟨k, l, ts⟩ := u
  have hk : k = c := by
    rw [← hc]
    exact e2
  subst hk
  have hstep : Open.step (.node k l ts :: rest) (.option o (some v)) = .node k (l ++ [.option o v]) ts :: rest := by
    simp only [Open.step, ht, reduceCtorEq, if_false]
    rfl
  rw [hstep] at h2
  have hr : ∀ (c : Command) (x : List Occ), SameButFor k o.valueId c (valuesOf x) (valuesOf x) := fun _ _ _ _ => rfl
  have hrel : TreesAlike (fun c l l' => SameButFor k o.valueId c (valuesOf l) (valuesOf l')) (.node k l ts :: rest) (.node k (l ++ [.option o v]) ts :: rest) := by
    refine .cons (.node ?_ (TreesAlike.refl hr _)) (TreesAlike.refl hr _)
    intro i hi
    have := valuesOf_insert l [] o v (i := i) fun e => hi ⟨rfl, e⟩
    rw [List.append_nil] at this
    exact this.symm
  exact TreeAlike.map (f := valuesOf) (g := valuesOf) (fun _ _ _ h => h) _ _ (alike_close (alike_steps key (fun c => hr c []) a hrel) h1 h2)

theorem OneMore.ending {root c : Command} {o : OptData} {v : Str} {rs rs' : List IterResult} (h : OneMore root c o v rs rs') : SameEnding rs rs' := by
  obtain ⟨b, a, rfl, rfl, _, _⟩ := h
  exact SameEnding.after b _ _ ⟨fun _ => rfl, by simp [argumentCount]⟩

theorem SameEnding.symm {rs rs' : List IterResult} (h : SameEnding rs rs') : SameEnding rs' rs := ⟨fun c => (h.1 c).symm, h.2.symm⟩

end Argos
