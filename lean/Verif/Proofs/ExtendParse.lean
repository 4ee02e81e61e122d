import Verif.Proofs.Extend

/-!
# What was accepted is still accepted by a parser with more options
-/

namespace Argos

open Spec Parser

variable {ci : Bool} {c c' : Command}

theorem Grown.arguments (h : Grown ci c c') : Each (ArgLink ci c c') c.arguments c'.arguments := by
  obtain ⟨_, _, _, _, g⟩ := h.self; exact g.arguments

theorem SegmentLink.occs (hg : Grown ci c c') {rs rs' : List IterResult} (h : SegmentLink ci c c' rs rs') : ∀ {l l' : List Occ}, OccLink ci c c' l l' →
    OccLink ci c c' (l ++ rs.filterMap occOf) (l' ++ rs'.filterMap occOf) := by
  induction h with
  | nil => intro l l' hl; simpa using hl
  | @option o o' v rs rs' h1 _ _ ih =>
    intro l l' hl
    have := ih (hg.addOption hl h1 (v.getD []))
    simpa only [List.filterMap_cons, occOf, List.append_assoc, List.singleton_append] using this
  | @argument a a' v rs rs' h1 _ ih =>
    intro l l' hl
    have := ih (hg.addArgument hl h1 (v.getD []))
    simpa only [List.filterMap_cons, occOf, List.append_assoc, List.singleton_append] using this

theorem Grown.complete (h : Grown ci c c') {l l' : List Occ} (hl : OccLink ci c c' l l') (hc : Complete c l) : Complete c' l' := by
  obtain ⟨os, gs, os', gs', g⟩ := h.self
  refine ⟨?_, by rw [← g.require]; exact hc.subcommand⟩
  intro o' ho' hopt
  rw [g.options'] at ho'
  rcases List.mem_append.mp ho' with ho' | ho'
  · obtain ⟨o, ho, hlk⟩ := Each.mem_right g.kept ho'
    have hlk' : OptLink ci c c' o o' := hlk
    have := hc.mandatory o (by rw [g.options]; exact List.mem_append_left _ ho) (by rw [hlk'.optional]; exact hopt)
    intro e
    apply this
    have k := hl _ _ hlk'.2
    rw [e] at k
    simpa using k
  · rw [g.optional o' ho'] at hopt
    simp at hopt

/-- What was accepted is still accepted, with corresponding results. -/
theorem accepts_grown {style : OptionStyle} {inits : List Occ} {l : Line} {rs : List IterResult}
    (ha : Accepts style (Names ci false) (NamesCommand ci) c inits l rs) : ∀ {c' : Command} {inits' : List Occ}, Grown ci c c' → OccLink ci c c' inits inits' →
    ∃ rs', Accepts style (Names ci false) (NamesCommand ci) c' inits' l rs' ∧ ResultLink ci c c' rs rs' := by
  induction ha with
  | @last c inits l l' ps ks hw he hk hc =>
    intro c' inits' hg hi
    obtain ⟨ps', hps, hw'⟩ := hg.writtenAll hw
    have hseg := report_link hps (handedOut_link hg.arguments ks)
    refine ⟨_, .last hw' he (ks := ks) ?_ ?_, ?_⟩
    · rw [← argPieces_link hps]
      exact allotment_counts (counts_link hg.arguments) hk
    · exact hg.complete (hseg.occs hg hi) hc
    · have := hseg.then_ .nil
      simpa using this
  | @sub c c1 inits l l1 l2 ps rs hw hen _ ih =>
    intro c' inits' hg hi
    obtain ⟨ps', hps, hw'⟩ := hg.writtenAll hw
    obtain ⟨c1', hg1, hen'⟩ := hg.enters hen
    obtain ⟨rs', ha', hr⟩ := ih hg1 OccLink.nil
    exact ⟨_, .sub hw' hen' ha', (report_link hps .nil).then_ (.command hg1 hr)⟩

/-! ### Counted arguments -/

theorem variable_counts {as as' : List ArgData} (h : as.map (fun a => (a.minCount, a.maxCount)) = as'.map fun a => (a.minCount, a.maxCount)) :
    VariableBeforeLast as → VariableBeforeLast as' := by
  rintro ⟨b, a, f, rfl, hf, ha⟩
  rw [List.map_append, List.map_cons] at h
  obtain ⟨b', r', rfl, hb, hr⟩ := List.map_eq_append_iff.mp h.symm
  obtain ⟨a', f', rfl, ha', hf'⟩ := List.map_eq_cons_iff.mp hr
  refine ⟨b', a', f', rfl, ?_, ?_⟩
  · rintro rfl
    simp at hf'
    exact hf hf'
  · simp only [Prod.mk.injEq] at ha'
    rw [ha'.1, ha'.2]
    exact ha

theorem served_counts {as as' : List ArgData} (h : as.map (fun a => (a.minCount, a.maxCount)) = as'.map fun a => (a.minCount, a.maxCount)) {n : Nat} :
    LastServed as n → LastServed as' n := by
  rintro (⟨a, ha, h0⟩ | hm)
  · have e := congrArg List.getLast? h
    rw [List.getLast?_map, List.getLast?_map, ha] at e
    cases hl : as'.getLast? with
    | none => rw [hl] at e; simp at e
    | some a' =>
      rw [hl] at e
      simp only [Option.map_some, Option.some.injEq, Prod.mk.injEq] at e
      exact .inl ⟨a', hl, by rw [← e.1]; exact h0⟩
  · right
    have e : maxTotal as.dropLast = maxTotal as'.dropLast := by
      have k := congrArg (fun l : List (Nat × Nat) => (l.dropLast.map (·.2)).sum) h
      simp only [← List.map_dropLast, List.map_map] at k
      exact k
    rw [← e]
    exact hm

theorem ResultLink.last {rs rs' : List IterResult} (h : ResultLink ci c c' rs rs') (hg : Grown ci c c') :
    Grown ci (lastCommand c rs) (lastCommand c' rs') ∧ argumentCount rs = argumentCount rs' := by
  induction h with
  | nil => exact ⟨hg, rfl⟩
  | option _ _ _ ih => exact ih hg
  | argument _ _ ih =>
    obtain ⟨h1, h2⟩ := ih hg
    refine ⟨h1, ?_⟩
    unfold argumentCount at *
    simp [h2]
  | command h1 _ ih => exact ih h1

theorem ResultLink.served {rs rs' : List IterResult} (h : ResultLink ci c c' rs rs') (hg : Grown ci c c') (hs : Served c rs) : Served c' rs' := by
  obtain ⟨h1, h2⟩ := h.last hg
  have hc := counts_link h1.arguments
  intro hn
  rw [← h2]
  exact served_counts hc (hs (variable_counts hc.symm hn))

/-! ### The tree of results -/

/-- Corresponding trees. -/
inductive TreeLink (ci : Bool) : Tree (List Occ) → Tree (List Occ) → Prop
  | node {c c' : Command} {l l' : List Occ} {ts ts' : List (Tree (List Occ))} : Grown ci c c' → OccLink ci c c' l l' → Each (TreeLink ci) ts ts' →
      TreeLink ci (.node c l ts) (.node c' l' ts')

/-- No command allows several sub-commands. -/
def NoMulti (st : Open) : Prop := ∀ t ∈ st, t.command.multiCommand = false

theorem back_noMulti {st : Open} (h : NoMulti st) : st.back = none := by
  have key : ∀ (rest : Open) (t : Tree (List Occ)), NoMulti rest → Open.back.go t rest = none := by
    intro rest
    induction rest with
    | nil => intro t _; rfl
    | cons x rest ih =>
      intro t hn
      obtain ⟨c, l, ts⟩ := x
      have : c.multiCommand = false := hn (.node c l ts) (by simp)
      simp only [Open.back.go, this, Bool.false_eq_true, if_false]
      exact ih _ fun y hy => hn y (by simp [hy])
  cases st with
  | nil => rfl
  | cons t rest => exact key rest t fun y hy => h y (by simp [hy])

theorem NoMulti.cons {st : Open} {t t1 : Tree (List Occ)} (h : NoMulti (t :: st)) (he : t1.command = t.command) : NoMulti (t1 :: st) := by
  intro x hx
  rcases List.mem_cons.mp hx with rfl | hx
  · rw [he]; exact h t (by simp)
  · exact h x (by simp [hx])

/-- The results give corresponding trees. -/
theorem ResultLink.opens {rs rs' : List IterResult} (h : ResultLink ci c c' rs rs') : ∀ {l l' : List Occ} {ts ts' : List (Tree (List Occ))} {st st' : Open},
    Grown ci c c' → OccLink ci c c' l l' → Each (TreeLink ci) ts ts' → Each (TreeLink ci) st st' → NoMulti (.node c l ts :: st) → NoMulti (.node c' l' ts' :: st') →
    (∀ r ∈ rs, ∀ c1 t, r = .command c1 t → c1.multiCommand = false) →
    Each (TreeLink ci) (rs.foldl Open.step (.node c l ts :: st)) (rs'.foldl Open.step (.node c' l' ts' :: st')) := by
  induction h with
  | nil => intro l l' ts ts' st st' hg hl hts hst _ _ _; exact .cons (.node hg hl hts) hst
  | @option c c' o o' v rs rs' h1 _ _ ih =>
    intro l l' ts ts' st st' hg hl hts hst hm hm' hcm
    rw [List.foldl_cons, List.foldl_cons]
    have hmn := hm.cons (t1 := .node c (l ++ [.option o (v.getD [])]) ts) rfl
    have hmn' := hm'.cons (t1 := .node c' (l' ++ [.option o' (v.getD [])]) ts') rfl
    have e : Open.step (.node c l ts :: st) (.option o v) = .node c (l ++ [.option o (v.getD [])]) ts :: st := by
      simp only [Open.step, Open.add]
      rw [back_noMulti hmn]
      split <;> rfl
    have e' : Open.step (.node c' l' ts' :: st') (.option o' v) = .node c' (l' ++ [.option o' (v.getD [])]) ts' :: st' := by
      simp only [Open.step, Open.add]
      rw [back_noMulti hmn']
      split <;> rfl
    rw [e, e']
    exact ih hg (hg.addOption hl h1 _) hts hst hmn hmn' fun r hr => hcm r (by simp [hr])
  | @argument c c' a a' v rs rs' h1 _ ih =>
    intro l l' ts ts' st st' hg hl hts hst hm hm' hcm
    rw [List.foldl_cons, List.foldl_cons]
    exact ih hg (hg.addArgument hl h1 _) hts hst (hm.cons rfl) (hm'.cons rfl) fun r hr => hcm r (by simp [hr])
  | @command c c' c1 c1' t rs rs' h1 _ ih =>
    intro l l' ts ts' st st' hg hl hts hst hm hm' hcm
    rw [List.foldl_cons, List.foldl_cons]
    have e : Open.step (.node c l ts :: st) (.command c1 t) = .node c1 [] [] :: .node c l ts :: st := by
      simp only [Open.step]
      rw [back_noMulti hm]
      split <;> rfl
    have e' : Open.step (.node c' l' ts' :: st') (.command c1' t) = .node c1' [] [] :: .node c' l' ts' :: st' := by
      simp only [Open.step]
      rw [back_noMulti hm']
      split <;> rfl
    rw [e, e']
    have hmu : c1.multiCommand = false := hcm _ (by simp) c1 t rfl
    have hmu' : c1'.multiCommand = false := by
      obtain ⟨_, _, _, _, g⟩ := h1.self
      rw [← g.multi]; exact hmu
    refine ih h1 OccLink.nil .nil (.cons (.node hg hl hts) hst) ?_ ?_ fun r hr => hcm r (by simp [hr])
    · intro x hx
      rcases List.mem_cons.mp hx with rfl | hx
      · exact hmu
      · exact hm x hx
    · intro x hx
      rcases List.mem_cons.mp hx with rfl | hx
      · exact hmu'
      · exact hm' x hx

theorem close_link {st st' : Open} (h : Each (TreeLink ci) st st') {t t' : Tree (List Occ)} (ht : st.close = some t) (ht' : st'.close = some t') :
    TreeLink ci t t' := by
  have key : ∀ {st st' : Open}, Each (TreeLink ci) st st' → ∀ {t t' : Tree (List Occ)}, TreeLink ci t t' →
      TreeLink ci (Open.close.go t st) (Open.close.go t' st') := by
    intro st st' h
    induction h with
    | nil => intro t t' ht; exact ht
    | cons h1 _ ih =>
      intro t t' ht
      cases h1 with
      | node hg hl hts => exact ih (.node hg hl (Each.append hts (.cons ht .nil)))
  cases h with
  | nil => simp [Open.close] at ht
  | cons h1 h2 =>
    simp only [Open.close, Option.some.injEq] at ht ht'
    subst ht ht'
    exact key h2 h1

mutual
theorem keepsValues : (n n' : PNode) → ∀ {t t' : Tree (List Occ)}, n.tree = t.map valuesOf → n'.tree = t'.map valuesOf → TreeLink ci t t' → TreeOk n → TreeOk n' →
    KeepsValues n n'
  | ⟨c, i, v, u, k, st, subs⟩, ⟨c', i', v', u', k', st', subs'⟩, .node d l ts, .node d' l' ts', h, h', hk, hok, hok' => by
    obtain ⟨hg, hl, hts⟩ : Grown ci d d' ∧ OccLink ci d d' l l' ∧ Each (TreeLink ci) ts ts' := by
      cases hk with
      | node a b e => exact ⟨a, b, e⟩
    simp only [PNode.tree, Tree.map, Tree.node.injEq] at h h'
    obtain ⟨rfl, hv, hs⟩ := h
    obtain ⟨rfl, hv', hs'⟩ := h'
    obtain ⟨_, _, _, _, g⟩ := hg.self
    refine .intro g.name ?_ (keepsValuesAll subs subs' hs hs' hts (fun m hm => hok.sub hm) fun m hm => hok'.sub hm)
    intro s hn
    obtain ⟨w, w', e1, e2, hr⟩ := g.names s hn
    have d1 := hok.self.ids
    have d2 := hok'.self.ids
    simp only at d1 d2
    refine ⟨valuesOf l w, valuesOf l' w', ?_, ?_, hl w w' hr⟩
    · simp only [PNode.valuesOf, d1, e1, Outcome.bind_ok, ← hv]
      rfl
    · simp only [PNode.valuesOf, d2, e2, Outcome.bind_ok, ← hv']
      rfl
theorem keepsValuesAll : (ns ns' : List PNode) → ∀ {ts ts' : List (Tree (List Occ))}, PNode.treeList ns = Tree.mapList valuesOf ts →
    PNode.treeList ns' = Tree.mapList valuesOf ts' → Each (TreeLink ci) ts ts' → (∀ m ∈ ns, TreeOk m) → (∀ m ∈ ns', TreeOk m) → Each KeepsValues ns ns'
  | [], ns', _, _, h, h', hts, _, _ => by
    cases hts with
    | nil =>
      cases ns' with
      | nil => exact .nil
      | cons _ _ => simp [PNode.treeList, Tree.mapList] at h'
    | cons _ _ => simp [PNode.treeList, Tree.mapList] at h
  | n :: ns, [], _, _, h, h', hts, _, _ => by
    cases hts with
    | nil => simp [PNode.treeList, Tree.mapList] at h
    | cons _ _ => simp [PNode.treeList, Tree.mapList] at h'
  | n :: ns, n' :: ns', _, _, h, h', hts, hok, hok' => by
    cases hts with
    | nil => simp [PNode.treeList, Tree.mapList] at h
    | cons h1 h2 =>
      simp only [PNode.treeList, Tree.mapList, List.cons.injEq] at h h'
      exact .cons (keepsValues n n' h.1 h'.1 h1 (hok n (by simp)) (hok' n' (by simp)))
        (keepsValuesAll ns ns' h.2 h'.2 h2 (fun m hm => hok m (by simp [hm])) fun m hm => hok' m (by simp [hm]))
end

end Argos
