import Verif.Spec.Held
import Verif.Proofs.Iteration
import Verif.Proofs.Belongs

/-! # Values that a client keeps while it goes on calling `next` -/

namespace Argos
namespace Spec
namespace Tree
variable {P : Occ → Prop}

theorem GrowsBy.refl (t : Tree (List Occ)) : t.GrowsBy P t := fun _ u h => ⟨u, [], h, rfl, by simp, by simp⟩

theorem GrowsBy.trans {t u v : Tree (List Occ)} (h1 : t.GrowsBy P u) (h2 : u.GrowsBy P v) : t.GrowsBy P v := by
  intro r x hx
  obtain ⟨y, m, hy, e, f, g⟩ := h1 r x hx
  obtain ⟨z, m', hz, e', f', g'⟩ := h2 r y hy
  refine ⟨z, m ++ m', hz, e'.trans e, by rw [f', f, List.append_assoc], ?_⟩
  intro o ho
  rcases List.mem_append.mp ho with ho | ho
  · exact g o ho
  · exact g' o ho

theorem GrowsBy.mono {Q : Occ → Prop} (hpq : ∀ x, P x → Q x) {t u : Tree (List Occ)} (h : t.GrowsBy P u) : t.GrowsBy Q u := by
  intro r x hx
  obtain ⟨y, m, hy, e, f, g⟩ := h r x hx
  exact ⟨y, m, hy, e, f, fun o ho => hpq o (g o ho)⟩

theorem GrowsBy.node {c : Command} {a more : List Occ} {ts us : List (Tree (List Occ))} (hm : ∀ x ∈ more, P x)
    (h : ∀ (i : Nat) (t : Tree (List Occ)), ts[i]? = some t → ∃ u, us[i]? = some u ∧ t.GrowsBy P u) :
    (Tree.node c a ts).GrowsBy P (Tree.node c (a ++ more) us) := by
  intro r x hx
  cases r with
  | nil =>
    simp only [at?, Option.some.injEq] at hx
    exact ⟨.node c (a ++ more) us, more, rfl, by rw [← hx]; rfl, by rw [← hx]; rfl, hm⟩
  | cons i r =>
    simp only [at?, subs] at hx
    cases ht : ts[i]? with
    | none => rw [ht] at hx; simp at hx
    | some t =>
      rw [ht] at hx
      obtain ⟨u, hu, hk⟩ := h i t ht
      obtain ⟨y, m, hy, e⟩ := hk r x hx
      exact ⟨y, m, by simp only [at?, subs, hu]; exact hy, e⟩

theorem GrowsBy.same {c : Command} {a : List Occ} {ts us : List (Tree (List Occ))}
    (h : ∀ (i : Nat) (t : Tree (List Occ)), ts[i]? = some t → ∃ u, us[i]? = some u ∧ t.GrowsBy P u) :
    (Tree.node c a ts).GrowsBy P (Tree.node c a us) := by
  have := GrowsBy.node (c := c) (a := a) (more := []) (P := P) (by simp) h
  rwa [List.append_nil] at this

theorem GrowsBy.snoc (c : Command) (a : List Occ) (ts us : List (Tree (List Occ))) :
    (Tree.node c a ts).GrowsBy P (Tree.node c a (ts ++ us)) := by
  refine GrowsBy.same fun i t ht => ⟨t, ?_, GrowsBy.refl t⟩
  rw [List.getElem?_append_left]
  · exact ht
  · exact (List.getElem?_eq_some_iff.mp ht).1

end Tree

variable {P : Occ → Prop}

theorem Open.grows_go {t t' : Tree (List Occ)} (h : t.GrowsBy P t') (rest : Open) :
    (Open.close.go t rest).GrowsBy P (Open.close.go t' rest) := by
  induction rest generalizing t t' with
  | nil => exact h
  | cons p rest ih =>
    obtain ⟨c, l, ts⟩ := p
    refine ih (Tree.GrowsBy.same fun i u hu => ?_)
    by_cases hi : i < ts.length
    · refine ⟨u, ?_, Tree.GrowsBy.refl u⟩
      rw [List.getElem?_append_left hi] at hu ⊢
      exact hu
    · rw [List.getElem?_append_right (by omega)] at hu ⊢
      cases hk : i - ts.length with
      | zero =>
        rw [hk] at hu
        simp only [List.getElem?_cons_zero, Option.some.injEq] at hu
        exact ⟨t', by simp, hu ▸ h⟩
      | succ k => rw [hk] at hu; simp at hu

theorem Open.grows_add {st : Open} {t : Tree (List Occ)} (h : st.close = some t) {x : Occ} (hx : P x) :
    ∃ t', (st.add x).close = some t' ∧ t.GrowsBy P t' := by
  cases st with
  | nil => simp [Open.close] at h
  | cons p rest =>
    obtain ⟨c, l, ts⟩ := p
    simp only [Open.close, Option.some.injEq] at h
    refine ⟨_, rfl, ?_⟩
    rw [← h]
    exact Open.grows_go (Tree.GrowsBy.node (by simpa using hx) fun i u hu => ⟨u, hu, Tree.GrowsBy.refl u⟩) rest

theorem Open.grows_enter {st : Open} {t : Tree (List Occ)} (h : st.close = some t) (c : Command) :
    ∃ t', Open.close (.node c [] [] :: st) = some t' ∧ t.GrowsBy P t' := by
  cases st with
  | nil => simp [Open.close] at h
  | cons p rest =>
    obtain ⟨c0, l, ts⟩ := p
    simp only [Open.close, Option.some.injEq] at h
    refine ⟨_, rfl, ?_⟩
    rw [← h]
    exact Open.grows_go (Tree.GrowsBy.snoc c0 l ts _) rest

/-- What a result adds. -/
def addedBy : IterResult → Option Occ
  | .option o v => some (.option o (v.getD []))
  | .argument a v => some (.argument a (v.getD []))
  | .unknown s => some (.unknown s)
  | _ => none

theorem Open.grows_step {st : Open} {t : Tree (List Occ)} (h : st.close = some t) {r : IterResult} (hr : ∀ x, addedBy r = some x → P x) :
    ∃ t', (st.step r).close = some t' ∧ t.GrowsBy P t' := by
  cases r with
  | option o v =>
    simp only [Open.step]
    split
    · rw [Open.close_backD]
      exact Open.grows_add h (hr _ rfl)
    · exact Open.grows_add h (hr _ rfl)
  | argument a v => exact Open.grows_add h (hr _ rfl)
  | unknown s => exact Open.grows_add h (hr _ rfl)
  | command c x =>
    simp only [Open.step]
    split
    · exact Open.grows_enter (by rw [Open.close_backD]; exact h) c
    · exact Open.grows_enter h c
  | done => exact ⟨t, h, .refl t⟩
  | error => exact ⟨t, h, .refl t⟩

theorem Open.grows_steps {st : Open} {t : Tree (List Occ)} (h : st.close = some t) {rs : List IterResult}
    (hr : ∀ r ∈ rs, ∀ x, addedBy r = some x → P x) : ∃ t', Open.close (rs.foldl Open.step st) = some t' ∧ t.GrowsBy P t' := by
  induction rs generalizing st t with
  | nil => exact ⟨t, h, .refl t⟩
  | cons r rs ih =>
    obtain ⟨t1, h1, k1⟩ := Open.grows_step h (hr r (by simp))
    obtain ⟨t2, h2, k2⟩ := ih h1 (fun r hr' => hr r (by simp [hr']))
    exact ⟨t2, h2, k1.trans k2⟩

/-- The occurrence replaces or removes the values stored as `id`. -/
def OccReplaces (id : Nat) : Occ → Prop
  | .option o _ => o.valueId = id ∧ (o.operation = .assign ∨ o.operation = .clear)
  | _ => False

/-- The occurrence may change the values stored as `id`. -/
def OccConcerns (id : Nat) : Occ → Prop
  | .option o _ => o.valueId = id
  | .argument a _ => a.valueId = id
  | .initial o => o.valueId = id
  | .unknown _ => False

theorem valuesOf_prefix {id : Nat} (more : List Occ) (h : ∀ x ∈ more, ¬ OccReplaces id x) (occs : List Occ) :
    valuesOf occs id <+: valuesOf (occs ++ more) id := by
  induction more generalizing occs with
  | nil => rw [List.append_nil]; exact List.prefix_rfl
  | cons x more ih =>
    rw [show occs ++ x :: more = (occs ++ [x]) ++ more by simp]
    refine List.IsPrefix.trans ?_ (ih (fun y hy => h y (by simp [hy])) (occs ++ [x]))
    rw [valuesOf_snoc]
    have hx := h x (by simp)
    cases x with
    | initial o =>
      simp only [Occ.writes]
      split
      · exact List.prefix_rfl
      · simp only [List.foldl_cons, List.foldl_nil, Write.run]
        split
        · exact List.prefix_append _ _
        · exact List.prefix_rfl
    | option o v =>
      simp only [OccReplaces, not_and, not_or] at hx
      simp only [Occ.writes]
      cases hop : o.operation with
      | assign =>
        have : ¬ id = o.valueId := fun e => (hx e.symm).1 hop
        simp only [List.foldl_cons, List.foldl_nil, Write.run, if_neg this]
        exact List.prefix_rfl
      | clear =>
        have : ¬ id = o.valueId := fun e => (hx e.symm).2 hop
        simp only [List.foldl_cons, List.foldl_nil, Write.run, if_neg this]
        exact List.prefix_rfl
      | append =>
        simp only [List.foldl_cons, List.foldl_nil, Write.run]
        split
        · exact List.prefix_append _ _
        · exact List.prefix_rfl
      | none => exact List.prefix_rfl
    | argument a v =>
      simp only [Occ.writes, List.foldl_cons, List.foldl_nil, Write.run]
      split
      · exact List.prefix_append _ _
      · exact List.prefix_rfl
    | unknown s => exact List.prefix_rfl

theorem valuesOf_same {id : Nat} (more : List Occ) (h : ∀ x ∈ more, ¬ OccConcerns id x) (occs : List Occ) :
    valuesOf (occs ++ more) id = valuesOf occs id := by
  induction more generalizing occs with
  | nil => rw [List.append_nil]
  | cons x more ih =>
    rw [show occs ++ x :: more = (occs ++ [x]) ++ more by simp, ih (fun y hy => h y (by simp [hy])), valuesOf_snoc]
    have hx := h x (by simp)
    cases x with
    | initial o =>
      have : ¬ id = o.valueId := fun e => hx e.symm
      simp only [Occ.writes]
      split
      · rfl
      · simp only [List.foldl_cons, List.foldl_nil, Write.run, if_neg this]
    | option o v =>
      have : ¬ id = o.valueId := fun e => hx e.symm
      simp only [Occ.writes]
      cases hop : o.operation <;> simp only [List.foldl_cons, List.foldl_nil, Write.run, if_neg this]
    | argument a v =>
      have : ¬ id = a.valueId := fun e => hx e.symm
      simp only [Occ.writes, List.foldl_cons, List.foldl_nil, Write.run, if_neg this]
    | unknown s => rfl

end Spec

open Spec Parser

/-- What a reference shows was given on the way to it. -/
theorem look_given {s : PState} {st : Open} (ha : Agrees s.stack st) {r : NodeRef} {m : PNode} (hm : IterHandle.look (some s) r = some m) :
    ∃ t u, st.close = some t ∧ t.at? r = some u := by
  cases hs : s.stack with
  | nil => simp [IterHandle.look, topLevel, hs, closeAll, closeFrames] at hm
  | cons a l =>
    rw [hs] at ha
    obtain ⟨t, h1, h2⟩ := agrees_close ha
    simp only [IterHandle.look, Option.bind_some, topLevel_eq hs] at hm
    refine ⟨t, ?_⟩
    cases hu : t.at? r with
    | some u => exact ⟨u, h1, rfl⟩
    | none =>
      have := node_rawBy (·.values) r (nest a l)
      have e : (nest a l).rawBy (·.values) = t.map rawValues := h2
      rw [e, at_map, hu, hm] at this
      simp at this

/-- What was to be seen stays, followed by what the further results add. -/
theorem trace_grows {d : ParserData} (hr : Ready d) {env : Env} (hp : env.Passive) {s s' : PState} (hg : Good d s) {st : Open}
    (ha : Agrees s.stack st) {rs : List IterResult} (ht : Trace env s rs s') (hl : ∀ r ∈ rs, ¬ r.IsLast) {P : Occ → Prop}
    (hP : ∀ r ∈ rs, ∀ x, addedBy r = some x → P x) {p : NodeRef} {m : PNode} (hm : IterHandle.look (some s) p = some m) :
    ∃ m' occs more, IterHandle.look (some s') p = some m' ∧ m'.command = m.command ∧ (∀ id, m.values.getValues id = valuesOf occs id) ∧
      (∀ id, m'.values.getValues id = valuesOf (occs ++ more) id) ∧ ∀ x ∈ more, P x := by
  obtain ⟨t, u, hc, hu⟩ := look_given ha hm
  obtain ⟨m0, e1, e2, e3⟩ := look_agrees ha hc hu
  rw [hm, Option.some.injEq] at e1
  subst e1
  obtain ⟨t', hc', hgrow⟩ := Open.grows_steps hc hP
  obtain ⟨u', more, hu', hcmd, hdata, hmore⟩ := hgrow p u hu
  obtain ⟨m', g1, g2, g3⟩ := look_agrees (ht.agrees hp hr hg hl ha) hc' hu'
  exact ⟨m', u.data, more, g1, g2.trans (hcmd.trans e2.symm), e3, fun id => by rw [g3 id, hdata], hmore⟩

theorem advances_grow {d0 d : ParserData} (h : finishInitialization d0 = .ok d) {env : Env} (hp : env.Passive) {args : List Str}
    {reps0 reps : List IterReport} {h1 h2 : IterHandle} (ha : Advances env (IterHandle.make d args) reps0 h1)
    (hb : Advances env h1 reps h2) {P : Occ → Prop} (hP : ∀ r x, IterHandle.report r ∈ reps → addedBy r = some x → P x)
    {p : NodeRef} {m : PNode} (hm : h1.look p = some m) :
    ∃ m' occs more, h2.look p = some m' ∧ m'.command = m.command ∧ (∀ id, m.values.getValues id = valuesOf occs id) ∧
      (∀ id, m'.values.getValues id = valuesOf (occs ++ more) id) ∧ ∀ x ∈ more, P x := by
  have hr := ready_of_init h
  obtain ⟨rs0, s1, ht, hl, rfl, rfl⟩ := ha.trace _ rfl
  obtain ⟨rs, s2, ht2, hl2, rfl, rfl⟩ := hb.trace _ rfl
  exact trace_grows hr hp (ht.good hr (start_good d args).2) (ht.agrees hp hr (start_good d args).2 hl (agrees_start d args)) ht2 hl2
    (fun r hr x hx => hP r x (List.mem_map_of_mem hr) hx) hm

/-- The end of the command line changes no value. -/
theorem end_same {d0 d : ParserData} (h : finishInitialization d0 = .ok d) {env : Env} (hp : env.Passive) {args : List Str}
    {reps : List IterReport} {s s' : PState} (ha : Advances env (IterHandle.make d args) reps (some s))
    (hn : Parser.next env s = (.ok .done, s')) {p : NodeRef} {m : PNode} (hm : IterHandle.look (some s) p = some m) :
    ∃ m', IterHandle.look (some s') p = some m' ∧ m'.command = m.command ∧ ∀ id, m'.values.getValues id = m.values.getValues id := by
  have hr := ready_of_init h
  obtain ⟨rs, s1, ht, hl, rfl, e⟩ := ha.trace _ rfl
  cases e
  have hg := ht.good hr (start_good d args).2
  have hag := ht.agrees hp hr (start_good d args).2 hl (agrees_start d args)
  obtain ⟨hst, _⟩ := next_good hr hg hn
  have hag' : Agrees s'.stack (rs.foldl Open.step (Open.start d.command)) := by
    rcases hst.done_cases with ⟨_, rfl⟩ | ⟨it, _, _, rfl⟩
    · exact hag
    · exact agrees_map raw_asSuccess hag
  obtain ⟨t, u, hc, hu⟩ := look_given hag hm
  obtain ⟨m0, e1, e2, e3⟩ := look_agrees hag hc hu
  rw [hm, Option.some.injEq] at e1
  subst e1
  obtain ⟨m', g1, g2, g3⟩ := look_agrees hag' hc hu
  exact ⟨m', g1, g2.trans e2.symm, fun id => by rw [g3, e3]⟩

/-- What an error leaves: the values are as before, or an option that ends the command line has been stored. -/
theorem Parser.Step.fails {env : Env} (hp : env.Passive) {d : ParserData} (hr : Ready d) {s s' : PState} (hg : Good d s) {st : Open}
    (h : Step env s (.ok .error) s') (ha : Agrees s.stack st) :
    Agrees s'.stack st ∨ ∃ o v, o ∈ s.command.options ∧ o.type = .lastArgument ∧ Agrees s'.stack (st.add (.option o v)) := by
  have herr : ∀ {msg : Str} {t : PState} {st : Open}, ErrorRun msg t IterResult.error (.ok .error) s' → Agrees t.stack st → Agrees s'.stack st := by
    intro msg t st he hst
    cases he with
    | error _ _ =>
      refine agrees_map (k := fun n => { n with code := .failure }) (fun n => by cases n; rfl) ?_
      exact agrees_headMap (raw_unprocessed _) hst
  cases h with
  | unfinished _ _ he => exact Or.inl (herr he ha)
  | unknownOption _ _ _ _ _ he => exact Or.inl (herr he ha)
  | option ht _ hlk hrun =>
    cases hrun with
    | noValue _ _ he => exact Or.inl (herr he ha)
    | lastFails h1 h2 hty _ he =>
      rename_i s2 s3 v stored w msg _
      obtain ⟨rfl, e⟩ := option_passive hp hg ht h1 h2
      have h3 := agrees_occWrite ha ‹OptData› v
      rw [← e] at h3
      exact Or.inr ⟨_, _, lookup_mem hr hg hlk, hty, herr he h3⟩
  | unknownCommand _ _ _ _ he => exact Or.inl (herr he ha)
  | argument ht hno hce hrun =>
    cases hrun with
    | tooMany _ _ _ he => exact Or.inl (herr he ha)

/-- What the last call of `next` leaves. -/
theorem last_grows {d0 d : ParserData} (h : finishInitialization d0 = .ok d) {env : Env} (hp : env.Passive) {args : List Str}
    {reps : List IterReport} {rep : IterReport} {h1 h2 : IterHandle} (ha : Advances env (IterHandle.make d args) reps h1)
    (hn : h1.next env = (.ok rep, h2)) (hrep : rep.more = false) {p : NodeRef} {m : PNode} (hm : h1.look p = some m) :
    ∃ q n m' occs more, h1.parsedArguments = .ok q ∧ h1.look q = some n ∧ h2.look p = some m' ∧ m'.command = m.command ∧
      (∀ id, m.values.getValues id = valuesOf occs id) ∧ (∀ id, m'.values.getValues id = valuesOf (occs ++ more) id) ∧
      ∀ x ∈ more, ∃ o v, x = .option o v ∧ o ∈ n.command.options ∧ o.type = .lastArgument := by
  have hr := ready_of_init h
  obtain ⟨rs, s, ht, hl, rfl, rfl⟩ := ha.trace _ rfl
  obtain ⟨r, s', hn', rfl, rfl⟩ := IterHandle.next_some hn
  have hg := ht.good hr (start_good d args).2
  have hag := ht.agrees hp hr (start_good d args).2 hl (agrees_start d args)
  have hsh := ht.shaped hr (start_good d args).2 hl (shaped_start d args)
  obtain ⟨hst, _⟩ := next_good hr hg hn'
  generalize rs.foldl Open.step (Open.start d.command) = st at hag hsh
  obtain ⟨a, l, hs, hcmd⟩ := hg.head
  have hpa : IterHandle.parsedArguments (some s) = .ok (openRef st) := by
    simp only [IterHandle.parsedArguments]
    rw [shaped_ref hsh, if_neg (by simp [hs])]
  have hn0 : ∃ n, IterHandle.look (some s) (openRef st) = some n ∧ n.command = s.command := by
    match st, hag with
    | [], hag => rw [hs] at hag; simp [Agrees, AgreesBy] at hag
    | .node c occs ts :: rest, hag =>
      obtain ⟨n, e1, e2, _⟩ := look_agrees hag rfl (close_head (.node c occs ts) rest)
      refine ⟨n, e1, e2.trans ?_⟩
      rw [hs] at hag
      obtain ⟨l, ts', rest', e, _⟩ := agrees_cons hag
      rw [← hcmd]
      cases e
      rfl
  obtain ⟨n, hn1, hn2⟩ := hn0
  obtain ⟨t, u, hc, hu⟩ := look_given hag hm
  obtain ⟨m0, e1, e2, e3⟩ := look_agrees hag hc hu
  rw [hm, Option.some.injEq] at e1
  subst e1
  have same : Agrees s'.stack st → ∃ q n m' occs more, IterHandle.parsedArguments (some s) = .ok q ∧ IterHandle.look (some s) q = some n ∧
      IterHandle.look (some s') p = some m' ∧ m'.command = m.command ∧
      (∀ id, m.values.getValues id = valuesOf occs id) ∧ (∀ id, m'.values.getValues id = valuesOf (occs ++ more) id) ∧
      ∀ x ∈ more, ∃ o v, x = .option o v ∧ o ∈ n.command.options ∧ o.type = .lastArgument := by
    intro h'
    obtain ⟨m', g1, g2, g3⟩ := look_agrees h' hc hu
    exact ⟨_, n, m', u.data, [], hpa, hn1, g1, g2.trans e2.symm, e3, by simpa using g3, by simp⟩
  cases r with
  | done =>
    refine same ?_
    rcases hst.done_cases with ⟨_, rfl⟩ | ⟨it, _, _, rfl⟩
    · exact hag
    · exact agrees_map raw_asSuccess hag
  | error =>
    rcases hst.fails hp hr hg hag with h' | ⟨o, v, ho, hty, h'⟩
    · exact same h'
    · obtain ⟨t', hc', hgrow⟩ := Open.grows_add (P := fun x => x = .option o v) hc rfl
      obtain ⟨u', more, hu', hcmd', hdata, hmore⟩ := hgrow p u hu
      obtain ⟨m', g1, g2, g3⟩ := look_agrees h' hc' hu'
      exact ⟨_, n, m', u.data, more, hpa, hn1, g1, g2.trans (hcmd'.trans e2.symm), e3, fun id => by rw [g3 id, hdata],
        fun x hx => ⟨o, v, hmore x hx, by rw [hn2]; exact ho, hty⟩⟩
  | _ => simp [IterHandle.report] at hrep

end Argos
