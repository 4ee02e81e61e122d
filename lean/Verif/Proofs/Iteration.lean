import Verif.Spec.Iteration
import Verif.Proofs.Given
import Verif.Proofs.Outcome
import Verif.Proofs.Shape

/-! # `ArgumentIterator` -/

namespace Argos
namespace Spec
namespace Tree
variable {α β γ : Type}

theorem Keeps.refl (t : Tree α) : t.Keeps t := fun _ u h => ⟨u, h, rfl⟩

theorem Keeps.trans {t : Tree α} {u : Tree β} {v : Tree γ} (h1 : t.Keeps u) (h2 : u.Keeps v) : t.Keeps v := by
  intro r x hx
  obtain ⟨y, hy, e⟩ := h1 r x hx
  obtain ⟨z, hz, e'⟩ := h2 r y hy
  exact ⟨z, hz, e'.trans e⟩

theorem Keeps.node {c : Command} {a : α} {b : β} {ts : List (Tree α)} {us : List (Tree β)}
    (h : ∀ (i : Nat) (t : Tree α), ts[i]? = some t → ∃ u, us[i]? = some u ∧ t.Keeps u) : (Tree.node c a ts).Keeps (Tree.node c b us) := by
  intro r x hx
  cases r with
  | nil =>
    simp only [at?, Option.some.injEq] at hx
    exact ⟨.node c b us, rfl, by rw [← hx]; rfl⟩
  | cons i r =>
    simp only [at?, subs] at hx
    cases ht : ts[i]? with
    | none => rw [ht] at hx; simp at hx
    | some t =>
      rw [ht] at hx
      obtain ⟨u, hu, hk⟩ := h i t ht
      obtain ⟨y, hy, e⟩ := hk r x hx
      exact ⟨y, by simp only [at?, subs, hu]; exact hy, e⟩

theorem Keeps.snoc (c : Command) (a : α) (ts us : List (Tree α)) : (Tree.node c a ts).Keeps (Tree.node c a (ts ++ us)) := by
  refine Keeps.node fun i t ht => ⟨t, ?_, Keeps.refl t⟩
  rw [List.getElem?_append_left]
  · exact ht
  · exact (List.getElem?_eq_some_iff.mp ht).1

end Tree

theorem Open.keeps_go {t t' : Tree (List Occ)} (h : t.Keeps t') (rest : Open) : (Open.close.go t rest).Keeps (Open.close.go t' rest) := by
  induction rest generalizing t t' with
  | nil => exact h
  | cons p rest ih =>
    obtain ⟨c, l, ts⟩ := p
    refine ih (Tree.Keeps.node fun i u hu => ?_)
    by_cases hi : i < ts.length
    · refine ⟨u, ?_, Tree.Keeps.refl u⟩
      rw [List.getElem?_append_left hi] at hu ⊢
      exact hu
    · rw [List.getElem?_append_right (by omega)] at hu ⊢
      cases hk : i - ts.length with
      | zero =>
        rw [hk] at hu
        simp only [List.getElem?_cons_zero, Option.some.injEq] at hu
        exact ⟨t', by simp, hu ▸ h⟩
      | succ k => rw [hk] at hu; simp at hu

theorem Open.close_back {st st' : Open} (h : st.back = some st') : st'.close = st.close := by
  have go : ∀ (rest : Open) (t : Tree (List Occ)) (st' : Open), Open.back.go t rest = some st' → st'.close = some (Open.close.go t rest) := by
    intro rest
    induction rest with
    | nil => intro t st' h; simp [Open.back.go] at h
    | cons p rest ih =>
      intro t st' h
      obtain ⟨c, l, ts⟩ := p
      simp only [Open.back.go] at h
      split at h
      · simp only [Option.some.injEq] at h
        rw [← h]
        rfl
      · exact ih _ _ h
  cases st with
  | nil => simp [Open.back] at h
  | cons t rest => exact go rest t st' h

theorem Open.close_backD (st : Open) : (st.back.getD st).close = st.close := by
  cases h : st.back with
  | none => rfl
  | some st' => exact Open.close_back h

theorem Open.keeps_add {st : Open} {t : Tree (List Occ)} (h : st.close = some t) (x : Occ) :
    ∃ t', (st.add x).close = some t' ∧ t.Keeps t' := by
  cases st with
  | nil => simp [Open.close] at h
  | cons p rest =>
    obtain ⟨c, l, ts⟩ := p
    simp only [Open.close, Option.some.injEq] at h
    refine ⟨_, rfl, ?_⟩
    rw [← h]
    exact Open.keeps_go (Tree.Keeps.node fun i u hu => ⟨u, hu, Tree.Keeps.refl u⟩) rest

theorem Open.keeps_enter {st : Open} {t : Tree (List Occ)} (h : st.close = some t) (c : Command) :
    ∃ t', Open.close (.node c [] [] :: st) = some t' ∧ t.Keeps t' := by
  cases st with
  | nil => simp [Open.close] at h
  | cons p rest =>
    obtain ⟨c0, l, ts⟩ := p
    simp only [Open.close, Option.some.injEq] at h
    refine ⟨_, rfl, ?_⟩
    rw [← h]
    exact Open.keeps_go (Tree.Keeps.snoc c0 l ts _) rest

theorem Open.keeps_step {st : Open} {t : Tree (List Occ)} (h : st.close = some t) (r : IterResult) :
    ∃ t', (st.step r).close = some t' ∧ t.Keeps t' := by
  cases r with
  | option o v =>
    simp only [Open.step]
    split
    · rw [Open.close_backD]
      exact Open.keeps_add h _
    · exact Open.keeps_add h _
  | argument a v => exact Open.keeps_add h _
  | unknown s => exact Open.keeps_add h _
  | command c x =>
    simp only [Open.step]
    split
    · exact Open.keeps_enter (by rw [Open.close_backD]; exact h) c
    · exact Open.keeps_enter h c
  | done => exact ⟨t, h, .refl t⟩
  | error => exact ⟨t, h, .refl t⟩

theorem Open.keeps_steps {st : Open} {t : Tree (List Occ)} (h : st.close = some t) (rs : List IterResult) :
    ∃ t', Open.close (rs.foldl Open.step st) = some t' ∧ t.Keeps t' := by
  induction rs generalizing st t with
  | nil => exact ⟨t, h, .refl t⟩
  | cons r rs ih =>
    obtain ⟨t1, h1, k1⟩ := Open.keeps_step h r
    obtain ⟨t2, h2, k2⟩ := ih h1
    exact ⟨t2, h2, k1.trans k2⟩

end Spec

open Spec

theorem NodeRef.shape (r : NodeRef) (n : PNode) : (r.node n).map PNode.shape = n.shape.at? r := by
  induction r generalizing n with
  | nil => rfl
  | cons i r ih =>
    simp only [NodeRef.node, Tree.at?]
    rw [PNode.shape_eq]
    simp only [Tree.subs, List.getElem?_map]
    cases n.subs[i]? with
    | none => rfl
    | some m => exact ih m

theorem PNode.shape_command (n : PNode) : n.shape.command = n.command := by
  rw [PNode.shape_eq]
  rfl

theorem Spec.Tree.shape_command {α : Type} (t : Tree α) : t.shape.command = t.command := by
  obtain ⟨c, a, ts⟩ := t
  rw [Tree.shape_node]
  rfl

theorem Spec.Tree.shape_at {α : Type} (t : Tree α) (r : List Nat) : t.shape.at? r = (t.at? r).map Tree.shape := by
  induction r generalizing t with
  | nil => rfl
  | cons i r ih =>
    obtain ⟨c, a, ts⟩ := t
    rw [Tree.shape_node]
    simp only [Tree.at?, Tree.subs, List.getElem?_map]
    cases ts[i]? with
    | none => rfl
    | some m => exact ih m

namespace Parser

theorem node_snoc (r : NodeRef) (i : Nat) (n : PNode) : NodeRef.node (r ++ [i]) n = (r.node n).bind fun m => m.subs[i]? := by
  induction r generalizing n with
  | nil =>
    show (n.subs[i]?).bind (fun m => some m) = n.subs[i]?
    cases n.subs[i]? <;> rfl
  | cons j r ih =>
    simp only [List.cons_append, NodeRef.node]
    cases n.subs[j]? with
    | none => rfl
    | some m => exact ih m

theorem nest_back (a : PNode) (l : List PNode) : (IterHandle.backRef (a :: l)).node (nest a l) = some a := by
  unfold IterHandle.backRef
  rw [List.tail_cons]
  induction l generalizing a with
  | nil => rfl
  | cons p ps ih =>
    rw [List.map_cons, List.reverse_cons, node_snoc]
    show (NodeRef.node _ (nest { p with subs := p.subs ++ [a] } ps)).bind _ = _
    rw [ih]
    simp

theorem NodeRef.within {r : NodeRef} {n m : PNode} (h : r.node n = some m) : m.Within n := by
  induction r generalizing n with
  | nil =>
    simp only [NodeRef.node, Option.some.injEq] at h
    exact h ▸ .self
  | cons i r ih =>
    simp only [NodeRef.node] at h
    cases hk : n.subs[i]? with
    | none => rw [hk] at h; simp at h
    | some k =>
      rw [hk] at h
      exact .sub (List.mem_of_getElem? hk) (ih h)

theorem _root_.Argos.Trace.shaped_any {env : Env} {d : ParserData} (hr : Ready d) {s s' : PState} {rs : List IterResult}
    (h : Trace env s rs s') (hg : Good d s) {st : Open} (ha : Shaped s.stack st) : Shaped s'.stack (rs.foldl Open.step st) := by
  induction h generalizing st with
  | nil => exact ha
  | @cons s s1 s' r rs hn ht ih =>
    obtain ⟨hst, hg1⟩ := next_good hr hg hn
    by_cases hl : r.IsLast
    · have h1 := hst.shaped_last hg hl ha
      have e : st.step r = st := by
        cases r <;> first | rfl | exact hl.elim
      rw [List.foldl_cons, e]
      exact ih hg1 h1
    · exact ih hg1 (Trace.shaped hr (.cons hn .nil) hg (by simpa using hl) ha)

/-! ### Values -/

theorem node_rawBy {β : Type} (g : PNode → β) (r : NodeRef) (n : PNode) : (r.node n).map (PNode.rawBy g) = (n.rawBy g).at? r := by
  induction r generalizing n with
  | nil => rfl
  | cons i r ih =>
    simp only [NodeRef.node, Tree.at?]
    rw [PNode.rawBy_eq]
    simp only [Tree.subs, List.getElem?_map]
    cases n.subs[i]? with
    | none => rfl
    | some m => exact ih m

theorem at_map {α β : Type} (f : α → β) (t : Tree α) (r : List Nat) : (t.map f).at? r = (t.at? r).map (Tree.map f) := by
  induction r generalizing t with
  | nil => rfl
  | cons i r ih =>
    obtain ⟨c, a, ts⟩ := t
    rw [Tree.map_node]
    simp only [Tree.at?, Tree.subs, List.getElem?_map]
    cases ts[i]? with
    | none => rfl
    | some m => exact ih m

/-- The way to the innermost open command. -/
def openRef (st : Open) : NodeRef := (st.tail.map (·.subs.length)).reverse

theorem shaped_ref {stack : List PNode} {st : Open} (h : Shaped stack st) : IterHandle.backRef stack = openRef st := by
  unfold IterHandle.backRef openRef
  congr 1
  have h1 : (stack.map PNode.shape).map (·.subs.length) = stack.map (·.subs.length) := by
    rw [List.map_map]
    apply List.map_congr_left
    intro n _
    simp [Function.comp, PNode.shape_eq n, Tree.subs]
  have h2 : (st.map Tree.shape).map (·.subs.length) = st.map (·.subs.length) := by
    rw [List.map_map]
    apply List.map_congr_left
    rintro ⟨c, l, ts⟩ _
    simp [Function.comp, Tree.shape_node, Tree.subs]
  unfold Shaped at h
  rw [h, h2] at h1
  have := congrArg List.tail h1
  rw [List.map_tail, List.map_tail]
  exact this.symm

theorem at_snoc {α : Type} (r : List Nat) (i : Nat) (t : Tree α) : t.at? (r ++ [i]) = (t.at? r).bind fun m => m.subs[i]? := by
  induction r generalizing t with
  | nil =>
    show (t.subs[i]?).bind (fun m => some m) = t.subs[i]?
    cases t.subs[i]? <;> rfl
  | cons j r ih =>
    simp only [List.cons_append, Tree.at?]
    cases t.subs[j]? with
    | none => rfl
    | some m => exact ih m

theorem close_head (t : Tree (List Occ)) (rest : Open) : (Open.close.go t rest).at? (openRef (t :: rest)) = some t := by
  unfold openRef
  rw [List.tail_cons]
  induction rest generalizing t with
  | nil => rfl
  | cons p ps ih =>
    obtain ⟨c, l, ts⟩ := p
    rw [List.map_cons, List.reverse_cons, at_snoc]
    show (Tree.at? _ (Open.close.go (.node c l (ts ++ [t])) ps)).bind _ = _
    rw [ih]
    simp [Tree.subs]

/-- What a reference shows is what was given on the way to it. -/
theorem look_agrees {s : PState} {st : Open} (ha : Agrees s.stack st) {t : Tree (List Occ)} (hc : st.close = some t) {r : NodeRef}
    {u : Tree (List Occ)} (hu : t.at? r = some u) :
    ∃ m, IterHandle.look (some s) r = some m ∧ m.command = u.command ∧ ∀ id, m.values.getValues id = valuesOf u.data id := by
  cases hs : s.stack with
  | nil =>
    rw [hs] at ha
    have : st = [] := by simpa [Agrees, AgreesBy] using ha.symm
    subst this
    simp [Open.close] at hc
  | cons a l =>
    rw [hs] at ha
    obtain ⟨t', h1, h2⟩ := agrees_close ha
    rw [hc, Option.some.injEq] at h1
    subst h1
    have h3 : (NodeRef.node r (nest a l)).map PNode.raw = some (u.map rawValues) := by
      have := node_rawBy (·.values) r (nest a l)
      rw [show PNode.raw = PNode.rawBy (·.values) from rfl, this]
      have e : (nest a l).rawBy (·.values) = t.map rawValues := h2
      rw [e, at_map, hu]
      rfl
    cases hm : NodeRef.node r (nest a l) with
    | none => rw [hm] at h3; simp at h3
    | some m =>
      rw [hm] at h3
      simp only [Option.map_some, Option.some.injEq] at h3
      obtain ⟨c, occs, ts⟩ := u
      rw [Tree.map_node, PNode.raw, PNode.rawBy_eq] at h3
      simp only [Tree.node.injEq] at h3
      refine ⟨m, ?_, h3.1, ?_⟩
      · simp only [IterHandle.look, Option.bind_some, topLevel_eq hs, hm]
      · intro id
        rw [h3.2.1]
        exact congrFun (getValues_rawValues occs) id

theorem Step.value_passive {env : Env} (hp : env.Passive) {d : ParserData} {s s' : PState} (hg : Good d s) {r : IterResult}
    (h : Step env s (.ok r) s') :
    (∀ o w, r = .option o w → ∃ v, w = some v ∧ (¬ NeedsValue o → v = [])) ∧ ∀ a w, r = .argument a w → ∃ v, w = some v := by
  have herr : ∀ {msg t}, ErrorRun msg t IterResult.error (.ok r) s' → r = .error := by
    intro msg t he
    cases he with
    | error _ _ => rfl
  have key : ∀ {o : OptData} {flag : Str} {it : Iter} {v : Str} {stored : Bool} {s2 : PState},
      OpRun o flag { s with iter := it } (.ok (some (v, stored))) s2 → ¬ NeedsValue o → v = [] := by
    intro o flag it v stored s2 h hn
    cases h with
    | plain _ => rfl
    | value h _ => exact absurd h hn
    | noValue h _ _ => exact absurd h hn
  cases h with
  | afterDone _ => simp
  | finished _ _ => simp
  | unfinished _ _ he => rw [herr he]; simp
  | unknownOption _ _ _ _ _ he => rw [herr he]; simp
  | ignoredOption ht _ _ _ _ _ => simp
  | option ht _ _ hrun =>
    have fin : ∀ {o : OptData} {w : Option Str} {v : Str}, w = some v → (¬ NeedsValue o → v = []) →
        (∀ o' w', IterResult.option o w = .option o' w' → ∃ v, w' = some v ∧ (¬ NeedsValue o' → v = [])) ∧
          ∀ a w', IterResult.option o w = .argument a w' → ∃ v, w' = some v := by
      intro o w v h1 h2
      refine ⟨?_, by simp⟩
      intro o' w' e
      cases e
      exact ⟨v, h1, h2⟩
    cases hrun with
    | noValue _ _ he => rw [herr he]; simp
    | normal h1 h2 hty => exact fin (option_passive hp hg ht h1 h2).1 (key h1)
    | lastOption h1 h2 hty => exact fin (option_passive hp hg ht h1 h2).1 (key h1)
    | stopped h1 h2 ho _ hre => exact fin (option_passive hp hg ht h1 h2).1 (key h1)
    | lastFails _ _ _ _ he => rw [herr he]; simp
    | lastDone h1 h2 hty hok hnm hre => exact fin (option_passive hp hg ht h1 h2).1 (key h1)
    | lastMulti h1 h2 hty hok hfm => exact fin (option_passive hp hg ht h1 h2).1 (key h1)
  | command ht hno hc hf hcur => simp
  | unknownCommand _ _ _ _ he => rw [herr he]; simp
  | argument ht hno hce hrun =>
    cases hrun with
    | sibling hf hc => simp
    | argument _ hn hc =>
      obtain ⟨rfl, e⟩ := argument_passive hp hg ht hn hc
      refine ⟨by simp, ?_⟩
      intro a w e
      cases e
      exact ⟨_, rfl⟩
    | ignored _ _ _ _ => simp
    | tooMany _ _ _ he => rw [herr he]; simp

end Parser

open Parser

theorem IterHandle.next_some {env : Env} {s : PState} {rep : IterReport} {h1 : IterHandle}
    (hn : IterHandle.next env (some s) = (.ok rep, h1)) :
    ∃ r s1, Parser.next env s = (.ok r, s1) ∧ rep = IterHandle.report r ∧ h1 = some s1 := by
  simp only [IterHandle.next, Prod.mk.injEq] at hn
  obtain ⟨e1, e2⟩ := hn
  cases hq : (Parser.next env s).1 with
  | ok r =>
    rw [hq] at e1
    exact ⟨r, (Parser.next env s).2, by rw [← hq], (Outcome.ok.inj e1).symm, e2.symm⟩
  | _ => rw [hq] at e1; cases e1

theorem Spec.Iterates.parses {env : Env} {h h' : IterHandle} {reps : List IterReport} (hi : Iterates env h reps h') :
    ∀ s, h = some s → ∃ rs last s1 s', Trace env s rs s1 ∧ Parser.next env s1 = (.ok last, s') ∧ (∀ r ∈ rs, ¬ r.IsLast) ∧ last.IsLast ∧
      reps = rs.map IterHandle.report ∧ h' = some s' := by
  induction hi with
  | @stop h h' rep hn hm =>
    rintro s rfl
    obtain ⟨r, s1, h1, rfl, rfl⟩ := IterHandle.next_some hn
    refine ⟨[], r, s, s1, .nil, h1, by simp, ?_, rfl, rfl⟩
    cases r <;> first | trivial | simp [IterHandle.report] at hm
  | @more h h1 h' rep reps hn hm _ ih =>
    rintro s rfl
    obtain ⟨r, s1, h2, rfl, rfl⟩ := IterHandle.next_some hn
    obtain ⟨rs, last, s2, s', t1, t2, t3, t4, t5, t6⟩ := ih s1 rfl
    refine ⟨r :: rs, last, s2, s', .cons h2 t1, t2, ?_, t4, by simp [t5], t6⟩
    intro x hx
    rcases List.mem_cons.mp hx with rfl | hx
    · cases x <;> first | (intro h; exact h) | simp [IterHandle.report] at hm
    · exact t3 x hx

theorem Parses.iterates {env : Env} {d : ParserData} {args : List Str} {rs : List IterResult} {last : IterResult} {s' : PState}
    (h : Parses env d args rs last s') : Iterates env (IterHandle.make d args) (rs.map IterHandle.report) (some s') := by
  obtain ⟨⟨s, ht, hn⟩, hb, hl⟩ := h
  unfold IterHandle.make
  have step : ∀ {s : PState} {r : IterResult} {s1 : PState}, Parser.next env s = (.ok r, s1) →
      IterHandle.next env (some s) = (.ok (IterHandle.report r), some s1) := by
    intro s r s1 h
    simp only [IterHandle.next]
    rw [h]
    rfl
  generalize (start d args).2 = s0 at ht ⊢
  induction ht with
  | nil =>
    refine .stop (step hn) ?_
    cases last <;> first | rfl | exact hl.elim
  | cons h1 _ ih =>
    refine .more (step h1) ?_ (ih (fun r hr => hb r (by simp [hr])) hn)
    rename_i r _ _
    have := hb r (by simp)
    cases r <;> first | rfl | exact absurd trivial this

theorem Spec.Advances.trace {env : Env} {h h' : IterHandle} {reps : List IterReport} (hi : Advances env h reps h') :
    ∀ s, h = some s → ∃ rs s', Trace env s rs s' ∧ (∀ r ∈ rs, ¬ r.IsLast) ∧ reps = rs.map IterHandle.report ∧ h' = some s' := by
  induction hi with
  | nil => rintro s rfl; exact ⟨[], s, .nil, by simp, rfl, rfl⟩
  | @cons h h1 h' rep reps hn hm _ ih =>
    rintro s rfl
    obtain ⟨r, s1, h2, rfl, rfl⟩ := IterHandle.next_some hn
    obtain ⟨rs, s', t1, t3, t5, t6⟩ := ih s1 rfl
    refine ⟨r :: rs, s', .cons h2 t1, ?_, by simp [t5], t6⟩
    intro x hx
    rcases List.mem_cons.mp hx with rfl | hx
    · cases x <;> first | (intro h; exact h) | simp [IterHandle.report] at hm
    · exact t3 x hx

theorem iterates_iff {env : Env} {d : ParserData} {args : List Str} {reps : List IterReport} {h' : IterHandle} :
    Iterates env (IterHandle.make d args) reps h' ↔
      ∃ rs last s', Parses env d args rs last s' ∧ reps = rs.map IterHandle.report ∧ h' = some s' := by
  constructor
  · intro h
    obtain ⟨rs, last, s1, s', h1, h2, h3, h4, h5, h6⟩ := h.parses _ rfl
    exact ⟨rs, last, s', ⟨⟨s1, h1, h2⟩, h3, h4⟩, h5, h6⟩
  · rintro ⟨rs, last, s', h, rfl, rfl⟩
    exact h.iterates

end Argos
