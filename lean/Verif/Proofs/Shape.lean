import Verif.Proofs.Tree

/-!
# The commands on the stack follow the results, whatever callbacks do
-/

namespace Argos
open Spec

namespace Spec.Tree

theorem shape_node {α : Type} (c : Command) (a : α) (ts : List (Tree α)) : shape (.node c a ts) = .node c () (ts.map shape) := map_node _ _ _ _

theorem shape_map {α β : Type} (f : α → β) (t : Tree α) : shape (t.map f) = shape t := by
  unfold shape
  rw [map_map]

end Spec.Tree

theorem PNode.shape_eq (n : PNode) : n.shape = .node n.command () (n.subs.map PNode.shape) := by
  unfold PNode.shape
  rw [PNode.tree_eq, Tree.shape_map, PNode.raw, PNode.rawBy_eq, Tree.shape_node, List.map_map]
  congr 1
  apply List.map_congr_left
  intro m _
  rw [PNode.tree_eq, Tree.shape_map]
  rfl

namespace Parser

/-- The commands of the stack are the open commands. -/
def Shaped (stack : List PNode) (st : Open) : Prop := stack.map PNode.shape = st.map Tree.shape

theorem shaped_nil {st : Open} (h : Shaped [] st) : st = [] := by
  simpa [Shaped] using h.symm

theorem Shaped.length {stack : List PNode} {st : Open} (h : Shaped stack st) : stack.length = st.length := by
  have := congrArg List.length h
  simpa using this

theorem shaped_cons {n : PNode} {ns : List PNode} {st : Open} (h : Shaped (n :: ns) st) :
    ∃ l ts rest, st = .node n.command l ts :: rest ∧ n.subs.map PNode.shape = ts.map Tree.shape ∧ Shaped ns rest := by
  unfold Shaped at h
  cases st with
  | nil => simp at h
  | cons t rest =>
    obtain ⟨c, l, ts⟩ := t
    rw [List.map_cons, List.map_cons, PNode.shape_eq, Tree.shape_node] at h
    simp only [List.cons.injEq, Tree.node.injEq] at h
    obtain ⟨⟨h1, _, h3⟩, h4⟩ := h
    exact ⟨l, ts, rest, by rw [h1], h3, h4⟩

theorem shaped_mk {n : PNode} {ns : List PNode} {l : List Occ} {ts : List (Tree (List Occ))} {rest : Open}
    (h2 : n.subs.map PNode.shape = ts.map Tree.shape) (h3 : Shaped ns rest) : Shaped (n :: ns) (.node n.command l ts :: rest) := by
  unfold Shaped
  rw [List.map_cons, List.map_cons, PNode.shape_eq, Tree.shape_node, h2, h3]

theorem shaped_go {a : PNode} {pre : List PNode} {p : PNode} {ps : List PNode} {t : Tree (List Occ)} {rest : Open}
    (ha : a.shape = t.shape) (h : Shaped (pre ++ p :: ps) rest) (hp : p.command.multiCommand = true)
    (hpre : ∀ q ∈ pre, q.command.multiCommand = false) :
    ∃ st', Open.back.go t rest = some st' ∧ Shaped ({ p with subs := p.subs ++ [nest a pre] } :: ps) st' := by
  induction pre generalizing a t rest with
  | nil =>
    obtain ⟨l, ts, r, rfl, h2, h3⟩ := shaped_cons h
    unfold Open.back.go
    rw [if_pos hp]
    refine ⟨_, rfl, ?_⟩
    exact shaped_mk (n := { p with subs := p.subs ++ [nest a []] }) (l := l) (ts := ts ++ [t])
      (by simp only [List.map_append, h2]; simp [nest, ha]) h3
  | cons q pre ih =>
    obtain ⟨l, ts, r, rfl, h2, h3⟩ := shaped_cons h
    unfold Open.back.go
    rw [if_neg (by rw [hpre q (by simp)]; simp)]
    exact ih (a := { q with subs := q.subs ++ [a] }) (t := .node q.command l (ts ++ [t])) (rest := r) (by
      rw [PNode.shape_eq, Tree.shape_node]
      simp [h2, ha]) h3 (fun x hx => hpre x (by simp [hx]))

theorem shaped_back {a : PNode} {pre : List PNode} {p : PNode} {ps : List PNode} {st : Open} (h : Shaped (a :: pre ++ p :: ps) st)
    (hp : p.command.multiCommand = true) (hpre : ∀ q ∈ pre, q.command.multiCommand = false) :
    ∃ st', st.back = some st' ∧ Shaped ({ p with subs := p.subs ++ [nest a pre] } :: ps) st' := by
  obtain ⟨l, ts, r, rfl, h2, h3⟩ := shaped_cons h
  exact shaped_go (t := .node a.command l ts) (by rw [PNode.shape_eq, Tree.shape_node, h2]) h3 hp hpre

theorem shaped_back_none {stack : List PNode} {st : Open} (h : Shaped stack st) (hn : findMultiParent stack = none) :
    st.back = none := by
  have go : ∀ (l : List PNode) (t : Tree (List Occ)) (rest : Open), Shaped l rest → findMultiParent.go l = none →
      Open.back.go t rest = none := by
    intro l
    induction l with
    | nil => intro t rest h _; rw [shaped_nil h]; rfl
    | cons q l ih =>
      intro t rest h hn
      obtain ⟨l', ts, r, rfl, h2, h3⟩ := shaped_cons h
      unfold findMultiParent.go at hn
      unfold Open.back.go
      split at hn
      · simp at hn
      · rename_i hq
        rw [if_neg hq]
        exact ih _ _ h3 hn
  cases stack with
  | nil => rw [shaped_nil h]; rfl
  | cons a l =>
    obtain ⟨l', ts, r, rfl, h2, h3⟩ := shaped_cons h
    exact go l _ _ h3 hn

theorem shaped_close {a : PNode} {l : List PNode} {st : Open} (h : Shaped (a :: l) st) :
    ∃ t, st.close = some t ∧ (nest a l).shape = t.shape := by
  have go : ∀ (l : List PNode) (a : PNode) (t : Tree (List Occ)) (rest : Open), a.shape = t.shape → Shaped l rest →
      (nest a l).shape = (Open.close.go t rest).shape := by
    intro l
    induction l with
    | nil => intro a t rest ha h; rw [shaped_nil h]; exact ha
    | cons q l ih =>
      intro a t rest ha h
      obtain ⟨l', ts, r, rfl, h2, h3⟩ := shaped_cons h
      unfold Open.close.go
      refine ih { q with subs := q.subs ++ [a] } _ r ?_ h3
      rw [PNode.shape_eq, Tree.shape_node]
      simp [h2, ha]
  obtain ⟨l', ts, r, rfl, h2, h3⟩ := shaped_cons h
  exact ⟨_, rfl, go l a _ r (by rw [PNode.shape_eq, Tree.shape_node, h2]) h3⟩

theorem shape_of {m n : PNode} (h1 : m.command = n.command) (h2 : m.subs = n.subs) : m.shape = n.shape := by
  rw [PNode.shape_eq, PNode.shape_eq, h1, h2]

theorem shaped_map {f : PNode → PNode} (hf : ∀ n, (f n).command = n.command ∧ (f n).subs = n.subs) {stack : List PNode} {st : Open}
    (h : Shaped stack st) : Shaped (stack.map f) st := by
  unfold Shaped at *
  rw [List.map_map, ← h]
  apply List.map_congr_left
  intro n _
  exact shape_of (hf n).1 (hf n).2

theorem shaped_head {n n' : PNode} {ns : List PNode} {st : Open} (h : Shaped (n :: ns) st) (h1 : n'.command = n.command)
    (h2 : n'.subs = n.subs) : Shaped (n' :: ns) st := by
  unfold Shaped at *
  rw [List.map_cons, shape_of h1 h2, ← List.map_cons, h]

theorem shaped_add {stack : List PNode} {st : Open} (h : Shaped stack st) (x : Occ) : Shaped stack (st.add x) := by
  cases st with
  | nil => exact h
  | cons t rest =>
    obtain ⟨c, l, ts⟩ := t
    unfold Shaped at *
    rw [h]
    simp [Open.add, Tree.shape_node]

theorem shaped_near {s t : PState} {st : Open} (h : Near s t) (hs : Shaped s.stack st) (hne : s.stack ≠ []) : Shaped t.stack st := by
  cases e : s.stack with
  | nil => exact absurd e hne
  | cons n ns =>
    obtain ⟨vs, e2⟩ := h.stack n ns e
    rw [e] at hs
    rw [e2]
    exact shaped_head hs rfl rfl

theorem Move.shaped {d : ParserData} {s s' : PState} (hg : Good d s) {r : IterResult} {st : Open} (h : Move s r s')
    (ha : Shaped s.stack st) : Shaped s'.stack (st.step r) := by
  obtain ⟨n, ns, hs, hcmd⟩ := hg.head
  have hleaf : st.isLeaf = s.command.commands.isEmpty := by
    rw [hs] at ha
    obtain ⟨l, ts, rest, rfl, _⟩ := shaped_cons ha
    rw [← hcmd]
    rfl
  cases h with
  | @same n' ns' vs un _ _ h1 h2 h3 h4 h5 h6 =>
    rw [h2]
    rw [h1] at ha
    have hb : Shaped ({ n' with values := vs, unprocessed := un } :: ns') st := shaped_head ha rfl rfl
    cases r with
    | command c x => exact absurd rfl (h3 c x)
    | option o v =>
      have : o.type ≠ .lastArgument := by
        rcases h6 o v rfl with h | h <;> rw [h] <;> simp
      simp only [Open.step, this, if_false]
      exact shaped_add hb _
    | argument a v => exact shaped_add hb _
    | unknown x => exact shaped_add hb _
    | _ => exact hb
  | @enter c arg x it ht hno hf hcur =>
    have : st.isLeaf = false := by
      rw [hleaf]
      have := findCommand_mem hf
      cases hc : s.command.commands with
      | nil => rw [hc] at this; simp at this
      | cons _ _ => rfl
    simp only [Open.step, this]
    exact shaped_mk (n := PNode.make _) rfl ha
  | @sibling c arg x it a pre p ps _ ht hno hce hcomp e1 e3 e4 e5 hcur hs' e6 =>
    rw [e1] at ha
    obtain ⟨st', h4, h5⟩ := shaped_back ha e3 e4
    have hl : st.isLeaf = true := by rw [hleaf, hce]; rfl
    simp only [Open.step, hl, if_true, h4, Option.getD_some]
    rw [e6]
    exact shaped_mk (n := PNode.make _) rfl h5
  | @stopped o v t it hn ho _ =>
    have : o.type ≠ .lastArgument := by rcases ho with ho | ho | ho <;> rw [ho] <;> simp
    simp only [Open.step, this, if_false]
    have h1 := shaped_near hn ha hg.ne
    obtain ⟨vs, e⟩ := hn.stack n ns hs
    simp only [copyState, stopState, e, headMap]
    rw [e] at h1
    exact shaped_add (shaped_head h1 rfl rfl) _
  | @lastDone o v t it hn hty hok _ hnm =>
    have h1 := shaped_add (shaped_near hn ha hg.ne) (.option o (v.getD []))
    have h4 := shaped_back_none h1 hnm
    simp only [Open.step, hty, if_true, h4, Option.getD_none]
    obtain ⟨vs, e⟩ := hn.stack n ns hs
    have h2 := shaped_map (f := asSuccess) (fun n => ⟨rfl, rfl⟩) h1
    show Shaped (headMap _ (t.stack.map asSuccess)) _
    rw [e] at h2 ⊢
    exact shaped_head h2 rfl rfl
  | @lastMulti o v t a pre p ps _ hn hty hok e1 e3 e4 _ e6 =>
    have h1 := shaped_add (shaped_near hn ha hg.ne) (.option o (v.getD []))
    have h2 := shaped_map (f := asSuccess) (fun n => ⟨rfl, rfl⟩) h1
    rw [e1, List.map_append, List.map_cons, List.map_cons] at h2
    obtain ⟨st', h4, h5⟩ := shaped_back h2 e3 (by
      intro q hq
      obtain ⟨q', hq', rfl⟩ := List.mem_map.mp hq
      exact e4 q' hq')
    simp only [Open.step, hty, if_true, h4, Option.getD_some]
    rw [e6]
    exact h5

theorem _root_.Argos.Trace.shaped {env : Env} {d : ParserData} (hr : Ready d) {s s' : PState} {rs : List IterResult}
    (h : Trace env s rs s') (hg : Good d s) (hl : ∀ r ∈ rs, ¬ r.IsLast) {st : Open} (ha : Shaped s.stack st) :
    Shaped s'.stack (rs.foldl Open.step st) := by
  induction h generalizing st with
  | nil => exact ha
  | cons hn _ ih =>
    obtain ⟨hst, hg1⟩ := next_good hr hg hn
    exact ih hg1 (fun r hr => hl r (by simp [hr])) ((hst.move hg (hl _ (by simp))).shaped hg ha)

theorem shaped_start (d : ParserData) (args : List Str) : Shaped (start d args).2.stack (Open.start d.command) := by
  rw [(start_good d args).1]
  exact shaped_mk (n := { PNode.make d.command with values := initialValues d.command.options [] }) rfl rfl

theorem shaped_err {t : PState} {st : Open} (msg : Str) (it : Iter) (h : Shaped t.stack st) : Shaped (errState msg it t).stack st := by
  show Shaped (List.map _ (headMap _ t.stack)) st
  refine shaped_map (f := fun n => { n with code := .failure }) (fun n => ⟨rfl, rfl⟩) ?_
  cases hs : t.stack with
  | nil => rw [hs] at h; exact h
  | cons n ns => rw [hs] at h; exact shaped_head h rfl rfl

/-- The last result changes no command. -/
theorem Step.shaped_last {env : Env} {d : ParserData} {s s' : PState} (hg : Good d s) {r : IterResult} (h : Step env s (.ok r) s')
    (hr : r.IsLast) {st : Open} (ha : Shaped s.stack st) : Shaped s'.stack st := by
  have herr : ∀ {msg t}, Shaped t.stack st → ErrorRun msg t IterResult.error (.ok r) s' → Shaped s'.stack st := by
    intro msg t h1 he
    cases he with
    | error _ _ => exact shaped_err _ _ h1
  cases h with
  | afterDone _ => exact ha
  | finished _ _ => exact shaped_map (f := asSuccess) (fun n => ⟨rfl, rfl⟩) ha
  | unfinished _ _ he => exact herr (by exact ha) he
  | unknownOption _ _ _ _ _ he => exact herr (by exact ha) he
  | unknownCommand _ _ _ _ he => exact herr (by exact ha) he
  | option ht _ _ hrun =>
    cases hrun with
    | noValue _ hnv he => exact herr (by exact ha) he
    | lastFails h1 h2 _ _ he =>
      have h3 := shaped_near (near_option hg ht h1 h2).1 ha hg.ne
      exact herr (by exact h3) he
    | _ => exact hr.elim
  | argument ht _ _ hrun =>
    cases hrun with
    | tooMany _ _ _ he => exact herr (by exact ha) he
    | _ => exact hr.elim
  | _ => exact hr.elim

/-- The final state of a parse: its commands are those of the results. -/
theorem _root_.Argos.Parses.shaped {env : Env} {d : ParserData} (hr : Ready d) {args : List Str} {rs : List IterResult} {last : IterResult}
    {s' : PState} (h : Parses env d args rs last s') : Shaped s'.stack (Open.after d.command rs) := by
  obtain ⟨s, ht, hg, hn, hst, hg'⟩ := h.good hr
  exact hst.shaped_last hg h.last (ht.shaped hr (start_good d args).2 h.before (shaped_start d args))

end Parser
end Argos
