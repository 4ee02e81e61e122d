import Verif.Proofs.Ends
import Verif.Spec.Tree

/-!
# The parser's stack and the meaning of the results
-/

namespace Argos
open Spec

namespace Spec.Tree
variable {α β γ : Type}

theorem mapList_eq (f : α → β) (ts : List (Tree α)) : mapList f ts = ts.map (map f) := by
  induction ts with
  | nil => rfl
  | cons t ts ih => rw [mapList, ih]; rfl

theorem map_node (f : α → β) (c : Command) (a : α) (ts : List (Tree α)) :
    map f (.node c a ts) = .node c (f a) (ts.map (map f)) := by rw [map, mapList_eq]

mutual
theorem map_map (f : α → β) (g : β → γ) : ∀ t : Tree α, map g (map f t) = map (g ∘ f) t
  | .node c a ts => by
    have h := mapList_map f g ts
    rw [map, map, map, h]
    rfl

theorem mapList_map (f : α → β) (g : β → γ) : ∀ ts : List (Tree α), mapList g (mapList f ts) = mapList (g ∘ f) ts
  | [] => rfl
  | t :: ts => by
    have h1 := map_map f g t
    have h2 := mapList_map f g ts
    rw [mapList, mapList, mapList, h1, h2]
end

end Spec.Tree

mutual
/-- A node, of which only `g` is kept. -/
def PNode.rawBy {β : Type} (g : PNode → β) : PNode → Tree β
  | ⟨c, i, vs, u, code, stop, subs⟩ => .node c (g ⟨c, i, vs, u, code, stop, subs⟩) (PNode.rawByList g subs)

/-- The same for a list. -/
def PNode.rawByList {β : Type} (g : PNode → β) : List PNode → List (Tree β)
  | [] => []
  | n :: ns => n.rawBy g :: PNode.rawByList g ns
end

theorem PNode.rawByList_eq {β : Type} (g : PNode → β) (l : List PNode) : PNode.rawByList g l = l.map (PNode.rawBy g) := by
  induction l with
  | nil => rfl
  | cons n l ih => rw [PNode.rawByList, ih]; rfl

theorem PNode.rawBy_eq {β : Type} (g : PNode → β) (n : PNode) : n.rawBy g = .node n.command (g n) (n.subs.map (PNode.rawBy g)) := by
  cases n
  rw [PNode.rawBy, PNode.rawByList_eq]

/-- A node with its raw values. -/
abbrev PNode.raw (n : PNode) : Tree Values := n.rawBy (·.values)

mutual
theorem PNode.tree_eq : ∀ n : PNode, n.tree = n.raw.map (fun vs id => vs.getValues id)
  | ⟨c, _, vs, _, _, _, subs⟩ => by
    have h := PNode.treeList_eq subs
    rw [PNode.tree, PNode.raw, PNode.rawBy, Tree.map, h]

theorem PNode.treeList_eq : ∀ l : List PNode, PNode.treeList l =
    Tree.mapList (fun vs id => vs.getValues id) (PNode.rawByList (·.values) l)
  | [] => rfl
  | n :: ns => by
    have h1 := PNode.tree_eq n
    have h2 := PNode.treeList_eq ns
    rw [PNode.treeList, PNode.rawByList, Tree.mapList, h1, h2]
end

/-- The raw values that occurrences lead to. -/
def rawValues (occs : List Occ) : Values := (occs.flatMap Occ.writes).foldl Write.exec []

theorem rawValues_snoc (occs : List Occ) (x : Occ) : rawValues (occs ++ [x]) = x.writes.foldl Write.exec (rawValues occs) := by
  simp [rawValues]

theorem getValues_rawValues (occs : List Occ) : (fun id => (rawValues occs).getValues id) = valuesOf occs := by
  obtain ⟨h1, h2⟩ := exec_all (occs.flatMap Occ.writes) (vs := []) List.Pairwise.nil
  funext id
  have : (rawValues occs).getValues id = (rawValues occs).entries id := Values.getValues_eq h1 id
  rw [this]
  have h3 : (rawValues occs).entries = _ := h2
  rw [h3]
  rfl

namespace Parser

/-- The stack agrees with the open commands. -/
def AgreesBy {β : Type} (g : PNode → β) (f : List Occ → β) (stack : List PNode) (st : Open) : Prop :=
  stack.map (PNode.rawBy g) = st.map (Tree.map f)

/-- `g` does not depend on the sub-commands. -/
def Flat {β : Type} (g : PNode → β) : Prop := ∀ (n : PNode) (l : List PNode), g { n with subs := l } = g n

/-- The values of the stack agree with the open commands. -/
abbrev Agrees (stack : List PNode) (st : Open) : Prop := AgreesBy (·.values) rawValues stack st

theorem flat_values : Flat (fun n => n.values) := fun _ _ => rfl

section
variable {β : Type} {g : PNode → β} {f : List Occ → β}

theorem agrees_nil {st : Open} (h : AgreesBy g f [] st) : st = [] := by
  simpa [AgreesBy] using h.symm

theorem agrees_cons {n : PNode} {ns : List PNode} {st : Open} (h : AgreesBy g f (n :: ns) st) :
    ∃ l ts rest, st = .node n.command l ts :: rest ∧ g n = f l ∧ n.subs.map (PNode.rawBy g) = ts.map (Tree.map f) ∧
      AgreesBy g f ns rest := by
  unfold AgreesBy at h
  cases st with
  | nil => simp at h
  | cons t rest =>
    obtain ⟨c, l, ts⟩ := t
    rw [List.map_cons, List.map_cons, PNode.rawBy_eq, Tree.map_node] at h
    simp only [List.cons.injEq, Tree.node.injEq] at h
    obtain ⟨⟨h1, h2, h3⟩, h4⟩ := h
    exact ⟨l, ts, rest, by rw [h1], h2, h3, h4⟩

theorem agrees_mk {n : PNode} {ns : List PNode} {l : List Occ} {ts : List (Tree (List Occ))} {rest : Open} (h1 : g n = f l)
    (h2 : n.subs.map (PNode.rawBy g) = ts.map (Tree.map f)) (h3 : AgreesBy g f ns rest) :
    AgreesBy g f (n :: ns) (.node n.command l ts :: rest) := by
  unfold AgreesBy at *
  rw [List.map_cons, List.map_cons, PNode.rawBy_eq, Tree.map_node, h1, h2, h3]

theorem agrees_go (hfl : Flat g) {a : PNode} {pre : List PNode} {p : PNode} {ps : List PNode} {t : Tree (List Occ)} {rest : Open}
    (ha : a.rawBy g = t.map f) (h : AgreesBy g f (pre ++ p :: ps) rest) (hp : p.command.multiCommand = true)
    (hpre : ∀ q ∈ pre, q.command.multiCommand = false) :
    ∃ st', Open.back.go t rest = some st' ∧ AgreesBy g f ({ p with subs := p.subs ++ [nest a pre] } :: ps) st' := by
  induction pre generalizing a t rest with
  | nil =>
    obtain ⟨l, ts, r, rfl, h1, h2, h3⟩ := agrees_cons h
    unfold Open.back.go
    rw [if_pos hp]
    refine ⟨_, rfl, ?_⟩
    have := agrees_mk (n := { p with subs := p.subs ++ [nest a []] }) (l := l) (ts := ts ++ [t]) ((hfl _ _).trans h1)
      (by simp only [List.map_append, h2]; simp [nest, ha]) h3
    exact this
  | cons q pre ih =>
    obtain ⟨l, ts, r, rfl, h1, h2, h3⟩ := agrees_cons h
    unfold Open.back.go
    rw [if_neg (by rw [hpre q (by simp)]; simp)]
    have := ih (a := { q with subs := q.subs ++ [a] }) (t := .node q.command l (ts ++ [t])) (rest := r) (by
      rw [PNode.rawBy_eq, Tree.map_node, hfl]
      simp [h1, h2, ha]) h3 (fun x hx => hpre x (by simp [hx]))
    exact this

theorem agreesBy_back (hfl : Flat g) {a : PNode} {pre : List PNode} {p : PNode} {ps : List PNode} {st : Open}
    (h : AgreesBy g f (a :: pre ++ p :: ps) st) (hp : p.command.multiCommand = true)
    (hpre : ∀ q ∈ pre, q.command.multiCommand = false) :
    ∃ st', st.back = some st' ∧ AgreesBy g f ({ p with subs := p.subs ++ [nest a pre] } :: ps) st' := by
  obtain ⟨l, ts, r, rfl, h1, h2, h3⟩ := agrees_cons h
  exact agrees_go hfl (t := .node a.command l ts) (by rw [PNode.rawBy_eq, Tree.map_node, h1, h2]) h3 hp hpre

theorem agrees_back_none {stack : List PNode} {st : Open} (h : AgreesBy g f stack st) (hn : findMultiParent stack = none) :
    st.back = none := by
  have go : ∀ (l : List PNode) (t : Tree (List Occ)) (rest : Open), AgreesBy g f l rest → findMultiParent.go l = none →
      Open.back.go t rest = none := by
    intro l
    induction l with
    | nil => intro t rest h _; rw [agrees_nil h]; rfl
    | cons q l ih =>
      intro t rest h hn
      obtain ⟨l', ts, r, rfl, h1, h2, h3⟩ := agrees_cons h
      unfold findMultiParent.go at hn
      unfold Open.back.go
      split at hn
      · simp at hn
      · rename_i hq
        rw [if_neg hq]
        exact ih _ _ h3 hn
  cases stack with
  | nil => rw [agrees_nil h]; rfl
  | cons a l =>
    obtain ⟨l', ts, r, rfl, h1, h2, h3⟩ := agrees_cons h
    exact go l _ _ h3 hn

theorem agreesBy_close (hfl : Flat g) {a : PNode} {l : List PNode} {st : Open} (h : AgreesBy g f (a :: l) st) :
    ∃ t, st.close = some t ∧ (nest a l).rawBy g = t.map f := by
  have go : ∀ (l : List PNode) (a : PNode) (t : Tree (List Occ)) (rest : Open), a.rawBy g = t.map f → AgreesBy g f l rest →
      (nest a l).rawBy g = (Open.close.go t rest).map f := by
    intro l
    induction l with
    | nil => intro a t rest ha h; rw [agrees_nil h]; exact ha
    | cons q l ih =>
      intro a t rest ha h
      obtain ⟨l', ts, r, rfl, h1, h2, h3⟩ := agrees_cons h
      unfold Open.close.go
      refine ih { q with subs := q.subs ++ [a] } _ r ?_ h3
      rw [PNode.rawBy_eq, Tree.map_node, hfl]
      simp [h1, h2, ha]
  obtain ⟨l', ts, r, rfl, h1, h2, h3⟩ := agrees_cons h
  exact ⟨_, rfl, go l a _ r (by rw [PNode.rawBy_eq, Tree.map_node, h1, h2]) h3⟩

theorem agrees_map {k : PNode → PNode} (hf : ∀ n, (k n).rawBy g = n.rawBy g) {stack : List PNode} {st : Open} (h : AgreesBy g f stack st) :
    AgreesBy g f (stack.map k) st := by
  unfold AgreesBy at *
  rw [List.map_map, ← h]
  apply List.map_congr_left
  intro n _
  exact hf n

theorem agrees_headMap {k : PNode → PNode} (hf : ∀ n, (k n).rawBy g = n.rawBy g) {stack : List PNode} {st : Open}
    (h : AgreesBy g f stack st) : AgreesBy g f (headMap k stack) st := by
  cases stack with
  | nil => exact h
  | cons n ns =>
    unfold AgreesBy at *
    rw [← h]
    simp [headMap, hf]

end

theorem agrees_back {a : PNode} {pre : List PNode} {p : PNode} {ps : List PNode} {st : Open} (h : Agrees (a :: pre ++ p :: ps) st)
    (hp : p.command.multiCommand = true) (hpre : ∀ q ∈ pre, q.command.multiCommand = false) :
    ∃ st', st.back = some st' ∧ Agrees ({ p with subs := p.subs ++ [nest a pre] } :: ps) st' :=
  agreesBy_back flat_values h hp hpre

theorem agrees_close {a : PNode} {l : List PNode} {st : Open} (h : Agrees (a :: l) st) :
    ∃ t, st.close = some t ∧ (nest a l).raw = t.map rawValues := agreesBy_close flat_values h

theorem raw_asSuccess (n : PNode) : (asSuccess n).raw = n.raw := by cases n; rfl

theorem agrees_start (d : ParserData) (args : List Str) : Agrees (start d args).2.stack (Open.start d.command) := by
  rw [(start_good d args).1]
  have key : ∀ (os : List OptData) (ws : List Write), initialValues os (ws.foldl Write.exec []) =
      (ws ++ (os.map Occ.initial).flatMap Occ.writes).foldl Write.exec [] := by
    intro os
    induction os with
    | nil => intro ws; simp [initialValues]
    | cons o os ih =>
      intro ws
      unfold initialValues
      by_cases h : o.initialValue = []
      · rw [if_neg (by simp [h]), ih]
        simp [Occ.writes, h]
      · rw [if_pos (by simp [h])]
        have := ih (ws ++ [.append o.valueId o.initialValue o.argumentId])
        simp only [List.foldl_append, List.foldl_cons, List.foldl_nil] at this
        simp only [Write.exec] at this
        rw [this]
        simp [Occ.writes, h, Write.exec]
  have h1 := key d.command.options []
  refine agrees_mk (n := { PNode.make d.command with values := initialValues d.command.options [] }) ?_ rfl rfl
  simpa [rawValues] using h1

theorem agrees_add {stack : List PNode} {st : Open} (h : Agrees stack st) (x : Occ) :
    Agrees (headMap (fun n => { n with values := x.writes.foldl Write.exec n.values }) stack) (st.add x) := by
  cases stack with
  | nil => rw [agrees_nil h]; rfl
  | cons n ns =>
    obtain ⟨l, ts, r, rfl, h1, h2, h3⟩ := agrees_cons h
    exact agrees_mk (n := { n with values := x.writes.foldl Write.exec n.values }) (by rw [rawValues_snoc, h1]) h2 h3

theorem agrees_unknown {stack : List PNode} {st : Open} (x : Str) (h : Agrees stack st) : Agrees stack (st.add (.unknown x)) := by
  cases stack with
  | nil => rw [agrees_nil h]; rfl
  | cons n ns =>
    obtain ⟨l, ts, r, rfl, h1, h2, h3⟩ := agrees_cons h
    exact agrees_mk (by rw [rawValues_snoc, h1]; rfl) h2 h3

theorem raw_values_id (n : PNode) : ({ n with values := ([] : List Write).foldl Write.exec n.values } : PNode).raw = n.raw := by
  cases n; rfl

theorem agrees_occWrite {s : PState} {st : Open} (h : Agrees s.stack st) (o : OptData) (v : Str) :
    Agrees (storeState (occWrite o v) s).stack (st.add (.option o v)) := by
  have := agrees_add h (.option o v)
  unfold occWrite
  cases ho : o.operation with
  | none =>
    simp only [Occ.writes, ho] at this
    simp only [storeState]
    cases hs : s.stack with
    | nil => rw [hs] at this; exact this
    | cons n ns =>
      rw [hs] at this
      unfold Agrees AgreesBy at this ⊢
      rw [← this]
      simp only [headMap, List.map_cons]
      cases n
      rfl
  | _ =>
    simp only [Occ.writes, ho] at this
    exact this

/-- With passive callbacks, an option changes the values as it says, and its value is reported. -/
theorem option_passive {env : Env} (hp : env.Passive) {d : ParserData} {s s2 s3 : PState} (hg : Good d s) {o : OptData} {flag : Str}
    {it : Iter} {v : Str} {stored : Bool} {w : Option Str} (ht : Taken s (some flag) it)
    (h1 : OpRun o flag { s with iter := it } (.ok (some (v, stored))) s2)
    (h2 : calls env o.callback ParserSettings.optionCallback (.opt o) o.valueId stored (some v) s2 = (.ok w, s3)) :
    w = some v ∧ s3.stack = (storeState (occWrite o v) s).stack := by
  have hg' := (hg.taken ht).2.2
  have hg2 := hg'.opRun h1
  obtain ⟨e1, k, rfl⟩ := calls_passive hp _ _ _ _ _ _ _ hg2.ne hg2.iterOk h2
  refine ⟨e1, ?_⟩
  have := (h1.write hg'.ne).2.2
  show s2.stack = _
  rw [this]
  unfold storeState
  split <;> rfl

theorem argument_passive {env : Env} (hp : env.Passive) {d : ParserData} {s s3 : PState} (hg : Good d s) {a : ArgData} {arg : Str}
    {it : Iter} {ct : Counter} {w : Option Str} (ht : Taken s (some arg) it) (h1 : s.counter.nextArgument = (some a, ct))
    (h2 : calls env a.callback ParserSettings.argumentCallback (.arg a) a.valueId true (some arg) (argState a ct arg { s with iter := it }) =
      (.ok w, s3)) :
    w = some arg ∧ s3.stack = headMap (fun n => { n with values := (Occ.argument a arg).writes.foldl Write.exec n.values }) s.stack := by
  have hg' := (hg.taken ht).2.2
  have hg2 := hg'.arg (v := arg) h1
  obtain ⟨e1, k, rfl⟩ := calls_passive hp _ _ _ _ _ _ _ hg2.ne hg2.iterOk h2
  exact ⟨e1, rfl⟩

theorem raw_unprocessed (l : List Str) (n : PNode) : ({ n with unprocessed := n.unprocessed ++ l } : PNode).raw = n.raw := by
  cases n; rfl

theorem raw_stop (o : OptData) (n : PNode) : ({ n with code := .stop, stopOption := some o } : PNode).raw = n.raw := by
  cases n; rfl

theorem step_option (st : Open) (o : OptData) (v : Str) (h : o.type ≠ .lastArgument) :
    st.step (.option o (some v)) = st.add (.option o v) := by
  simp [Open.step, h]

/-- The stack follows the results. -/
theorem Step.agrees {env : Env} (hp : env.Passive) {d : ParserData} {s s' : PState} (hg : Good d s) {r : IterResult} {st : Open}
    (h : Step env s (.ok r) s') (hr : ¬ r.IsLast) (ha : Agrees s.stack st) : Agrees s'.stack (st.step r) := by
  have herr : ∀ {msg t}, ErrorRun msg t IterResult.error (.ok r) s' → False := by
    intro msg t he
    cases he with
    | error _ _ => exact hr trivial
  obtain ⟨n, ns, hs, hcmd⟩ := hg.head
  have hleaf : st.isLeaf = s.command.commands.isEmpty := by
    rw [hs] at ha
    obtain ⟨l, ts, rest, rfl, _⟩ := agrees_cons ha
    rw [← hcmd]
    rfl
  cases h with
  | afterDone _ => exact absurd trivial hr
  | finished _ _ => exact absurd trivial hr
  | unfinished _ _ he => exact (herr he).elim
  | unknownOption _ _ _ _ _ he => exact (herr he).elim
  | ignoredOption ht _ _ _ _ _ => exact agrees_unknown _ (agrees_headMap (raw_unprocessed _) ha)
  | option ht _ _ hrun =>
    cases hrun with
    | noValue _ _ he => exact (herr he).elim
    | normal h1 h2 hty =>
      obtain ⟨rfl, e⟩ := option_passive hp hg ht h1 h2
      rw [step_option _ _ _ (by rw [hty]; simp), e]
      exact agrees_occWrite ha _ _
    | lastOption h1 h2 hty =>
      obtain ⟨rfl, e⟩ := option_passive hp hg ht h1 h2
      rw [step_option _ _ _ (by rw [hty]; simp)]
      show Agrees _ _
      simp only [e]
      exact agrees_occWrite ha _ _
    | stopped h1 h2 ho _ hre =>
      obtain ⟨rfl, e⟩ := option_passive hp hg ht h1 h2
      rw [step_option _ _ _ (by rcases ho with ho | ho | ho <;> rw [ho] <;> simp)]
      refine agrees_headMap (raw_unprocessed _) (agrees_headMap (raw_stop _) ?_)
      rw [e]
      exact agrees_occWrite ha _ _
    | lastFails _ _ _ _ he => exact (herr he).elim
    | lastDone h1 h2 hty hok hnm hre =>
      obtain ⟨rfl, e⟩ := option_passive hp hg ht h1 h2
      rw [findMultiParent_succ] at hnm
      simp only [Option.map_eq_none_iff] at hnm
      have h3 := agrees_occWrite ha ‹OptData› ‹Str›
      rw [← e] at h3
      have h4 := agrees_back_none h3 hnm
      simp only [Open.step, hty, if_true, Option.getD_some, h4, Option.getD_none]
      exact agrees_headMap (raw_unprocessed _) (agrees_map raw_asSuccess h3)
    | lastMulti h1 h2 hty hok hfm =>
      rename_i s3 v stored w sub
      obtain ⟨rfl, e⟩ := option_passive hp hg ht h1 h2
      have h3 := agrees_occWrite ha ‹OptData› v
      rw [← e] at h3
      have h3 := agrees_map raw_asSuccess h3
      obtain ⟨a, pre, p, ps, e1, rfl, e3, e4⟩ := findMultiParent_some hfm
      have e1' : s3.stack.map asSuccess = a :: pre ++ p :: ps := e1
      rw [e1'] at h3
      obtain ⟨st', h4, h5⟩ := agrees_back h3 e3 e4
      have hg3 : Good d (succState s3) := (near_option hg ht h1 h2).2.succ
      have h6 := (hg3.react e1 e3).1
      simp only [Open.step, hty, if_true, Option.getD_some, h4]
      rw [List.length_cons, h6]
      exact h5
  | command ht hno hc hf hcur =>
    have : st.isLeaf = false := by rw [hleaf]; simpa using hc
    simp only [Open.step, this]
    exact agrees_mk (n := PNode.make _) rfl rfl ha
  | unknownCommand _ _ _ _ he => exact (herr he).elim
  | argument ht hno hce hrun =>
    cases hrun with
    | sibling hf hc =>
      obtain ⟨e0, a, pre, p, ps, e1, rfl, e3, e4, e5⟩ := findSibling_some hf
      have h6 := ((hg.taken ht).2.2.react e1 e3).1
      have e1' : s.stack = a :: pre ++ p :: ps := e1
      rw [e1'] at ha
      obtain ⟨st', h4, h5⟩ := agrees_back ha e3 e4
      have hl : st.isLeaf = true := by rw [hleaf, hce]; rfl
      simp only [Open.step, hl, if_true, h4, Option.getD_some]
      refine agrees_mk (n := PNode.make _) (ns := (reactState (ps.length + 1) _).stack) rfl rfl ?_
      rw [h6]
      exact h5
    | argument _ hn hc =>
      obtain ⟨rfl, e⟩ := argument_passive hp hg ht hn hc
      rw [e]
      exact agrees_add ha (.argument _ _)
    | ignored _ _ _ _ => exact agrees_unknown _ (agrees_headMap (raw_unprocessed _) ha)
    | tooMany _ _ _ he => exact (herr he).elim

theorem _root_.Argos.Trace.agrees {env : Env} (hp : env.Passive) {d : ParserData} (hr : Ready d) {s s' : PState} {rs : List IterResult}
    (h : Trace env s rs s') (hg : Good d s) (hl : ∀ r ∈ rs, ¬ r.IsLast) {st : Open} (ha : Agrees s.stack st) :
    Agrees s'.stack (rs.foldl Open.step st) := by
  induction h generalizing st with
  | nil => exact ha
  | cons hn _ ih =>
    obtain ⟨hst, hg1⟩ := next_good hr hg hn
    exact ih hg1 (fun r hr => hl r (by simp [hr])) (hst.agrees hp hg (hl _ (by simp)) ha)

/-- The final state of a parse that ends without an error. -/
theorem _root_.Argos.Parses.agrees {env : Env} (hp : env.Passive) {d : ParserData} (hr : Ready d) {args : List Str} {rs : List IterResult}
    {s' : PState} (h : Parses env d args rs .done s') : Agrees s'.stack (Open.after d.command rs) := by
  obtain ⟨s, ht, hg, hn, hst, hg'⟩ := h.good hr
  have h1 := ht.agrees hp hr (start_good d args).2 h.before (agrees_start d args)
  rcases hst.done_cases with ⟨_, rfl⟩ | ⟨it, _, _, rfl⟩
  · exact h1
  · exact agrees_map raw_asSuccess h1

end Parser
end Argos
