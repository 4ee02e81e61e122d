import Verif.Proofs.Belongs

/-!
# Facts about the specification of the results
-/

namespace Argos
open Spec

namespace Spec

theorem Tree.within_map {α β : Type} {f : α → β} {y : Tree β} {t : Tree α} (h : y.Within (t.map f)) : ∃ x : Tree α, x.Within t ∧ y = x.map f := by
  generalize e : t.map f = r at h
  induction h generalizing t with
  | refl => exact ⟨t, .refl _, e.symm⟩
  | @sub s r hs _ ih =>
    obtain ⟨c, a, ts⟩ := t
    rw [Tree.map_node] at e
    subst e
    simp only [Tree.subs, List.mem_map] at hs
    obtain ⟨t', ht', rfl⟩ := hs
    obtain ⟨x, hx, e⟩ := ih rfl
    exact ⟨x, .sub (r := .node c a ts) ht' hx, e⟩

theorem Tree.within_of_map {α β : Type} {f : α → β} {x t : Tree α} (h : x.Within t) : (x.map f).Within (t.map f) := by
  induction h with
  | refl => exact .refl _
  | @sub s r hs _ ih =>
    obtain ⟨c, a, ts⟩ := r
    refine .sub (s := s.map f) ?_ ih
    rw [Tree.map_node]
    exact List.mem_map_of_mem hs

/-- The writes made by a list of occurrences. -/
theorem valuesOf_snoc (l : List Occ) (x : Occ) : valuesOf (l ++ [x]) = x.writes.foldl Write.run (valuesOf l) := by
  simp [valuesOf, runWrites]

theorem list_reverse_ind {α : Type} {P : List α → Prop} (h0 : P []) (h1 : ∀ l x, P l → P (l ++ [x])) : ∀ l, P l := by
  intro l
  rw [← List.reverse_reverse l]
  induction l.reverse with
  | nil => exact h0
  | cons x l ih =>
    rw [List.reverse_cons]
    exact h1 _ _ ih

theorem argsGiven_append (l m : List Occ) : argsGiven (l ++ m) = argsGiven l ++ argsGiven m := by
  simp [argsGiven]

/-- The values of an argument that shares its value with nothing. -/
theorem valuesOf_argument {c : Command} {a : ArgData} (ho : ∀ o ∈ c.options, o.valueId ≠ a.valueId)
    (ha : ∀ b ∈ c.arguments, b.valueId = a.valueId → b = a) (l : List Occ) (h : ∀ x ∈ l, x.Of c) :
    valuesOf l a.valueId = (l.filterMap fun x => match x with
      | .argument b v => if b = a then some (v, a.argumentId) else none
      | _ => none) := by
  revert h
  refine list_reverse_ind (P := fun l => (∀ x ∈ l, x.Of c) → valuesOf l a.valueId = (l.filterMap fun x => match x with
      | .argument b v => if b = a then some (v, a.argumentId) else none
      | _ => none)) (fun _ => rfl) ?_ l
  intro l x ih h
  have ih := ih (fun y hy => h y (by simp [hy]))
  have hx := h x (by simp)
  rw [valuesOf_snoc, List.filterMap_append, ← ih]
  cases x with
  | initial o =>
    have := ho o hx
    have hx' : a.valueId ≠ o.valueId := fun e => this e.symm
    simp only [Occ.writes, List.filterMap_cons, List.filterMap_nil, List.append_nil]
    split
    · rfl
    · simp [Write.run, hx']
  | option o v =>
    have := ho o hx
    have hx' : a.valueId ≠ o.valueId := fun e => this e.symm
    simp only [Occ.writes, List.filterMap_cons, List.filterMap_nil, List.append_nil]
    split <;> simp [Write.run, hx']
  | argument b v =>
    by_cases hb : b = a
    · subst hb
      simp [Occ.writes, Write.run]
    · have hx' : a.valueId ≠ b.valueId := fun e => hb (ha b hx e.symm)
      simp [Occ.writes, Write.run, hx', hb]
  | unknown s => simp [Occ.writes]

theorem count_argsGiven (a : ArgData) (l : List Occ) :
    (l.filterMap fun x => match x with
      | .argument b v => if b = a then some ((v, a.argumentId) : Str × Nat) else none
      | _ => none).length = (argsGiven l).count a := by
  induction l with
  | nil => rfl
  | cons x l ih =>
    cases x with
    | argument b v =>
      by_cases hb : b = a
      · simp only [List.filterMap_cons, hb, if_true, List.length_cons, ih, argsGiven, List.count_cons_self]
      · simp only [List.filterMap_cons, hb, if_false, ih, argsGiven]
        rw [List.count_cons_of_ne hb]
    | _ => simpa only [List.filterMap_cons, argsGiven] using ih

theorem count_handedOut {args : List ArgData} {ks : List Nat} (hl : ks.length = args.length) (hn : args.Nodup) (i : Nat) (hi : i < args.length) :
    (handedOut args ks).count args[i] = ks[i] := by
  induction args generalizing ks i with
  | nil => simp at hi
  | cons a args ih =>
    obtain ⟨k, ks, rfl⟩ : ∃ k ks', ks = k :: ks' := by
      cases ks with
      | nil => simp at hl
      | cons k ks => exact ⟨k, ks, rfl⟩
    simp only [List.length_cons, Nat.add_right_cancel_iff] at hl
    rw [List.nodup_cons] at hn
    have e : handedOut (a :: args) (k :: ks) = List.replicate k a ++ handedOut args ks := by simp [handedOut]
    have hmem : ∀ x ∈ handedOut args ks, x ∈ args := by
      intro x hx
      unfold handedOut at hx
      obtain ⟨p, hp, hx⟩ := List.mem_flatMap.mp hx
      rw [List.eq_of_mem_replicate hx]
      exact (List.of_mem_zip hp).1
    rw [e, List.count_append]
    cases i with
    | zero =>
      simp only [List.getElem_cons_zero, List.count_replicate_self]
      rw [List.count_eq_zero_of_not_mem (fun h => hn.1 (hmem _ h))]
      omega
    | succ i =>
      simp only [List.getElem_cons_succ]
      have hi' : i < args.length := by simpa using hi
      rw [ih hl hn.2 i hi', List.count_replicate]
      have : a ≠ args[i] := fun e => hn.1 (by rw [e]; exact List.getElem_mem _)
      simp [this]

/-! ### The main command -/

/-- The first command and what was given to it. -/
def Open.Root (root : Command) (inits : List Occ) (st : Open) : Prop :=
  ∃ occs ts, st.getLast? = some (.node root (inits ++ occs) ts) ∧ ∀ x ∈ occs, ∀ o, x ≠ .initial o

theorem Open.Root.cons {root : Command} {inits : List Occ} {st : Open} (h : st.Root root inits) (t : Tree (List Occ)) : Open.Root root inits (t :: st) := by
  obtain ⟨occs, ts, h1, h2⟩ := h
  refine ⟨occs, ts, ?_, h2⟩
  rw [List.getLast?_cons, h1]
  rfl

theorem Open.Root.add {root : Command} {inits : List Occ} {st : Open} (h : st.Root root inits) {x : Occ} (hx : ∀ o, x ≠ .initial o) :
    (st.add x).Root root inits := by
  obtain ⟨occs, ts, h1, h2⟩ := h
  cases st with
  | nil => simp at h1
  | cons t rest =>
    obtain ⟨c, l, us⟩ := t
    cases rest with
    | nil =>
      simp only [List.getLast?_singleton, Option.some.injEq, Tree.node.injEq] at h1
      obtain ⟨rfl, rfl, rfl⟩ := h1
      refine ⟨occs ++ [x], us, by simp [Open.add], ?_⟩
      intro y hy
      rcases List.mem_append.mp hy with hy | hy
      · exact h2 y hy
      · simp only [List.mem_singleton] at hy; rw [hy]; exact hx
    | cons q rest =>
      refine ⟨occs, ts, ?_, h2⟩
      simp only [Open.add]
      rw [List.getLast?_cons_cons] at h1 ⊢
      exact h1

theorem Open.Root.back {root : Command} {inits : List Occ} {st st' : Open} (h : st.Root root inits) (hb : st.back = some st') : st'.Root root inits := by
  obtain ⟨occs, ts, h1, h2⟩ := h
  obtain ⟨t0, pre, c, l, us, x, rest, rfl, rfl⟩ := Parser.back_spec hb
  cases rest with
  | nil =>
    rw [List.getLast?_append] at h1
    simp only [List.getLast?_singleton, Option.some_or, Option.some.injEq, Tree.node.injEq] at h1
    obtain ⟨rfl, rfl, rfl⟩ := h1
    exact ⟨occs, us ++ [x], rfl, h2⟩
  | cons q rest =>
    rw [List.getLast?_append, List.getLast?_cons_cons] at h1
    refine ⟨occs, ts, ?_, h2⟩
    rw [List.getLast?_cons_cons]
    cases hq : (q :: rest).getLast? with
    | none => simp at hq
    | some y => rw [hq] at h1; simpa using h1

theorem Open.Root.backD {root : Command} {inits : List Occ} {st : Open} (h : st.Root root inits) : (st.back.getD st).Root root inits := by
  cases hb : st.back with
  | none => exact h
  | some st' => exact h.back hb

theorem Open.Root.step {root : Command} {inits : List Occ} {st : Open} (h : st.Root root inits) (r : IterResult) : (st.step r).Root root inits := by
  cases r with
  | option o v =>
    have := h.add (x := .option o (v.getD [])) (by simp)
    simp only [Open.step]
    split
    · exact this.backD
    · exact this
  | argument a v => exact h.add (by simp)
  | unknown s => exact h.add (by simp)
  | command c x =>
    refine Open.Root.cons ?_ _
    split
    · exact h.backD
    · exact h
  | _ => exact h

theorem Open.Root.after (root : Command) (rs : List IterResult) : (Open.after root rs).Root root (root.options.map .initial) := by
  have key : ∀ (rs : List IterResult) (st : Open), st.Root root (root.options.map .initial) →
      (rs.foldl Open.step st).Root root (root.options.map .initial) := by
    intro rs
    induction rs with
    | nil => intro st h; exact h
    | cons r rs ih => intro st h; exact ih _ (h.step r)
  exact key rs _ ⟨[], [], by simp [Open.start], by simp⟩

theorem Open.Root.close {root : Command} {inits : List Occ} {st : Open} (h : st.Root root inits) {t : Tree (List Occ)} (hc : st.close = some t) :
    t.command = root ∧ ∃ occs, t.data = inits ++ occs ∧ ∀ x ∈ occs, ∀ o, x ≠ .initial o := by
  have go : ∀ (st : Open) (t : Tree (List Occ)), Open.Root root inits (t :: st) →
      (Open.close.go t st).command = root ∧ ∃ occs, (Open.close.go t st).data = inits ++ occs ∧ ∀ x ∈ occs, ∀ o, x ≠ .initial o := by
    intro st
    induction st with
    | nil =>
      rintro t ⟨occs, ts, h1, h2⟩
      simp only [List.getLast?_singleton, Option.some.injEq] at h1
      subst h1
      exact ⟨rfl, occs, rfl, h2⟩
    | cons q st ih =>
      obtain ⟨c, l, us⟩ := q
      rintro t ⟨occs, ts, h1, h2⟩
      refine ih _ ?_
      rw [List.getLast?_cons_cons] at h1
      cases st with
      | nil =>
        simp only [List.getLast?_singleton, Option.some.injEq, Tree.node.injEq] at h1
        obtain ⟨rfl, rfl, rfl⟩ := h1
        exact ⟨occs, us ++ [t], rfl, h2⟩
      | cons p st =>
        rw [List.getLast?_cons_cons] at h1
        exact ⟨occs, ts, by rw [List.getLast?_cons_cons]; exact h1, h2⟩
  cases st with
  | nil => simp [Open.close] at hc
  | cons q st =>
    simp only [Open.close, Option.some.injEq] at hc
    rw [← hc]
    exact go st q h

/-- Without sub-commands everything belongs to the main command. -/
theorem after_flat (root : Command) (rs : List IterResult) (h : ∀ c x, .command c x ∉ rs) :
    Open.after root rs = [.node root (root.options.map .initial ++ rs.filterMap occOf) []] := by
  have key : ∀ (rs : List IterResult) (l : List Occ), (∀ c x, .command c x ∉ rs) →
      rs.foldl Open.step [.node root l []] = [.node root (l ++ rs.filterMap occOf) []] := by
    intro rs
    induction rs with
    | nil => intro l _; simp
    | cons r rs ih =>
      intro l h
      have h' : ∀ c x, .command c x ∉ rs := fun c x hm => h c x (by simp [hm])
      rw [List.foldl_cons]
      cases r with
      | command c x => exact absurd List.mem_cons_self (h c x)
      | option o v =>
        have : Open.step [.node root l []] (.option o v) = [.node root (l ++ [.option o (v.getD [])]) []] := by
          simp only [Open.step, Open.add, Open.back, Open.back.go, Option.getD_none, ite_self]
        rw [this, ih _ h']
        simp [occOf]
      | argument a v =>
        have : Open.step [.node root l []] (.argument a v) = [.node root (l ++ [.argument a (v.getD [])]) []] := rfl
        rw [this, ih _ h']
        simp [occOf]
      | unknown s =>
        have : Open.step [.node root l []] (.unknown s) = [.node root (l ++ [.unknown s]) []] := rfl
        rw [this, ih _ h']
        simp [occOf]
      | _ =>
        rw [show Open.step [.node root l []] _ = [.node root l []] from rfl, ih _ h', List.filterMap_cons]
        simp [occOf]
  exact key rs _ h

end Spec

namespace Spec

theorem Tree.commandsList_eq {α : Type} (ts : List (Tree α)) : Tree.commandsList ts = ts.flatMap Tree.commands := by
  induction ts with
  | nil => rfl
  | cons t ts ih => rw [Tree.commandsList, ih]; rfl

theorem Tree.commands_node {α : Type} (c : Command) (a : α) (ts : List (Tree α)) :
    Tree.commands (.node c a ts) = c :: ts.flatMap Tree.commands := by rw [Tree.commands, Tree.commandsList_eq]

mutual
theorem Tree.commands_map {α β : Type} (f : α → β) : ∀ t : Tree α, (t.map f).commands = t.commands
  | .node c a ts => by
    have := Tree.commandsList_map f ts
    rw [Tree.map, Tree.commands, Tree.commands, this]

theorem Tree.commandsList_map {α β : Type} (f : α → β) : ∀ ts : List (Tree α), Tree.commandsList (Tree.mapList f ts) = Tree.commandsList ts
  | [] => rfl
  | t :: ts => by
    have h1 := Tree.commands_map f t
    have h2 := Tree.commandsList_map f ts
    rw [Tree.mapList, Tree.commandsList, Tree.commandsList, h1, h2]
end

/-- The commands in the order in which they were given. -/
def Open.order (st : Open) : List Command := st.reverse.flatMap Tree.commands

theorem Open.order_cons (t : Tree (List Occ)) (st : Open) : Open.order (t :: st) = Open.order st ++ t.commands := by
  simp [Open.order]

theorem Open.order_add (x : Occ) (st : Open) : (st.add x).order = st.order := by
  cases st with
  | nil => rfl
  | cons t st =>
    obtain ⟨c, l, ts⟩ := t
    simp only [Open.add, Open.order_cons, Tree.commands_node]

theorem Open.order_back {st st' : Open} (h : st.back = some st') : st'.order = st.order := by
  have go : ∀ (st : Open) (t : Tree (List Occ)) (st' : Open), Open.back.go t st = some st' → st'.order = Open.order st ++ t.commands := by
    intro st
    induction st with
    | nil => intro t st' h; simp [Open.back.go] at h
    | cons q st ih =>
      obtain ⟨c, l, ts⟩ := q
      intro t st' h
      unfold Open.back.go at h
      split at h
      · simp only [Option.some.injEq] at h
        rw [← h]
        simp [Open.order_cons, Tree.commands_node]
      · rw [ih _ _ h]
        simp [Open.order_cons, Tree.commands_node]
  cases st with
  | nil => simp [Open.back] at h
  | cons t st => rw [go st t st' h, Open.order_cons]

theorem Open.order_backD (st : Open) : (st.back.getD st).order = st.order := by
  cases h : st.back with
  | none => rfl
  | some st' => exact Open.order_back h

theorem Open.order_close {st : Open} {t : Tree (List Occ)} (h : st.close = some t) : t.commands = st.order := by
  have go : ∀ (st : Open) (t : Tree (List Occ)), (Open.close.go t st).commands = Open.order st ++ t.commands := by
    intro st
    induction st with
    | nil => intro t; rfl
    | cons q st ih =>
      obtain ⟨c, l, ts⟩ := q
      intro t
      unfold Open.close.go
      rw [ih]
      simp [Open.order_cons, Tree.commands_node]
  cases st with
  | nil => simp [Open.close] at h
  | cons q st =>
    simp only [Open.close, Option.some.injEq] at h
    rw [← h, go, Open.order_cons]

theorem given_commands {root : Command} {rs : List IterResult} {t : Tree (List Occ)} (h : given root rs = some t) :
    t.commands = root :: commandsGiven rs := by
  have key : ∀ (rs : List IterResult) (st : Open), (rs.foldl Open.step st).order = st.order ++ commandsGiven rs := by
    intro rs
    induction rs with
    | nil => intro st; simp [commandsGiven]
    | cons r rs ih =>
      intro st
      rw [List.foldl_cons, ih]
      cases r with
      | option o v =>
        have : (st.step (.option o v)).order = st.order := by
          simp only [Open.step]
          split
          · rw [Open.order_backD, Open.order_add]
          · rw [Open.order_add]
        rw [this]
        simp [commandsGiven]
      | argument a v =>
        have : (st.step (.argument a v)).order = st.order := Open.order_add _ _
        rw [this]
        simp [commandsGiven]
      | unknown s =>
        have : (st.step (.unknown s)).order = st.order := Open.order_add _ _
        rw [this]
        simp [commandsGiven]
      | command c x =>
        have : (st.step (.command c x)).order = st.order ++ [c] := by
          simp only [Open.step, Open.order_cons, Tree.commands_node]
          split
          · rw [Open.order_backD]; rfl
          · rfl
        rw [this]
        simp [commandsGiven]
      | _ => simp [commandsGiven, Open.step]
  rw [Open.order_close h]
  unfold Open.after
  rw [key]
  simp [Open.start, Open.order, Tree.commands_node]

end Spec

theorem PNode.within_tree {m n : PNode} (h : m.Within n) : m.tree.Within n.tree := by
  induction h with
  | self => exact .refl _
  | @sub k n hk _ ih =>
    refine .sub (s := k.tree) ?_ ih
    cases n
    simp only [PNode.tree, Tree.subs]
    have : ∀ l : List PNode, PNode.treeList l = l.map PNode.tree := by
      intro l
      induction l with
      | nil => rfl
      | cons x l ih => rw [PNode.treeList, ih]; rfl
    rw [this]
    exact List.mem_map_of_mem hk

namespace Parser

/-- The values of all commands are what the results lead to. -/
theorem _root_.Argos.Returns.tree {env : Env} (hp : env.Passive) {d : ParserData} (hr : Ready d) {args : List Str} {rs : List IterResult}
    {n : PNode} (h : Returns env d args rs .done n) : ∃ t, given d.command rs = some t ∧ n.tree = t.map valuesOf := by
  obtain ⟨s', a, l, h1, hg, e, e2, _⟩ := h.facts hr
  have h2 := h1.agrees hp hr
  rw [e] at h2
  obtain ⟨t, h3, h4⟩ := agrees_close h2
  refine ⟨t, h3, ?_⟩
  rw [PNode.tree_eq, e2, h4, Tree.map_map]
  congr 1
  funext occs
  exact getValues_rawValues occs

/-- The commands are those of the results. -/
theorem _root_.Argos.Returns.shape {env : Env} {d : ParserData} (hr : Ready d) {args : List Str} {rs : List IterResult} {last : IterResult}
    {n : PNode} (h : Returns env d args rs last n) : ∃ t, given d.command rs = some t ∧ n.shape = t.shape := by
  obtain ⟨s', a, l, h1, hg, e, e2, _⟩ := h.facts hr
  have h2 := h1.shaped hr
  rw [e] at h2
  obtain ⟨t, h3, h4⟩ := shaped_close h2
  exact ⟨t, h3, by rw [e2, h4]⟩

theorem _root_.Argos.Returns.command {env : Env} {d : ParserData} (hr : Ready d) {args : List Str} {rs : List IterResult} {last : IterResult}
    {n : PNode} (h : Returns env d args rs last n) : n.command = d.command := by
  obtain ⟨t, h1, h2⟩ := h.shape hr
  have h3 := ((Open.Root.after d.command rs).close h1).1
  obtain ⟨c, l, ts⟩ := t
  rw [PNode.shape_eq, Tree.shape_node] at h2
  simp only [Tree.node.injEq] at h2
  rw [h2.1]
  exact h3

theorem _root_.Argos.Returns.treeOk {env : Env} {d : ParserData} (hr : Ready d) {args : List Str} {rs : List IterResult} {last : IterResult}
    {n : PNode} (h : Returns env d args rs last n) : TreeOk n := by
  obtain ⟨s', a, l, h1, hg, e, e2, _⟩ := h.facts hr
  rw [e2]
  refine (nest_ok (root := d.command) a l [] ?_ ?_ ?_).1
  · have := hg.path
    rw [e] at this
    simpa using this
  · intro n hn; exact hg.trees n (by rw [e]; exact hn)
  · intro n hn; exact hg.active n (by rw [e]; simp [hn])

theorem _root_.Argos.Returns.within {env : Env} {d : ParserData} (hr : Ready d) {args : List Str} {rs : List IterResult} {last : IterResult}
    {n : PNode} (h : Returns env d args rs last n) {m : PNode} (hm : m.Within n) : m.command.Within d.command := by
  have h1 := h.treeOk hr
  have key : ∀ (n : PNode), m.Within n → TreeOk n → m.command.Within n.command := by
    intro n hm
    induction hm with
    | self => intro _; exact .self
    | @sub k n hk _ ih => intro hok; exact .sub (hok.self.subs k hk) (ih (hok.sub hk))
  have := key n hm h1
  rwa [h.command hr] at this

end Parser
end Argos
