import Verif.Proofs.Next
import Verif.Proofs.Counter
import Verif.Spec.Tree

/-! # The invariant of the parser -/

namespace Argos
open Spec

theorem PNode.within_iff {m n : PNode} : m.Within n ↔ m = n ∨ ∃ k ∈ n.subs, m.Within k := by
  constructor
  · intro h
    cases h with
    | self => exact Or.inl rfl
    | sub hk hm => exact Or.inr ⟨_, hk, hm⟩
  · rintro (rfl | ⟨k, hk, hm⟩)
    · exact .self
    · exact .sub hk hm

theorem PNode.Within.trans {a b c : PNode} (h1 : a.Within b) (h2 : b.Within c) : a.Within c := by
  induction h2 with
  | self => exact h1
  | sub hk _ ih => exact .sub hk ih

theorem Command.Within.trans {a b c : Command} (h1 : a.Within b) (h2 : b.Within c) : a.Within c := by
  induction h2 with
  | self => exact h1
  | sub hk _ ih => exact .sub hk ih

namespace Parser
open ParserM

/-- The facts about a single node of the results. -/
structure NodeOk (n : PNode) : Prop where
  ids : n.ids = makeIds n.command
  values : n.values.Reachable
  subs : ∀ k ∈ n.subs, k.command ∈ n.command.commands
  single : n.command.multiCommand = false → n.subs.length ≤ 1

/-- The facts hold for all nodes of a tree. -/
def TreeOk (n : PNode) : Prop := ∀ m, m.Within n → NodeOk m

theorem TreeOk.intro {n : PNode} (h : NodeOk n) (hs : ∀ k ∈ n.subs, TreeOk k) : TreeOk n := by
  intro m hm
  rcases PNode.within_iff.mp hm with rfl | ⟨k, hk, hm⟩
  · exact h
  · exact hs k hk m hm

theorem TreeOk.self {n : PNode} (h : TreeOk n) : NodeOk n := h n .self
theorem TreeOk.sub {n k : PNode} (h : TreeOk n) (hk : k ∈ n.subs) : TreeOk k := fun m hm => h m (.sub hk hm)

/-- The stack of active commands, innermost first, is a path from the root. -/
inductive Path (root : Command) : List PNode → Prop
  | top {n : PNode} : n.command = root → Path root [n]
  | push {n p : PNode} {ps : List PNode} : n.command ∈ p.command.commands → Path root (p :: ps) → Path root (n :: p :: ps)

theorem Path.within {root : Command} {l : List PNode} (h : Path root l) : ∀ n ∈ l, n.command.Within root := by
  induction h with
  | top e => intro m hm; simp only [List.mem_singleton] at hm; subst hm; rw [e]; exact .self
  | push e _ ih =>
    intro m hm
    rcases List.mem_cons.mp hm with rfl | hm
    · exact (Command.Within.sub e .self).trans (ih _ List.mem_cons_self)
    · exact ih m hm

theorem Path.ne {root : Command} {l : List PNode} (h : Path root l) : l ≠ [] := by cases h <;> simp

theorem Path.tail {root : Command} {n p : PNode} {ps : List PNode} (h : Path root (n :: p :: ps)) : Path root (p :: ps) := by
  cases h with
  | push _ h => exact h

theorem Path.drop {root : Command} {pre post : List PNode} (h : Path root (pre ++ post)) (hp : post ≠ []) : Path root post := by
  induction pre with
  | nil => exact h
  | cons a pre ih =>
    cases hpp : pre ++ post with
    | nil => simp [hp] at hpp
    | cons b r =>
      rw [List.cons_append, hpp] at h
      apply ih
      rw [hpp]
      exact h.tail

/-- A command with something entered below it has sub-commands. -/
theorem Path.below_commands {root : Command} {pre : List PNode} {a p : PNode} {ps : List PNode} (h : Path root (a :: pre ++ p :: ps)) :
    p.command.commands ≠ [] := by
  induction pre generalizing a with
  | nil =>
    cases h with
    | push hm _ => exact List.ne_nil_of_mem hm
  | cons b pre ih =>
    cases h with
    | push _ h => exact ih h

/-- The path depends on the commands only. -/
theorem Path.congr {root : Command} {l l' : List PNode} (h : Path root l) (e : l'.map (·.command) = l.map (·.command)) :
    Path root l' := by
  induction h generalizing l' with
  | top e0 =>
    match l', e with
    | [n'], e => simp at e; exact .top (e.trans e0)
    | _ :: _ :: _, e => simp at e
  | push e0 _ ih =>
    match l', e with
    | [_], e => simp at e
    | n' :: p' :: ps', e =>
      simp only [List.map_cons, List.cons.injEq] at e
      refine .push ?_ (ih (by simp [e.2.1, e.2.2]))
      rw [e.1, e.2.1]
      exact e0

/-- The tree made of a node and the frames it is closed into. -/
def nest : PNode → List PNode → PNode
  | n, [] => n
  | n, p :: ps => nest { p with subs := p.subs ++ [n] } ps

theorem closeFrames_split (a : PNode) (pre : List PNode) (p : PNode) (ps : List PNode) :
    closeFrames (pre.length + 1) (a :: pre ++ p :: ps) = { p with subs := p.subs ++ [nest a pre] } :: ps := by
  induction pre generalizing a with
  | nil => rfl
  | cons b pre ih =>
    have : closeFrames ((b :: pre).length + 1) (a :: (b :: pre) ++ p :: ps) =
        closeFrames (pre.length + 1) ({ b with subs := b.subs ++ [a] } :: pre ++ p :: ps) := rfl
    rw [this, ih]
    rfl

theorem findMultiParent_go_some {l sub : List PNode} (h : findMultiParent.go l = some sub) :
    ∃ pre p ps, l = pre ++ p :: ps ∧ sub = p :: ps ∧ p.command.multiCommand = true ∧
      ∀ q ∈ pre, q.command.multiCommand = false := by
  induction l with
  | nil => simp [findMultiParent.go] at h
  | cons q l ih =>
    unfold findMultiParent.go at h
    split at h
    · rename_i hm
      simp only [Option.some.injEq] at h
      exact ⟨[], q, l, rfl, h.symm, hm, by simp⟩
    · rename_i hm
      obtain ⟨pre, p, ps, e1, e2, e3, e4⟩ := ih h
      refine ⟨q :: pre, p, ps, by rw [e1]; rfl, e2, e3, ?_⟩
      intro q' hq'
      rcases List.mem_cons.mp hq' with rfl | hq'
      · simpa using hm
      · exact e4 q' hq'

theorem findMultiParent_go_none {l : List PNode} (h : findMultiParent.go l = none) :
    ∀ q ∈ l, q.command.multiCommand = false := by
  induction l with
  | nil => simp
  | cons q l ih =>
    unfold findMultiParent.go at h
    split at h
    · simp at h
    · rename_i hm
      intro q' hq'
      rcases List.mem_cons.mp hq' with rfl | hq'
      · simpa using hm
      · exact ih h q' hq'

/-- The nearest enclosing command that allows several sub-commands. -/
theorem findMultiParent_some {l sub : List PNode} (h : findMultiParent l = some sub) :
    ∃ a pre p ps, l = a :: pre ++ p :: ps ∧ sub = p :: ps ∧ p.command.multiCommand = true ∧
      ∀ q ∈ pre, q.command.multiCommand = false := by
  cases l with
  | nil => simp [findMultiParent] at h
  | cons a rest =>
    obtain ⟨pre, p, ps, e1, e2, e3⟩ := findMultiParent_go_some (h : findMultiParent.go rest = some sub)
    exact ⟨a, pre, p, ps, by rw [e1]; rfl, e2, e3⟩

/-- The command and the enclosing command found for a sibling. -/
theorem findSibling_some {s : PState} {name : Str} {c : Command} {size : Nat} (h : findSibling s name = some (c, size)) :
    s.counter.isComplete = true ∧ ∃ a pre p ps, s.stack = a :: pre ++ p :: ps ∧ size = ps.length + 1 ∧
      p.command.multiCommand = true ∧ (∀ q ∈ pre, q.command.multiCommand = false) ∧
      findCommand p.command.commands name s.settings.caseInsensitive = some c := by
  unfold findSibling at h
  split at h
  · simp at h
  · rename_i hcomp
    cases hm : findMultiParent s.stack with
    | none => rw [hm] at h; simp at h
    | some sub =>
      obtain ⟨a, pre, p, ps, e1, e2, e3, e4⟩ := findMultiParent_some hm
      rw [hm, e2] at h
      simp only [Option.map_eq_some_iff, Prod.mk.injEq] at h
      obtain ⟨c', h1, rfl, rfl⟩ := h
      exact ⟨by simpa using hcomp, a, pre, p, ps, e1, rfl, e3, e4, h1⟩

theorem findCommand_mem {cs : List Command} {name : Str} {ci : Bool} {c : Command} (h : findCommand cs name ci = some c) :
    c ∈ cs := List.mem_of_find?_eq_some h

/-- The invariant of the parser. -/
structure Good (d : ParserData) (s : PState) : Prop where
  settings : s.settings = d.settings
  iterOk : s.iter.Ok
  pfx : s.iter.pfx = stylePrefix d.settings.optionStyle
  path : Path d.command s.stack
  command : s.stack.head?.map (·.command) = some s.command
  trees : ∀ n ∈ s.stack, TreeOk n
  active : ∀ n ∈ s.stack, n.command.multiCommand = false → n.subs = []
  bounds : s.counter.firstOptional ≤ s.counter.counters.length

theorem Good.ne {d : ParserData} {s : PState} (h : Good d s) : s.stack ≠ [] := h.path.ne

theorem Good.head {d : ParserData} {s : PState} (h : Good d s) : ∃ n ns, s.stack = n :: ns ∧ n.command = s.command := by
  cases hs : s.stack with
  | nil => exact absurd hs h.ne
  | cons n ns =>
    have := h.command
    rw [hs] at this
    simp only [List.head?_cons, Option.map_some, Option.some.injEq] at this
    exact ⟨n, ns, rfl, this⟩

theorem Good.within {d : ParserData} {s : PState} (h : Good d s) : s.command.Within d.command := by
  obtain ⟨n, ns, e1, e2⟩ := h.head
  rw [← e2]
  exact h.path.within n (by rw [e1]; simp)

/-- What initialisation guarantees. -/
def Ready (d : ParserData) : Prop := ∀ c, c.Within d.command → OptionsReady d.settings c

theorem ready_of_init {d0 d : ParserData} (h : finishInitialization d0 = .ok d) : Ready d := optionsReady h

theorem Good.cmdReady {d : ParserData} {s : PState} (h : Good d s) (hr : Ready d) : CmdReady s.command := by
  have := hr _ h.within
  obtain ⟨r, h1, _⟩ := this.require
  exact ⟨⟨r, h1⟩, this.flags_ne⟩

/-- Changes of nodes that keep what the invariant needs. -/
structure Keeps (f : PNode → PNode) : Prop where
  command : ∀ n, (f n).command = n.command
  ids : ∀ n, (f n).ids = n.ids
  values : ∀ n, n.values.Reachable → (f n).values.Reachable
  subs : ∀ n, (f n).subs = n.subs

theorem Keeps.tree {f : PNode → PNode} (hf : Keeps f) {n : PNode} (h : TreeOk n) : TreeOk (f n) := by
  have hn := h.self
  refine TreeOk.intro ⟨?_, hf.values n hn.values, ?_, ?_⟩ ?_
  · rw [hf.ids, hf.command]; exact hn.ids
  · rw [hf.subs, hf.command]; exact hn.subs
  · rw [hf.subs, hf.command]; exact hn.single
  · intro k hk; rw [hf.subs] at hk; exact h.sub hk

/-- Changes of the state that only concern nodes, mode, log, iterator and counter. -/
theorem Good.keep {d : ParserData} {s s' : PState} (h : Good d s) (h1 : s'.settings = s.settings)
    (h2 : s'.command = s.command) (h3 : s'.iter.Ok) (h4 : s'.iter.pfx = s.iter.pfx)
    (h5 : s'.stack = s.stack ∨ (∃ f, Keeps f ∧ (s'.stack = headMap f s.stack ∨ s'.stack = s.stack.map f)))
    (h6 : s'.counter.firstOptional ≤ s'.counter.counters.length) : Good d s' := by
  have hst : s'.stack.map (·.command) = s.stack.map (·.command) ∧ (∀ n ∈ s'.stack, TreeOk n) ∧
      (∀ n ∈ s'.stack, n.command.multiCommand = false → n.subs = []) := by
    rcases h5 with e | ⟨f, hf, e | e⟩
    · rw [e]; exact ⟨rfl, h.trees, h.active⟩
    · rw [e]
      obtain ⟨n, ns, e1, _⟩ := h.head
      rw [e1]
      simp only [headMap, List.map_cons, hf.command, List.mem_cons, forall_eq_or_imp, true_and]
      refine ⟨⟨hf.tree (h.trees n (by rw [e1]; simp)), fun m hm => h.trees m (by rw [e1]; simp [hm])⟩, ?_,
        fun m hm => h.active m (by rw [e1]; simp [hm])⟩
      rw [hf.subs]
      exact h.active n (by rw [e1]; simp)
    · rw [e]
      refine ⟨by simp [hf.command], ?_, ?_⟩
      · intro m hm
        obtain ⟨n, hn, rfl⟩ := List.mem_map.mp hm
        exact hf.tree (h.trees n hn)
      · intro m hm
        obtain ⟨n, hn, rfl⟩ := List.mem_map.mp hm
        rw [hf.command, hf.subs]
        exact h.active n hn
  refine ⟨h1.trans h.settings, h3, h4.trans h.pfx, h.path.congr hst.1, ?_, hst.2.1, hst.2.2, h6⟩
  have hc := h.command
  rw [h2, ← hc, ← List.head?_map, ← List.head?_map, hst.1]

theorem Good.iter {d : ParserData} {s : PState} (h : Good d s) {it : Iter} (h1 : it.Ok) (h2 : it.pfx = s.iter.pfx) :
    Good d { s with iter := it } := h.keep rfl rfl h1 h2 (Or.inl rfl) h.bounds

theorem keeps_unprocessed (l : List Str) : Keeps fun n => { n with unprocessed := n.unprocessed ++ l } :=
  ⟨fun _ => rfl, fun _ => rfl, fun _ h => h, fun _ => rfl⟩

theorem keeps_code (c : ResultCode) : Keeps fun n => { n with code := c } :=
  ⟨fun _ => rfl, fun _ => rfl, fun _ h => h, fun _ => rfl⟩

theorem keeps_stop (c : ResultCode) (o : Option OptData) : Keeps fun n => { n with code := c, stopOption := o } :=
  ⟨fun _ => rfl, fun _ => rfl, fun _ h => h, fun _ => rfl⟩

theorem keeps_write (w : Write) : Keeps fun n => { n with values := w.exec n.values } :=
  ⟨fun _ => rfl, fun _ => rfl, fun _ h => h.step w, fun _ => rfl⟩

theorem keeps_writes (ws : List Write) : Keeps fun n => { n with values := ws.foldl Write.exec n.values } := by
  refine ⟨fun _ => rfl, fun _ => rfl, fun n h => ?_, fun _ => rfl⟩
  show (ws.foldl Write.exec n.values).Reachable
  generalize n.values = v at h
  induction ws generalizing v with
  | nil => exact h
  | cons w ws ih => exact ih _ (h.step w)

theorem Good.copy {d : ParserData} {s : PState} (h : Good d s) {it : Iter} (hr : Rest s.iter it) : Good d (copyState it s) :=
  h.keep rfl rfl hr.ok hr.pfx (Or.inr ⟨_, keeps_unprocessed s.iter.reader.unread, Or.inl rfl⟩) h.bounds

theorem Good.errLog {d : ParserData} {s : PState} (h : Good d s) (msg : Str) : Good d (errLog msg s) :=
  h.keep rfl rfl h.iterOk rfl (Or.inl rfl) h.bounds

theorem Good.err {d : ParserData} {s : PState} (h : Good d s) (msg : Str) {it : Iter} (hr : Rest s.iter it) :
    Good d (errState msg it s) :=
  ((h.errLog msg).copy hr).keep rfl rfl hr.ok rfl (Or.inr ⟨_, keeps_code .failure, Or.inr rfl⟩) h.bounds

theorem Good.errorRun {d : ParserData} {s : PState} (h : Good d s) {msg : Str} {α : Type} {a : α} {o : Outcome α} {s' : PState}
    (he : ErrorRun msg s a o s') : Good d s' := by
  cases he with
  | exit _ => exact h.errLog msg
  | error _ hr => exact h.err msg hr

theorem Good.succ {d : ParserData} {s : PState} (h : Good d s) : Good d (succState s) :=
  h.keep rfl rfl h.iterOk rfl (Or.inr ⟨_, keeps_code .success, Or.inr rfl⟩) h.bounds

theorem Good.stop {d : ParserData} {s : PState} (h : Good d s) (o : OptData) : Good d (stopState o s) :=
  h.keep rfl rfl h.iterOk rfl (Or.inr ⟨_, keeps_stop .stop (some o), Or.inl rfl⟩) h.bounds

theorem Good.store {d : ParserData} {s : PState} (h : Good d s) (w : Option Write) : Good d (storeState w s) := by
  cases w with
  | none => exact h
  | some w => exact h.keep rfl rfl h.iterOk rfl (Or.inr ⟨_, keeps_write w, Or.inl rfl⟩) h.bounds

/-! ### Counters -/

theorem nextArgument_bounds {c c' : Counter} {a : Option ArgData} (h : c.nextArgument = (a, c'))
    (hb : c.firstOptional ≤ c.counters.length) : c'.firstOptional ≤ c'.counters.length := by
  unfold Counter.nextArgument at h
  simp only at h
  split at h
  · simp only [Prod.mk.injEq] at h
    rw [← h.2]; exact hb
  · simp only [Prod.mk.injEq] at h
    rw [← h.2]; simpa using hb

theorem skip_bounds (c : Counter) (n : Nat) (hb : c.firstOptional ≤ c.counters.length) :
    (c.skip n).firstOptional ≤ (c.skip n).counters.length := by
  induction n generalizing c with
  | zero => exact hb
  | succ n ih =>
    unfold Counter.skip
    cases h : c.nextArgument with
    | mk a c' =>
      cases a with
      | none => exact nextArgument_bounds h hb
      | some a => exact ih c' (nextArgument_bounds h hb)

theorem ofArgsN_bounds (args : List ArgData) (n k : Nat) :
    (Counter.ofArgsN args n k).firstOptional ≤ (Counter.ofArgsN args n k).counters.length :=
  skip_bounds _ _ (Nat.le_refl _)

theorem makeCountersLoop_length (fo : Nat) (args : List ArgData) (i : Nat) :
    args.length ≤ (Counter.makeCountersLoop fo args i).length := by
  induction args generalizing i with
  | nil => simp
  | cons a as ih =>
    unfold Counter.makeCountersLoop
    split <;> simp <;> have := ih (i + 1) <;> omega

theorem forCount_bounds (args : List ArgData) (n : Nat) :
    (Counter.forCount args n).firstOptional ≤ (Counter.forCount args n).counters.length := by
  unfold Counter.forCount
  split
  · exact Nat.le_trans (Counter.findFirstOptional_le args) (makeCountersLoop_length _ args 0)
  · exact ofArgsN_bounds _ _ _

theorem Good.frame {d : ParserData} {s s' : PState} (h : Good d s) (hf : CallFrame s s') : Good d s' := by
  obtain ⟨n, ns, e1, _⟩ := h.head
  obtain ⟨ws, e2⟩ := hf.stack n ns e1
  refine h.keep hf.settings hf.command (hf.iterOk h.iterOk) hf.pfx
    (Or.inr ⟨_, keeps_writes ws, Or.inl (by rw [e2, e1]; rfl)⟩) ?_
  rcases hf.counter with e | ⟨_, m, k, e⟩
  · rw [e]; exact h.bounds
  · rw [e]; exact ofArgsN_bounds _ _ _

theorem Good.callRun {d : ParserData} {s s' : PState} {o : Outcome (Option Str)} (h : Good d s) (hc : CallRun s o s') : Good d s' := by
  cases hc with
  | ok hf => exact h.frame hf
  | throw hf => exact h.frame hf
  | exit hf _ => exact h.frame hf

theorem Good.calls {d : ParserData} {s s' : PState} {env : Env} {cb : Option Nat} {sel : ParserSettings → Option Nat}
    {view : ViewRef} {vid : Nat} {st : Bool} {v : Option Str} {o : Outcome (Option Str)} (h : Good d s)
    (hc : Parser.calls env cb sel view vid st v s = (o, s')) : Good d s' := by
  have := (calls_run env cb sel view vid st v s h.ne h.iterOk).1
  rw [hc] at this
  exact h.callRun this

theorem Good.opRun {d : ParserData} {s s' : PState} {o : OptData} {flag : Str} {r : Outcome (Option (Str × Bool))}
    (h : Good d s) (hr : OpRun o flag s r s') : Good d s' := by
  obtain ⟨a, it', h1, h2, h3⟩ := s.iter.nextValue_ok h.iterOk
  cases hr with
  | plain _ => exact h.store _
  | value _ hn =>
    rw [h1] at hn
    simp only [Outcome.ok.injEq, Prod.mk.injEq] at hn
    rw [← hn.2]
    exact (h.iter h2 h3).store _
  | noValue _ hn he =>
    rw [h1] at hn
    simp only [Outcome.ok.injEq, Prod.mk.injEq] at hn
    rw [← hn.2] at he
    exact (h.iter h2 h3).errorRun he

/-! ### Frames -/

theorem tree_closed {n p : PNode} (hp : TreeOk p) (hn : TreeOk n) (hmem : n.command ∈ p.command.commands)
    (hs : p.command.multiCommand = false → p.subs = []) : TreeOk { p with subs := p.subs ++ [n] } := by
  have h := hp.self
  refine TreeOk.intro ⟨h.ids, h.values, ?_, ?_⟩ ?_
  · intro k hk
    rcases List.mem_append.mp hk with hk | hk
    · exact h.subs k hk
    · simp only [List.mem_singleton] at hk; rw [hk]; exact hmem
  · intro hm
    show (p.subs ++ [n]).length ≤ 1
    rw [hs hm]; simp
  · intro k hk
    rcases List.mem_append.mp hk with hk | hk
    · exact hp.sub hk
    · simp only [List.mem_singleton] at hk; rw [hk]; exact hn

theorem nest_ok {root : Command} (a : PNode) (pre post : List PNode) (h : Path root (a :: pre ++ post))
    (ht : ∀ n ∈ a :: pre, TreeOk n) (hs : ∀ n ∈ pre, n.command.multiCommand = false → n.subs = []) :
    TreeOk (nest a pre) ∧ (nest a pre).command = ((a :: pre).getLast (by simp)).command := by
  induction pre generalizing a with
  | nil => exact ⟨ht a (by simp), rfl⟩
  | cons b pre ih =>
    have hab : a.command ∈ b.command.commands := by
      cases h with
      | push e _ => exact e
    have htail : Path root (b :: pre ++ post) := h.tail
    have := ih { b with subs := b.subs ++ [a] } (htail.congr (by rfl)) ?_ (fun n hn => hs n (by simp [hn]))
    · refine ⟨this.1, this.2.trans ?_⟩
      cases pre with
      | nil => rfl
      | cons _ _ => rfl
    · intro n hn
      rcases List.mem_cons.mp hn with rfl | hn
      · exact tree_closed (ht b (by simp)) (ht a (by simp)) hab (hs b (by simp))
      · exact ht n (by simp [hn])

theorem path_last {root : Command} (a : PNode) (pre : List PNode) (p : PNode) (ps : List PNode)
    (h : Path root (a :: pre ++ p :: ps)) : ((a :: pre).getLast (by simp)).command ∈ p.command.commands := by
  induction pre generalizing a with
  | nil =>
    cases h with
    | push e _ => exact e
  | cons b pre ih => exact ih b h.tail

/-- The stack after the parent that allows several sub-commands has become active again. -/
theorem Good.react {d : ParserData} {s : PState} (h : Good d s) {a : PNode} {pre : List PNode} {p : PNode} {ps : List PNode}
    (hst : s.stack = a :: pre ++ p :: ps) (hm : p.command.multiCommand = true) :
    (reactState (ps.length + 1) s).stack = { p with subs := p.subs ++ [nest a pre] } :: ps ∧
    (reactState (ps.length + 1) s).command = p.command ∧ Good d (reactState (ps.length + 1) s) := by
  have hk : s.stack.length - (ps.length + 1) = pre.length + 1 := by rw [hst]; simp; omega
  have hcl : closeFrames (s.stack.length - (ps.length + 1)) s.stack = { p with subs := p.subs ++ [nest a pre] } :: ps := by
    rw [hk, hst]; exact closeFrames_split a pre p ps
  have e1 : (reactState (ps.length + 1) s).stack = { p with subs := p.subs ++ [nest a pre] } :: ps := hcl
  have e2 : (reactState (ps.length + 1) s).command = p.command := by simp [reactState, hcl]
  have hpath := h.path
  rw [hst] at hpath
  have hpost : Path d.command (p :: ps) := hpath.drop (by simp)
  have hmem : ∀ n ∈ a :: pre ++ p :: ps, n ∈ s.stack := by intro n hn; rw [hst]; exact hn
  have hnest := nest_ok a pre (p :: ps) hpath (fun n hn => h.trees n (hmem n (List.mem_append_left _ hn)))
    (fun n hn => h.active n (hmem n (List.mem_append_left _ (by simp [hn]))))
  refine ⟨e1, e2, h.settings, h.iterOk, h.pfx, ?_, ?_, ?_, ?_, Nat.le_refl _⟩
  · rw [e1]; exact hpost.congr rfl
  · rw [e1, e2]; rfl
  · rw [e1]
    intro n hn
    rcases List.mem_cons.mp hn with rfl | hn
    · refine tree_closed (h.trees p (hmem p (by simp))) hnest.1 ?_ (h.active p (hmem p (by simp)))
      rw [hnest.2]
      exact path_last a pre p ps hpath
    · exact h.trees n (hmem n (by simp [hn]))
  · rw [e1]
    intro n hn
    rcases List.mem_cons.mp hn with rfl | hn
    · intro hf; simp [hm] at hf
    · exact h.active n (hmem n (by simp [hn]))

theorem make_ok (c : Command) : TreeOk (PNode.make c) :=
  TreeOk.intro ⟨rfl, Values.Reachable.nil, by simp [PNode.make], by simp [PNode.make]⟩ (by simp [PNode.make])

theorem Good.enter {d : ParserData} {s : PState} (h : Good d s) {c : Command} (hc : c ∈ s.command.commands) :
    Good d (enterState c s) := by
  obtain ⟨n, ns, e1, e2⟩ := h.head
  refine ⟨h.settings, h.iterOk, h.pfx, ?_, rfl, ?_, ?_, forCount_bounds _ _⟩
  · show Path d.command (PNode.make c :: s.stack)
    have := h.path
    rw [e1] at this ⊢
    refine .push ?_ this
    rw [e2]; exact hc
  · intro m hm
    rcases List.mem_cons.mp hm with rfl | hm
    · exact make_ok c
    · exact h.trees m hm
  · intro m hm
    rcases List.mem_cons.mp hm with rfl | hm
    · intro _; rfl
    · exact h.active m hm

/-! ### Steps -/

theorem Good.taken {d : ParserData} {s : PState} (h : Good d s) {a : Option Str} {it : Iter} (ht : Taken s a it) :
    it.Ok ∧ it.pfx = s.iter.pfx ∧ Good d { s with iter := it } := by
  have : it.Ok ∧ it.pfx = s.iter.pfx := by
    rcases ht with ⟨_, h1⟩ | ⟨_, h1⟩
    · obtain ⟨a', it', g1, g2, g3⟩ := s.iter.next_ok h.iterOk
      rw [h1] at g1
      simp only [Outcome.ok.injEq, Prod.mk.injEq] at g1
      rw [g1.2]; exact ⟨g2, g3⟩
    · obtain ⟨a', it', g1, g2, g3⟩ := s.iter.nextValue_ok h.iterOk
      rw [h1] at g1
      simp only [Outcome.ok.injEq, Prod.mk.injEq] at g1
      rw [g1.2]; exact ⟨g2, g3⟩
  exact ⟨this.1, this.2, h.iter this.1 this.2⟩

theorem Good.mode {d : ParserData} {s : PState} (h : Good d s) (m : Mode) : Good d { s with mode := m } :=
  h.keep rfl rfl h.iterOk rfl (Or.inl rfl) h.bounds

theorem Good.reactFound {d : ParserData} {s : PState} (h : Good d s) {sub : List PNode} (hm : findMultiParent s.stack = some sub) :
    Good d (reactState sub.length s) := by
  obtain ⟨a, pre, p, ps, e1, e2, e3, _⟩ := findMultiParent_some hm
  rw [e2]
  exact (h.react e1 e3).2.2

theorem Good.optionRun {d : ParserData} {s s' : PState} {env : Env} {o : OptData} {flag : Str} {r : Outcome IterResult}
    (h : Good d s) (hr : OptionRun env o flag s r s') : Good d s' := by
  cases hr with
  | noValue ht hn he => exact h.opRun (.noValue (r := match r with | .ok _ => .ok none | .throw m => .throw m | .outOfRange => .outOfRange | .exit c => .exit c | .ub => .ub | .diverges => .diverges) ht hn (by
      cases he with
      | exit ha => exact .exit ha
      | error ha hre => exact .error ha hre))
  | callThrow h1 h2 => exact (h.opRun h1).calls h2
  | callExit h1 h2 _ => exact (h.opRun h1).calls h2
  | normal h1 h2 _ => exact (h.opRun h1).calls h2
  | lastOption h1 h2 _ => exact ((h.opRun h1).calls h2).mode _
  | stopExit h1 h2 _ _ => exact ((h.opRun h1).calls h2).stop o
  | stopped h1 h2 _ _ hre => exact (((h.opRun h1).calls h2).stop o).copy hre
  | lastFails h1 h2 _ _ he => exact (((h.opRun h1).calls h2).mode _).errorRun he
  | lastDone h1 h2 _ _ _ hre => exact (((h.opRun h1).calls h2).succ).copy hre
  | lastMulti h1 h2 _ _ hm => exact (((h.opRun h1).calls h2).succ).reactFound hm

theorem Good.arg {d : ParserData} {s : PState} (h : Good d s) {a : ArgData} {ct : Counter} {v : Str}
    (hn : s.counter.nextArgument = (some a, ct)) : Good d (argState a ct v s) :=
  Good.store (h.keep (s' := { s with counter := ct }) rfl rfl h.iterOk rfl (Or.inl rfl) (nextArgument_bounds hn h.bounds)) _

theorem Good.argumentRun {d : ParserData} {s s' : PState} {env : Env} {value : Str} {r : Outcome IterResult}
    (h : Good d s) (hr : ArgumentRun env value s r s') : Good d s' := by
  cases hr with
  | sibling hf _ =>
    obtain ⟨_, a, pre, p, ps, e1, e2, e3, _, e5⟩ := findSibling_some hf
    obtain ⟨g1, g2, g3⟩ := h.react e1 e3
    rw [e2]
    refine g3.enter ?_
    rw [g2]
    exact findCommand_mem e5
  | callThrow _ hn hc => exact (h.arg hn).calls hc
  | callExit _ hn hc _ => exact (h.arg hn).calls hc
  | argument _ hn hc => exact (h.arg hn).calls hc
  | ignored _ hn _ _ =>
    exact h.keep rfl rfl h.iterOk rfl (Or.inr ⟨_, keeps_unprocessed [value], Or.inl rfl⟩) (nextArgument_bounds hn h.bounds)
  | tooMany hsib hn hig he =>
    rename_i ct
    exact (h.keep (s' := { s with counter := ct }) rfl rfl h.iterOk rfl (Or.inl rfl) (nextArgument_bounds hn h.bounds)).errorRun he

theorem Good.step {d : ParserData} {s s' : PState} {env : Env} {r : Outcome IterResult} (h : Good d s) (hs : Step env s r s') :
    Good d s' := by
  cases hs with
  | afterError _ => exact h
  | afterDone _ => exact h
  | finished ht _ => exact (h.taken ht).2.2.succ
  | unfinished ht _ he => exact (h.taken ht).2.2.errorRun he
  | unknownOption ht _ _ _ _ he => exact (h.taken ht).2.2.errorRun he
  | ignoredOption ht _ _ _ _ _ =>
    have g := (h.taken ht).2.2
    exact g.keep rfl rfl g.iterOk rfl (Or.inr ⟨_, keeps_unprocessed _, Or.inl rfl⟩) g.bounds
  | option ht _ _ hr => exact (h.taken ht).2.2.optionRun hr
  | command ht _ _ hf _ => exact (h.taken ht).2.2.enter (findCommand_mem hf)
  | unknownCommand ht _ _ _ he => exact (h.taken ht).2.2.errorRun he
  | argument ht _ _ hr => exact (h.taken ht).2.2.argumentRun hr

theorem Good.next {d : ParserData} {s : PState} (env : Env) (h : Good d s) (hr : Ready d) :
    Step env s (next env s).1 (next env s).2 ∧ Good d (next env s).2 := by
  have := next_step env s h.iterOk h.ne (h.cmdReady hr)
  exact ⟨this, h.step this⟩

/-! ### The start -/

theorem initialValues_reachable (os : List OptData) (vs : Values) (h : vs.Reachable) : (initialValues os vs).Reachable := by
  induction os generalizing vs with
  | nil => exact h
  | cons o os ih =>
    unfold initialValues
    apply ih
    split
    · exact h.step (.append o.valueId o.initialValue o.argumentId)
    · exact h

theorem make_iter (style : OptionStyle) (args : List Str) :
    (Iter.make style args).Ok ∧ (Iter.make style args).reader = ⟨[], args⟩ ∧
      (Iter.make style args).pfx = stylePrefix style := by
  cases style <;> exact ⟨Or.inl rfl, rfl, rfl⟩

/-- The state after construction. -/
theorem start_good (d : ParserData) (args : List Str) :
    start d args = (.ok (), { startState d args with
      counter := Counter.forCount d.command.arguments (ahead (startState d args)) }) ∧
    Good d (start d args).2 := by
  have hit := make_iter d.settings.optionStyle args
  have h1 : start d args = (.ok (), { startState d args with
      counter := Counter.forCount d.command.arguments (ahead (startState d args)) }) :=
    initCounter_run (startState d args) hit.1
  refine ⟨h1, ?_⟩
  rw [h1]
  refine ⟨rfl, hit.1, hit.2.2, .top rfl, rfl, ?_, ?_, forCount_bounds _ _⟩
  · intro n hn
    simp only [startState, List.mem_singleton] at hn
    subst hn
    refine TreeOk.intro ⟨rfl, initialValues_reachable _ _ Values.Reachable.nil, ?_, ?_⟩ ?_ <;> simp [PNode.make]
  · intro n hn
    simp only [startState, List.mem_singleton] at hn
    subst hn
    intro _; rfl

/-- The states of an iterator during its life: any number of calls of `next`, also after calls that
threw. -/
inductive Reach (env : Env) (d : ParserData) (args : List Str) : PState → Prop
  | start : Reach env d args (start d args).2
  | next {s : PState} : Reach env d args s → Reach env d args (next env s).2

theorem Reach.good {env : Env} {d : ParserData} {args : List Str} {s : PState} (h : Reach env d args s) (hr : Ready d) : Good d s := by
  induction h with
  | start => exact (start_good d args).2
  | next _ ih => exact (ih.next env hr).2

end Parser
end Argos
