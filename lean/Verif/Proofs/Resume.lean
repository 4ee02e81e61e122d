import Verif.Spec.Resume
import Verif.Proofs.Nested

/-!
# What follows after a command has been entered does not depend on earlier sub-commands: two runs
-/

namespace Argos

open Spec

theorem _root_.Argos.Spec.Before.commands {es : List (List PNode)} {ns ns' : List PNode} (h : Before es ns ns') : ns'.map (·.command) = ns.map (·.command) := by
  induction h with
  | nil => rfl
  | cons _ _ ih => simp [ih]

theorem _root_.Argos.Spec.Before.recode {es : List (List PNode)} {ns ns' : List PNode} (h : Before es ns ns') (k : ResultCode) :
    Before es (ns.map fun n => { n with code := k }) (ns'.map fun n => { n with code := k }) := by
  induction h with
  | nil => exact .nil
  | @cons n e es ns ns' code _ _ ih => exact Before.cons (n := { n with code := k }) (code := k) (Or.inl rfl) ih

theorem _root_.Argos.Spec.Preceded.fields {es : List (List PNode)} {n n' : PNode} (h : Preceded es n n') : n' = { n with subs := n'.subs, code := n'.code } ∧
    (n.subs ≠ [] → n'.subs ≠ []) := by
  cases h with
  | last _ => exact ⟨rfl, fun h => by simp [h]⟩
  | inner _ _ _ => exact ⟨rfl, fun _ => by simp⟩

theorem _root_.Argos.Spec.Preceded.command {es : List (List PNode)} {n n' : PNode} (h : Preceded es n n') : n'.command = n.command := by
  rw [h.fields.1]

theorem _root_.Argos.Spec.Preceded.values {es : List (List PNode)} {n n' : PNode} (h : Preceded es n n') : n'.values = n.values := by
  rw [h.fields.1]

/-- Changes that have nothing to do with the sub-commands and the result code. -/
theorem _root_.Argos.Spec.Preceded.unprocessed {es : List (List PNode)} {n n' : PNode} (h : Preceded es n n') (l : List Str) :
    Preceded es { n with unprocessed := n.unprocessed ++ l } { n' with unprocessed := n'.unprocessed ++ l } := by
  cases h with
  | last h => exact Preceded.last (n := { n with unprocessed := n.unprocessed ++ l }) h
  | inner h1 h2 h3 => exact Preceded.inner (n := { n with unprocessed := n.unprocessed ++ l }) h1 h2 h3

theorem _root_.Argos.Spec.Preceded.recode {es : List (List PNode)} {n n' : PNode} (h : Preceded es n n') (k : ResultCode) :
    Preceded es { n with code := k } { n' with code := k } := by
  cases h with
  | last h => exact Preceded.last (n := { n with code := k }) (code := k) (Or.inl rfl)
  | inner h1 h2 h3 => exact Preceded.inner (n := { n with code := k }) (code := k) h1 h2 (Or.inl rfl)

/-- A further sub-command. -/
theorem _root_.Argos.Spec.Preceded.close {es : List (List PNode)} {n n' : PNode} (h : Preceded es n n') (m : PNode) :
    Preceded es { n with subs := n.subs ++ [m] } { n' with subs := n'.subs ++ [m] } := by
  cases h with
  | @last _ e code h =>
    have := Preceded.last (n := { n with subs := n.subs ++ [m] }) (e := e) (code := code) h
    simpa only [List.append_assoc] using this
  | @inner _ m1 m1' e es xs ys code h1 h2 h3 =>
    have := Preceded.inner (n := { n with subs := n.subs ++ [m] }) (e := e) (code := code) (xs := xs) (ys := ys ++ [m]) h1 (by simp [h2]) h3
    simpa only [List.append_assoc, List.cons_append] using this

namespace Parser
open ParserM

/-- Two stacks that differ in earlier sub-commands of the outer commands. -/
structure Frames (es : List (List PNode)) (inner : List PNode) (q q' : PNode) (ups ups' : List PNode) : Prop where
  node : ∃ es1 es2, Preceded es1 q q' ∧ Before es2 ups ups' ∧ es2.reverse ++ es1 = es.reverse
  some : ∀ n ∈ q :: ups, n.command.commands ≠ []
  front : inner = [] → q.subs ≠ []

theorem Frames.commands {es : List (List PNode)} {inner : List PNode} {q q' : PNode} {ups ups' : List PNode} (h : Frames es inner q q' ups ups') :
    (inner ++ q' :: ups').map (·.command) = (inner ++ q :: ups).map (·.command) := by
  obtain ⟨es1, es2, h1, h2, _⟩ := h.node
  simp [h1.command, h2.commands]

theorem Frames.recode {es : List (List PNode)} {inner : List PNode} {q q' : PNode} {ups ups' : List PNode} (h : Frames es inner q q' ups ups') (k : ResultCode) :
    Frames es (inner.map fun n => { n with code := k }) { q with code := k } { q' with code := k } (ups.map fun n => { n with code := k }) (ups'.map fun n => { n with code := k }) := by
  obtain ⟨es1, es2, h1, h2, h3⟩ := h.node
  refine ⟨⟨es1, es2, h1.recode k, h2.recode k, h3⟩, ?_, fun hi => h.front (by simpa using hi)⟩
  intro n hn
  rcases List.mem_cons.mp hn with rfl | hn
  · exact h.some q (by simp)
  · obtain ⟨m, hm, rfl⟩ := List.mem_map.mp hn
    exact h.some m (by simp [hm])

theorem Frames.inner {es : List (List PNode)} {inner inner' : List PNode} {q q' : PNode} {ups ups' : List PNode} (h : Frames es inner q q' ups ups') (hn : inner' = [] → inner = []) :
    Frames es inner' q q' ups ups' := ⟨h.node, h.some, fun hi => h.front (hn hi)⟩

/-- Leaving commands. -/
theorem Frames.close (j : Nat) {es : List (List PNode)} {inner : List PNode} {q q' : PNode} {ups ups' : List PNode} (h : Frames es inner q q' ups ups') :
    ∃ inner1 q1 q1' ups1 ups1', Frames es inner1 q1 q1' ups1 ups1' ∧ closeFrames j (inner ++ q :: ups) = inner1 ++ q1 :: ups1 ∧
      closeFrames j (inner ++ q' :: ups') = inner1 ++ q1' :: ups1' := by
  induction j generalizing inner q q' ups ups' with
  | zero => exact ⟨inner, q, q', ups, ups', h, rfl, rfl⟩
  | succ j ih =>
    match inner with
    | n :: m :: rest => exact ih (inner := { m with subs := m.subs ++ [n] } :: rest) (h.inner (by simp))
    | [n] =>
      obtain ⟨es1, es2, h1, h2, h3⟩ := h.node
      refine ih (inner := []) (q := { q with subs := q.subs ++ [n] }) (q' := { q' with subs := q'.subs ++ [n] }) ⟨⟨es1, es2, h1.close n, h2, h3⟩, ?_, by simp⟩
      intro x hx
      rcases List.mem_cons.mp hx with rfl | hx
      · exact h.some q (by simp)
      · exact h.some x (by simp [hx])
    | [] =>
      obtain ⟨es1, es2, h1, h2, h3⟩ := h.node
      cases h2 with
      | nil => exact ⟨[], q, q', [], [], h, rfl, rfl⟩
      | @cons n e es' ns ns' code hc h2 =>
        refine ih (inner := []) (q := { n with subs := n.subs ++ [q] }) (q' := { n with subs := (e ++ n.subs) ++ [q'], code := code }) ⟨⟨e :: es1, es', ?_, h2, by rw [← h3]; simp⟩, ?_, by simp⟩
        · have := Preceded.inner (n := { n with subs := n.subs ++ [q] }) (e := e) (xs := n.subs) (ys := []) h1 rfl hc
          simpa only [List.append_assoc] using this
        · intro x hx
          rcases List.mem_cons.mp hx with rfl | hx
          · exact h.some n (by simp)
          · exact h.some x (by simp [hx])

variable (es : List (List PNode)) (l l' : List Event) (k k' : Nat)

/-- The second parser does the same as the first one, with other sub-commands before. If `P`, a command is active that has been entered since. -/
def Resumed (P : Prop) (s t : PState) : Prop :=
  ∃ inner q q' ups ups' L j, Frames es inner q q' ups ups' ∧ (P → inner ≠ []) ∧ (inner = [] → s.mode ≠ .argumentsAndOptions ∧ s.command = q.command) ∧
    s.stack = inner ++ q :: ups ∧ s.log = l ++ L ∧ s.calls = j + k ∧ t = { s with
      stack := inner ++ q' :: ups'
      log := l' ++ L
      calls := j + k' }

/-- The methods do the same. -/
def Resumes (P Q : Prop) {α : Type} (m m' : ParserM α) : Prop :=
  ∀ s t, Resumed es l l' k k' P s t → (m' t).1 = (m s).1 ∧ Resumed es l l' k k' Q (m s).2 (m' t).2

variable {es l l' k k'}

theorem Resumed.weak {P : Prop} {s t : PState} (h : Resumed es l l' k k' P s t) : Resumed es l l' k k' False s t := by
  obtain ⟨inner, q, q', ups, ups', L, j, h1, _, h3⟩ := h
  exact ⟨inner, q, q', ups, ups', L, j, h1, False.elim, h3⟩

theorem Resumed.fields {P : Prop} {s t : PState} (h : Resumed es l l' k k' P s t) : t.settings = s.settings ∧ t.command = s.command ∧ t.iter = s.iter ∧ t.mode = s.mode ∧
    t.counter = s.counter ∧ t.stack.map (·.command) = s.stack.map (·.command) := by
  obtain ⟨inner, q, q', ups, ups', L, j, h1, _, _, h4, _, _, rfl⟩ := h
  exact ⟨rfl, rfl, rfl, rfl, rfl, by rw [h4]; exact h1.commands⟩

namespace Resumes

variable {α β : Type} {P Q R : Prop}

theorem bind {m m' : ParserM α} {f f' : α → ParserM β} (hm : Resumes es l l' k k' P Q m m') (hf : ∀ x, Resumes es l l' k k' Q R (f x) (f' x))
    (hQ : ∀ s t, Resumed es l l' k k' Q s t → Resumed es l l' k k' R s t) : Resumes es l l' k k' P R (m >>= f) (m' >>= f') := by
  intro s t h
  show (ParserM.bind m' f' t).1 = (ParserM.bind m f s).1 ∧ Resumed es l l' k k' R (ParserM.bind m f s).2 (ParserM.bind m' f' t).2
  have h := hm s t h
  simp only [ParserM.bind]
  revert h
  generalize m s = r
  generalize m' t = r'
  obtain ⟨r, s1⟩ := r
  obtain ⟨r', t1⟩ := r'
  rintro ⟨h1, h2⟩
  simp only at h1
  subst h1
  cases r' with
  | ok x => exact hf x s1 t1 h2
  | _ => exact ⟨rfl, hQ _ _ h2⟩

/-- Two methods after each other that keep the same. -/
theorem seq {m m' : ParserM α} {f f' : α → ParserM β} (hm : Resumes es l l' k k' P P m m') (hf : ∀ x, Resumes es l l' k k' P P (f x) (f' x)) :
    Resumes es l l' k k' P P (m >>= f) (m' >>= f') := hm.bind hf fun _ _ h => h

theorem pure (x : α) : Resumes es l l' k k' P P (Pure.pure x) (Pure.pure x) := fun _ _ h => ⟨rfl, h⟩

theorem lift (x : Outcome α) : Resumes es l l' k k' P P (ParserM.lift x) (ParserM.lift x) := fun _ _ h => ⟨rfl, h⟩

theorem weaken {m m' : ParserM α} (h : Resumes es l l' k k' P Q m m') : Resumes es l l' k k' P False m m' := fun s t hs => ⟨(h s t hs).1, (h s t hs).2.weak⟩

theorem get {f f' : PState → ParserM α} (h : ∀ s t, Resumed es l l' k k' P s t → Resumes es l l' k k' P Q (f s) (f' t)) :
    Resumes es l l' k k' P Q (ParserM.get >>= f) (ParserM.get >>= f') :=
  fun s t hs => h s t hs s t hs

theorem modify {f f' : PState → PState} (h : ∀ s t, Resumed es l l' k k' P s t → Resumed es l l' k k' Q (f s) (f' t)) :
    Resumes es l l' k k' P Q (ParserM.modify f) (ParserM.modify f') :=
  fun s t hs => ⟨rfl, h s t hs⟩

theorem ite {p : Prop} [Decidable p] {m n m' n' : ParserM α} (hm : p → Resumes es l l' k k' P Q m m') (hn : ¬ p → Resumes es l l' k k' P Q n n') :
    Resumes es l l' k k' P Q (if p then m else n) (if p then m' else n') := by
  by_cases h : p
  · rw [if_pos h, if_pos h]; exact hm h
  · rw [if_neg h, if_neg h]; exact hn h

end Resumes

/-! ## Methods that can be called for the outer commands, too -/

variable {P : Prop}

theorem resumes_iter {α : Type} {g : Iter → Outcome (α × Iter)} {m : ParserM α} (hm : ∀ s, m s = match g s.iter with
      | .ok (x, it) => (.ok x, { s with iter := it })
      | .throw m => (.throw m, s)
      | .outOfRange => (.outOfRange, s)
      | .exit c => (.exit c, s)
      | .ub => (.ub, s)
      | .diverges => (.diverges, s)) : Resumes es l l' k k' P P m m := by
  intro s t hs
  rw [hm, hm, hs.fields.2.2.1]
  cases g s.iter with
  | ok p =>
    obtain ⟨inner, q, q', ups, ups', L, j, h1, h2, h3, h4, h5, h6, rfl⟩ := hs
    exact ⟨rfl, inner, q, q', ups, ups', L, j, h1, h2, h3, h4, h5, h6, rfl⟩
  | _ => exact ⟨rfl, hs⟩

theorem resumes_iterNext : Resumes es l l' k k' P P iterNext iterNext := resumes_iter (g := Iter.next) fun s => by
  unfold iterNext; cases s.iter.next <;> rfl

theorem resumes_iterNextValue : Resumes es l l' k k' P P iterNextValue iterNextValue := resumes_iter (g := Iter.nextValue) fun s => by
  unfold iterNextValue; cases s.iter.nextValue <;> rfl

theorem resumes_iterRemaining : Resumes es l l' k k' P P iterRemaining iterRemaining := resumes_iter (g := Iter.remainingArguments) fun s => by
  unfold iterRemaining; cases s.iter.remainingArguments <;> rfl

theorem resumes_iterInsert (args : List Str) : Resumes es l l' k k' P P (iterInsert args) (iterInsert args) :=
  resumes_iter (g := fun it => (it.insert args).mapOk fun it => ((), it)) fun s => by
    unfold iterInsert; cases s.iter.insert args <;> rfl

theorem resumes_iterCurrent : Resumes es l l' k k' P P iterCurrent iterCurrent := by
  intro s t hs
  simp only [iterCurrent, hs.fields.2.2.1]
  exact ⟨trivial, hs⟩

theorem resumes_emit (e : Event) : Resumes es l l' k k' P P (emit e) (emit e) := Resumes.modify fun s t hs => by
  obtain ⟨inner, q, q', ups, ups', L, j, h1, h2, h3, h4, h5, h6, rfl⟩ := hs
  exact ⟨inner, q, q', ups, ups', L ++ [e], j, h1, h2, h3, h4, by simp only [h5, List.append_assoc], h6, by simp only [List.append_assoc]⟩

theorem resumes_unprocessed (w : List Str) : Resumes es l l' k k' P P (modifyBack fun n => { n with unprocessed := n.unprocessed ++ w })
    (modifyBack fun n => { n with unprocessed := n.unprocessed ++ w }) := by
  intro s t hs
  obtain ⟨inner, q, q', ups, ups', L, j, h1, h2, h3, h4, h5, h6, rfl⟩ := hs
  cases inner with
  | cons n ns =>
    simp only [modifyBack, h4, List.cons_append]
    exact ⟨trivial, { n with unprocessed := n.unprocessed ++ w } :: ns, q, q', ups, ups', L, j, h1.inner (by simp), by simp, by simp, rfl, h5, h6, rfl⟩
  | nil =>
    obtain ⟨es1, es2, g1, g2, g3⟩ := h1.node
    simp only [modifyBack, h4, List.nil_append]
    refine ⟨trivial, [], { q with unprocessed := q.unprocessed ++ w }, { q' with unprocessed := q'.unprocessed ++ w }, ups, ups', L, j,
      ⟨⟨es1, es2, g1.unprocessed w, g2, g3⟩, ?_, h1.front⟩, h2, h3, rfl, h5, h6, rfl⟩
    intro x hx
    rcases List.mem_cons.mp hx with rfl | hx
    · exact h1.some q (by simp)
    · exact h1.some x (by simp [hx])

theorem resumes_copyRemaining : Resumes es l l' k k' P P copyRemaining copyRemaining :=
  resumes_iterRemaining.seq fun _ => resumes_unprocessed _

theorem resumes_code {m : Mode} (hm : m ≠ .argumentsAndOptions) (code : ResultCode) : Resumes es l l' k k' P P
    (ParserM.modify fun s => { s with stack := s.stack.map fun n => { n with code := code }, mode := m })
    (ParserM.modify fun s => { s with stack := s.stack.map fun n => { n with code := code }, mode := m }) := Resumes.modify fun s t hs => by
  obtain ⟨inner, q, q', ups, ups', L, j, h1, h2, h3, h4, h5, h6, rfl⟩ := hs
  refine ⟨_, _, _, _, _, L, j, h1.recode code, fun hp => ?_, fun hi => ⟨hm, ?_⟩, ?_, h5, h6, ?_⟩
  · simpa using h2 hp
  · exact (h3 (by simpa using hi)).2
  · simp only [h4, List.map_append, List.map_cons]
  · simp only [List.map_append, List.map_cons]

theorem resumes_error (msg : Str) : Resumes es l l' k k' P P (error msg) (error msg) := by
  refine Resumes.get fun s t hs => ?_
  rw [hs.fields.1, hs.fields.2.1]
  exact (resumes_emit _).seq fun _ => Resumes.ite (fun _ => Resumes.lift _) fun _ => resumes_copyRemaining.seq fun _ => resumes_code (by simp) _

theorem resumes_hasAllMandatory (vs : Values) (os : List OptData) : Resumes es l l' k k' P P (hasAllMandatory vs os) (hasAllMandatory vs os) := by
  induction os with
  | nil => exact Resumes.pure true
  | cons o os ih =>
    simp only [hasAllMandatory]
    refine Resumes.ite (fun _ => Resumes.ite (fun _ => Resumes.lift _) fun _ => ?_) fun _ => ih
    exact (resumes_error _).seq fun _ => Resumes.pure false

theorem resumes_checkCounts : Resumes es l l' k k' P P checkCounts checkCounts := by
  intro s t hs
  -- The innermost results have the same values, and sub-commands in both or in none.
  obtain ⟨n, n', ns, ns', e1, e2, e3, e4⟩ : ∃ n n' ns ns', s.stack = n :: ns ∧ t.stack = n' :: ns' ∧ n'.values = n.values ∧ n'.subs.isEmpty = n.subs.isEmpty := by
    obtain ⟨inner, q, q', ups, ups', L, j, h1, h2, h3, h4, h5, h6, rfl⟩ := hs
    cases inner with
    | cons n ns => exact ⟨n, n, ns ++ q :: ups, ns ++ q' :: ups', h4, rfl, rfl, rfl⟩
    | nil =>
      obtain ⟨es1, es2, g1, g2, g3⟩ := h1.node
      refine ⟨q, q', ups, ups', h4, rfl, g1.values, ?_⟩
      have a := h1.front rfl
      have b := g1.fields.2 a
      rw [List.isEmpty_eq_false_iff.mpr a, List.isEmpty_eq_false_iff.mpr b]
  have hb : ∀ (u : PState) (m : PNode) (ms : List PNode), u.stack = m :: ms → checkCounts u = (ParserM.bind ParserM.get fun s => do
      let ok ← hasAllMandatory m.values s.command.options
      if !ok then pure false
      else match s.command.requireSubcommand with
        | none => lift .ub
        | some req =>
          if req && m.subs.isEmpty then do
            error b!"No command was given."
            pure false
          else if s.counter.isComplete then do
            modify fun s => { s with
              mode := .done
              stack := s.stack.map fun n => { n with code := .success } }
            pure true
          else do
            let (lo, hi) := Counter.getMinMaxCount s.command.arguments
            error ((if lo = hi then b!"Too few arguments. Expected "
                    else b!"Too few arguments. Expected at least ")
              ++ natToStr lo ++ b!", received " ++ natToStr s.counter.counter ++ b!".")
            pure false) u := by
    intro u m ms hu
    show ParserM.bind back _ u = _
    simp only [ParserM.bind, back, hu]
    rfl
  rw [hb s n ns e1, hb t n' ns' e2, e3, e4]
  have key : Resumes es l l' k k' P P (ParserM.get >>= fun s => do
      let ok ← hasAllMandatory n.values s.command.options
      if !ok then pure false
      else match s.command.requireSubcommand with
        | none => lift .ub
        | some req =>
          if req && n.subs.isEmpty then do
            error b!"No command was given."
            pure false
          else if s.counter.isComplete then do
            modify fun s => { s with
              mode := .done
              stack := s.stack.map fun n => { n with code := .success } }
            pure true
          else do
            let (lo, hi) := Counter.getMinMaxCount s.command.arguments
            error ((if lo = hi then b!"Too few arguments. Expected "
                    else b!"Too few arguments. Expected at least ")
              ++ natToStr lo ++ b!", received " ++ natToStr s.counter.counter ++ b!".")
            pure false) (ParserM.get >>= fun s => do
      let ok ← hasAllMandatory n.values s.command.options
      if !ok then pure false
      else match s.command.requireSubcommand with
        | none => lift .ub
        | some req =>
          if req && n.subs.isEmpty then do
            error b!"No command was given."
            pure false
          else if s.counter.isComplete then do
            modify fun s => { s with
              mode := .done
              stack := s.stack.map fun n => { n with code := .success } }
            pure true
          else do
            let (lo, hi) := Counter.getMinMaxCount s.command.arguments
            error ((if lo = hi then b!"Too few arguments. Expected "
                    else b!"Too few arguments. Expected at least ")
              ++ natToStr lo ++ b!", received " ++ natToStr s.counter.counter ++ b!".")
            pure false) := by
    refine Resumes.get fun s t hs => ?_
    rw [hs.fields.2.1, hs.fields.2.2.2.2.1]
    refine (resumes_hasAllMandatory _ _).seq fun ok => Resumes.ite (fun _ => Resumes.pure false) fun _ => ?_
    cases s.command.requireSubcommand with
    | none => exact Resumes.lift _
    | some req =>
      refine Resumes.ite (fun _ => (resumes_error _).seq fun _ => Resumes.pure false) fun _ => ?_
      refine Resumes.ite (fun _ => ?_) fun _ => (resumes_error _).seq fun _ => Resumes.pure false
      exact Resumes.seq (resumes_code (by simp) _) fun _ => Resumes.pure true
  exact key s t hs

/-! ## Methods of the commands entered since -/

theorem Resumed.elim {s t : PState} (h : Resumed es l l' k k' True s t) : ∃ n ns q q' ups ups' L j, Frames es (n :: ns) q q' ups ups' ∧
    s.stack = n :: (ns ++ q :: ups) ∧ s.log = l ++ L ∧ s.calls = j + k ∧ t = { s with
      stack := n :: (ns ++ q' :: ups')
      log := l' ++ L
      calls := j + k' } := by
  obtain ⟨inner, q, q', ups, ups', L, j, h1, h2, h3, h4, h5, h6, h7⟩ := h
  cases inner with
  | nil => exact absurd rfl (h2 trivial)
  | cons n ns => exact ⟨n, ns, q, q', ups, ups', L, j, h1, h4, h5, h6, h7⟩

theorem Resumed.intro {s t : PState} {n : PNode} {ns : List PNode} {q q' : PNode} {ups ups' : List PNode} {L : List Event} {j : Nat} (h1 : Frames es (n :: ns) q q' ups ups')
    (h2 : s.stack = n :: (ns ++ q :: ups)) (h3 : s.log = l ++ L) (h4 : s.calls = j + k) (h5 : t = { s with
      stack := n :: (ns ++ q' :: ups')
      log := l' ++ L
      calls := j + k' }) : Resumed es l l' k k' True s t :=
  ⟨n :: ns, q, q', ups, ups', L, j, h1, by simp, by simp, h2, h3, h4, h5⟩

/-- A change of the innermost results only. -/
theorem Frames.replace {n m : PNode} {ns : List PNode} {q q' : PNode} {ups ups' : List PNode} (h : Frames es (n :: ns) q q' ups ups') : Frames es (m :: ns) q q' ups ups' :=
  h.inner (by simp)

theorem Resumes.back {α : Type} {Q : Prop} {f f' : PNode → ParserM α} (h : ∀ n, Resumes es l l' k k' True Q (f n) (f' n)) :
    Resumes es l l' k k' True Q (Parser.back >>= f) (Parser.back >>= f') := by
  intro s t hs
  obtain ⟨n, ns, q, q', ups, ups', L, j, h1, h2, h3, h4, rfl⟩ := hs.elim
  show (ParserM.bind Parser.back f' _).1 = (ParserM.bind Parser.back f s).1 ∧ Resumed es l l' k k' Q (ParserM.bind Parser.back f s).2 (ParserM.bind Parser.back f' _).2
  simp only [ParserM.bind, Parser.back, h2]
  exact h n _ _ hs

theorem resumes_modifyBack (f : PNode → PNode) : Resumes es l l' k k' True True (modifyBack f) (modifyBack f) := by
  intro s t hs
  obtain ⟨n, ns, q, q', ups, ups', L, j, h1, h2, h3, h4, rfl⟩ := hs.elim
  simp only [modifyBack, h2]
  exact ⟨trivial, Resumed.intro h1.replace rfl h3 h4 rfl⟩

theorem resumes_applyOps (vid : Nat) (ops : List BuilderOp) (b : Bool) : Resumes es l l' k k' True True (applyOps vid ops b) (applyOps vid ops b) := by
  induction ops generalizing b with
  | nil => exact Resumes.pure b
  | cons op ops ih =>
    intro s t hs
    obtain ⟨n, ns, q, q', ups, ups', L, j, h1, h2, h3, h4, rfl⟩ := hs.elim
    simp only [applyOps, h2]
    cases op.apply n with
    | ok p => exact ih _ _ _ (Resumed.intro h1.replace rfl h3 h4 rfl)
    | _ => exact ⟨rfl, hs⟩

theorem resumes_builderError (msg : Str) : Resumes es l l' k k' True True (builderError msg) (builderError msg) := by
  refine Resumes.back fun n => (resumes_emit _).seq fun _ => Resumes.get fun s t hs => ?_
  rw [hs.fields.1]
  exact Resumes.ite (fun _ => Resumes.lift _) fun _ => Resumes.lift _

theorem resumes_mode (m : Mode) : Resumes es l l' k k' True True (ParserM.modify fun s => { s with mode := m }) (ParserM.modify fun s => { s with mode := m }) :=
  Resumes.modify fun s t hs => by
    obtain ⟨n, ns, q, q', ups, ups', L, j, h1, h2, h3, h4, rfl⟩ := hs.elim
    exact Resumed.intro h1 h2 h3 h4 rfl

theorem resumes_counter (ct : Counter) : Resumes es l l' k k' True True (ParserM.modify fun s => { s with counter := ct }) (ParserM.modify fun s => { s with counter := ct }) :=
  Resumes.modify fun s t hs => by
    obtain ⟨n, ns, q, q', ups, ups', L, j, h1, h2, h3, h4, rfl⟩ := hs.elim
    exact Resumed.intro h1 h2 h3 h4 rfl

theorem resumes_applyOperation (o : OptData) (flag : Str) : Resumes es l l' k k' True True (applyOperation o flag) (applyOperation o flag) := by
  simp only [applyOperation]
  cases o.operation with
  | none => exact Resumes.pure _
  | clear => exact (resumes_modifyBack _).seq fun _ => Resumes.pure _
  | assign =>
    refine Resumes.ite (fun _ => ?_) fun _ => ?_
    · exact (resumes_modifyBack _).seq fun _ => Resumes.pure _
    · refine resumes_iterNextValue.seq fun v => ?_
      cases v with
      | none => exact (resumes_error _).seq fun _ => Resumes.pure _
      | some v => exact (resumes_modifyBack _).seq fun _ => Resumes.pure _
  | append =>
    refine Resumes.ite (fun _ => ?_) fun _ => ?_
    · exact (resumes_modifyBack _).seq fun _ => Resumes.pure _
    · refine resumes_iterNextValue.seq fun v => ?_
      cases v with
      | none => exact (resumes_error _).seq fun _ => Resumes.pure _
      | some v => exact (resumes_modifyBack _).seq fun _ => Resumes.pure _

theorem resumes_applyType (o : OptData) : Resumes es l l' k k' True True (applyType o) (applyType o) := by
  simp only [applyType]
  cases o.type with
  | normal => exact Resumes.pure _
  | help =>
    refine Resumes.get fun s t hs => ?_
    rw [hs.fields.2.1]
    exact (resumes_emit _).seq fun _ => (resumes_mode _).seq fun _ => (resumes_modifyBack _).seq fun _ => Resumes.pure _
  | exit => exact (resumes_mode _).seq fun _ => (resumes_modifyBack _).seq fun _ => Resumes.pure _
  | stop => exact (resumes_mode _).seq fun _ => (resumes_modifyBack _).seq fun _ => Resumes.pure _
  | lastArgument => exact (resumes_mode _).seq fun _ => Resumes.pure _
  | lastOption => exact (resumes_mode _).seq fun _ => Resumes.pure _

theorem resumes_reactivate (size : Nat) : Resumes es l l' k k' P False (reactivate size) (reactivate size) := by
  intro s t hs
  have hlen : t.stack.length = s.stack.length := by
    have := congrArg List.length hs.fields.2.2.2.2.2
    simpa using this
  obtain ⟨inner, q, q', ups, ups', L, j, h1, h2, h3, h4, h5, h6, rfl⟩ := hs
  obtain ⟨inner1, q1, q1', ups1, ups1', f1, f2, f3⟩ := h1.close (s.stack.length - size)
  simp only at hlen
  rw [← h4] at f2
  simp only [reactivate, hlen, f2, f3]
  obtain ⟨es1, es2, g1, g2, g3⟩ := f1.node
  cases inner1 with
  | nil => exact ⟨rfl, [], q1, q1', ups1, ups1', L, j, f1, False.elim, fun _ => ⟨by simp, rfl⟩, rfl, h5, h6, by simp only [List.nil_append, g1.command]⟩
  | cons n ns => exact ⟨rfl, n :: ns, q1, q1', ups1, ups1', L, j, f1, False.elim, by simp, rfl, h5, h6, rfl⟩

/-! ## What depends on the commands of the stack only -/

theorem findMultiParent_commands {xs ys : List PNode} (h : ys.map (·.command) = xs.map (·.command)) :
    (findMultiParent ys).map (fun st => st.map (·.command)) = (findMultiParent xs).map fun st => st.map (·.command) := by
  have go : ∀ xs ys : List PNode, ys.map (·.command) = xs.map (·.command) →
      (findMultiParent.go ys).map (fun st => st.map (·.command)) = (findMultiParent.go xs).map fun st => st.map (·.command) := by
    intro xs
    induction xs with
    | nil =>
      intro ys h
      cases ys with
      | nil => rfl
      | cons _ _ => simp at h
    | cons x xs ih =>
      intro ys h
      cases ys with
      | nil => simp at h
      | cons y ys =>
        have h' := h
        simp only [List.map_cons, List.cons.injEq] at h
        simp only [findMultiParent.go, h.1]
        split
        · exact congrArg some h'
        · exact ih ys h.2
  cases xs with
  | nil =>
    cases ys with
    | nil => rfl
    | cons _ _ => simp at h
  | cons x xs =>
    cases ys with
    | nil => simp at h
    | cons y ys => exact go xs ys (by simpa using (List.cons.inj h).2)

/-- The same settings, the same commands, and in both or in none of them all mandatory arguments. -/
structure SamePlace (s t : PState) : Prop where
  settings : t.settings = s.settings
  command : t.command = s.command
  stack : t.stack.map (·.command) = s.stack.map (·.command)
  complete : t.counter.isComplete = s.counter.isComplete

theorem Resumed.place {s t : PState} (h : Resumed es l l' k k' P s t) : SamePlace s t := by
  obtain ⟨h1, h2, h3, h4, h5, h6⟩ := h.fields
  exact ⟨h1, h2, h6, by rw [h5]⟩

theorem SamePlace.sibling {s t : PState} (h : SamePlace s t) (name : Str) : findSibling t name = findSibling s name := by
  have := findMultiParent_commands h.stack
  unfold findSibling
  rw [h.settings, h.complete]
  split
  · rfl
  · revert this
    cases findMultiParent s.stack with
    | none =>
      cases findMultiParent t.stack with
      | none => intro _; rfl
      | some _ => intro h; simp at h
    | some st =>
      cases findMultiParent t.stack with
      | none => intro h; simp at h
      | some st' =>
        intro h
        simp only [Option.map_some, Option.some.injEq] at h
        cases st with
        | nil =>
          cases st' with
          | nil => rfl
          | cons _ _ => simp at h
        | cons p ps =>
          cases st' with
          | nil => simp at h
          | cons p' ps' =>
            simp only [List.map_cons, List.cons.injEq] at h
            have hl := congrArg List.length h.2
            simp only [List.length_map] at hl
            simp only [h.1, hl]

theorem SamePlace.stops {s t : PState} (h : SamePlace s t) (m r : Nat) (arg : Str) : countStops t m r arg = countStops s m r arg := by
  unfold countStops
  rw [h.sibling, h.settings, h.command]

theorem SamePlace.argsOnly {s t : PState} (h : SamePlace s t) (m fuel : Nat) (it : Iter) (r : Nat) : countArgsOnly t m fuel it r = countArgsOnly s m fuel it r := by
  induction fuel generalizing it r with
  | zero => rfl
  | succ fuel ih => simp only [countArgsOnly, h.stops, ih]

theorem SamePlace.loop {s t : PState} (h : SamePlace s t) (m fuel : Nat) (it : Iter) (r : Nat) : countLoop t m fuel it r = countLoop s m fuel it r := by
  induction fuel generalizing it r with
  | zero => rfl
  | succ fuel ih => simp only [countLoop, h.stops, h.argsOnly, ih, h.settings, h.command]

theorem SamePlace.count {s t : PState} (h : SamePlace s t) (hi : t.iter = s.iter) : countArguments t = countArguments s := by
  simp only [countArguments, h.loop, h.command, hi]

theorem resumes_initCounter : Resumes es l l' k k' True True initCounter initCounter := by
  intro s t hs
  have e := hs.place.count hs.fields.2.2.1
  obtain ⟨n, ns, q, q', ups, ups', L, j, h1, h2, h3, h4, rfl⟩ := hs.elim
  simp only [initCounter]
  split
  · exact ⟨rfl, Resumed.intro h1 h2 h3 h4 rfl⟩
  · rw [e]
    cases countArguments s with
    | ok n => exact ⟨rfl, Resumed.intro h1 h2 h3 h4 rfl⟩
    | _ => exact ⟨rfl, hs⟩

theorem resumes_updateArguments (args : List Str) : Resumes es l l' k k' True True (updateArguments args) (updateArguments args) := by
  refine Resumes.ite (fun _ => Resumes.pure ()) fun _ => (resumes_iterInsert args).seq fun _ => Resumes.get fun s t hs => ?_
  rw [hs.fields.2.1, hs.fields.2.2.2.2.1, hs.place.count hs.fields.2.2.1]
  refine Resumes.ite (fun _ => Resumes.pure ()) fun _ => Resumes.seq (Resumes.lift _) fun more => Resumes.modify fun s t hs => ?_
  obtain ⟨n, ns, q, q', ups, ups', L, j, h1, h2, h3, h4, rfl⟩ := hs.elim
  exact Resumed.intro h1 h2 h3 h4 rfl

section
variable {env env' : Env} (henv : ∀ cb j, env'.callback cb (j + k') = env.callback cb (j + k))
include henv

theorem resumes_runCallback (cb : Nat) (view : ViewRef) (vid : Nat) (stored : Bool) (value : Option Str) :
    Resumes es l l' k k' True True (runCallback env cb view vid stored value) (runCallback env' cb view vid stored value) := by
  refine Resumes.back fun n => Resumes.get fun s t hs => ?_
  have e : env'.callback cb t.calls view value n = env.callback cb s.calls view value n := by
    obtain ⟨n, ns, q, q', ups, ups', L, j, h1, h2, h3, h4, rfl⟩ := hs.elim
    simp only [h4, henv]
  rw [e]
  refine Resumes.seq (Resumes.modify fun s t hs => ?_) fun _ => (resumes_applyOps _ _ _).seq fun touched => ?_
  · obtain ⟨n, ns, q, q', ups, ups', L, j, h1, h2, h3, h4, rfl⟩ := hs.elim
    refine Resumed.intro (L := L ++ [_]) (j := j + 1) h1 h2 (by rw [← List.append_assoc, ← h3]) (by show s.calls + 1 = _; omega) ?_
    simp only [List.append_assoc]
    congr 1
    omega
  · cases (env.callback cb s.calls view value n).fin with
    | returns => exact (resumes_updateArguments _).seq fun _ => Resumes.pure _
    | throws m => exact Resumes.lift _
    | error m => exact (resumes_builderError m).seq fun _ => Resumes.pure _

theorem resumes_runCallbackOpt (cb : Option Nat) (view : ViewRef) (vid : Nat) (stored : Bool) (value : Option Str) :
    Resumes es l l' k k' True True (runCallbackOpt env cb view vid stored value) (runCallbackOpt env' cb view vid stored value) := by
  cases cb with
  | none => exact Resumes.pure value
  | some cb => exact resumes_runCallback henv cb view vid stored value

theorem resumes_processOptionData (o : OptData) (flag : Str) : Resumes es l l' k k' True True (processOptionData env o flag) (processOptionData env' o flag) := by
  refine (resumes_applyOperation o flag).seq fun r => ?_
  cases r with
  | none => exact Resumes.pure _
  | some p =>
    obtain ⟨value, stored⟩ := p
    refine (resumes_runCallbackOpt henv o.callback (.opt o) o.valueId stored (some value)).seq fun v => Resumes.get fun s t hs => ?_
    rw [hs.fields.1]
    exact (resumes_runCallbackOpt henv s.settings.optionCallback (.opt o) o.valueId stored v).seq fun v => (resumes_applyType o).seq fun r => Resumes.pure _

theorem resumes_processOption (flag : Str) : Resumes es l l' k k' True False (processOption env flag) (processOption env' flag) := by
  refine Resumes.get fun s t hs => ?_
  rw [hs.fields.1, hs.fields.2.1]
  cases findOption s.command.optionIndex flag s.settings.allowAbbreviatedOptions s.settings.caseInsensitive with
  | some o =>
    refine (resumes_processOptionData henv o flag).bind (fun p => ?_) fun _ _ h => h.weak
    obtain ⟨res, v⟩ := p
    have hc : Resumes es l l' k k' True False (copyRemaining >>= fun _ => pure (IterResult.option o v)) (copyRemaining >>= fun _ => pure (.option o v)) :=
      (resumes_copyRemaining.seq fun _ => Resumes.pure _).weaken
    cases res with
    | normal => exact (Resumes.pure _).weaken
    | error => exact (Resumes.pure _).weaken
    | stop => exact hc
    | exit => exact Resumes.ite (fun _ => (Resumes.lift _).weaken) fun _ => hc
    | lastArgument =>
      refine resumes_checkCounts.bind (fun ok => Resumes.ite (fun _ => (Resumes.pure _).weaken) fun _ => Resumes.get fun s t hs => ?_) fun _ _ h => h.weak
      have hf := findMultiParent_commands hs.fields.2.2.2.2.2
      revert hf
      cases findMultiParent s.stack with
      | none =>
        cases findMultiParent t.stack with
        | none => intro _; exact hc
        | some _ => intro h; simp at h
      | some st =>
        cases findMultiParent t.stack with
        | none => intro h; simp at h
        | some st' =>
          intro h
          simp only [Option.map_some, Option.some.injEq] at h
          have hl := congrArg List.length h
          simp only [List.length_map] at hl
          simp only [hl]
          exact (resumes_reactivate _).bind (fun _ => Resumes.pure _) fun _ _ h => h
  | none =>
    refine resumes_iterCurrent.bind (fun cur => Resumes.ite (fun _ => ((resumes_error _).seq fun _ => Resumes.pure _).weaken) fun _ => ?_) fun _ _ h => h.weak
    exact ((resumes_modifyBack _).seq fun _ => Resumes.pure _).weaken

omit henv in
theorem resumes_processCommand (sub : Command) : Resumes es l l' k k' P False (processCommand sub) (processCommand sub) := by
  refine Resumes.bind (Q := True) (Resumes.modify fun s t hs => ?_) (fun _ => ?_) fun _ _ h => h.weak
  · obtain ⟨inner, q, q', ups, ups', L, j, h1, h2, h3, h4, h5, h6, rfl⟩ := hs
    exact Resumed.intro (n := PNode.make sub) (ns := inner) (h1.inner (by simp)) (by simp only [h4]) h5 h6 rfl
  · exact (resumes_initCounter.seq fun _ => (resumes_mode _).seq fun _ => resumes_iterCurrent.seq fun cur => Resumes.pure _).weaken

theorem resumes_processArgument (value : Str) : Resumes es l l' k k' True False (processArgument env value) (processArgument env' value) := by
  refine Resumes.get fun s t hs => ?_
  rw [hs.place.sibling, hs.fields.1, hs.fields.2.2.2.2.1]
  cases hf : findSibling s value with
  | some p =>
    obtain ⟨sub, size⟩ := p
    exact (resumes_reactivate _).bind (fun _ => resumes_processCommand sub) fun _ _ h => h
  | none =>
    rcases s.counter.nextArgument with ⟨_ | arg, ct⟩
    · refine Resumes.weaken (Q := True) ?_
      refine (resumes_counter ct).seq fun _ => Resumes.ite (fun _ => ?_) fun _ => (resumes_error _).seq fun _ => Resumes.pure _
      exact (resumes_modifyBack _).seq fun _ => resumes_iterCurrent.seq fun cur => Resumes.pure _
    · refine Resumes.weaken (Q := True) ?_
      refine (resumes_counter ct).seq fun _ => Resumes.seq (resumes_modifyBack _) fun _ => ?_
      refine (resumes_runCallbackOpt henv arg.callback (.arg arg) arg.valueId true (some value)).seq fun v => Resumes.get fun s t hs => ?_
      rw [hs.fields.1]
      exact (resumes_runCallbackOpt henv s.settings.argumentCallback (.arg arg) arg.valueId true v).seq fun v => Resumes.pure _

theorem resumes_next : Resumes es l l' k k' False False (next env) (next env') := by
  intro s t hs
  by_cases hin : Resumed es l l' k k' True s t
  · have : Resumes es l l' k k' True False (next env) (next env') := by
      refine Resumes.get fun s t hs => ?_
      rw [hs.fields.1, hs.fields.2.1, hs.fields.2.2.2.1]
      have key : ∀ (read : ParserM (Option Str)) (mo : Mode), Resumes es l l' k k' True True read read →
          Resumes es l l' k k' True False (read >>= nextTail env mo s) (read >>= nextTail env' mo s) := by
        intro read mo hr
        refine hr.bind (fun arg => ?_) fun _ _ h => h.weak
        cases arg with
        | none => exact (resumes_checkCounts.seq fun ok => Resumes.ite (fun _ => Resumes.pure _) fun _ => Resumes.pure _).weaken
        | some arg =>
          refine Resumes.ite (fun _ => resumes_processOption henv arg) fun _ => Resumes.ite (fun _ => resumes_processArgument henv arg) fun _ => ?_
          cases findCommand s.command.commands arg s.settings.caseInsensitive with
          | none => exact ((resumes_error _).seq fun _ => Resumes.pure _).weaken
          | some c => exact resumes_processCommand c
      cases s.mode with
      | error => exact (Resumes.lift _).weaken
      | done => exact (Resumes.pure _).weaken
      | argumentsAndOptions => exact key iterNext _ resumes_iterNext
      | argumentsOnly => exact key iterNextValue _ resumes_iterNextValue
    exact this s t hin
  · -- One of the outer commands has become active again.
    have hout : s.mode ≠ .argumentsAndOptions ∧ s.command.commands ≠ [] := by
      obtain ⟨inner, q, q', ups, ups', L, j, h1, h2, h3, h4⟩ := hs
      cases inner with
      | nil => exact ⟨(h3 rfl).1, by rw [(h3 rfl).2]; exact h1.some q (by simp)⟩
      | cons n ns => exact absurd ⟨n :: ns, q, q', ups, ups', L, j, h1, by simp, h3, h4⟩ hin
    have key : Resumes es l l' k k' False False (fun u => match s.mode with
        | .error => (lift (.throw b!"next() called after error.") : ParserM IterResult) u
        | .done => (pure .done : ParserM IterResult) u
        | mode => (iterNextValue >>= nextTail env mode s) u) (fun u => match s.mode with
        | .error => (lift (.throw b!"next() called after error.") : ParserM IterResult) u
        | .done => (pure .done : ParserM IterResult) u
        | mode => (iterNextValue >>= nextTail env' mode s) u) := by
      have : s.mode = .error ∨ s.mode = .done ∨ s.mode = .argumentsOnly := by
        have := hout.1
        revert this
        cases s.mode <;> simp
      rcases this with hm | hm | hm <;> rw [hm]
      · exact Resumes.lift _
      · exact Resumes.pure _
      · refine resumes_iterNextValue.seq fun arg => ?_
        cases arg with
        | none => exact resumes_checkCounts.seq fun ok => Resumes.ite (fun _ => Resumes.pure _) fun _ => Resumes.pure _
        | some arg =>
          have e1 : ¬ (Mode.argumentsOnly = .argumentsAndOptions ∧ isOption arg s.settings.optionStyle = true) := by simp
          have e2 : ¬ s.command.commands.isEmpty = true := by simpa using hout.2
          simp only [nextTail, if_neg e1, if_neg e2]
          cases findCommand s.command.commands arg s.settings.caseInsensitive with
          | none => exact (resumes_error _).seq fun _ => Resumes.pure _
          | some c => exact resumes_processCommand c
    have e1 : ∀ (e : Env) (u : PState), u.settings = s.settings → u.command = s.command → u.mode = s.mode → next e u = match s.mode with
        | .error => (lift (.throw b!"next() called after error.") : ParserM IterResult) u
        | .done => (pure .done : ParserM IterResult) u
        | mode => (iterNextValue >>= nextTail e mode s) u := by
      intro e u h1 h2 h3
      unfold next
      rw [get_bind, h1, h2, h3]
      have := hout.1
      revert this
      cases s.mode with
      | argumentsAndOptions => intro h; exact absurd rfl h
      | _ => intro _; rfl
    have := key s t hs
    rw [e1 env s rfl rfl rfl, e1 env' t hs.fields.1 hs.fields.2.1 hs.fields.2.2.2.1]
    exact this

theorem resumes_run (fuel : Nat) : Resumes es l l' k k' False False (run env fuel) (run env' fuel) := by
  induction fuel with
  | zero => exact Resumes.lift _
  | succ fuel ih =>
    refine (resumes_next henv).seq fun r => ?_
    cases r <;> first | exact ih | exact Resumes.pure ()

end

/-! ## Commands without arguments have got all their arguments -/

/-- A command without arguments is not waiting for any. -/
def Unhindered (s : PState) : Prop := s.command.arguments = [] → s.counter.firstOptional = 0

theorem forCount_nil (n : Nat) : (Counter.forCount [] n).firstOptional = 0 := rfl

theorem enterState_unhindered (c : Command) (s : PState) : Unhindered (enterState c s) := by
  intro h
  have h : c.arguments = [] := h
  show (Counter.forCount c.arguments _).firstOptional = 0
  rw [h]
  rfl

theorem CallFrame.unhindered {s t : PState} (h : CallFrame s t) (hs : Unhindered s) : Unhindered t := by
  intro ha
  rw [h.command] at ha
  rcases h.counter with e | ⟨hr, _⟩
  · rw [e]; exact hs ha
  · rw [ha] at hr
    simp [Counter.requiresArgumentCount, Counter.requiresArgumentCountLoop] at hr

theorem option_unhindered {env : Env} {d : ParserData} {s s2 s3 : PState} (hg : Good d s) {o : OptData} {flag : Str} {it : Iter} {v : Str}
    {st : Bool} {w : Option Str} (ht : Taken s (some flag) it) (h1 : OpRun o flag { s with iter := it } (.ok (some (v, st))) s2)
    (h2 : calls env o.callback ParserSettings.optionCallback (.opt o) o.valueId st (some v) s2 = (.ok w, s3)) (hs : Unhindered s) : Unhindered s3 := by
  have hg' := (hg.taken ht).2.2
  have hg2 := hg'.opRun h1
  obtain ⟨_, _, _, _, e1, _, _, e2, _⟩ := h1.ok_facts hg'.ne hg'.iterOk
  have hcr := (calls_run env o.callback ParserSettings.optionCallback (.opt o) o.valueId st (some v) s2 hg2.ne hg2.iterOk).1
  rw [h2] at hcr
  cases hcr with
  | ok hf =>
    refine hf.unhindered fun ha => ?_
    rw [e2]
    rw [e1] at ha
    exact hs ha

theorem nextArgument_fo (c : Counter) : c.nextArgument.2.firstOptional = c.firstOptional := by
  simp only [Counter.nextArgument]
  split <;> rfl

theorem Step.unhindered {env : Env} {d : ParserData} {s s' : PState} (hg : Good d s) {r : IterResult} (h : Step env s (.ok r) s') (hr : ¬ r.IsLast)
    (hs : Unhindered s) : Unhindered s' := by
  have herr : ∀ {msg t}, ErrorRun msg t IterResult.error (.ok r) s' → False := by
    intro msg t he
    cases he with
    | error _ _ => exact hr trivial
  cases h with
  | afterDone _ => exact absurd trivial hr
  | finished _ _ => exact absurd trivial hr
  | unfinished _ _ he => exact (herr he).elim
  | unknownOption _ _ _ _ _ he => exact (herr he).elim
  | ignoredOption ht _ _ _ _ _ => exact hs
  | option ht _ _ hrun =>
    cases hrun with
    | noValue _ _ he => exact (herr he).elim
    | normal h1 h2 hty => exact option_unhindered hg ht h1 h2 hs
    | lastOption h1 h2 hty =>
      have := option_unhindered hg ht h1 h2 hs
      exact this
    | stopped h1 h2 ho _ hre =>
      have := option_unhindered hg ht h1 h2 hs
      exact this
    | lastFails _ _ _ _ he => exact (herr he).elim
    | lastDone h1 h2 hty hok hnm hre =>
      have := option_unhindered hg ht h1 h2 hs
      exact this
    | lastMulti h1 h2 hty hok hfm => exact fun _ => rfl
  | command ht hno hcc hf hcur => exact enterState_unhindered _ _
  | unknownCommand _ _ _ _ he => exact (herr he).elim
  | argument ht hno hce hrun =>
    cases hrun with
    | sibling hf hcur => exact enterState_unhindered _ _
    | argument _ hn hcl =>
      have hg' := (hg.taken ht).2.2
      rename_i arg a ct w _
      have hg2 := hg'.arg (v := arg) hn
      have hcr := (calls_run env a.callback ParserSettings.argumentCallback (.arg a) a.valueId true (some arg) _ hg2.ne hg2.iterOk).1
      rw [hcl] at hcr
      cases hcr with
      | ok hf =>
        refine hf.unhindered fun ha => ?_
        have := nextArgument_fo s.counter
        rw [show s.counter.nextArgument = _ from hn] at this
        exact this.trans (hs ha)
    | ignored _ hn _ _ =>
      intro ha
      have := nextArgument_fo s.counter
      rw [show s.counter.nextArgument = _ from hn] at this
      exact this.trans (hs ha)
    | tooMany _ _ _ he => exact (herr he).elim

theorem start_unhindered (d : ParserData) (args : List Str) : Unhindered (start d args).2 := by
  rw [(start_good d args).1]
  intro h
  have h : d.command.arguments = [] := h
  show (Counter.forCount d.command.arguments _).firstOptional = 0
  rw [h]
  rfl

theorem trace_unhindered {env : Env} {d : ParserData} (hr : Ready d) {s s' : PState} {rs : List IterResult} (h : Trace env s rs s') (hg : Good d s)
    (hl : ∀ r ∈ rs, ¬ r.IsLast) (hs : Unhindered s) : Unhindered s' := by
  induction h with
  | nil => exact hs
  | cons hn _ ih =>
    obtain ⟨hst, hg1⟩ := next_good hr hg hn
    exact ih hg1 (fun r hr => hl r (by simp [hr])) (hst.unhindered hg (hl _ (by simp)) hs)

/-- When a command is entered, the one around it is not waiting for arguments. -/
theorem entered_complete {env : Env} {d : ParserData} (hr : Ready d) (hx : Exclusive d.command) {s t : PState} {c : Command} {v : Str} (hg : Good d s) (hs : Unhindered s)
    (h : next env s = (.ok (.command c v), t)) :
    ∃ s1, t = enterState c s1 ∧ s1.iter.Ok ∧ s1.iter.reader.pending = [] ∧ s1.iter.pfx = stylePrefix d.settings.optionStyle ∧ s1.counter.isComplete = true ∧
      s1.stack ≠ [] := by
  obtain ⟨hst, _⟩ := next_good hr hg h
  generalize hq : Outcome.ok (IterResult.command c v) = q at hst
  cases hst with
  | afterError => simp at hq
  | afterDone => simp at hq
  | finished => simp at hq
  | unfinished _ _ he => subst hq; cases he
  | unknownOption _ _ _ _ _ he => subst hq; cases he
  | ignoredOption => simp at hq
  | option _ _ _ ho =>
    subst hq
    cases ho with
    | noValue _ _ he => cases he
    | lastFails _ _ _ _ he => cases he
  | command ht hno hcc _ _ =>
    simp only [Outcome.ok.injEq, IterResult.command.injEq] at hq
    obtain ⟨rfl, _⟩ := hq
    obtain ⟨a, b, e⟩ := taken_pending hg ht hno
    refine ⟨_, rfl, a, b, e, ?_, hg.ne⟩
    have := hs (hx _ hg.within hcc)
    simp [Counter.isComplete, this]
  | unknownCommand _ _ _ _ he => subst hq; cases he
  | argument ht hno _ ha =>
    subst hq
    cases ha with
    | sibling _ _ =>
      obtain ⟨a, b, e⟩ := taken_pending hg ht hno
      exact ⟨_, rfl, a, b, e, rfl, closeFrames_ne _ _ hg.ne⟩
    | tooMany _ _ _ he => cases he

/-! ## From the command on -/

/-- The state when the command is entered, with a new iterator for the words left. -/
theorem entered_place {env : Env} {d : ParserData} (hr : Ready d) (hx : Exclusive d.command) {line post : List Str} {rs : List IterResult} {c : Command} {v : Str} {t : PState}
    (ht : Trace env (start d line).2 (rs ++ [.command c v]) t) (hl : ∀ r ∈ rs, ¬ r.IsLast) {it : Iter} (hrest : t.iter.remainingArguments = .ok (post, it)) :
    ∃ u : PState, u.settings = d.settings ∧ u.command = c ∧ u.iter = Iter.make d.settings.optionStyle post ∧ u.stack = PNode.make c :: t.stack.tail ∧
      u.counter.isComplete = true ∧ t = { t with
        settings := d.settings
        command := c
        stack := PNode.make c :: t.stack.tail
        counter := Counter.forCount c.arguments (ahead u)
        mode := .argumentsAndOptions } ∧ t.stack.tail ≠ [] ∧ (∀ n ∈ t.stack.tail, n.command.commands ≠ []) ∧
      ∀ fuel, (run env (rs.length + 1 + fuel) (start d line).2).1 = (run env fuel { t with iter := Iter.make d.settings.optionStyle post }).1 ∧
        (run env (rs.length + 1 + fuel) (start d line).2).2.log = (run env fuel { t with iter := Iter.make d.settings.optionStyle post }).2.log ∧
        (run env (rs.length + 1 + fuel) (start d line).2).2.stack = (run env fuel { t with iter := Iter.make d.settings.optionStyle post }).2.stack := by
  obtain ⟨s, hts, hn⟩ : ∃ s, Trace env (start d line).2 rs s ∧ next env s = (.ok (.command c v), t) := by
    obtain ⟨s, h1, h2⟩ := ht.split
    cases h2 with
    | cons hn h2 => cases h2; exact ⟨s, h1, hn⟩
  have hg := hts.good hr (start_good d line).2
  obtain ⟨hst, hgt⟩ := next_good hr hg hn
  obtain ⟨s1, he, k1, k2, k3, k4, k5⟩ := entered_complete hr hx hg (trace_unhindered hr hts (start_good d line).2 hl (start_unhindered d line)) hn
  have hset : s1.settings = d.settings := by rw [← hgt.settings, he]; rfl
  have hiter : t.iter = s1.iter := by rw [he]; rfl
  obtain ⟨it2, j1, j2, j3, j4⟩ := s1.iter.remaining_spec k1
  have hpost : s1.iter.reader = ⟨[], post⟩ := by
    rw [hiter, j1] at hrest
    simp only [Outcome.ok.injEq, Prod.mk.injEq, Reader.unread, k2, if_true] at hrest
    rw [← hrest.1, ← k2]
  obtain ⟨m1, m2, m3⟩ := make_iter d.settings.optionStyle post
  have hnext : (Iter.make d.settings.optionStyle post).next = s1.iter.next := next_of_reader m1 k1 (m3.trans k3.symm) m2 hpost
  have hstack : t.stack = PNode.make c :: s1.stack := by rw [he]; rfl
  have hpath : Path d.command (PNode.make c :: s1.stack) := by rw [← hstack]; exact hgt.path
  have hrun : ∀ fuel, run env (rs.length + 1 + fuel) (start d line).2 = run env fuel t := by
    intro fuel
    have hl' : ∀ r ∈ rs ++ [.command c v], ¬ r.IsLast := by
      intro r hr
      rcases List.mem_append.mp hr with h | h
      · exact hl r h
      · simp only [List.mem_singleton] at h
        subst h
        exact id
    have := Trace.run ht hl' fuel
    rwa [List.length_append, List.length_singleton] at this
  refine ⟨{ s1 with
    stack := PNode.make c :: s1.stack
    command := c
    iter := Iter.make d.settings.optionStyle post }, hset, rfl, rfl, by rw [hstack]; rfl, k4, ?_, ?_, ?_, ?_⟩
  · have e := ahead_iter { s1 with stack := PNode.make c :: s1.stack, command := c } k1 m1 hnext
    simp only at e
    rw [e, he, ← hset]
    rfl
  · rw [hstack]
    exact k5
  · rw [hstack]
    intro n hn
    obtain ⟨pre, post, h⟩ := List.append_of_mem (show n ∈ s1.stack from hn)
    rw [h] at hpath
    exact Path.below_commands hpath
  · intro fuel
    rw [hrun]
    cases fuel with
    | zero => exact ⟨rfl, rfl, rfl⟩
    | succ fuel =>
      have hnx : next env { t with iter := Iter.make d.settings.optionStyle post } = next env t :=
        next_of_iter env (by rw [hiter]; exact k1) (by rw [he]; rfl) (hnext.trans (by rw [hiter]))
      have : run env (fuel + 1) { t with iter := Iter.make d.settings.optionStyle post } = run env (fuel + 1) t := by
        show ParserM.bind (next env) _ _ = ParserM.bind (next env) _ _
        simp only [ParserM.bind, hnx]
      rw [this]
      exact ⟨rfl, rfl, rfl⟩

/-- `parse` from the command on. -/
theorem parse_resumed {env env' : Env} {d : ParserData} (hr : Ready d) (hx : Exclusive d.command) {line line' post : List Str} {rs rs' : List IterResult} {c : Command}
    {v v' : Str} {t t' : PState} (ht : Trace env (start d line).2 (rs ++ [.command c v]) t) (hl : ∀ r ∈ rs, ¬ r.IsLast)
    (ht' : Trace env' (start d line').2 (rs' ++ [.command c v']) t') (hl' : ∀ r ∈ rs', ¬ r.IsLast) {it it' : Iter} (hrest : t.iter.remainingArguments = .ok (post, it))
    (hrest' : t'.iter.remainingArguments = .ok (post, it')) {earlier : List (List PNode)} (hup : Before earlier t.stack.tail t'.stack.tail)
    (henv : env'.later t'.calls = env.later t.calls) (fuel : Nat) :
    SameEnd (fun a b => ∃ n n', a = some n ∧ b = some n' ∧ Preceded earlier.reverse n n') (parse env d line (rs.length + 1 + fuel)).1
      (parse env' d line' (rs'.length + 1 + fuel)).1 ∧
    ∃ log, (parse env d line (rs.length + 1 + fuel)).2.log = t.log ++ log ∧ (parse env' d line' (rs'.length + 1 + fuel)).2.log = t'.log ++ log := by
  obtain ⟨u, a1, a2, a3, a4, a5, a6, a7, a8, a9⟩ := entered_place hr hx ht hl hrest
  obtain ⟨u', b1, b2, b3, b4, b5, b6, b7, b8, b9⟩ := entered_place hr hx ht' hl' hrest'
  have hcb : ∀ cb j, env'.callback cb (j + t'.calls) = env.callback cb (j + t.calls) := by
    intro cb j
    have := congrFun (congrFun (Env.mk.inj henv) cb) j
    exact this
  have hahead : ahead u' = ahead u := by
    have hp : SamePlace u u' := ⟨b1.trans a1.symm, b2.trans a2.symm, by rw [a4, b4, List.map_cons, List.map_cons, hup.commands], b5.trans a5.symm⟩
    simp only [ahead, hp.count (b3.trans a3.symm)]
  rw [hahead] at b6
  have hR : Resumed earlier t.log t'.log t.calls t'.calls False { t with iter := Iter.make d.settings.optionStyle post }
      { t' with iter := Iter.make d.settings.optionStyle post } := by
    generalize hst : t.stack.tail = st at hup a6 a7 a8
    generalize hst' : t'.stack.tail = st' at hup b6
    cases hup with
    | nil => exact absurd rfl a7
    | @cons n e es ns ns' code hc hup =>
      refine Resumed.weak (Resumed.intro (n := PNode.make c) (ns := []) (q := n) (ups := ns) (ups' := ns') (L := []) (j := 0)
        ⟨⟨[e], es, Preceded.last hc, hup, by simp⟩, a8, by simp⟩ ?_ (by simp) (by simp) ?_)
      · rw [a6]; rfl
      · rw [a6, b6]
        simp only [List.append_nil, Nat.zero_add, List.nil_append]
  obtain ⟨n1, inner, q, q', ups, ups', L, j, f1, f2, f3, f4, f5, f6, f7⟩ := resumes_run hcb fuel _ _ hR
  obtain ⟨g1, g2, g3⟩ := a9 fuel
  obtain ⟨k1, k2, k3⟩ := b9 fuel
  obtain ⟨S1, hS1⟩ : ∃ S, start d line = (.ok (), S) := ⟨_, (start_good d line).1⟩
  obtain ⟨S2, hS2⟩ : ∃ S, start d line' = (.ok (), S) := ⟨_, (start_good d line').1⟩
  rw [f5] at g2
  rw [f7] at k2 k3
  rw [n1, ← g1] at k1
  rw [f4] at g3
  simp only [parse, hS1, hS2]
  rw [hS1] at g2 g3 k1
  rw [hS2] at k1 k2 k3
  simp only at g2 g3 k1 k2 k3
  have htop : ∃ n n', topLevel (run env (rs.length + 1 + fuel) S1).2 = some n ∧ topLevel (run env' (rs'.length + 1 + fuel) S2).2 = some n' ∧ Preceded earlier.reverse n n' := by
    have hlen : (inner ++ q' :: ups').length = (inner ++ q :: ups).length := by
      have := congrArg List.length f1.commands
      simpa using this
    obtain ⟨inner1, q1, q1', ups1, ups1', e1, e2, e3⟩ := f1.close ((inner ++ q :: ups).length - 1)
    have single : ∀ st : List PNode, st ≠ [] → (closeFrames (st.length - 1) st).length = 1 := by
      intro st hst
      cases st with
      | nil => exact absurd rfl hst
      | cons a l => rw [show closeFrames ((a :: l).length - 1) (a :: l) = closeAll (a :: l) from rfl, closeAll_eq]; rfl
    have hone := single (inner ++ q :: ups) (by simp)
    rw [e2] at hone
    have hi : inner1 = [] := by
      cases inner1 with
      | nil => rfl
      | cons _ _ => simp only [List.length_append, List.length_cons] at hone; omega
    have hu : ups1 = [] := by
      cases ups1 with
      | nil => rfl
      | cons _ _ => simp only [List.length_append, List.length_cons] at hone; omega
    subst hi hu
    obtain ⟨es1, es2, h1, h2, h3⟩ := e1.node
    cases h2
    refine ⟨q1, q1', ?_, ?_, by rw [← h3]; exact h1⟩
    · simp only [topLevel, closeAll, g3, e2]
      rfl
    · simp only [topLevel, closeAll, k3, hlen, e3]
      rfl
  clear n1 f4 f5 f6 f7 g1 g3 k3 hS1 hS2
  revert htop g2 k1 k2
  generalize run env (rs.length + 1 + fuel) S1 = x
  generalize run env' (rs'.length + 1 + fuel) S2 = y
  obtain ⟨x, X⟩ := x
  obtain ⟨y, Y⟩ := y
  intro g2 k2 k1 htop
  simp only at htop g2 k1 k2
  subst k1
  cases y with
  | ok u => exact ⟨htop, L, g2, k2⟩
  | _ => first | exact ⟨rfl, L, g2, k2⟩ | exact ⟨trivial, L, g2, k2⟩

end Parser

end Argos
