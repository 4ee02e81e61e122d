import Verif.Spec.Ignored
import Verif.Proofs.Spelled

/-!
# Unprocessed arguments are never looked at: the parser on results that differ in one of them
-/

namespace Argos
open Spec

/-! ## Results -/

theorem PNode.forgetAllUnprocessed_eq (ns : List PNode) : PNode.forgetAllUnprocessed ns = ns.map PNode.forgetUnprocessed := by
  induction ns with
  | nil => rfl
  | cons n ns ih => simp only [PNode.forgetAllUnprocessed, ih, List.map_cons]

theorem PNode.forgetUnprocessed_eq (n : PNode) : n.forgetUnprocessed =
    { n with
      unprocessed := []
      subs := n.subs.map PNode.forgetUnprocessed } := by
  cases n
  simp only [PNode.forgetUnprocessed, PNode.forgetAllUnprocessed_eq]

section
variable {c : Command} {u : List Str} {a : Str}

theorem _root_.Argos.Spec.Added.forget {n n' : PNode} (h : Added c u a n n') : n'.forgetUnprocessed = n.forgetUnprocessed := by
  induction h with
  | here _ _ => simp only [PNode.forgetUnprocessed_eq]
  | @sub n m m' before after h1 _ ih =>
    rw [PNode.forgetUnprocessed_eq, PNode.forgetUnprocessed_eq n]
    simp only [h1, List.map_append, List.map_cons, ih]

theorem _root_.Argos.Spec.Added.fields {n n' : PNode} (h : Added c u a n n') : n'.command = n.command ∧ n'.ids = n.ids ∧ n'.values = n.values ∧
    n'.subs.isEmpty = n.subs.isEmpty := by
  cases h with
  | here _ _ => exact ⟨rfl, rfl, rfl, rfl⟩
  | sub h1 _ => exact ⟨rfl, rfl, rfl, by rw [h1]; rename_i before _ _; cases before <;> rfl⟩

theorem _root_.Argos.Spec.Added.update {n n' : PNode} (h : Added c u a n n') (vs : Values) (w : List Str) (code : ResultCode) (so : Option OptData) (ms : List PNode) :
    Added c u a
      { n with
        values := vs
        unprocessed := n.unprocessed ++ w
        code := code
        stopOption := so
        subs := n.subs ++ ms }
      { n' with
        values := vs
        unprocessed := n'.unprocessed ++ w
        code := code
        stopOption := so
        subs := n'.subs ++ ms } := by
  cases h with
  | @here _ v h1 h2 =>
    obtain ⟨command, ids, values, unprocessed, code', so', subs⟩ := n
    simp only at h1 h2
    subst h1 h2
    have := Added.here (c := command) (u := u) (a := a) (n := ⟨command, ids, vs, u ++ v ++ w, code, so, subs ++ ms⟩) (v := v ++ w) rfl (by simp)
    simpa using this
  | @sub _ m m' before after h1 h2 =>
    obtain ⟨command, ids, values, unprocessed, code', so', subs⟩ := n
    simp only at h1
    subst h1
    have := Added.sub (n := ⟨command, ids, vs, unprocessed ++ w, code, so, before ++ m :: after ++ ms⟩) (before := before) (after := after ++ ms) (by simp) h2
    simpa using this

/-- One element of the second list is related to the one in the same place of the first list, the others are the same. -/
inductive OneOf {α : Type} (R : α → α → Prop) : List α → List α → Prop
  | here {x y : α} {l : List α} : R x y → OneOf R (x :: l) (y :: l)
  | there {x : α} {l l' : List α} : OneOf R l l' → OneOf R (x :: l) (x :: l')

theorem OneOf.map {α : Type} {R : α → α → Prop} {f : α → α} (hf : ∀ x y, R x y → R (f x) (f y)) {l l' : List α} (h : OneOf R l l') :
    OneOf R (l.map f) (l'.map f) := by
  induction h with
  | here h => exact .here (hf _ _ h)
  | there _ ih => exact .there ih

theorem OneOf.length {α : Type} {R : α → α → Prop} {l l' : List α} (h : OneOf R l l') : l'.length = l.length := by
  induction h with
  | here h => rfl
  | there _ ih => simp [ih]

/-- The counters are the same, or both are exhausted. -/
def Spent (k k' : Counter) : Prop := k' = k ∨ (k.nextArgument = (none, k') ∧ k.isComplete = true ∧ k'.isComplete = true)

theorem Spent.complete {k k' : Counter} (h : Spent k k') : k'.isComplete = k.isComplete := by
  rcases h with rfl | ⟨_, h1, h2⟩
  · rfl
  · rw [h1, h2]

theorem Spent.counter {k k' : Counter} (h : Spent k k') : k'.counter = k.counter := by
  rcases h with rfl | ⟨h, _, _⟩
  · rfl
  · unfold Counter.nextArgument at h
    simp only at h
    split at h
    · simp only [Prod.mk.injEq, true_and] at h
      rw [← h]
    · simp at h

theorem Spent.next {k k' : Counter} (h : Spent k k') : k'.nextArgument.1 = k.nextArgument.1 ∧ Spent k.nextArgument.2 k'.nextArgument.2 := by
  rcases h with rfl | ⟨h, _, _⟩
  · exact ⟨rfl, Or.inl rfl⟩
  · have h2 := Counter.next_full (Counter.next_none_full h).1
    rw [h2, h]
    exact ⟨rfl, Or.inl rfl⟩

namespace Parser
open ParserM

variable (c u a) in
/-- The states are the same except for one unprocessed argument. -/
structure Marked (s t : PState) : Prop where
  stack : OneOf (Added c u a) s.stack t.stack
  counter : Spent s.counter t.counter
  same : t = { s with
    stack := t.stack
    counter := t.counter }

variable (c u a) in
/-- The methods do the same. -/
def Marks {α : Type} (m m' : ParserM α) : Prop := ∀ s t, Marked c u a s t → (m' t).1 = (m s).1 ∧ Marked c u a (m s).2 (m' t).2

namespace Marks

variable {α β : Type}

theorem bind {m m' : ParserM α} {f f' : α → ParserM β} (hm : Marks c u a m m') (hf : ∀ x, Marks c u a (f x) (f' x)) : Marks c u a (m >>= f) (m' >>= f') := by
  intro s t h
  show (ParserM.bind m' f' t).1 = (ParserM.bind m f s).1 ∧ Marked c u a (ParserM.bind m f s).2 (ParserM.bind m' f' t).2
  have h := hm s t h
  simp only [ParserM.bind]
  revert h
  generalize m s = r
  generalize m' t = r'
  obtain ⟨r, s1⟩ := r
  obtain ⟨r', t1⟩ := r'
  rintro ⟨h1, h2⟩
  simp only at h1
  subst h1
  cases r' with
  | ok x => exact hf x s1 t1 h2
  | _ => exact ⟨rfl, h2⟩

theorem pure (x : α) : Marks c u a (Pure.pure x) (Pure.pure x) := fun _ _ h => ⟨rfl, h⟩

theorem lift (x : Outcome α) : Marks c u a (ParserM.lift x) (ParserM.lift x) := fun _ _ h => ⟨rfl, h⟩

theorem get {f f' : PState → ParserM α} (h : ∀ s t, Marked c u a s t → Marks c u a (f s) (f' t)) : Marks c u a (ParserM.get >>= f) (ParserM.get >>= f') :=
  fun s t hs => h s t hs s t hs

theorem modify {f f' : PState → PState} (h : ∀ s t, Marked c u a s t → Marked c u a (f s) (f' t)) : Marks c u a (ParserM.modify f) (ParserM.modify f') :=
  fun s t hs => ⟨rfl, h s t hs⟩

theorem ite {p : Prop} [Decidable p] {m n m' n' : ParserM α} (hm : p → Marks c u a m m') (hn : ¬ p → Marks c u a n n') :
    Marks c u a (if p then m else n) (if p then m' else n') := by
  by_cases h : p
  · rw [if_pos h, if_pos h]; exact hm h
  · rw [if_neg h, if_neg h]; exact hn h

end Marks

theorem Marked.fields {s t : PState} (h : Marked c u a s t) : t.settings = s.settings ∧ t.command = s.command ∧ t.iter = s.iter ∧ t.mode = s.mode ∧ t.calls = s.calls ∧
    t.log = s.log := by
  have := h.same
  rw [this]
  exact ⟨rfl, rfl, rfl, rfl, rfl, rfl⟩

theorem Marked.elim {s t : PState} (h : Marked c u a s t) : ∃ st k, t = { s with
    stack := st
    counter := k } ∧ OneOf (Added c u a) s.stack st ∧ Spent s.counter k := ⟨t.stack, t.counter, h.same, h.stack, h.counter⟩

theorem Marked.intro {s : PState} {st : List PNode} {k : Counter} (h : OneOf (Added c u a) s.stack st) (hk : Spent s.counter k) : Marked c u a s { s with
    stack := st
    counter := k } := ⟨h, hk, rfl⟩

/-- Reading the innermost results. -/
theorem Marks.back {α : Type} {f f' : PNode → ParserM α} (h : ∀ n n', n' = n ∨ Added c u a n n' → Marks c u a (f n) (f' n')) :
    Marks c u a (Parser.back >>= f) (Parser.back >>= f') := by
  intro s t hs
  obtain ⟨st, k, rfl, h1, hk⟩ := hs.elim
  show (ParserM.bind Parser.back f' _).1 = (ParserM.bind Parser.back f s).1 ∧ Marked c u a (ParserM.bind Parser.back f s).2 (ParserM.bind Parser.back f' _).2
  simp only [ParserM.bind, Parser.back]
  obtain ⟨se, co, stack, it, ct, mo, ca, lo⟩ := s
  simp only at h1 hs ⊢
  cases h1 with
  | here h1 => exact h _ _ (Or.inr h1) _ _ hs
  | there h1 => exact h _ _ (Or.inl rfl) _ _ hs

theorem marks_modifyBack {f : PNode → PNode} (hf : ∀ n n', Added c u a n n' → Added c u a (f n) (f n')) : Marks c u a (modifyBack f) (modifyBack f) := by
  intro s t hs
  obtain ⟨st, k, rfl, h1, hk⟩ := hs.elim
  obtain ⟨se, co, stack, it, ct, mo, ca, lo⟩ := s
  simp only at h1 hk
  cases h1 with
  | here h1 => exact ⟨rfl, ⟨.here (hf _ _ h1), hk, rfl⟩⟩
  | there h1 => exact ⟨rfl, ⟨.there h1, hk, rfl⟩⟩

theorem added_values {n n' : PNode} (h : Added c u a n n') {g : Values → Values} : Added c u a { n with values := g n.values } { n' with values := g n'.values } := by
  have e := h.fields.2.2.1
  rw [e]
  have hc : n'.code = n.code ∧ n'.stopOption = n.stopOption := by cases h <;> exact ⟨rfl, rfl⟩
  have := h.update (g n.values) [] n.code n.stopOption []
  simp only [List.append_nil] at this
  obtain ⟨n1, n2, n3, n4, n5, n6, n7⟩ := n
  obtain ⟨m1, m2, m3, m4, m5, m6, m7⟩ := n'
  simp only at hc this ⊢
  rw [hc.1, hc.2]
  exact this

theorem added_unprocessed {n n' : PNode} (h : Added c u a n n') (w : List Str) :
    Added c u a { n with unprocessed := n.unprocessed ++ w } { n' with unprocessed := n'.unprocessed ++ w } := by
  have hc : n'.code = n.code ∧ n'.stopOption = n.stopOption := by cases h <;> exact ⟨rfl, rfl⟩
  have e := h.fields.2.2.1
  have := h.update n.values w n.code n.stopOption []
  simp only [List.append_nil] at this
  obtain ⟨n1, n2, n3, n4, n5, n6, n7⟩ := n
  obtain ⟨m1, m2, m3, m4, m5, m6, m7⟩ := n'
  simp only at hc e this ⊢
  rw [hc.1, hc.2, e]
  exact this

theorem added_code {n n' : PNode} (h : Added c u a n n') (code : ResultCode) : Added c u a { n with code := code } { n' with code := code } := by
  have hc : n'.code = n.code ∧ n'.stopOption = n.stopOption := by cases h <;> exact ⟨rfl, rfl⟩
  have e := h.fields.2.2.1
  have := h.update n.values [] code n.stopOption []
  simp only [List.append_nil] at this
  obtain ⟨n1, n2, n3, n4, n5, n6, n7⟩ := n
  obtain ⟨m1, m2, m3, m4, m5, m6, m7⟩ := n'
  simp only at hc e this ⊢
  rw [hc.2, e]
  exact this

theorem added_stop {n n' : PNode} (h : Added c u a n n') (code : ResultCode) (so : Option OptData) :
    Added c u a { n with
      code := code
      stopOption := so } { n' with
      code := code
      stopOption := so } := by
  have e := h.fields.2.2.1
  have := h.update n.values [] code so []
  simp only [List.append_nil] at this
  obtain ⟨n1, n2, n3, n4, n5, n6, n7⟩ := n
  obtain ⟨m1, m2, m3, m4, m5, m6, m7⟩ := n'
  simp only at e this ⊢
  rw [e]
  exact this

theorem added_subs {n n' : PNode} (h : Added c u a n n') (ms : List PNode) : Added c u a { n with subs := n.subs ++ ms } { n' with subs := n'.subs ++ ms } := by
  have hc : n'.code = n.code ∧ n'.stopOption = n.stopOption := by cases h <;> exact ⟨rfl, rfl⟩
  have e := h.fields.2.2.1
  have := h.update n.values [] n.code n.stopOption ms
  simp only [List.append_nil] at this
  obtain ⟨n1, n2, n3, n4, n5, n6, n7⟩ := n
  obtain ⟨m1, m2, m3, m4, m5, m6, m7⟩ := n'
  simp only at hc e this ⊢
  rw [hc.1, hc.2, e]
  exact this

/-- Methods that use the iterator only. -/
theorem marks_iter {α : Type} {g : Iter → Outcome (α × Iter)} {m : ParserM α} (hm : ∀ s, m s = match g s.iter with
      | .ok (x, it) => (.ok x, { s with iter := it })
      | .throw m => (.throw m, s)
      | .outOfRange => (.outOfRange, s)
      | .exit c => (.exit c, s)
      | .ub => (.ub, s)
      | .diverges => (.diverges, s)) : Marks c u a m m := by
  intro s t hs
  obtain ⟨st, k, rfl, h1, hk⟩ := hs.elim
  rw [hm, hm]
  simp only
  cases g s.iter with
  | ok p => exact ⟨rfl, ⟨h1, hk, rfl⟩⟩
  | _ => exact ⟨rfl, hs⟩

theorem marks_iterNext : Marks c u a iterNext iterNext := marks_iter (g := Iter.next) fun s => by
  unfold iterNext; cases s.iter.next <;> rfl

theorem marks_iterNextValue : Marks c u a iterNextValue iterNextValue := marks_iter (g := Iter.nextValue) fun s => by
  unfold iterNextValue; cases s.iter.nextValue <;> rfl

theorem marks_iterRemaining : Marks c u a iterRemaining iterRemaining := marks_iter (g := Iter.remainingArguments) fun s => by
  unfold iterRemaining; cases s.iter.remainingArguments <;> rfl

theorem marks_iterInsert (args : List Str) : Marks c u a (iterInsert args) (iterInsert args) :=
  marks_iter (g := fun it => (it.insert args).mapOk fun it => ((), it)) fun s => by
    unfold iterInsert; cases s.iter.insert args <;> rfl

theorem marks_iterCurrent : Marks c u a iterCurrent iterCurrent := by
  intro s t hs
  obtain ⟨st, k, rfl, h1, hk⟩ := hs.elim
  exact ⟨rfl, hs⟩

theorem marks_emit (e : Event) : Marks c u a (emit e) (emit e) := Marks.modify fun s t hs => by
  obtain ⟨st, k, rfl, h1, hk⟩ := hs.elim
  exact ⟨h1, hk, rfl⟩

/-- The rest of the list as well. -/
theorem oneOf_commands {s t : List PNode} (h : OneOf (Added c u a) s t) : t.map (·.command) = s.map (·.command) := by
  induction h with
  | here h => simp [h.fields.1]
  | there _ ih => simp [ih]

theorem findMultiParent_go_marks {s t : List PNode} (h : t.map (·.command) = s.map (·.command)) :
    (findMultiParent.go t).map (·.map (·.command)) = (findMultiParent.go s).map (·.map (·.command)) := by
  induction s generalizing t with
  | nil =>
    cases t with
    | nil => rfl
    | cons _ _ => simp at h
  | cons p ps ih =>
    cases t with
    | nil => simp at h
    | cons q qs =>
      simp only [List.map_cons, List.cons.injEq] at h
      simp only [findMultiParent.go, h.1]
      split
      · simp [h.1, h.2]
      · exact ih h.2

theorem findMultiParent_marks {s t : List PNode} (h : OneOf (Added c u a) s t) :
    (findMultiParent t).map (·.map (·.command)) = (findMultiParent s).map (·.map (·.command)) := by
  have h := oneOf_commands h
  cases s with
  | nil => cases t with
    | nil => rfl
    | cons _ _ => simp at h
  | cons p ps => cases t with
    | nil => simp at h
    | cons q qs =>
      simp only [List.map_cons, List.cons.injEq] at h
      exact findMultiParent_go_marks h.2

theorem findSibling_marks {s t : PState} (h : Marked c u a s t) (name : Str) : findSibling t name = findSibling s name := by
  obtain ⟨st, k, rfl, h1, hk⟩ := h.elim
  simp only [findSibling, hk.complete]
  split
  · rfl
  · have := findMultiParent_marks h1
    revert this
    generalize findMultiParent st = x
    generalize findMultiParent s.stack = y
    intro e
    cases x with
    | none => cases y with
      | none => rfl
      | some y => simp at e
    | some x => cases y with
      | none => simp at e
      | some y =>
        simp only [Option.map_some, Option.some.injEq] at e
        cases x with
        | nil => cases y with
          | nil => rfl
          | cons _ _ => simp at e
        | cons p ps => cases y with
          | nil => simp at e
          | cons q qs =>
            have hl := congrArg List.length e
            simp only [List.map_cons, List.cons.injEq, List.length_cons, List.length_map] at e hl
            simp only [e.1]
            rw [show ps.length = qs.length by omega]

theorem countStops_marks {s t : PState} (h : Marked c u a s t) (k r : Nat) (arg : Str) : countStops t k r arg = countStops s k r arg := by
  unfold countStops
  rw [findSibling_marks h, h.fields.1, h.fields.2.1]

theorem countArgsOnly_marks {s t : PState} (h : Marked c u a s t) (k fuel : Nat) (it : Iter) (r : Nat) : countArgsOnly t k fuel it r = countArgsOnly s k fuel it r := by
  induction fuel generalizing it r with
  | zero => rfl
  | succ fuel ih => simp only [countArgsOnly, countStops_marks h, ih]

theorem countLoop_marks {s t : PState} (h : Marked c u a s t) (k fuel : Nat) (it : Iter) (r : Nat) : countLoop t k fuel it r = countLoop s k fuel it r := by
  induction fuel generalizing it r with
  | zero => rfl
  | succ fuel ih => simp only [countLoop, countStops_marks h, countArgsOnly_marks h, ih, h.fields.1, h.fields.2.1]

theorem countArguments_marks {s t : PState} (h : Marked c u a s t) : countArguments t = countArguments s := by
  simp only [countArguments, countLoop_marks h, h.fields.2.1, h.fields.2.2.1]

theorem marks_copyRemaining : Marks c u a copyRemaining copyRemaining :=
  marks_iterRemaining.bind fun rest => marks_modifyBack fun _ _ h => added_unprocessed h rest

theorem marks_error (msg : Str) : Marks c u a (error msg) (error msg) := by
  refine Marks.get fun s t hs => ?_
  rw [hs.fields.1, hs.fields.2.1]
  refine (marks_emit _).bind fun _ => Marks.ite (fun _ => Marks.lift _) fun _ => marks_copyRemaining.bind fun _ => Marks.modify fun s t hs => ?_
  obtain ⟨st, k, rfl, h1, hk⟩ := hs.elim
  exact ⟨h1.map fun _ _ h => added_code h _, hk, rfl⟩

theorem marks_hasAllMandatory (vs : Values) (os : List OptData) : Marks c u a (hasAllMandatory vs os) (hasAllMandatory vs os) := by
  induction os with
  | nil => exact Marks.pure true
  | cons o os ih =>
    simp only [hasAllMandatory]
    refine Marks.ite (fun _ => Marks.ite (fun _ => Marks.lift _) fun _ => ?_) fun _ => ih
    exact (marks_error _).bind fun _ => Marks.pure false

theorem marks_checkCounts : Marks c u a checkCounts checkCounts := by
  refine Marks.back fun n n' hn => Marks.get fun s t hs => ?_
  have e1 : n'.values = n.values ∧ n'.subs.isEmpty = n.subs.isEmpty := by
    rcases hn with rfl | hn
    · exact ⟨rfl, rfl⟩
    · exact ⟨hn.fields.2.2.1, hn.fields.2.2.2⟩
  rw [e1.1, e1.2, hs.fields.2.1, hs.counter.complete, hs.counter.counter]
  refine (marks_hasAllMandatory _ _).bind fun ok => Marks.ite (fun _ => Marks.pure false) fun _ => ?_
  cases s.command.requireSubcommand with
  | none => exact Marks.lift _
  | some req =>
    refine Marks.ite (fun _ => (marks_error _).bind fun _ => Marks.pure false) fun _ => ?_
    refine Marks.ite (fun _ => ?_) fun _ => (marks_error _).bind fun _ => Marks.pure false
    refine Marks.bind (Marks.modify fun s t hs => ?_) fun _ => Marks.pure true
    obtain ⟨st, k, rfl, h1, hk⟩ := hs.elim
    exact ⟨h1.map fun _ _ h => added_code h _, hk, rfl⟩

theorem marks_initCounter : Marks c u a initCounter initCounter := by
  intro s t hs
  have e := countArguments_marks hs
  obtain ⟨st, k, rfl, h1, hk⟩ := hs.elim
  simp only [initCounter]
  split
  · exact ⟨rfl, ⟨h1, Or.inl rfl, rfl⟩⟩
  · rw [e]
    cases countArguments s with
    | ok n => exact ⟨rfl, ⟨h1, Or.inl rfl, rfl⟩⟩
    | _ => exact ⟨rfl, hs⟩

theorem marks_updateArguments (args : List Str) : Marks c u a (updateArguments args) (updateArguments args) := by
  refine Marks.ite (fun _ => Marks.pure ()) fun _ => (marks_iterInsert args).bind fun _ => Marks.get fun s t hs => ?_
  rw [hs.fields.2.1, hs.counter.counter, countArguments_marks hs]
  refine Marks.ite (fun _ => Marks.pure ()) fun _ => Marks.bind (Marks.lift _) fun more => Marks.modify fun s t hs => ?_
  obtain ⟨st, k, rfl, h1, hk⟩ := hs.elim
  exact ⟨h1, Or.inl rfl, rfl⟩

theorem apply_marks {n n' : PNode} (h : Added c u a n n') (op : BuilderOp) :
    SameEnd (fun x y => Added c u a x.1 y.1 ∧ y.2 = x.2) (op.apply n) (op.apply n') := by
  have hb : ∀ {β : Type} (x : Outcome β) (f f' : β → Outcome (PNode × Option Nat)),
      (∀ b, SameEnd (fun x y => Added c u a x.1 y.1 ∧ y.2 = x.2) (f b) (f' b)) →
      SameEnd (fun x y => Added c u a x.1 y.1 ∧ y.2 = x.2) (x >>= f) (x >>= f') := by
    intro β x f f' hf
    cases x with
    | ok b => exact hf b
    | _ => first | exact rfl | exact trivial
  have key : ∀ (g : Values → Values) (t : Option Nat), SameEnd (fun x y => Added c u a x.1 y.1 ∧ y.2 = x.2)
      (.ok ({ n with values := g n.values }, t)) (.ok ({ n' with values := g n'.values }, t)) := fun g t => ⟨added_values h, rfl⟩
  cases op with
  | append name value =>
    simp only [BuilderOp.apply]
    rw [show getValueId n'.ids name = getValueId n.ids name by rw [h.fields.2.1]]
    exact hb _ _ _ fun e => key (fun vs => vs.append e value 0) none
  | appendTo vid aid value => exact key (fun vs => vs.append vid value aid) _
  | assign name value =>
    simp only [BuilderOp.apply]
    rw [show getValueId n'.ids name = getValueId n.ids name by rw [h.fields.2.1]]
    exact hb _ _ _ fun e => key (fun vs => vs.assign e value 0) (some e)
  | assignTo vid aid value => exact key (fun vs => vs.assign vid value aid) _
  | clear name =>
    simp only [BuilderOp.apply]
    rw [show getValueId n'.ids name = getValueId n.ids name by rw [h.fields.2.1]]
    exact hb _ _ _ fun e => key (fun vs => vs.clear e) (some e)
  | clearOf vid => exact key (fun vs => vs.clear vid) _

theorem marks_applyOps (vid : Nat) (ops : List BuilderOp) (b : Bool) : Marks c u a (applyOps vid ops b) (applyOps vid ops b) := by
  induction ops generalizing b with
  | nil => exact Marks.pure b
  | cons op ops ih =>
    intro s t hs
    obtain ⟨st, k, rfl, h1, hk⟩ := hs.elim
    obtain ⟨se, co, stack, it, ct, mo, ca, lo⟩ := s
    simp only at h1 hk hs
    cases h1 with
    | @here n n' l h1 =>
      simp only [applyOps]
      have := apply_marks h1 op
      revert this
      generalize op.apply n = x
      generalize op.apply n' = y
      intro h2
      cases x <;> cases y <;> first
        | exact absurd h2 id
        | skip
      · rename_i x y
        obtain ⟨x, o⟩ := x
        obtain ⟨y, o'⟩ := y
        obtain ⟨h2, e⟩ := h2
        simp only at h2 e
        subst e
        exact ih _ _ _ ⟨.here h2, hk, rfl⟩
      · rw [show _ = _ from h2]; exact ⟨rfl, hs⟩
      · exact ⟨rfl, hs⟩
      · rw [show _ = _ from h2]; exact ⟨rfl, hs⟩
      · exact ⟨rfl, hs⟩
      · exact ⟨rfl, hs⟩
    | @there n l l' h1 =>
      simp only [applyOps]
      cases op.apply n with
      | ok p => exact ih _ _ _ ⟨.there h1, hk, rfl⟩
      | _ => exact ⟨rfl, hs⟩

theorem marks_builderError (msg : Str) : Marks c u a (builderError msg) (builderError msg) := by
  refine Marks.back fun n n' hn => ?_
  have e : n'.command = n.command := by
    rcases hn with rfl | hn
    · rfl
    · exact hn.fields.1
  rw [e]
  refine (marks_emit _).bind fun _ => Marks.get fun s t hs => ?_
  rw [hs.fields.1]
  exact Marks.ite (fun _ => Marks.lift _) fun _ => Marks.lift _

theorem marks_runCallback {env : Env} (he : env.Heedless) (cb : Nat) (view : ViewRef) (vid : Nat) (stored : Bool) (value : Option Str) :
    Marks c u a (runCallback env cb view vid stored value) (runCallback env cb view vid stored value) := by
  refine Marks.back fun n n' hn => Marks.get fun s t hs => ?_
  have e : n'.values = n.values ∧ n'.forgetUnprocessed = n.forgetUnprocessed := by
    rcases hn with rfl | hn
    · exact ⟨rfl, rfl⟩
    · exact ⟨hn.fields.2.2.1, hn.forget⟩
  rw [he _ _ _ _ n' n e.2, hs.fields.2.2.2.2.1, e.1]
  refine Marks.bind (Marks.modify fun s t hs => ?_) fun _ => (marks_applyOps _ _ _).bind fun touched => ?_
  · obtain ⟨st, k, rfl, h1, hk⟩ := hs.elim
    exact ⟨h1, hk, rfl⟩
  · cases (env.callback cb s.calls view value n).fin with
    | returns => exact (marks_updateArguments _).bind fun _ => Marks.pure _
    | throws m => exact Marks.lift _
    | error m => exact (marks_builderError m).bind fun _ => Marks.pure _

theorem marks_runCallbackOpt {env : Env} (he : env.Heedless) (cb : Option Nat) (view : ViewRef) (vid : Nat) (stored : Bool) (value : Option Str) :
    Marks c u a (runCallbackOpt env cb view vid stored value) (runCallbackOpt env cb view vid stored value) := by
  cases cb with
  | none => exact Marks.pure value
  | some cb => exact marks_runCallback he cb view vid stored value

theorem marks_applyOperation (o : OptData) (flag : Str) : Marks c u a (applyOperation o flag) (applyOperation o flag) := by
  have hv : ∀ g : Values → Values, Marks c u a (modifyBack fun n => { n with values := g n.values }) (modifyBack fun n => { n with values := g n.values }) :=
    fun g => marks_modifyBack fun _ _ h => added_values h
  simp only [applyOperation]
  cases o.operation with
  | none => exact Marks.pure _
  | clear => exact (hv fun vs => vs.clear _).bind fun _ => Marks.pure _
  | assign =>
    refine Marks.ite (fun _ => ?_) fun _ => ?_
    · exact (hv fun vs => vs.assign _ _ _).bind fun _ => Marks.pure _
    · refine marks_iterNextValue.bind fun v => ?_
      cases v with
      | none => exact (marks_error _).bind fun _ => Marks.pure _
      | some v => exact (hv fun vs => vs.assign _ _ _).bind fun _ => Marks.pure _
  | append =>
    refine Marks.ite (fun _ => ?_) fun _ => ?_
    · exact (hv fun vs => vs.append _ _ _).bind fun _ => Marks.pure _
    · refine marks_iterNextValue.bind fun v => ?_
      cases v with
      | none => exact (marks_error _).bind fun _ => Marks.pure _
      | some v => exact (hv fun vs => vs.append _ _ _).bind fun _ => Marks.pure _

theorem marks_mode (m : Mode) : Marks c u a (ParserM.modify fun s => { s with mode := m }) (ParserM.modify fun s => { s with mode := m }) := Marks.modify fun s t hs => by
  obtain ⟨st, k, rfl, h1, hk⟩ := hs.elim
  exact ⟨h1, hk, rfl⟩

theorem marks_applyType (o : OptData) : Marks c u a (applyType o) (applyType o) := by
  have hb : Marks c u a (modifyBack fun n => { n with code := .stop, stopOption := some o }) (modifyBack fun n => { n with code := .stop, stopOption := some o }) :=
    marks_modifyBack fun _ _ h => added_stop h _ _
  simp only [applyType]
  cases o.type with
  | normal => exact Marks.pure _
  | help =>
    refine Marks.get fun s t hs => ?_
    rw [hs.fields.2.1]
    exact (marks_emit _).bind fun _ => (marks_mode _).bind fun _ => hb.bind fun _ => Marks.pure _
  | exit => exact (marks_mode _).bind fun _ => hb.bind fun _ => Marks.pure _
  | stop => exact (marks_mode _).bind fun _ => hb.bind fun _ => Marks.pure _
  | lastArgument => exact (marks_mode _).bind fun _ => Marks.pure _
  | lastOption => exact (marks_mode _).bind fun _ => Marks.pure _

theorem marks_processOptionData {env : Env} (he : env.Heedless) (o : OptData) (flag : Str) :
    Marks c u a (processOptionData env o flag) (processOptionData env o flag) := by
  refine (marks_applyOperation o flag).bind fun r => ?_
  cases r with
  | none => exact Marks.pure _
  | some p =>
    obtain ⟨value, stored⟩ := p
    refine (marks_runCallbackOpt he o.callback (.opt o) o.valueId stored (some value)).bind fun v => Marks.get fun s t hs => ?_
    rw [hs.fields.1]
    exact (marks_runCallbackOpt he s.settings.optionCallback (.opt o) o.valueId stored v).bind fun v => (marks_applyType o).bind fun r => Marks.pure _

theorem closeFrames_marks (k : Nat) {s t : List PNode} (h : OneOf (Added c u a) s t) : OneOf (Added c u a) (closeFrames k s) (closeFrames k t) := by
  induction k generalizing s t with
  | zero => exact h
  | succ k ih =>
    cases h with
    | @here n n' l h =>
      cases l with
      | nil => exact .here h
      | cons p st => exact ih (.here (.sub (before := p.subs) (after := []) (n := { p with subs := p.subs ++ [n] }) rfl h))
    | @there n l l' h =>
      cases h with
      | here h => exact ih (.here (added_subs h [n]))
      | there h => exact ih (.there h)

theorem marks_reactivate (size : Nat) : Marks c u a (reactivate size) (reactivate size) := by
  intro s t hs
  obtain ⟨st, k, rfl, h1, hk⟩ := hs.elim
  have h2 := closeFrames_marks (s.stack.length - size) h1
  simp only [reactivate, h1.length]
  revert h2
  generalize closeFrames (s.stack.length - size) s.stack = x
  generalize closeFrames (s.stack.length - size) st = y
  intro h2
  cases h2 with
  | here h2 =>
    refine ⟨rfl, ⟨.here h2, Or.inl rfl, ?_⟩⟩
    simp only [h2.fields.1]
  | there h2 => exact ⟨rfl, ⟨.there h2, Or.inl rfl, rfl⟩⟩

theorem marks_processOption {env : Env} (he : env.Heedless) (flag : Str) : Marks c u a (processOption env flag) (processOption env flag) := by
  refine Marks.get fun s t hs => ?_
  rw [hs.fields.1, hs.fields.2.1]
  cases findOption s.command.optionIndex flag s.settings.allowAbbreviatedOptions s.settings.caseInsensitive with
  | some o =>
    refine (marks_processOptionData he o flag).bind fun p => ?_
    obtain ⟨res, v⟩ := p
    have hc : Marks c u a (copyRemaining >>= fun _ => pure (IterResult.option o v)) (copyRemaining >>= fun _ => pure (.option o v)) :=
      marks_copyRemaining.bind fun _ => Marks.pure _
    cases res with
    | normal => exact Marks.pure _
    | error => exact Marks.pure _
    | stop => exact hc
    | exit => exact Marks.ite (fun _ => Marks.lift _) fun _ => hc
    | lastArgument =>
      refine marks_checkCounts.bind fun ok => Marks.ite (fun _ => Marks.pure _) fun _ => Marks.get fun s t hs => ?_
      have := findMultiParent_marks hs.stack
      revert this
      generalize findMultiParent t.stack = x
      generalize findMultiParent s.stack = y
      intro e
      cases x with
      | none => cases y with
        | none => exact hc
        | some y => simp at e
      | some x => cases y with
        | none => simp at e
        | some y =>
          simp only [Option.map_some, Option.some.injEq] at e
          have := congrArg List.length e
          simp only [List.length_map] at this
          simp only [this]
          exact (marks_reactivate _).bind fun _ => Marks.pure _
  | none =>
    refine marks_iterCurrent.bind fun cur => Marks.ite (fun _ => (marks_error _).bind fun _ => Marks.pure _) fun _ => ?_
    exact (marks_modifyBack fun _ _ h => added_unprocessed h [cur]).bind fun _ => Marks.pure _

theorem marks_processCommand (sub : Command) : Marks c u a (processCommand sub) (processCommand sub) := by
  refine Marks.bind (Marks.modify fun s t hs => ?_) fun _ => marks_initCounter.bind fun _ => (marks_mode _).bind fun _ => marks_iterCurrent.bind fun cur => Marks.pure _
  obtain ⟨st, k, rfl, h1, hk⟩ := hs.elim
  exact ⟨.there h1, hk, rfl⟩

theorem marks_counter {k k' : Counter} (h : Spent k k') : Marks c u a (ParserM.modify fun s => { s with counter := k }) (ParserM.modify fun s => { s with counter := k' }) :=
  Marks.modify fun s t hs => by
    obtain ⟨st, _, rfl, h1, _⟩ := hs.elim
    exact ⟨h1, h, rfl⟩

theorem marks_processArgument {env : Env} (he : env.Heedless) (value : Str) : Marks c u a (processArgument env value) (processArgument env value) := by
  refine Marks.get fun s t hs => ?_
  rw [findSibling_marks hs, hs.fields.1]
  cases findSibling s value with
  | some p =>
    obtain ⟨sub, size⟩ := p
    exact (marks_reactivate size).bind fun _ => marks_processCommand sub
  | none =>
    have := hs.counter.next
    revert this
    generalize s.counter.nextArgument = x
    generalize t.counter.nextArgument = y
    obtain ⟨x, k⟩ := x
    obtain ⟨y, k'⟩ := y
    rintro ⟨e, hk⟩
    simp only at e hk
    subst e
    cases y with
    | some arg =>
      refine (marks_counter hk).bind fun _ => Marks.bind (marks_modifyBack fun _ _ h => added_values h (g := fun vs => vs.append _ _ _)) fun _ => ?_
      refine (marks_runCallbackOpt he arg.callback (.arg arg) arg.valueId true (some value)).bind fun v => Marks.get fun s t hs => ?_
      rw [hs.fields.1]
      exact (marks_runCallbackOpt he s.settings.argumentCallback (.arg arg) arg.valueId true v).bind fun v => Marks.pure _
    | none =>
      refine (marks_counter hk).bind fun _ => Marks.ite (fun _ => ?_) fun _ => (marks_error _).bind fun _ => Marks.pure _
      exact (marks_modifyBack fun _ _ h => added_unprocessed h [value]).bind fun _ => marks_iterCurrent.bind fun cur => Marks.pure _

theorem marks_next {env : Env} (he : env.Heedless) : Marks c u a (next env) (next env) := by
  refine Marks.get fun s t hs => ?_
  rw [hs.fields.1, hs.fields.2.1, hs.fields.2.2.2.1]
  have key : ∀ (read : ParserM (Option Str)) (p : Prop) [Decidable p], Marks c u a read read → ∀ m : ParserM IterResult, m = (do
        let arg ← read
        match arg with
        | none => do
          if (← checkCounts) then pure .done else pure .error
        | some arg =>
          if p ∧ isOption arg s.settings.optionStyle then processOption env arg
          else if s.command.commands.isEmpty then processArgument env arg
          else match findCommand s.command.commands arg s.settings.caseInsensitive with
            | some c => processCommand c
            | none => do
              error (b!"Unknown command: " ++ arg)
              pure .error) → Marks c u a m m := by
    intro read p _ hr m hm
    rw [hm]
    refine hr.bind fun arg => ?_
    cases arg with
    | none => exact marks_checkCounts.bind fun ok => Marks.ite (fun _ => Marks.pure _) fun _ => Marks.pure _
    | some arg =>
      refine Marks.ite (fun _ => marks_processOption he arg) fun _ => Marks.ite (fun _ => marks_processArgument he arg) fun _ => ?_
      cases findCommand s.command.commands arg s.settings.caseInsensitive with
      | none => exact (marks_error _).bind fun _ => Marks.pure _
      | some c => exact marks_processCommand c
  cases s.mode with
  | error => exact Marks.lift _
  | done => exact Marks.pure _
  | argumentsAndOptions => exact key iterNext _ marks_iterNext _ rfl
  | argumentsOnly => exact key iterNextValue _ marks_iterNextValue _ rfl

theorem marks_run {env : Env} (he : env.Heedless) (fuel : Nat) : Marks c u a (run env fuel) (run env fuel) := by
  induction fuel with
  | zero => exact Marks.lift _
  | succ fuel ih =>
    refine (marks_next he).bind fun r => ?_
    cases r <;> first | exact ih | exact Marks.pure ()

theorem topLevel_marks {s t : PState} (h : Marked c u a s t) : AddedTo c u a (topLevel s) (topLevel t) := by
  have h1 := closeFrames_marks (s.stack.length - 1) h.stack
  unfold topLevel closeAll
  rw [h.stack.length]
  have hlen : ∀ (k : Nat) (st : List PNode), (closeFrames k st).length = if st = [] then 0 else max 1 (st.length - k) := by
    intro k
    induction k with
    | zero => intro st; cases st <;> simp [closeFrames]
    | succ k ih =>
      intro st
      match st with
      | [] => rfl
      | [n] => simp [closeFrames]
      | n :: p :: st => simp [closeFrames, ih]
  have hl := hlen (s.stack.length - 1) s.stack
  revert h1 hl
  generalize closeFrames (s.stack.length - 1) s.stack = x
  generalize closeFrames (s.stack.length - 1) t.stack = y
  intro h1 hl
  have hs : s.stack ≠ [] := by
    intro e
    have := h.stack
    rw [e] at this
    cases this
  rw [if_neg hs] at hl
  have : s.stack.length ≠ 0 := by simp [hs]
  cases h1 with
  | @here n n' l h1 =>
    have : l = [] := List.eq_nil_of_length_eq_zero (by simp only [List.length_cons] at hl; omega)
    subst this
    exact h1
  | @there n l l' h1 =>
    have : l = [] := List.eq_nil_of_length_eq_zero (by simp only [List.length_cons] at hl; omega)
    subst this
    cases h1

/-! ## Reading on after an ignored argument -/

/-- After everything in front of `rest` has been read, the next argument is read in the same way. -/
theorem next_of_reader {i j : Iter} (hi : i.Ok) (hj : j.Ok) (hp : i.pfx = j.pfx) {rest : List Str} (h1 : i.reader = ⟨[], rest⟩) (h2 : j.reader = ⟨[], rest⟩) :
    i.next = j.next := by
  have std : ∀ {it : StdIt}, it.Ok → it.reader = ⟨[], rest⟩ → it.next = .ok (StdIt.nextFresh rest) := by
    intro it hok hr
    obtain ⟨args, pos⟩ := it
    rcases hok with h | ⟨a, l, h, h' | ⟨p, h', hlt⟩⟩ <;> simp only at h <;> (try simp only at h') <;> subst h
    · simp only [StdIt.reader, Reader.mk.injEq, true_and] at hr
      subst hr
      rfl
    · subst h'
      simp only [StdIt.reader, Reader.mk.injEq, true_and, List.tail_cons] at hr
      subst hr
      rfl
    · subst h'
      simp only [StdIt.reader] at hr
      simp only [StdIt.next]
      split at hr
      · rename_i hq
        simp only [Reader.mk.injEq, true_and] at hr
        subst hr
        rw [hq]
        cases a[p + 1 + 1]? <;> simp
      · simp only [Reader.mk.injEq] at hr
        obtain ⟨e1, rfl⟩ := hr
        have : a[p + 1 + 1]? = none := by
          rw [List.drop_eq_nil_iff] at e1
          exact List.getElem?_eq_none e1
        rw [this]
  have opt : ∀ {it : OptIt}, it.Ok → it.reader = ⟨[], rest⟩ → it.next = .ok (OptIt.nextFresh rest it.pfx) := by
    intro it hok hr
    obtain ⟨args, pos, pf⟩ := it
    rcases hok with h | ⟨a, l, h, h'⟩
    · simp only at h
      subst h
      simp only [OptIt.reader, if_true, Reader.mk.injEq, true_and] at hr
      subst hr
      rfl
    · simp only at h h'
      subst h
      have hne : pos ≠ .at 0 := by
        rcases h' with rfl | ⟨p, rfl, _⟩ <;> simp
      simp only [OptIt.reader, hne, if_false, Reader.mk.injEq, true_and, List.tail_cons] at hr
      subst hr
      simp only [OptIt.next]
      rw [if_neg hne]
  cases i with
  | std i => cases j with
    | std j =>
      simp only [Iter.next, std hi h1, std hj h2]
    | opt j => simp [Iter.pfx] at hp
  | opt i => cases j with
    | std j => simp [Iter.pfx] at hp
    | opt j =>
      simp only [Iter.pfx, Option.some.injEq] at hp
      simp only [Iter.next, opt hi h1, opt hj h2, hp]

/-- Everything has been read; then there is more. -/
theorem more_reader {i : Iter} (hi : i.Ok) (hl : NothingLeft i) (post : List Str) : (i.more post).Ok ∧ (i.more post).pfx = i.pfx ∧ (i.more post).reader = ⟨[], post⟩ := by
  obtain ⟨it', hl⟩ := hl
  cases i with
  | std it =>
    obtain ⟨⟨b, i⟩, h1, h2⟩ := Outcome.bind_eq_ok.mp hl
    simp only [pure, Outcome.ok.injEq, Prod.mk.injEq] at h2
    obtain ⟨rfl, _⟩ := h2
    obtain ⟨h3, h4⟩ := StdIt.nothing h1
    obtain ⟨args, pos⟩ := it
    refine ⟨?_, rfl, ?_⟩
    · rcases hi with h | ⟨a, l, h, h'⟩
      · exact Or.inl h
      · exact Or.inr ⟨a, l ++ post, by simp only at h; simp [h, StdIt.more], h'⟩
    · rcases h4 with ⟨h4, h5⟩ | ⟨a, h4, h5⟩ <;> simp only at h4 h5 <;> subst h4
      · subst h5
        rfl
      · cases pos with
        | npos => rfl
        | «at» n =>
          cases n with
          | zero => exact absurd rfl h5
          | succ n =>
            simp only [Iter.more, StdIt.more, Iter.reader, StdIt.reader, List.cons_append, List.nil_append]
            split
            · rfl
            · rename_i h6
              simp only [StdIt.splitConcatenatedFlags] at h3
              rcases Nat.lt_or_ge (n + 1) a.length with hlt | hge
              · rw [if_neg (by omega)] at h3
                cases h1 : a[1]? with
                | none =>
                  rw [List.getElem?_eq_none_iff] at h1
                  omega
                | some a1 =>
                  rw [h1] at h3 h6
                  simp only at h3
                  split at h3
                  · rename_i e
                    exact absurd (by rw [e]) h6
                  · simp only [Outcome.ok.injEq, StdIt.mk.injEq] at h3
                    have := congrArg List.length h3.1
                    simp at this
              · rw [List.drop_eq_nil_of_le hge]
  | opt it =>
    obtain ⟨⟨b, i⟩, h1, h2⟩ := Outcome.bind_eq_ok.mp hl
    simp only [pure, Outcome.ok.injEq, Prod.mk.injEq] at h2
    obtain ⟨rfl, _⟩ := h2
    obtain ⟨args, pos, pf⟩ := it
    refine ⟨?_, rfl, ?_⟩
    · rcases hi with h | ⟨a, l, h, h'⟩
      · exact Or.inl h
      · exact Or.inr ⟨a, l ++ post, by simp only at h; simp [h, OptIt.more], h'⟩
    · rcases OptIt.nothing h1 with ⟨h4, h5⟩ | ⟨a, h4, h5⟩ <;> simp only at h4 h5 <;> subst h4
      · subst h5
        rfl
      · simp [Iter.more, OptIt.more, Iter.reader, OptIt.reader, h5]

theorem same_iterNextValue {K : Prop} {st : ParserSettings} (env : Env) {s t : PState} (h : Twin K st s t) (e : s.iter.nextValue = t.iter.nextValue)
    (hm : s.mode = .argumentsOnly) : AgreeClear K st (next env s) (next env t) := by
  have htm : t.mode = .argumentsOnly := by obtain ⟨_, i, l, rfl, _⟩ := h; exact hm
  rw [next_ao env hm, next_ao env htm]
  have hf := fun a => follows_tail_ao (m := .argumentsOnly) env s t h a
  have hb : Follows K st (fun a b => a = s ∧ b = t) Eq (fun _ => Pair K st (Beside fun _ => False) s.command .argumentsOnly) iterNextValue iterNextValue := by
    rintro a b ⟨ha, hb⟩
    rw [ha, hb]
    obtain ⟨h1, i, l, rfl, hl⟩ := h
    simp only at e
    unfold iterNextValue
    simp only
    rw [← e]
    generalize s.iter.nextValue = z
    cases z with
    | ok z => exact ⟨rfl, ⟨h1, _, l, rfl, hl⟩, fun _ _ => ⟨⟨h1, _, l, rfl, hl⟩, .refl _, rfl, hm⟩⟩
    | _ => exact ⟨by first | rfl | trivial, ⟨h1, i, l, rfl, hl⟩, by intro a ha; simp at ha⟩
  exact hb.bind (fun a _ e => by subst e; exact hf a) s t ⟨rfl, rfl⟩

theorem StdIt.nextValue_after {it it' : StdIt} (hok : it.Ok) (h : it.nextValue = .ok (none, it')) (post : List Str) :
    (it.more post).nextValue = .ok (post.head?, if post = [] then ⟨[], .at 0⟩ else ⟨post, .npos⟩) := by
  obtain ⟨args, pos⟩ := it
  rcases hok with hh | ⟨a, l, rfl, hh⟩
  · simp only at hh
    subst hh
    cases args with
    | nil => cases post <;> simp [StdIt.more, StdIt.nextValue]
    | cons a l => simp [StdIt.nextValue] at h
  · cases pos with
    | «at» p =>
      simp only [StdIt.nextValue] at h
      split at h <;> simp at h
    | npos => cases l with
      | nil => cases post <;> simp [StdIt.more, StdIt.nextValue]
      | cons b l => simp [StdIt.nextValue] at h

/-- After everything has been read, the next value is the next argument. -/
theorem nextValue_after {i i' : Iter} (hi : i.Ok) (hp : i.pfx = none) (h1 : i.nextValue = .ok (none, i')) (post : List Str) :
    (i.more post).nextValue = .ok (post.head?, .std (if post = [] then ⟨[], .at 0⟩ else ⟨post, .npos⟩)) := by
  cases i with
  | opt i => simp [Iter.pfx] at hp
  | std i =>
    obtain ⟨⟨b, i1⟩, h1, e1⟩ := Outcome.bind_eq_ok.mp h1
    simp only [pure, Outcome.ok.injEq, Prod.mk.injEq] at e1
    obtain ⟨rfl, _⟩ := e1
    simp only [Iter.more, Iter.nextValue, StdIt.nextValue_after hi h1]
    rfl

/-- What isn't a flag is read as a whole. -/
theorem read_text_whole {style : OptionStyle} {a : Str} (h : ¬ IsFlag style a) (rest : List Str) :
    Reader.readIn style ⟨[], a :: rest⟩ = some (wholeFlag a rest) := by
  have hs : ¬ IsFlag .standard a → Reader.readStandard ⟨[], a :: rest⟩ = some (wholeFlag a rest) := by
    intro h
    match a, h with
    | [], _ => rfl
    | [_], _ => rfl
    | [_, _], _ => rfl
    | x :: y :: z :: zs, h =>
      have : x ≠ c!"-" := by
        rintro rfl
        exact h ⟨by simp, rfl⟩
      simp [Reader.readStandard, this]
  have hp : ∀ c, c = flagChar style → Reader.readPrefixed c ⟨[], a :: rest⟩ = some (wholeFlag a rest) := by
    rintro c rfl
    have : ¬ (a.length > 2 ∧ a.head? = some (flagChar style)) := fun hh => h ⟨by omega, hh.2⟩
    simp only [Reader.readPrefixed, if_neg this]
  cases style with
  | standard => exact hs h
  | slash => exact hp _ rfl
  | dash => exact hp _ rfl

/-- The same, seen from the flag that was read. -/
theorem read_not_flag {style : OptionStyle} {a : Str} {rest : List Str} {x : Reading} (hx : (Reader.mk [] (a :: rest)).readIn style = some x) (hf : ¬ IsFlag style x.flag) :
    x.flag = a := by
  have cut : ∀ {flag value : Str} {c : UInt8} {u : Str}, cutAfterEqual (c :: u) = some (flag, value) → c ≠ c!"=" → 2 ≤ flag.length ∧ flag.head? = some c := by
    intro flag value c u h hc
    unfold cutAfterEqual at h
    rw [List.dropWhile_cons, List.takeWhile_cons] at h
    have : (c != c!"=") = true := by simpa using hc
    rw [if_pos this, if_pos this] at h
    split at h
    · simp at h
    · simp only [Option.some.injEq, Prod.mk.injEq] at h
      rw [← h.1]
      simp
  unfold Reader.readIn at hx
  cases style with
  | standard =>
    simp only [stylePrefix, Reader.read, Reader.readStandard] at hx
    split at hx
    · rename_i e c y ys
      split at hx
      · simp only [Option.some.injEq] at hx; subst hx; rfl
      · rename_i hd
        have hd := Decidable.not_not.mp hd
        subst hd
        split at hx
        · simp only [shortFlag, List.cons_ne_nil, if_false, Option.some.injEq] at hx
          subst hx
          exact absurd ⟨by simp, rfl⟩ hf
        · split at hx
          · rename_i hcut
            simp only [Option.some.injEq] at hx
            subst hx
            exact absurd (cut hcut (by decide)) hf
          · simp only [Option.some.injEq] at hx; subst hx; rfl
    · simp only [Option.some.injEq] at hx; subst hx; rfl
  | slash =>
    simp only [stylePrefix, Reader.read, Reader.readPrefixed] at hx
    split at hx
    · rename_i hl
      split at hx
      · rename_i hcut
        simp only [Option.some.injEq] at hx
        subst hx
        cases a with
        | nil => simp at hl
        | cons c u =>
          simp only [List.head?_cons, Option.some.injEq] at hl
          rw [hl.2] at hcut
          exact absurd (cut hcut (by decide)) hf
      · simp only [Option.some.injEq] at hx; subst hx; rfl
    · simp only [Option.some.injEq] at hx; subst hx; rfl
  | dash =>
    simp only [stylePrefix, Reader.read, Reader.readPrefixed] at hx
    split at hx
    · rename_i hl
      split at hx
      · rename_i hcut
        simp only [Option.some.injEq] at hx
        subst hx
        cases a with
        | nil => simp at hl
        | cons c u =>
          simp only [List.head?_cons, Option.some.injEq] at hl
          rw [hl.2] at hcut
          exact absurd (cut hcut (by decide)) hf
      · simp only [Option.some.injEq] at hx; subst hx; rfl
    · simp only [Option.some.injEq] at hx; subst hx; rfl

/-! ## The counter -/

/-- The counter of a command that doesn't need to know the number of arguments in advance. -/
def Tallies (k : Counter) : Prop :=
  ∃ args given, (∀ a ∈ args, a.minCount ≤ a.maxCount) ∧ Counter.requiresArgumentCount args = false ∧ Counter.CountOk args given k

theorem Tallies.spent {k k' : Counter} (h : Tallies k) (hn : k.nextArgument = (none, k')) : Spent k k' := by
  obtain ⟨args, given, hmm, hr, cs, fo, m, ⟨n, ⟨hr', _⟩ | ⟨_, rfl, rfl⟩⟩, hk, _, hb, hi⟩ := h
  · rw [hr] at hr'
    simp at hr'
  · have hfull := Counter.next_none_full hn
    refine Or.inr ⟨hn, ?_, ?_⟩
    · rcases hi with hi | ⟨_, hi⟩
      · obtain ⟨f1, f2, f3⟩ := Counter.ofArgs_complete_facts args hmm hr
        refine (hi.complete f1 f2).mpr ?_
        rcases Nat.lt_or_ge m (Counter.total (Counter.makeCountersLoop (Counter.findFirstOptional args) args 0)) with hlt | hge
        · obtain ⟨a, c, e, _⟩ := hi.next_some hlt
          rw [hn] at e
          simp at e
        · refine Nat.le_trans ?_ hge
          have := Counter.total_append ((Counter.makeCountersLoop (Counter.findFirstOptional args) args 0).take (Counter.findFirstOptional args))
            ((Counter.makeCountersLoop (Counter.findFirstOptional args) args 0).drop (Counter.findFirstOptional args))
          rw [List.take_append_drop] at this
          omega
      · unfold Counter.isComplete
        have : k.index ≥ k.firstOptional := by omega
        simp [this]
    · unfold Counter.isComplete
      have : k'.index ≥ k'.firstOptional := by rw [hfull.2.2]; rw [hfull.2.1] at hfull; omega
      simp [this]

section
variable {d : ParserData} (hm : CountsOk d.command) (hnc : ∀ c : Command, c.Within d.command → Counter.requiresArgumentCount c.arguments = false)
include hm hnc

theorem Tallies.enter {c : Command} (hc : c.Within d.command) (n : Nat) : Tallies (Counter.forCount c.arguments n) :=
  ⟨_, _, hm c hc, hnc c hc, Counter.forCount_countOk _ _⟩

omit hm in
theorem option_counter {env : Env} {s s2 s3 : PState} (hg : Good d s) {o : OptData} {flag : Str}
    {it : Iter} {v : Str} {stored : Bool} {w : Option Str} (ht : Taken s (some flag) it)
    (h1 : OpRun o flag { s with iter := it } (.ok (some (v, stored))) s2)
    (h2 : calls env o.callback ParserSettings.optionCallback (.opt o) o.valueId stored (some v) s2 = (.ok w, s3)) :
    s3.counter = s.counter := by
  have hg' := (hg.taken ht).2.2
  have hg2 := hg'.opRun h1
  have h3 := (h1.ok_facts hg'.ne hg'.iterOk).2.2.2.2.2.2.2.1
  have hcr := (calls_run env o.callback ParserSettings.optionCallback (.opt o) o.valueId stored (some v) s2 hg2.ne hg2.iterOk).1
  rw [h2] at hcr
  cases hcr with
  | ok hf =>
    rcases hf.counter with e | ⟨e, _⟩
    · rw [e, h3]
    · rw [hnc _ hg2.within] at e
      simp at e

omit hm in
theorem argument_counter {env : Env} {s s3 : PState} (hg : Good d s) {a : ArgData} {arg : Str} {it : Iter} {ct : Counter}
    {w : Option Str} (ht : Taken s (some arg) it) (h1 : s.counter.nextArgument = (some a, ct))
    (h2 : calls env a.callback ParserSettings.argumentCallback (.arg a) a.valueId true (some arg) (argState a ct arg { s with iter := it }) =
      (.ok w, s3)) : s3.counter = ct := by
  have hg' := (hg.taken ht).2.2
  have hg2 := hg'.arg (v := arg) h1
  have hcr := (calls_run env a.callback ParserSettings.argumentCallback (.arg a) a.valueId true (some arg) _ hg2.ne hg2.iterOk).1
  rw [h2] at hcr
  cases hcr with
  | ok hf =>
    rcases hf.counter with e | ⟨e, _⟩
    · rw [e]
      rfl
    · rw [hnc _ hg2.within] at e
      simp at e

theorem tallies_step {env : Env} {s s' : PState} (hg : Good d s) {r : IterResult} (h : Step env s (.ok r) s') (hg' : Good d s') (hr : ¬ r.IsLast) (hs : Tallies s.counter) :
    Tallies s'.counter := by
  have herr : ∀ {msg t}, ErrorRun msg t IterResult.error (.ok r) s' → False := by
    intro msg t he
    cases he with
    | error _ _ => exact hr trivial
  have nil : Tallies {} := ⟨[], [], by simp, rfl, Counter.forCount_countOk [] 0⟩
  cases h with
  | afterDone _ => exact absurd trivial hr
  | finished _ _ => exact absurd trivial hr
  | unfinished _ _ he => exact (herr he).elim
  | unknownOption _ _ _ _ _ he => exact (herr he).elim
  | ignoredOption ht _ _ _ _ _ => exact hs
  | option ht _ _ hrun =>
    cases hrun with
    | noValue _ _ he => exact (herr he).elim
    | normal h1 h2 hty =>
      rw [option_counter hnc hg ht h1 h2]
      exact hs
    | lastOption h1 h2 hty =>
      simp only [option_counter hnc hg ht h1 h2]
      exact hs
    | stopped h1 h2 ho _ hre =>
      simp only [copyState, stopState, option_counter hnc hg ht h1 h2]
      exact hs
    | lastFails _ _ _ _ he => exact (herr he).elim
    | lastDone h1 h2 hty hok hnm hre =>
      simp only [copyState, succState, option_counter hnc hg ht h1 h2]
      exact hs
    | lastMulti h1 h2 hty hok hfm => exact nil
  | command ht hno hcc hf hcur => exact .enter hm hnc hg'.within _
  | unknownCommand _ _ _ _ he => exact (herr he).elim
  | argument ht hno hce hrun =>
    cases hrun with
    | sibling hf hcur => exact .enter hm hnc hg'.within _
    | argument _ hn hcl =>
      rw [argument_counter hnc hg ht hn hcl]
      obtain ⟨args, given, h1, h2, h3⟩ := hs
      exact ⟨args, _, h1, h2, h3.next_some hn⟩
    | ignored _ hn _ _ =>
      obtain ⟨args, given, h1, h2, h3⟩ := hs
      exact ⟨args, _, h1, h2, h3.next_none hn⟩
    | tooMany _ _ _ he => exact (herr he).elim

theorem tallies_trace {env : Env} (hrd : Ready d) {s s' : PState} {rs : List IterResult} (h : Trace env s rs s') (hg : Good d s) (hl : ∀ r ∈ rs, ¬ r.IsLast) (hs : Tallies s.counter) :
    Tallies s'.counter := by
  induction h with
  | nil => exact hs
  | cons hn _ ih =>
    obtain ⟨hst, hg1⟩ := next_good hrd hg hn
    exact ih hg1 (fun r hr => hl r (by simp [hr])) (tallies_step hm hnc hg hst hg1 (hl _ (List.mem_cons_self ..)) hs)

theorem tallies_start (args : List Str) : Tallies (start d args).2.counter := by
  rw [(start_good d args).1]
  exact .enter hm hnc .self _

end

/-! ## The whole parse -/

theorem trace_det {env : Env} {s t u : PState} {rs : List IterResult} (h : Trace env s rs t) (h' : Trace env s rs u) : t = u := by
  induction h with
  | nil => cases h'; rfl
  | cons hn _ ih =>
    cases h' with
    | cons hn' h' =>
      rw [hn] at hn'
      simp only [Prod.mk.injEq, true_and] at hn'
      rw [← hn'] at h'
      exact ih h'

/-- The results with an addition for the active command. -/
theorem marked_back {s : PState} {n : PNode} {ns : List PNode} (hs : s.stack = n :: ns) {k : Counter} (hk : Spent s.counter k) (x : Str) :
    Marked n.command n.unprocessed x s { s with
      stack := headMap (fun n => { n with unprocessed := n.unprocessed ++ [x] }) s.stack
      counter := k } := by
  refine ⟨?_, hk, rfl⟩
  simp only [hs, headMap]
  exact .here (.here (v := []) rfl (by simp))

/-- An argument was reported as undefined: it is what has been added to the unprocessed arguments. -/
theorem unknown_step {env : Env} {d : ParserData} (hrd : Ready d) {s t : PState} (hg : Good d s) (hso : Tallies s.counter) (hu : UsedUp s)
    (hst : s.mode = .argumentsOnly → d.settings.optionStyle = .standard) {x b : Str} (hn : next env (s.more [x]) = (.ok (.unknown b), t)) :
    b = x ∧ ∃ n ns, s.stack = n :: ns ∧ n.command = s.command ∧ Marked n.command n.unprocessed x { s with iter := t.iter } t := by
  obtain ⟨n, ns, hs, hc⟩ := hg.head
  obtain ⟨m1, m2, m3⟩ := more_reader hg.iterOk hu.left [x]
  have hg' : Good d (s.more [x]) := hg.keep rfl rfl m1 m2 (Or.inl rfl) hg.bounds
  have herr : ∀ {msg u}, ErrorRun msg u IterResult.error (.ok (.unknown b)) t → False := by
    intro msg u he
    cases he
  -- what is read is the argument
  have cur : ∀ {flag y it}, Taken (s.more [x]) (some flag) it → it.current = .ok y → y = x := by
    intro flag y it ht hy
    rcases ht with ⟨_, h1⟩ | ⟨h0, h1⟩
    · have := Iter.next_current hg'.iterOk h1 hy (by rw [show (s.more [x]).iter.reader = _ from m3])
      rw [show (s.more [x]).iter.reader = _ from m3] at this
      simpa using this.symm
    · obtain ⟨i, h2⟩ := hu.value h0
      have e := nextValue_after hg.iterOk (by rw [hg.pfx, hst h0]; rfl) h2 [x]
      rw [show (s.more [x]).iter = s.iter.more [x] from rfl, e] at h1
      simp only [Outcome.ok.injEq, Prod.mk.injEq, List.cons_ne_nil, if_false] at h1
      rw [← h1.2] at hy
      simpa [Iter.current, StdIt.current] using hy.symm
  have whole : ∀ {arg it}, Taken (s.more [x]) (some arg) it → ¬ OptionLike (s.more [x]) arg → arg = x := by
    intro arg it ht hno
    rcases ht with ⟨h0, h1⟩ | ⟨h0, h1⟩
    · have h3 := (s.more [x]).iter.next_spec hg'.iterOk
      rw [hg'.pfx, show (s.more [x]).iter.reader = _ from m3] at h3
      cases hy : (Reader.mk [] [x]).readIn d.settings.optionStyle with
      | none =>
        rw [show (Reader.mk [] [x]).read (stylePrefix d.settings.optionStyle) = none from hy] at h3
        obtain ⟨it', h4, _⟩ := h3
        rw [h1] at h4
        simp at h4
      | some y =>
        rw [show (Reader.mk [] [x]).read (stylePrefix d.settings.optionStyle) = some y from hy] at h3
        obtain ⟨it', h4, _⟩ := h3
        rw [h1] at h4
        simp only [Outcome.ok.injEq, Prod.mk.injEq, Option.some.injEq] at h4
        rw [h4.1]
        refine read_not_flag hy fun hf => hno ⟨h0, ?_⟩
        rw [show (s.more [x]).settings = _ from hg.settings, h4.1]
        exact (isOption_iff _ _).mpr hf
    · obtain ⟨i, h2⟩ := hu.value h0
      have e := nextValue_after hg.iterOk (by rw [hg.pfx, hst h0]; rfl) h2 [x]
      rw [show (s.more [x]).iter = s.iter.more [x] from rfl, e] at h1
      simp only [Outcome.ok.injEq, Prod.mk.injEq, List.head?_cons, Option.some.injEq] at h1
      exact h1.1.symm
  obtain ⟨h, hg1⟩ := next_good hrd hg' hn
  cases h with
  | unfinished _ _ he => exact (herr he).elim
  | unknownOption _ _ _ _ _ he => exact (herr he).elim
  | @ignoredOption it flag cu ht _ _ hcur _ _ =>
    obtain rfl := cur ht hcur
    refine ⟨rfl, n, ns, hs, hc, ?_⟩
    exact marked_back (s := { s with iter := it }) hs (Or.inl rfl) _
  | option ht _ _ hrun =>
    cases hrun with
    | noValue _ _ he => exact (herr he).elim
    | lastFails _ _ _ _ he => exact (herr he).elim
  | unknownCommand _ _ _ _ he => exact (herr he).elim
  | argument ht hno hce hrun =>
    rename_i it arg
    cases hrun with
    | ignored _ hno' _ hcur =>
      obtain rfl := cur ht hcur
      obtain rfl := whole ht hno
      refine ⟨rfl, n, ns, hs, hc, ?_⟩
      exact marked_back (s := { s with iter := it }) hs (hso.spent hno') _
    | tooMany _ _ _ he => exact (herr he).elim

/-- The iterator at the end of a longer line. -/
theorem reads_on {d : ParserData} {s t : PState} (hg : Good d s) (hg' : Good d t) (hu : UsedUp s) (hu' : UsedUp t) (hm : t.mode = s.mode)
    (hst : s.mode = .argumentsOnly → d.settings.optionStyle = .standard) (post : List Str) :
    s.mode = .argumentsAndOptions ∧ (s.iter.more post).next = (t.iter.more post).next ∨
      s.mode = .argumentsOnly ∧ (s.iter.more post).nextValue = (t.iter.more post).nextValue := by
  rcases hu.unfinished with h | h
  · obtain ⟨a1, a2, a3⟩ := more_reader hg.iterOk hu.left post
    obtain ⟨b1, b2, b3⟩ := more_reader hg'.iterOk hu'.left post
    exact Or.inl ⟨h, next_of_reader a1 b1 (by rw [a2, b2, hg.pfx, hg'.pfx]) a3 b3⟩
  · obtain ⟨i, h1⟩ := hu.value h
    obtain ⟨j, h2⟩ := hu'.value (hm.trans h)
    refine Or.inr ⟨h, ?_⟩
    rw [nextValue_after hg.iterOk (by rw [hg.pfx, hst h]; rfl) h1, nextValue_after hg'.iterOk (by rw [hg'.pfx, hst h]; rfl) h2]

theorem Marked.more {c u a} {s t : PState} (h : Marked c u a { s with iter := t.iter } t) (post : List Str) :
    Marked c u a { s with iter := t.iter.more post } (t.more post) := by
  obtain ⟨h1, h2, h3⟩ := h
  refine ⟨h1, h2, ?_⟩
  rw [PState.more, h3]

/-- The argument `x` has been reported as undefined: the rest is as if it weren't there. -/
theorem ignored_parse {env : Env} (he : env.Heedless) {d : ParserData} (hrd : Ready d) (hm : CountsOk d.command)
    (hnc : ∀ c : Command, c.Within d.command → Counter.requiresArgumentCount c.arguments = false) {pre : List Str} {rs : List IterResult} {s t : PState} {x b : Str}
    (ht : Trace env (start d pre).2 rs s) (hrs : ∀ x ∈ rs, ¬ x.IsLast) (hu : UsedUp s)
    (hx : Trace env (start d (pre ++ [x])).2 (rs ++ [.unknown b]) t) (hu' : UsedUp t) (hst : s.mode = .argumentsOnly → d.settings.optionStyle = .standard)
    (post : List Str) (fuel : Nat) (hf : rs.length ≤ fuel) :
    b = x ∧ ∃ n ns, s.stack = n :: ns ∧ n.command = s.command ∧
    SameEnd (AddedTo n.command n.unprocessed x) (parse env d (pre ++ post) fuel).1 (parse env d (pre ++ x :: post) (fuel + 1)).1 ∧
    ∃ t', Twin True d.settings (parse env d (pre ++ post) fuel).2 t' ∧ Marked n.command n.unprocessed x t' (parse env d (pre ++ x :: post) (fuel + 1)).2 := by
  have key : ∀ {pre rs s}, Trace env (start d pre).2 rs s → (∀ x ∈ rs, ¬ x.IsLast) → UsedUp s → ∀ rest, Trace env (start d (pre ++ rest)).2 rs (s.more rest) ∧ Good d s := by
    intro pre rs s ht hrs hu rest
    obtain ⟨a1, a2, a3⟩ := trace_full (Differs.refl env s.calls) rest hrd hnc ht (start_good d pre).2 hrs hu.unfinished (Nat.le_refl _)
    have e1 : PState.full s.calls [] rest (start d pre).2 = (start d (pre ++ rest)).2 := by
      rw [start_more d (hnc _ .self) pre rest]
      unfold PState.full
      rw [if_pos a2]
    have e2 : s.full s.calls [] rest = s.more rest := by unfold PState.full; rw [if_pos (Nat.le_refl _)]
    rw [e1, e2] at a1
    exact ⟨a1, a3⟩
  have hrs' : ∀ y ∈ rs ++ [IterResult.unknown b], ¬ y.IsLast := by
    intro y hy
    rcases List.mem_append.mp hy with hy | hy
    · exact hrs y hy
    · simp only [List.mem_singleton] at hy
      rw [hy]
      exact id
  have hg := (key ht hrs hu []).2
  have hg' := (key hx hrs' hu' []).2
  have hso := tallies_trace hm hnc hrd ht (start_good d pre).2 hrs (tallies_start hm hnc pre)
  have hn : next env (s.more [x]) = (.ok (.unknown b), t) := by
    obtain ⟨s1, h1, h2⟩ := hx.split
    have : s1 = s.more [x] := trace_det h1 (key ht hrs hu [x]).1
    rw [← this]
    cases h2 with
    | cons h3 h4 =>
      cases h4
      exact h3
  obtain ⟨rfl, n, ns, hs, hc, hmk⟩ := unknown_step hrd hg hso hu hst hn
  refine ⟨rfl, n, ns, hs, hc, ?_⟩
  have hmode : t.mode = s.mode := by rw [hmk.same]
  have hread := reads_on hg hg' hu hu' hmode hst post
  obtain ⟨f, rfl⟩ : ∃ f, fuel = rs.length + f := ⟨fuel - rs.length, by omega⟩
  have hmk' := hmk.more post
  obtain ⟨h1, h2⟩ := marks_run he f _ _ hmk'
  have htw : Twin True d.settings (s.more post) { s with iter := t.iter.more post } := ⟨hg.settings, _, s.log, rfl, fun _ => rfl⟩
  have hag : AgreeEnd True d.settings (run env f (s.more post)) (run env f { s with iter := t.iter.more post }) := by
    cases f with
    | zero => exact ⟨trivial, htw⟩
    | succ f =>
      have : AgreeClear True d.settings (next env (s.more post)) (next env { s with iter := t.iter.more post }) := by
        rcases hread with ⟨hm, e⟩ | ⟨hm, e⟩
        · exact same_iterNext env htw e hm
        · exact same_iterNextValue env htw e hm
      obtain ⟨a1, a2, a3⟩ := this
      exact run_from (R := Clear True d.settings) f (run_clear env f) a1 a2 a3
  have e1 := Trace.run (key ht hrs hu post).1 hrs (fuel := f)
  have e2 := Trace.run (key hx hrs' hu' post).1 hrs' (fuel := f)
  rw [List.append_assoc, List.singleton_append, List.length_append, List.length_singleton] at e2
  obtain ⟨S, hS⟩ : ∃ S, start d (pre ++ post) = (.ok (), S) := ⟨_, (start_good d _).1⟩
  obtain ⟨T, hT⟩ : ∃ T, start d (pre ++ b :: post) = (.ok (), T) := ⟨_, (start_good d _).1⟩
  rw [hS] at e1
  rw [hT] at e2
  simp only at e1 e2
  unfold parse
  rw [hS, hT]
  simp only
  rw [show rs.length + f + 1 = rs.length + 1 + f by omega, e1, e2]
  revert h1 h2 hag
  generalize run env f (s.more post) = y
  generalize run env f (t.more post) = z
  generalize run env f { s with iter := t.iter.more post } = w
  obtain ⟨y, s1⟩ := y
  obtain ⟨z, t1⟩ := z
  obtain ⟨w, t'⟩ := w
  rintro h1 h3 ⟨h4, h2⟩
  simp only at h1 h2 h3 h4
  rw [← h1] at h4
  have htop : AddedTo n.command n.unprocessed b (topLevel s1) (topLevel t1) := by
    obtain ⟨_, i, l, e, _⟩ := h2
    have : topLevel s1 = topLevel t' := by
      rw [e]
      rfl
    rw [this]
    exact topLevel_marks h3
  cases y <;> cases z <;> first
    | exact absurd h4 id
    | exact ⟨h4, t', h2, h3⟩
    | exact ⟨htop, t', h2, h3⟩

/-! ## What is reported as undefined -/

theorem trace_more {env : Env} {d : ParserData} (hrd : Ready d) (hnc : ∀ c : Command, c.Within d.command → Counter.requiresArgumentCount c.arguments = false)
    {pre : List Str} {rs : List IterResult} {s : PState} (ht : Trace env (start d pre).2 rs s) (hrs : ∀ x ∈ rs, ¬ x.IsLast) (hu : Unfinished s) (rest : List Str) :
    Trace env (start d (pre ++ rest)).2 rs (s.more rest) ∧ Good d s := by
  obtain ⟨a1, a2, a3⟩ := trace_full (Differs.refl env s.calls) rest hrd hnc ht (start_good d pre).2 hrs hu (Nat.le_refl _)
  have e1 : PState.full s.calls [] rest (start d pre).2 = (start d (pre ++ rest)).2 := by
    rw [start_more d (hnc _ .self) pre rest]
    unfold PState.full
    rw [if_pos a2]
  have e2 : s.full s.calls [] rest = s.more rest := by unfold PState.full; rw [if_pos (Nat.le_refl _)]
  rw [e1, e2] at a1
  exact ⟨a1, a3⟩

theorem nothing_of_reader {it : Iter} (h : it.Ok) (hr : it.reader = ⟨[], []⟩) : NothingLeft it := by
  obtain ⟨it', h1, _⟩ := it.remaining_spec h
  rw [hr] at h1
  exact ⟨it', h1⟩

/-- What is read when the line goes on with `x`. -/
theorem taken_next {d : ParserData} {s : PState} (hg : Good d s) (hl : NothingLeft s.iter) (hm : s.mode = .argumentsAndOptions) {x : Str} {y : Reading}
    (hy : (Reader.mk [] [x]).readIn d.settings.optionStyle = some y) :
    ∃ it, Taken (s.more [x]) (some y.flag) it ∧ it.Ok ∧ it.reader = y.afterFlag ∧ it.current = .ok x := by
  obtain ⟨m1, m2, m3⟩ := more_reader hg.iterOk hl [x]
  have hpfx : (s.more [x]).iter.pfx = stylePrefix d.settings.optionStyle := m2.trans hg.pfx
  obtain ⟨z, it, h1, h2, _⟩ := (s.more [x]).iter.next_ok m1
  have h3 := (s.more [x]).iter.next_spec m1
  rw [hpfx, show (s.more [x]).iter.reader = _ from m3] at h3
  rw [show (Reader.mk [] [x]).read (stylePrefix d.settings.optionStyle) = some y from hy] at h3
  obtain ⟨it', h4, h5, h6, h7, h8⟩ := h3
  rw [h1] at h4
  simp only [Outcome.ok.injEq, Prod.mk.injEq] at h4
  obtain ⟨rfl, rfl⟩ := h4
  obtain ⟨cur, hcur⟩ := it.current_ok (((s.more [x]).iter.next_weight h1).2 _ rfl).2
  have hcu := Iter.next_current m1 h1 hcur (by rw [m3])
  rw [m3] at hcu
  simp only [List.head?_cons, Option.some.injEq] at hcu
  subst hcu
  exact ⟨it, Or.inl ⟨hm, h1⟩, h2, h6, hcur⟩

/-- An undefined option is reported as such. -/
theorem option_reported {env : Env} {d : ParserData} (hig : d.settings.ignoreUndefinedOptions = true) {s : PState} (hg : Good d s) (hm : s.mode = .argumentsAndOptions)
    (hl : NothingLeft s.iter) {x : Str} (ha : Alone d.settings.optionStyle x) {y : Reading}
    (hy : (Reader.mk [] [x]).readIn d.settings.optionStyle = some y) (hf : IsFlag d.settings.optionStyle y.flag) (hu : lookup s y.flag = none) :
    ∃ t, next env (s.more [x]) = (.ok (.unknown x), t) ∧ UsedUp t := by
  obtain ⟨it, h1, h2, h3, hcur⟩ := taken_next hg hl hm hy
  have hol : s.mode = .argumentsAndOptions ∧ isOption y.flag s.settings.optionStyle = true := by
    refine ⟨hm, ?_⟩
    rw [hg.settings]
    exact (isOption_iff _ _).mpr hf
  have hpre : startsWithCs x y.flag = true := by
    rw [startsWithCs_iff]
    exact read_prefix hy
  have hrun := (processOption_unknown env y.flag x { s with iter := it } hg.ne h2 hu hcur).2 (by show s.settings.ignoreUndefinedOptions = true; rw [hg.settings, hig]) hpre
  have hrun' : next env (s.more [x]) = (.ok (.unknown x), { s with
      iter := it
      stack := headMap (fun n => { n with unprocessed := n.unprocessed ++ [x] }) s.stack }) := by
    rw [next_taken env (s.more [x]) _ it h1]
    unfold nextTail
    simp only
    refine (congrFun (if_pos hol) _).trans ?_
    exact hrun
  refine ⟨_, hrun', ?_⟩
  · refine ⟨Or.inl hm, nothing_of_reader h2 (h3.trans (read_alone_head ha hy)), fun h => ?_⟩
    have : s.mode = .argumentsOnly := h
    rw [hm] at this
    simp at this

/-- An argument too many is reported as such. -/
theorem argument_reported {env : Env} {d : ParserData} (hig : d.settings.ignoreUndefinedArguments = true) {s : PState} (hg : Good d s) (hu : UsedUp s)
    (hst : s.mode = .argumentsOnly → d.settings.optionStyle = .standard) (hc : s.command.commands = []) {k : Counter} (hk : s.counter.nextArgument = (none, k)) {x : Str}
    (hx : s.mode = .argumentsAndOptions → ¬ IsFlag d.settings.optionStyle x) (hf : findSibling s x = none) :
    ∃ t, next env (s.more [x]) = (.ok (.unknown x), t) ∧ UsedUp t := by
  have tail : ∀ {it : Iter}, Taken (s.more [x]) (some x) it → it.current = .ok x → next env (s.more [x]) = (.ok (.unknown x), { s with
      iter := it
      counter := k
      stack := headMap (fun n => { n with unprocessed := n.unprocessed ++ [x] }) s.stack }) := by
    intro it ht hcur
    rw [next_taken env (s.more [x]) _ it ht]
    unfold nextTail
    have h1 : ¬ (s.mode = .argumentsAndOptions ∧ isOption x s.settings.optionStyle = true) := by
      rintro ⟨h1, h2⟩
      rw [hg.settings] at h2
      exact hx h1 ((isOption_iff _ _).mp h2)
    have h2 : s.command.commands.isEmpty = true := by rw [hc]; rfl
    simp only
    refine (congrFun (if_neg h1) _).trans ?_
    refine (congrFun (if_pos h2) _).trans ?_
    have hcur' : ∀ s' : PState, s'.iter = it → iterCurrent s' = (.ok x, s') := by
      intro s' e
      unfold iterCurrent
      rw [e, hcur]
    unfold processArgument
    rw [get_bind, show findSibling { s.more [x] with iter := it } x = none from hf]
    simp only
    rw [show ({ s.more [x] with iter := it } : PState).counter.nextArgument = (none, k) from hk]
    simp only
    rw [modify_bind]
    refine (congrFun (if_pos (by show s.settings.ignoreUndefinedArguments = true; rw [hg.settings, hig])) _).trans ?_
    have hmb := modifyBack_run (fun n => { n with unprocessed := n.unprocessed ++ [x] }) { s with
      iter := it
      counter := k } hg.ne
    refine (bind_ok hmb).trans ?_
    rw [bind_ok (hcur' _ rfl)]
    rfl
  rcases hu.unfinished with hm | hm
  · have hy := read_text_whole (hx hm) []
    obtain ⟨it, h1, h2, h3, hcur⟩ := taken_next hg hu.left hm hy
    refine ⟨_, tail h1 hcur, Or.inl hm, nothing_of_reader h2 h3, fun h => ?_⟩
    have : s.mode = .argumentsOnly := h
    rw [hm] at this
    simp at this
  · obtain ⟨i, h2⟩ := hu.value hm
    have e := nextValue_after hg.iterOk (by rw [hg.pfx, hst hm]; rfl) h2 [x]
    simp only [List.head?_cons, List.cons_ne_nil, if_false] at e
    refine ⟨_, tail (Or.inr ⟨hm, e⟩) rfl, Or.inr hm, ⟨_, rfl⟩, fun _ => ⟨_, rfl⟩⟩

end Parser
end
end Argos
