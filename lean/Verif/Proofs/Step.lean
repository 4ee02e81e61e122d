import Verif.Proofs.Weight
import Verif.Proofs.Store
import Verif.Proofs.InitTree

/-! # One step of the parser, case by case -/

namespace Argos
open Spec

namespace ParserM

theorem bind_apply {α β : Type} (m : ParserM α) (f : α → ParserM β) (s : PState) :
    (m >>= f) s = match m s with
      | (.ok a, s') => f a s'
      | (.throw msg, s') => (.throw msg, s')
      | (.outOfRange, s') => (.outOfRange, s')
      | (.exit c, s') => (.exit c, s')
      | (.ub, s') => (.ub, s')
      | (.diverges, s') => (.diverges, s') := rfl

theorem bind_ok {α β : Type} {m : ParserM α} {f : α → ParserM β} {s s' : PState} {a : α}
    (h : m s = (.ok a, s')) : (m >>= f) s = f a s' := by rw [bind_apply, h]

theorem bind_throw {α β : Type} {m : ParserM α} {f : α → ParserM β} {s s' : PState} {msg : Str}
    (h : m s = (.throw msg, s')) : (m >>= f) s = (.throw msg, s') := by rw [bind_apply, h]

theorem bind_exit {α β : Type} {m : ParserM α} {f : α → ParserM β} {s s' : PState} {c : Int}
    (h : m s = (.exit c, s')) : (m >>= f) s = (.exit c, s') := by rw [bind_apply, h]

theorem pure_apply {α : Type} (a : α) (s : PState) : (pure a : ParserM α) s = (.ok a, s) := rfl
theorem get_apply (s : PState) : ParserM.get s = (.ok s, s) := rfl
theorem modify_apply (f : PState → PState) (s : PState) : ParserM.modify f s = (.ok (), f s) := rfl
theorem lift_apply {α : Type} (x : Outcome α) (s : PState) : (ParserM.lift x : ParserM α) s = (x, s) := rfl

theorem get_bind {β : Type} (f : PState → ParserM β) (s : PState) : (ParserM.get >>= f) s = f s s := rfl
theorem modify_bind {β : Type} (g : PState → PState) (f : Unit → ParserM β) (s : PState) :
    (ParserM.modify g >>= f) s = f () (g s) := rfl
theorem pure_bind' {α β : Type} (a : α) (f : α → ParserM β) (s : PState) :
    ((pure a : ParserM α) >>= f) s = f a s := rfl

end ParserM

namespace Parser
open ParserM

/-- A change of the innermost node. -/
def headMap (f : PNode → PNode) : List PNode → List PNode
  | [] => []
  | n :: ns => f n :: ns

theorem modifyBack_run (f : PNode → PNode) (s : PState) (h : s.stack ≠ []) :
    modifyBack f s = (.ok (), { s with stack := headMap f s.stack }) := by
  unfold modifyBack
  cases hs : s.stack with
  | nil => exact absurd hs h
  | cons n ns => simp [headMap]

theorem back_run {s : PState} {n : PNode} {ns : List PNode} (h : s.stack = n :: ns) : back s = (.ok n, s) := by
  simp [back, h]

theorem iterNext_run {s : PState} {a : Option Str} {it : Iter} (h : s.iter.next = .ok (a, it)) :
    iterNext s = (.ok a, { s with iter := it }) := by simp [iterNext, h]

theorem iterNextValue_run {s : PState} {a : Option Str} {it : Iter} (h : s.iter.nextValue = .ok (a, it)) :
    iterNextValue s = (.ok a, { s with iter := it }) := by simp [iterNextValue, h]

/-- The state after the remaining arguments have been copied. -/
def copyState (it : Iter) (s : PState) : PState :=
  { s with iter := it, stack := headMap (fun n => { n with unprocessed := n.unprocessed ++ s.iter.reader.unread }) s.stack }

/-- The iterator after its remaining arguments were taken. -/
structure Rest (it it' : Iter) : Prop where
  ok : it'.Ok
  reader : it'.reader = ⟨[], it.reader.unread⟩
  pfx : it'.pfx = it.pfx

theorem copyRemaining_run (s : PState) (h : s.stack ≠ []) (hi : s.iter.Ok) :
    ∃ it, Rest s.iter it ∧ copyRemaining s = (.ok (), copyState it s) := by
  obtain ⟨it', h1, h2, h3, h4⟩ := s.iter.remaining_spec hi
  refine ⟨it', ⟨h2, h3, h4⟩, ?_⟩
  unfold copyRemaining
  have : iterRemaining s = (.ok s.iter.reader.unread, { s with iter := it' }) := by simp [iterRemaining, h1]
  rw [bind_ok this]
  exact modifyBack_run _ _ h

/-- The state after an error message. -/
def errLog (msg : Str) (s : PState) : PState := { s with log := s.log ++ [.error s.command msg] }

/-- The state after an error, with `auto_exit` off. -/
def errState (msg : Str) (it : Iter) (s : PState) : PState :=
  { copyState it (errLog msg s) with
    stack := (copyState it (errLog msg s)).stack.map fun n => { n with code := .failure }
    mode := .error }

/-- How a call of `error(msg)` ends. -/
inductive ErrorRun (msg : Str) (s : PState) {α : Type} (a : α) : Outcome α → PState → Prop
  | exit : s.settings.autoExit = true → ErrorRun msg s a (.exit s.settings.errorExitCode) (errLog msg s)
  | error {it : Iter} : s.settings.autoExit = false → Rest s.iter it → ErrorRun msg s a (.ok a) (errState msg it s)

theorem error_run (msg : Str) (s : PState) (h : s.stack ≠ []) (hi : s.iter.Ok) :
    (s.settings.autoExit = true ∧ error msg s = (.exit s.settings.errorExitCode, errLog msg s)) ∨
    (s.settings.autoExit = false ∧ ∃ it, Rest s.iter it ∧ error msg s = (.ok (), errState msg it s)) := by
  unfold error
  have he : emit (.error s.command msg) s = (.ok (), errLog msg s) := rfl
  cases ha : s.settings.autoExit with
  | true =>
    left
    refine ⟨rfl, ?_⟩
    rw [get_bind, bind_ok he, ha]
    rfl
  | false =>
    right
    obtain ⟨it, h1, h2⟩ := copyRemaining_run (errLog msg s) h hi
    refine ⟨rfl, it, h1, ?_⟩
    rw [get_bind, bind_ok he, ha]
    simp only [Bool.false_eq_true, if_false]
    rw [bind_ok h2]
    rfl

/-- `error(msg)` followed by a return. -/
theorem error_then {α : Type} (msg : Str) (a : α) (s : PState) (h : s.stack ≠ []) (hi : s.iter.Ok) :
    ErrorRun msg s a ((error msg >>= fun _ => pure a : ParserM α) s).1
      ((error msg >>= fun _ => pure a : ParserM α) s).2 := by
  rcases error_run msg s h hi with ⟨h1, h2⟩ | ⟨h1, it, h2, h3⟩
  · rw [bind_exit h2]; exact .exit h1
  · rw [bind_ok h3]; exact .error h1 h2

/-- The state after a successful check. -/
def succState (s : PState) : PState :=
  { s with mode := .done, stack := s.stack.map fun n => { n with code := .success } }

/-- The mandatory options of the active command have values. -/
def MandatoryOk (n : PNode) (c : Command) : Prop :=
  ∀ o ∈ c.options, o.optional = false → n.values.has o.valueId = true

/-- Why the check at the end of the command line fails. -/
inductive CheckFails (s : PState) : Str → Prop
  | mandatory {n : PNode} {o : OptData} : s.stack.head? = some n → o ∈ s.command.options →
      o.optional = false → n.values.has o.valueId = false →
      CheckFails s (b!"Mandatory option is missing: " ++ joinFlags o.flags)
  | noCommand {n : PNode} : s.stack.head? = some n → MandatoryOk n s.command →
      s.command.requireSubcommand = some true → n.subs = [] → CheckFails s b!"No command was given."
  | tooFew {n : PNode} : s.stack.head? = some n → MandatoryOk n s.command →
      (s.command.requireSubcommand = some true → n.subs ≠ []) → s.counter.isComplete = false →
      CheckFails s ((if (Counter.getMinMaxCount s.command.arguments).1 = (Counter.getMinMaxCount s.command.arguments).2
                then b!"Too few arguments. Expected "
                else b!"Too few arguments. Expected at least ")
          ++ natToStr (Counter.getMinMaxCount s.command.arguments).1 ++ b!", received " ++ natToStr s.counter.counter ++ b!".")

/-- When the check succeeds. -/
structure CheckOk (s : PState) : Prop where
  mandatory : ∀ n, s.stack.head? = some n → MandatoryOk n s.command
  subcommand : ∀ n, s.stack.head? = some n → s.command.requireSubcommand = some true → n.subs ≠ []
  complete : s.counter.isComplete = true

/-- What the parser relies on in the active command. -/
structure CmdReady (c : Command) : Prop where
  require : ∃ r, c.requireSubcommand = some r
  flags : ∀ o ∈ c.options, o.flags ≠ []

theorem hasAllMandatory_run (vs : Values) (os : List OptData) (s : PState) (h : s.stack ≠ []) (hi : s.iter.Ok)
    (hf : ∀ o ∈ os, o.flags ≠ []) :
    ((∀ o ∈ os, o.optional = false → vs.has o.valueId = true) ∧ hasAllMandatory vs os s = (.ok true, s)) ∨
    (∃ o ∈ os, o.optional = false ∧ vs.has o.valueId = false ∧
      ErrorRun (b!"Mandatory option is missing: " ++ joinFlags o.flags) s false
        (hasAllMandatory vs os s).1 (hasAllMandatory vs os s).2) := by
  induction os with
  | nil => left; exact ⟨by simp, rfl⟩
  | cons o os ih =>
    unfold hasAllMandatory
    by_cases hc : (!o.optional && !vs.has o.valueId) = true
    · right
      simp only [Bool.and_eq_true, Bool.not_eq_true'] at hc
      refine ⟨o, by simp, hc.1, hc.2, ?_⟩
      have : o.flags.isEmpty = false := by
        cases hfl : o.flags with
        | nil => exact absurd hfl (hf o (by simp))
        | cons _ _ => rfl
      simp only [hc.1, hc.2, Bool.not_false, Bool.and_self, if_true, this, Bool.false_eq_true, if_false]
      exact error_then _ false s h hi
    · rw [if_neg hc]
      rcases ih (fun o' ho' => hf o' (by simp [ho'])) with ⟨h1, h2⟩ | ⟨o', h1, h2⟩
      · left
        refine ⟨?_, h2⟩
        intro o' ho' hopt
        rcases List.mem_cons.mp ho' with rfl | ho'
        · simp only [hopt, Bool.not_false, Bool.true_and, Bool.not_eq_true', Bool.not_eq_false] at hc
          exact hc
        · exact h1 o' ho' hopt
      · right
        exact ⟨o', by simp [h1], h2⟩

/-- How the check at the end of the command line ends. -/
inductive CheckRun (s : PState) : Outcome Bool → PState → Prop
  | ok : CheckOk s → CheckRun s (.ok true) (succState s)
  | fails {msg : Str} {o : Outcome Bool} {s' : PState} : CheckFails s msg → ErrorRun msg s false o s' → CheckRun s o s'

theorem checkCounts_run (s : PState) (hi : s.iter.Ok) {n : PNode} {ns : List PNode} (hs : s.stack = n :: ns)
    (hr : CmdReady s.command) : CheckRun s (checkCounts s).1 (checkCounts s).2 := by
  have hne : s.stack ≠ [] := by rw [hs]; simp
  have hhead : s.stack.head? = some n := by rw [hs]; rfl
  unfold checkCounts
  rw [bind_ok (back_run hs), get_bind]
  rcases hasAllMandatory_run n.values s.command.options s hne hi hr.flags with ⟨h1, h2⟩ | ⟨o, h1, h2, h3, h4⟩
  · rw [bind_ok h2]
    simp only [Bool.not_true, Bool.false_eq_true, if_false]
    obtain ⟨r, hreq⟩ := hr.require
    rw [hreq]
    simp only
    by_cases hc : (r && n.subs.isEmpty) = true
    · rw [if_pos hc]
      simp only [Bool.and_eq_true, List.isEmpty_iff] at hc
      exact .fails (.noCommand hhead h1 (by rw [hreq, hc.1]) hc.2) (error_then _ false s hne hi)
    · rw [if_neg hc]
      have hsub : s.command.requireSubcommand = some true → n.subs ≠ [] := by
        intro hr' he
        rw [hreq, Option.some.injEq] at hr'
        apply hc
        simp [hr', he]
      cases hcomp : s.counter.isComplete with
      | true =>
        simp only [if_true]
        rw [modify_bind, pure_apply]
        refine .ok ⟨?_, ?_, hcomp⟩
        · intro n' hn'; rw [hhead, Option.some.injEq] at hn'; rw [← hn']; exact h1
        · intro n' hn'; rw [hhead, Option.some.injEq] at hn'; rw [← hn']; exact hsub
      | false =>
        simp only [Bool.false_eq_true, if_false]
        exact .fails (.tooFew hhead h1 hsub hcomp) (error_then _ false s hne hi)
  · generalize hm : hasAllMandatory n.values s.command.options s = r at h4
    obtain ⟨o', s'⟩ := r
    simp only at h4
    have hf := CheckFails.mandatory hhead h1 h2 h3
    cases h4 with
    | exit ha =>
      rw [bind_exit hm]
      exact .fails hf (.exit ha)
    | error ha hrest =>
      rw [bind_ok hm]
      exact .fails hf (.error ha hrest)

/-! ### Callbacks -/

/-- What a callback can change. -/
structure CallFrame (s s' : PState) : Prop where
  settings : s'.settings = s.settings
  command : s'.command = s.command
  mode : s'.mode = s.mode
  iterOk : s.iter.Ok → s'.iter.Ok
  pfx : s'.iter.pfx = s.iter.pfx
  args : s.iter.args ≠ [] → s'.iter.args ≠ []
  stack : ∀ n ns, s.stack = n :: ns → ∃ ws : List Write, s'.stack = { n with values := ws.foldl Write.exec n.values } :: ns
  counter : s'.counter = s.counter ∨ (Counter.requiresArgumentCount s.command.arguments = true ∧
    ∃ m k, s'.counter = Counter.ofArgsN s.command.arguments m k)
  log : ∃ es, s'.log = s.log ++ es ∧ ∀ e ∈ es, ∀ c, e ≠ .help c

theorem sameStack {l : List PNode} (n : PNode) (ns : List PNode) (h : l = n :: ns) :
    ∃ ws : List Write, l = { n with values := ws.foldl Write.exec n.values } :: ns := by
  refine ⟨[], ?_⟩
  rw [h]
  cases n; rfl

theorem CallFrame.refl (s : PState) : CallFrame s s :=
  ⟨rfl, rfl, rfl, id, rfl, id, sameStack, Or.inl rfl, [], by simp, by simp⟩

theorem CallFrame.trans {s t u : PState} (h1 : CallFrame s t) (h2 : CallFrame t u) : CallFrame s u := by
  refine ⟨h2.settings.trans h1.settings, h2.command.trans h1.command, h2.mode.trans h1.mode,
    fun h => h2.iterOk (h1.iterOk h), h2.pfx.trans h1.pfx, fun h => h2.args (h1.args h), ?_, ?_, ?_⟩
  · intro n ns hn
    obtain ⟨w1, e1⟩ := h1.stack n ns hn
    obtain ⟨w2, e2⟩ := h2.stack _ _ e1
    exact ⟨w1 ++ w2, by rw [e2]; simp⟩
  · rcases h2.counter with h | ⟨h, m, k, e⟩
    · rw [h]; exact h1.counter
    · rw [h1.command] at h e; exact Or.inr ⟨h, m, k, e⟩
  · obtain ⟨e1, l1, f1⟩ := h1.log
    obtain ⟨e2, l2, f2⟩ := h2.log
    refine ⟨e1 ++ e2, by rw [l2, l1, List.append_assoc], ?_⟩
    intro e he
    rcases List.mem_append.mp he with he | he
    · exact f1 e he
    · exact f2 e he

theorem CallFrame.stack_ne {s t : PState} (h : CallFrame s t) (hs : s.stack ≠ []) : t.stack ≠ [] := by
  cases hn : s.stack with
  | nil => exact absurd hn hs
  | cons n ns => obtain ⟨ws, e⟩ := h.stack n ns hn; rw [e]; simp

theorem BuilderOp.apply_exec {n n' : PNode} {op : BuilderOp} {k : Option Nat} (h : op.apply n = .ok (n', k)) :
    ∃ w : Write, n' = { n with values := w.exec n.values } := by
  cases op <;> simp only [BuilderOp.apply, Outcome.bind_eq_ok, Outcome.pure_eq, Outcome.ok.injEq, Prod.mk.injEq] at h
  · obtain ⟨id, e, rfl, _⟩ := h; exact ⟨.append _ _ _, rfl⟩
  · obtain ⟨rfl, _⟩ := h; exact ⟨.append _ _ _, rfl⟩
  · obtain ⟨id, e, rfl, _⟩ := h; exact ⟨.assign _ _ _, rfl⟩
  · obtain ⟨rfl, _⟩ := h; exact ⟨.assign _ _ _, rfl⟩
  · obtain ⟨id, e, rfl, _⟩ := h; exact ⟨.clear _, rfl⟩
  · obtain ⟨rfl, _⟩ := h; exact ⟨.clear _, rfl⟩

theorem getValueId_cases (ids : List IdEntry) (name : Str) :
    (∃ v, getValueId ids name = .ok v) ∨ getValueId ids name = .throw (b!"Unknown value: " ++ name) := by
  unfold getValueId
  split
  · split
    · exact Or.inl ⟨_, rfl⟩
    · exact Or.inr rfl
  · exact Or.inr rfl

theorem BuilderOp.apply_cases (n : PNode) (op : BuilderOp) :
    (∃ r, op.apply n = .ok r) ∨ ∃ m, op.apply n = .throw m := by
  cases op <;> simp only [BuilderOp.apply, Outcome.pure_eq]
  case append name v =>
    rcases getValueId_cases n.ids name with ⟨v, h⟩ | h <;> rw [h] <;> simp
  case assign name v =>
    rcases getValueId_cases n.ids name with ⟨v, h⟩ | h <;> rw [h] <;> simp
  case clear name =>
    rcases getValueId_cases n.ids name with ⟨v, h⟩ | h <;> rw [h] <;> simp
  all_goals exact Or.inl ⟨_, rfl⟩

/-- The builder calls of a callback change the values of the innermost node only. -/
theorem applyOps_run (vid : Nat) (ops : List BuilderOp) : ∀ (t : Bool) (s : PState), s.stack ≠ [] →
    ((∃ b s', applyOps vid ops t s = (.ok b, s') ∧ CallFrame s s' ∧ s'.iter = s.iter ∧ s'.counter = s.counter ∧
        s'.log = s.log ∧ s'.calls = s.calls) ∨
      (∃ m s', applyOps vid ops t s = (.throw m, s') ∧ CallFrame s s' ∧ s'.iter = s.iter ∧ s'.counter = s.counter ∧
        s'.log = s.log ∧ s'.calls = s.calls)) := by
  induction ops with
  | nil => intro t s _; left; exact ⟨t, s, rfl, CallFrame.refl s, rfl, rfl, rfl, rfl⟩
  | cons op ops ih =>
    intro t s hs
    unfold applyOps
    cases hn : s.stack with
    | nil => exact absurd hn hs
    | cons n ns =>
      simp only
      rcases BuilderOp.apply_cases n op with ⟨⟨n', k⟩, hr⟩ | ⟨m, hr⟩
      · rw [hr]
        simp only
        obtain ⟨w, hw⟩ := BuilderOp.apply_exec hr
        have hf : CallFrame s { s with stack := n' :: ns } := by
          refine ⟨rfl, rfl, rfl, id, rfl, id, ?_, Or.inl rfl, [], by simp, by simp⟩
          intro n1 ns1 h1
          rw [hn] at h1
          simp only [List.cons.injEq] at h1
          refine ⟨[w], ?_⟩
          simp only [← h1.1, ← h1.2, hw, List.foldl_cons, List.foldl_nil]
        rcases ih (t || k == some vid) { s with stack := n' :: ns } (by simp) with
          ⟨b, s', h1, h2, h3, h4, h5, h6⟩ | ⟨m, s', h1, h2, h3, h4, h5, h6⟩
        · left; exact ⟨b, s', h1, hf.trans h2, h3, h4, h5, h6⟩
        · right; exact ⟨m, s', h1, hf.trans h2, h3, h4, h5, h6⟩
      · rw [hr]
        right
        exact ⟨m, s, rfl, CallFrame.refl s, rfl, rfl, rfl, rfl⟩

theorem Iter.insert_args (it it' : Iter) (new : List Str) (h : it.insert new = .ok it') (hne : it.args ≠ []) :
    it'.args ≠ [] := by
  cases it with
  | std it =>
    simp only [Iter.insert, StdIt.insert, Outcome.bind_eq_ok, Outcome.pure_eq, Outcome.ok.injEq] at h
    obtain ⟨i1, ⟨i0, h0, h1⟩, rfl⟩ := h
    have h0' : i0.args ≠ [] := by
      unfold StdIt.splitConcatenatedFlags at h0
      simp only [Iter.args] at hne
      split at h0
      · simp only [Outcome.ok.injEq] at h0; rw [← h0]; exact hne
      · split at h0
        · simp at h0
        · simp only [Outcome.ok.injEq] at h0; rw [← h0]; exact hne
      · split at h0
        · simp at h0
        · split at h0
          · simp only [Outcome.ok.injEq] at h0; rw [← h0]; exact hne
          · split at h0
            · simp at h0
            · split at h0
              · simp only [Outcome.ok.injEq] at h0; rw [← h0]; exact hne
              · simp only [Outcome.ok.injEq] at h0; rw [← h0]; simp
    split at h1
    · simp only [Outcome.ok.injEq] at h1
      rw [← h1]
      simp only [Iter.args, ne_eq, List.append_eq_nil_iff, not_and]
      intro _; exact h0'
    · split at h1
      · simp at h1
      · simp only [Outcome.ok.injEq] at h1
        rw [← h1]; simp [Iter.args]
  | opt it =>
    simp only [Iter.insert, OptIt.insert, Outcome.bind_eq_ok, Outcome.pure_eq, Outcome.ok.injEq] at h
    obtain ⟨i1, h1, rfl⟩ := h
    split at h1
    · simp only [Outcome.ok.injEq] at h1
      rw [← h1]
      simp only [Iter.args, ne_eq, List.append_eq_nil_iff, not_and]
      intro _; exact hne
    · split at h1
      · simp at h1
      · simp only [Outcome.ok.injEq] at h1
        rw [← h1]; simp [Iter.args]

/-- `update_arguments` always returns. -/
theorem updateArguments_run (args : List Str) (s : PState) (hi : s.iter.Ok) :
    ∃ s', updateArguments args s = (.ok (), s') ∧ CallFrame s s' ∧ s'.log = s.log ∧ s'.calls = s.calls ∧
      s'.stack = s.stack ∧ (args = [] → s' = s) ∧
      (args ≠ [] → s'.iter.reader = ⟨[], args ++ s.iter.reader.unread⟩) := by
  unfold updateArguments
  cases args with
  | nil => exact ⟨s, rfl, CallFrame.refl s, rfl, rfl, rfl, fun _ => rfl, fun h => absurd rfl h⟩
  | cons a as =>
    simp only [List.isEmpty_cons, Bool.false_eq_true, if_false]
    obtain ⟨it', h1, h2, h3, h4⟩ := s.iter.insert_spec hi (a :: as)
    have hins : iterInsert (a :: as) s = (.ok (), { s with iter := it' }) := by simp [iterInsert, h1]
    have hargs := Iter.insert_args s.iter it' (a :: as) h1
    rw [bind_ok hins, get_bind]
    cases hq : Counter.requiresArgumentCount s.command.arguments with
    | false =>
      refine ⟨{ s with iter := it' }, by simp [pure_apply], ⟨rfl, rfl, rfl, fun _ => h2, h4, hargs, ?_, Or.inl rfl, [], by simp, by simp⟩,
        rfl, rfl, rfl, fun h => by simp at h, fun _ => h3⟩
      exact sameStack
    | true =>
      obtain ⟨m, hm⟩ := countArguments_ok { s with iter := it' } h2
      refine ⟨{ s with iter := it', counter := Counter.ofArgsN s.command.arguments (s.counter.counter + m) s.counter.counter },
        ?_, ⟨rfl, rfl, rfl, fun _ => h2, h4, hargs, ?_, Or.inr ⟨hq, _, _, rfl⟩, [], by simp, by simp⟩,
        rfl, rfl, rfl, fun h => by simp at h, fun _ => h3⟩
      · simp only [Bool.not_true, Bool.false_eq_true, if_false]
        rw [bind_ok (by rw [lift_apply, hm])]
        rfl
      · exact sameStack

/-- How callbacks end. -/
inductive CallRun (s : PState) : Outcome (Option Str) → PState → Prop
  | ok {v : Option Str} {s' : PState} : CallFrame s s' → CallRun s (.ok v) s'
  | throw {m : Str} {s' : PState} : CallFrame s s' → CallRun s (.throw m) s'
  | exit {s' : PState} : CallFrame s s' → s.settings.autoExit = true → CallRun s (.exit s.settings.errorExitCode) s'

/-- The state when a callback is entered. -/
def called (cb : Nat) (view : ViewRef) (value : Option Str) (seen : Values) (s : PState) : PState :=
  { s with calls := s.calls + 1, log := s.log ++ [.callback cb view value seen] }

theorem called_frame (cb : Nat) (view : ViewRef) (value : Option Str) (seen : Values) (s : PState) :
    CallFrame s (called cb view value seen s) :=
  ⟨rfl, rfl, rfl, id, rfl, id, sameStack, Or.inl rfl, [.callback cb view value seen], rfl, by simp⟩

/-- The values stored in the active command. -/
def storedValues (s : PState) : Values := (s.stack.head?.map (·.values)).getD []

theorem runCallback_run (env : Env) (cb : Nat) (view : ViewRef) (vid : Nat) (stored : Bool) (value : Option Str)
    (s : PState) (hs : s.stack ≠ []) (hi : s.iter.Ok) :
    CallRun s (runCallback env cb view vid stored value s).1 (runCallback env cb view vid stored value s).2 ∧
    (∀ v s', runCallback env cb view vid stored value s = (.ok v, s') →
      s'.log = s.log ++ [.callback cb view value (storedValues s)] ∧ s'.calls = s.calls + 1 ∧ (v = value ∨ v = none)) := by
  cases hn : s.stack with
  | nil => exact absurd hn hs
  | cons n ns =>
    unfold runCallback
    rw [bind_ok (back_run hn), get_bind]
    generalize env.callback cb s.calls view value n = r
    have hc := called_frame cb view value n.values s
    have hcs : (called cb view value n.values s).stack ≠ [] := hs
    show CallRun s ((applyOps vid r.ops false >>= _ : ParserM (Option Str)) (called cb view value n.values s)).1
      ((applyOps vid r.ops false >>= _ : ParserM (Option Str)) (called cb view value n.values s)).2 ∧
      ∀ v s', ((applyOps vid r.ops false >>= _ : ParserM (Option Str)) (called cb view value n.values s)) = (.ok v, s') → _
    rcases applyOps_run vid r.ops false (called cb view value n.values s) hcs with
      ⟨b, s1, h1, h2, h3, h4, h5, h6⟩ | ⟨m, s1, h1, h2, h3, h4, h5, h6⟩
    · rw [bind_ok h1]
      have hs1 := (hc.trans h2).stack_ne hs
      have hi1 : s1.iter.Ok := by rw [h3]; exact hi
      cases hfin : r.fin with
      | throws m =>
        simp only [lift_apply]
        exact ⟨.throw (hc.trans h2), by intro v s' he; simp at he⟩
      | error m =>
        simp only
        cases hn1 : s1.stack with
        | nil => exact absurd hn1 hs1
        | cons n1 ns1 =>
          have hframe : CallFrame s1 { s1 with log := s1.log ++ [.error n1.command m] } :=
            ⟨rfl, rfl, rfl, id, rfl, id, sameStack, Or.inl rfl, [_], rfl, by simp⟩
          have hset : s1.settings = s.settings := (hc.trans h2).settings
          unfold builderError
          cases ha : s1.settings.autoExit with
          | true =>
            have : (do
                let n ← back
                emit (.error n.command m)
                let s ← get
                if s.settings.autoExit then lift (.exit s.settings.errorExitCode)
                else lift (.throw b!"Error while parsing arguments.") : ParserM Unit) s1 =
                (.exit s1.settings.errorExitCode, { s1 with log := s1.log ++ [.error n1.command m] }) := by
              rw [bind_ok (back_run hn1)]
              unfold emit
              rw [modify_bind, get_bind]
              simp [ha, lift_apply]
            have he : s1.settings.errorExitCode = s.settings.errorExitCode := by rw [hset]
            rw [bind_exit this, he]
            exact ⟨.exit ((hc.trans h2).trans hframe) (by rw [← hset]; exact ha), by intro v s' he; simp at he⟩
          | false =>
            have : (do
                let n ← back
                emit (.error n.command m)
                let s ← get
                if s.settings.autoExit then lift (.exit s.settings.errorExitCode)
                else lift (.throw b!"Error while parsing arguments.") : ParserM Unit) s1 =
                (.throw b!"Error while parsing arguments.", { s1 with log := s1.log ++ [.error n1.command m] }) := by
              rw [bind_ok (back_run hn1)]
              unfold emit
              rw [modify_bind, get_bind]
              simp [ha, lift_apply]
            rw [bind_throw this]
            exact ⟨.throw ((hc.trans h2).trans hframe), by intro v s' he; simp at he⟩
      | returns =>
        simp only
        obtain ⟨s2, g1, g2, g3, g4, _⟩ := updateArguments_run r.newArguments s1 hi1
        rw [bind_ok g1, pure_apply]
        refine ⟨.ok ((hc.trans h2).trans g2), ?_⟩
        intro v s' he
        simp only [Prod.mk.injEq, Outcome.ok.injEq] at he
        obtain ⟨e1, e2⟩ := he
        subst e2
        refine ⟨by rw [g3, h5]; simp [called, storedValues, hn], by rw [g4, h6]; rfl, ?_⟩
        rw [← e1]
        split
        · exact Or.inr rfl
        · exact Or.inl rfl
    · rw [bind_throw h1]
      exact ⟨.throw (hc.trans h2), by intro v s' he; simp at he⟩

/-- The callback of a definition and the parser-wide callback, one after the other. -/
def calls (env : Env) (cb : Option Nat) (sel : ParserSettings → Option Nat) (view : ViewRef) (vid : Nat)
    (stored : Bool) (value : Option Str) : ParserM (Option Str) := do
  let v ← runCallbackOpt env cb view vid stored value
  let s ← get
  runCallbackOpt env (sel s.settings) view vid stored v

/-- The event of an optional callback. -/
def callEvents (cb : Option Nat) (view : ViewRef) (value : Option Str) (seen : Values) : List Event :=
  match cb with
  | none => []
  | some cb => [.callback cb view value seen]

theorem runCallbackOpt_run (env : Env) (cb : Option Nat) (view : ViewRef) (vid : Nat) (stored : Bool) (value : Option Str)
    (s : PState) (hs : s.stack ≠ []) (hi : s.iter.Ok) :
    CallRun s (runCallbackOpt env cb view vid stored value s).1 (runCallbackOpt env cb view vid stored value s).2 ∧
    (∀ v s', runCallbackOpt env cb view vid stored value s = (.ok v, s') →
      s'.log = s.log ++ callEvents cb view value (storedValues s) ∧ (v = value ∨ v = none)) := by
  unfold runCallbackOpt
  cases cb with
  | none =>
    refine ⟨.ok (CallFrame.refl s), ?_⟩
    intro v s' h
    simp only [pure_apply, Prod.mk.injEq, Outcome.ok.injEq] at h
    obtain ⟨rfl, rfl⟩ := h
    exact ⟨by simp [callEvents], Or.inl rfl⟩
  | some cb =>
    obtain ⟨h1, h2⟩ := runCallback_run env cb view vid stored value s hs hi
    refine ⟨h1, ?_⟩
    intro v s' h
    obtain ⟨a, _, b⟩ := h2 v s' h
    exact ⟨a, b⟩

theorem calls_run (env : Env) (cb : Option Nat) (sel : ParserSettings → Option Nat) (view : ViewRef) (vid : Nat)
    (stored : Bool) (value : Option Str) (s : PState) (hs : s.stack ≠ []) (hi : s.iter.Ok) :
    CallRun s (calls env cb sel view vid stored value s).1 (calls env cb sel view vid stored value s).2 ∧
    (∀ v s', calls env cb sel view vid stored value s = (.ok v, s') →
      ∃ v1 seen, (v1 = value ∨ v1 = none) ∧ (v = v1 ∨ v = none) ∧ (cb = none → v1 = value ∧ seen = storedValues s) ∧
        s'.log = s.log ++ callEvents cb view value (storedValues s) ++ callEvents (sel s.settings) view v1 seen) := by
  unfold calls
  obtain ⟨h1, h2⟩ := runCallbackOpt_run env cb view vid stored value s hs hi
  generalize hr : runCallbackOpt env cb view vid stored value s = r at h1 h2
  obtain ⟨o, s1⟩ := r
  simp only at h1 h2
  cases h1 with
  | ok hf =>
    rename_i v1
    rw [bind_ok hr, get_bind]
    obtain ⟨g1, g2⟩ := runCallbackOpt_run env (sel s1.settings) view vid stored v1 s1 (hf.stack_ne hs) (hf.iterOk hi)
    obtain ⟨l1, e1⟩ := h2 v1 s1 rfl
    constructor
    · generalize runCallbackOpt env (sel s1.settings) view vid stored v1 s1 = r2 at g1
      obtain ⟨o2, s2⟩ := r2
      simp only at g1 ⊢
      cases g1 with
      | ok hf2 => exact .ok (hf.trans hf2)
      | throw hf2 => exact .throw (hf.trans hf2)
      | exit hf2 ha => rw [hf.settings]; exact .exit (hf.trans hf2) (by rw [← hf.settings]; exact ha)
    · intro v s' hv
      obtain ⟨l2, e2⟩ := g2 v s' hv
      refine ⟨v1, storedValues s1, e1, e2, ?_, ?_⟩
      · intro hnone
        subst hnone
        simp only [runCallbackOpt, pure_apply, Prod.mk.injEq, Outcome.ok.injEq] at hr
        exact ⟨hr.1.symm, by rw [hr.2]⟩
      · rw [l2, l1, hf.settings]
  | throw hf => rw [bind_throw hr]; exact ⟨.throw hf, by intro v s' h; simp at h⟩
  | exit hf ha => rw [bind_exit hr]; exact ⟨.exit hf ha, by intro v s' h; simp at h⟩

end Parser
end Argos
