import Verif.Proofs.Step
import Verif.Spec.Trace

/-! # The cases of a call of `next` -/

namespace Argos
open Spec

namespace Parser
open ParserM

/-! ### Options -/

/-- The option reads its value from the command line. -/
def TakesValue (o : OptData) : Prop := (o.operation = .assign ∨ o.operation = .append) ∧ o.constant = []

/-- The change that an option makes to the stored values, given its value. -/
def optWrite (o : OptData) (v : Str) : Option Write :=
  match o.operation with
  | .assign => some (.assign o.valueId v o.argumentId)
  | .append => some (.append o.valueId v o.argumentId)
  | .clear => some (.clear o.valueId)
  | .none => none

/-- A change of the values of the innermost node. -/
def storeState (w : Option Write) (s : PState) : PState :=
  match w with
  | none => s
  | some w => { s with stack := headMap (fun n => { n with values := w.exec n.values }) s.stack }

/-- How the operation of an option ends: with the value and whether it is a view of a stored one. -/
inductive OpRun (o : OptData) (flag : Str) (s : PState) : Outcome (Option (Str × Bool)) → PState → Prop
  | plain : ¬ TakesValue o → OpRun o flag s (.ok (some ([], false))) (storeState (optWrite o o.constant) s)
  | value {v : Str} {it : Iter} : TakesValue o → s.iter.nextValue = .ok (some v, it) →
      OpRun o flag s (.ok (some (v, true))) (storeState (optWrite o v) { s with iter := it })
  | noValue {it : Iter} {r : Outcome (Option (Str × Bool))} {s' : PState} : TakesValue o → s.iter.nextValue = .ok (none, it) →
      ErrorRun (flag ++ b!": no value given.") { s with iter := it } none r s' → OpRun o flag s r s'

theorem applyOperation_run (o : OptData) (flag : Str) (s : PState) (hs : s.stack ≠ []) (hi : s.iter.Ok) :
    OpRun o flag s (applyOperation o flag s).1 (applyOperation o flag s).2 := by
  obtain ⟨a, it, hnv, hok, _⟩ := s.iter.nextValue_ok hi
  cases hop : o.operation with
  | none =>
    have := OpRun.plain (o := o) (flag := flag) (s := s) (by simp [TakesValue, hop])
    simpa [applyOperation, hop, optWrite, storeState, pure_apply] using this
  | clear =>
    have := OpRun.plain (o := o) (flag := flag) (s := s) (by simp [TakesValue, hop])
    simp only [applyOperation, hop]
    rw [bind_ok (modifyBack_run _ s hs), pure_apply]
    simpa [hop, optWrite, storeState, Write.exec] using this
  | assign =>
    simp only [applyOperation, hop]
    cases hc : o.constant with
    | cons c cs =>
      have := OpRun.plain (o := o) (flag := flag) (s := s) (by simp [TakesValue, hc])
      simp only [List.isEmpty_cons, Bool.not_false, if_true]
      rw [bind_ok (modifyBack_run _ s hs), pure_apply]
      simpa [hop, hc, optWrite, storeState, Write.exec] using this
    | nil =>
      simp only [List.isEmpty_nil, Bool.not_true, Bool.false_eq_true, if_false]
      rw [bind_ok (iterNextValue_run hnv)]
      have ht : TakesValue o := ⟨Or.inl hop, hc⟩
      cases a with
      | none => exact .noValue ht hnv (error_then _ none { s with iter := it } hs hok)
      | some v =>
        simp only
        rw [bind_ok (modifyBack_run _ { s with iter := it } hs), pure_apply]
        have := OpRun.value (flag := flag) ht hnv
        simpa [hop, optWrite, storeState, Write.exec] using this
  | append =>
    simp only [applyOperation, hop]
    cases hc : o.constant with
    | cons c cs =>
      have := OpRun.plain (o := o) (flag := flag) (s := s) (by simp [TakesValue, hc])
      simp only [List.isEmpty_cons, Bool.not_false, if_true]
      rw [bind_ok (modifyBack_run _ s hs), pure_apply]
      simpa [hop, hc, optWrite, storeState, Write.exec] using this
    | nil =>
      simp only [List.isEmpty_nil, Bool.not_true, Bool.false_eq_true, if_false]
      rw [bind_ok (iterNextValue_run hnv)]
      have ht : TakesValue o := ⟨Or.inr hop, hc⟩
      cases a with
      | none => exact .noValue ht hnv (error_then _ none { s with iter := it } hs hok)
      | some v =>
        simp only
        rw [bind_ok (modifyBack_run _ { s with iter := it } hs), pure_apply]
        have := OpRun.value (flag := flag) ht hnv
        simpa [hop, optWrite, storeState, Write.exec] using this

/-- The state after a stop option. -/
def stopState (o : OptData) (s : PState) : PState :=
  { s with
    log := s.log ++ (if o.type = .help then [.help s.command] else [])
    mode := .done
    stack := headMap (fun n => { n with code := .stop, stopOption := some o }) s.stack }

theorem applyType_run (o : OptData) (s : PState) (hs : s.stack ≠ []) :
    (o.type = .normal → applyType o s = (.ok .normal, s)) ∧
    (o.type = .lastOption → applyType o s = (.ok .normal, { s with mode := .argumentsOnly })) ∧
    (o.type = .lastArgument → applyType o s = (.ok .lastArgument, { s with mode := .done })) ∧
    (o.type = .help ∨ o.type = .exit → applyType o s = (.ok .exit, stopState o s)) ∧
    (o.type = .stop → applyType o s = (.ok .stop, stopState o s)) := by
  obtain ⟨se, c, st, it, ct, m, lg, cl⟩ := s
  cases st with
  | nil => exact absurd rfl hs
  | cons n ns =>
    refine ⟨?_, ?_, ?_, ?_, ?_⟩
    · intro h; simp [applyType, h, pure_apply]
    · intro h; simp only [applyType, h]; rfl
    · intro h; simp only [applyType, h]; rfl
    · rintro (h | h)
      · simp only [applyType, h, stopState]; rfl
      · simp only [applyType, h, stopState]
        simp only [reduceCtorEq, if_false, List.append_nil]; rfl
    · intro h
      simp only [applyType, h, stopState]
      simp only [reduceCtorEq, if_false, List.append_nil]; rfl

theorem processOptionData_eq (env : Env) (o : OptData) (flag : Str) (s : PState) :
    processOptionData env o flag s = (applyOperation o flag >>= fun r =>
      match r with
      | none => pure (.error, some [])
      | some (value, stored) =>
        calls env o.callback ParserSettings.optionCallback (.opt o) o.valueId stored (some value) >>= fun v =>
          applyType o >>= fun r => pure (r, v)) s := by
  unfold processOptionData calls
  rw [bind_apply, bind_apply]
  rcases applyOperation o flag s with ⟨r, s1⟩
  cases r with
  | ok r =>
    cases r with
    | none => rfl
    | some p =>
      obtain ⟨value, stored⟩ := p
      simp only
      simp only [bind_apply]
      generalize runCallbackOpt env o.callback (ViewRef.opt o) o.valueId stored (some value) s1 = q
      obtain ⟨q, s2⟩ := q
      cases q <;> rfl
  | _ => rfl

/-- The state after the parent that allows several sub-commands has become active again. -/
def reactState (size : Nat) (s : PState) : PState :=
  { s with
    stack := closeFrames (s.stack.length - size) s.stack
    command := ((closeFrames (s.stack.length - size) s.stack).head?.map (·.command)).getD s.command
    counter := {}
    mode := .argumentsOnly }

theorem closeFrames_ne (k : Nat) (l : List PNode) (h : l ≠ []) : closeFrames k l ≠ [] := by
  fun_induction closeFrames k l with
  | case1 => exact h
  | case2 k n p st ih => exact ih (by simp)
  | case3 => exact h

theorem reactivate_run (size : Nat) (s : PState) (hs : s.stack ≠ []) :
    reactivate size s = (.ok (), reactState size s) := by
  unfold reactivate reactState
  have := closeFrames_ne (s.stack.length - size) s.stack hs
  generalize closeFrames (s.stack.length - size) s.stack = l at this
  cases l with
  | nil => exact absurd rfl this
  | cons n ns => rfl

/-- How the processing of an option that was found ends. `s` is the state after the flag has been
read. -/
inductive OptionRun (env : Env) (o : OptData) (flag : Str) (s : PState) : Outcome IterResult → PState → Prop
  | noValue {it : Iter} {r : Outcome IterResult} {s' : PState} : TakesValue o → s.iter.nextValue = .ok (none, it) →
      ErrorRun (flag ++ b!": no value given.") { s with iter := it } .error r s' → OptionRun env o flag s r s'
  | callThrow {s2 s3 : PState} {v : Str} {st : Bool} {m : Str} : OpRun o flag s (.ok (some (v, st))) s2 →
      calls env o.callback ParserSettings.optionCallback (.opt o) o.valueId st (some v) s2 = (.throw m, s3) →
      OptionRun env o flag s (.throw m) s3
  | callExit {s2 s3 : PState} {v : Str} {st : Bool} : OpRun o flag s (.ok (some (v, st))) s2 →
      calls env o.callback ParserSettings.optionCallback (.opt o) o.valueId st (some v) s2 =
        (.exit s.settings.errorExitCode, s3) → s.settings.autoExit = true →
      OptionRun env o flag s (.exit s.settings.errorExitCode) s3
  | normal {s2 s3 : PState} {v : Str} {st : Bool} {w : Option Str} : OpRun o flag s (.ok (some (v, st))) s2 →
      calls env o.callback ParserSettings.optionCallback (.opt o) o.valueId st (some v) s2 = (.ok w, s3) →
      o.type = .normal → OptionRun env o flag s (.ok (.option o w)) s3
  | lastOption {s2 s3 : PState} {v : Str} {st : Bool} {w : Option Str} : OpRun o flag s (.ok (some (v, st))) s2 →
      calls env o.callback ParserSettings.optionCallback (.opt o) o.valueId st (some v) s2 = (.ok w, s3) →
      o.type = .lastOption → OptionRun env o flag s (.ok (.option o w)) { s3 with mode := .argumentsOnly }
  | stopExit {s2 s3 : PState} {v : Str} {st : Bool} {w : Option Str} : OpRun o flag s (.ok (some (v, st))) s2 →
      calls env o.callback ParserSettings.optionCallback (.opt o) o.valueId st (some v) s2 = (.ok w, s3) →
      o.type = .help ∨ o.type = .exit → s.settings.autoExit = true →
      OptionRun env o flag s (.exit s.settings.normalExitCode) (stopState o s3)
  | stopped {s2 s3 : PState} {v : Str} {st : Bool} {w : Option Str} {it : Iter} : OpRun o flag s (.ok (some (v, st))) s2 →
      calls env o.callback ParserSettings.optionCallback (.opt o) o.valueId st (some v) s2 = (.ok w, s3) →
      EndsParsing o → (o.type = .stop ∨ s.settings.autoExit = false) → Rest s3.iter it →
      OptionRun env o flag s (.ok (.option o w)) (copyState it (stopState o s3))
  | lastFails {s2 s3 : PState} {v : Str} {st : Bool} {w : Option Str} {msg : Str} {r : Outcome IterResult} {s' : PState} :
      OpRun o flag s (.ok (some (v, st))) s2 →
      calls env o.callback ParserSettings.optionCallback (.opt o) o.valueId st (some v) s2 = (.ok w, s3) →
      o.type = .lastArgument → CheckFails { s3 with mode := .done } msg →
      ErrorRun msg { s3 with mode := .done } .error r s' → OptionRun env o flag s r s'
  | lastDone {s2 s3 : PState} {v : Str} {st : Bool} {w : Option Str} {it : Iter} : OpRun o flag s (.ok (some (v, st))) s2 →
      calls env o.callback ParserSettings.optionCallback (.opt o) o.valueId st (some v) s2 = (.ok w, s3) →
      o.type = .lastArgument → CheckOk { s3 with mode := .done } → findMultiParent (succState s3).stack = none →
      Rest s3.iter it → OptionRun env o flag s (.ok (.option o w)) (copyState it (succState s3))
  | lastMulti {s2 s3 : PState} {v : Str} {st : Bool} {w : Option Str} {sub : List PNode} :
      OpRun o flag s (.ok (some (v, st))) s2 →
      calls env o.callback ParserSettings.optionCallback (.opt o) o.valueId st (some v) s2 = (.ok w, s3) →
      o.type = .lastArgument → CheckOk { s3 with mode := .done } → findMultiParent (succState s3).stack = some sub →
      OptionRun env o flag s (.ok (.option o w)) (reactState sub.length (succState s3))

theorem headMap_ne {f : PNode → PNode} {l : List PNode} (h : l ≠ []) : headMap f l ≠ [] := by
  cases l with
  | nil => exact absurd rfl h
  | cons _ _ => simp [headMap]

theorem storeState_ne {w : Option Write} {s : PState} (h : s.stack ≠ []) : (storeState w s).stack ≠ [] := by
  cases w with
  | none => exact h
  | some w => exact headMap_ne h

theorem storeState_iter (w : Option Write) (s : PState) : (storeState w s).iter = s.iter := by cases w <;> rfl
theorem storeState_settings (w : Option Write) (s : PState) : (storeState w s).settings = s.settings := by cases w <;> rfl
theorem storeState_command (w : Option Write) (s : PState) : (storeState w s).command = s.command := by cases w <;> rfl
theorem storeState_mode (w : Option Write) (s : PState) : (storeState w s).mode = s.mode := by cases w <;> rfl
theorem storeState_log (w : Option Write) (s : PState) : (storeState w s).log = s.log := by cases w <;> rfl
theorem storeState_counter (w : Option Write) (s : PState) : (storeState w s).counter = s.counter := by cases w <;> rfl
theorem storeState_calls (w : Option Write) (s : PState) : (storeState w s).calls = s.calls := by cases w <;> rfl

/-- The iterator after an option has taken its value. -/
theorem OpRun.ok_facts {o : OptData} {flag : Str} {s s2 : PState} {v : Str} {st : Bool}
    (h : OpRun o flag s (.ok (some (v, st))) s2) (hs : s.stack ≠ []) (hi : s.iter.Ok) :
    s2.stack ≠ [] ∧ s2.iter.Ok ∧ s2.iter.pfx = s.iter.pfx ∧ s2.settings = s.settings ∧ s2.command = s.command ∧
      s2.mode = s.mode ∧ s2.log = s.log ∧ s2.counter = s.counter ∧ s2.calls = s.calls ∧
      (s.iter.args ≠ [] → s2.iter.args ≠ []) ∧ s2.iter.weight ≤ s.iter.weight := by
  cases h with
  | plain hn =>
    refine ⟨storeState_ne hs, by rw [storeState_iter]; exact hi, by rw [storeState_iter], storeState_settings _ _,
      storeState_command _ _, storeState_mode _ _, storeState_log _ _, storeState_counter _ _, storeState_calls _ _, ?_, ?_⟩
    · rw [storeState_iter]; exact id
    · rw [storeState_iter]; omega
  | value ht hn =>
    rename_i it
    obtain ⟨a, it', h1, h2, h3⟩ := s.iter.nextValue_ok hi
    rw [hn] at h1
    simp only [Outcome.ok.injEq, Prod.mk.injEq] at h1
    obtain ⟨_, rfl⟩ := h1
    have hw := (s.iter.nextValue_weight hn).2 _ rfl
    refine ⟨storeState_ne hs, by rw [storeState_iter]; exact h2, by rw [storeState_iter]; exact h3, storeState_settings _ _,
      storeState_command _ _, storeState_mode _ _, storeState_log _ _, storeState_counter _ _, storeState_calls _ _, ?_, ?_⟩
    · rw [storeState_iter]; intro _; exact hw.2
    · rw [storeState_iter]; exact Nat.le_of_lt hw.1
  | noValue _ _ he => cases he

theorem findMultiParent_map {f : PNode → PNode} (hf : ∀ n, (f n).command = n.command) (l : List PNode) :
    findMultiParent (l.map f) = (findMultiParent l).map (·.map f) := by
  cases l with
  | nil => rfl
  | cons n rest =>
    simp only [findMultiParent, List.map_cons]
    induction rest with
    | nil => rfl
    | cons p ps ih =>
      simp only [List.map_cons, findMultiParent.go, hf]
      split
      · rfl
      · exact ih

theorem processOption_found (env : Env) (flag : Str) (s : PState) (hs : s.stack ≠ []) (hi : s.iter.Ok) (hr : CmdReady s.command)
    {o : OptData} (hfo : findOption s.command.optionIndex flag s.settings.allowAbbreviatedOptions
      s.settings.caseInsensitive = some o) :
    OptionRun env o flag s (processOption env flag s).1 (processOption env flag s).2 := by
  have hop := applyOperation_run o flag s hs hi
  generalize hap : applyOperation o flag s = r at hop
  obtain ⟨r, s2⟩ := r
  simp only at hop
  have key : ∀ v st, r = .ok (some (v, st)) →
      OptionRun env o flag s (processOption env flag s).1 (processOption env flag s).2 := by
    rintro v st rfl
    obtain ⟨f1, f2, f3, f4, f5, f6, f7, f8, f9, f10, f11⟩ := hop.ok_facts hs hi
    obtain ⟨hcr, _⟩ := calls_run env o.callback ParserSettings.optionCallback (.opt o) o.valueId st (some v) s2 f1 f2
    generalize hcl : calls env o.callback ParserSettings.optionCallback (.opt o) o.valueId st (some v) s2 = q at hcr
    obtain ⟨q, s3⟩ := q
    simp only at hcr
    cases hcr with
    | throw hf =>
      rename_i m
      have : processOptionData env o flag s = (.throw m, s3) := by
        rw [processOptionData_eq, bind_ok hap]; exact bind_throw hcl
      unfold processOption
      rw [get_bind, hfo]
      simp only
      rw [bind_throw this]
      exact .callThrow hop hcl
    | exit hf ha =>
      rw [f4] at ha
      have he : s2.settings.errorExitCode = s.settings.errorExitCode := by rw [f4]
      rw [he] at hcl
      have : processOptionData env o flag s = (.exit s.settings.errorExitCode, s3) := by
        rw [processOptionData_eq, bind_ok hap]; exact bind_exit hcl
      unfold processOption
      rw [get_bind, hfo]
      simp only
      rw [bind_exit this]
      exact .callExit hop hcl ha
    | ok hf =>
      rename_i w
      have h3s : s3.stack ≠ [] := hf.stack_ne f1
      have h3i : s3.iter.Ok := hf.iterOk f2
      have h3c : s3.command = s.command := hf.command.trans f5
      have hpd : ∀ res s4, applyType o s3 = (.ok res, s4) →
          processOptionData env o flag s = (.ok (res, w), s4) := by
        intro res s4 h4
        rw [processOptionData_eq, bind_ok hap]
        show (calls env o.callback ParserSettings.optionCallback (.opt o) o.valueId st (some v) >>= _ : ParserM _) s2 = _
        rw [bind_ok hcl, bind_ok h4, pure_apply]
      obtain ⟨t1, t2, t3, t4, t5⟩ := applyType_run o s3 h3s
      have stopped : (o.type = .help ∨ o.type = .exit) →
          OptionRun env o flag s (processOption env flag s).1 (processOption env flag s).2 := by
        intro ht
        unfold processOption
        rw [get_bind, hfo]
        simp only
        rw [bind_ok (hpd _ _ (t4 ht))]
        simp only
        cases ha : s.settings.autoExit with
        | true => exact .stopExit hop hcl ht ha
        | false =>
          simp only [Bool.false_eq_true, if_false]
          obtain ⟨it, g1, g2⟩ := copyRemaining_run (stopState o s3) (headMap_ne h3s) h3i
          rw [bind_ok g2]
          exact .stopped hop hcl (by rcases ht with h | h <;> simp [EndsParsing, h]) (Or.inr ha) g1
      cases ht : o.type with
      | help => exact stopped (Or.inl ht)
      | exit => exact stopped (Or.inr ht)
      | stop =>
        unfold processOption
        rw [get_bind, hfo]
        simp only
        rw [bind_ok (hpd _ _ (t5 ht))]
        simp only
        obtain ⟨it, g1, g2⟩ := copyRemaining_run (stopState o s3) (headMap_ne h3s) h3i
        rw [bind_ok g2]
        exact .stopped hop hcl (by simp [EndsParsing, ht]) (Or.inl ht) g1
      | normal =>
        unfold processOption
        rw [get_bind, hfo]
        simp only
        rw [bind_ok (hpd _ _ (t1 ht))]
        exact .normal hop hcl ht
      | lastOption =>
        unfold processOption
        rw [get_bind, hfo]
        simp only
        rw [bind_ok (hpd _ _ (t2 ht))]
        exact .lastOption hop hcl ht
      | lastArgument =>
        unfold processOption
        rw [get_bind, hfo]
        simp only
        rw [bind_ok (hpd _ _ (t3 ht))]
        simp only
        obtain ⟨n, ns, hn⟩ : ∃ n ns, s3.stack = n :: ns := by
          cases hn : s3.stack with
          | nil => exact absurd hn h3s
          | cons n ns => exact ⟨n, ns, rfl⟩
        have hck := checkCounts_run { s3 with mode := .done } h3i hn (by rw [h3c]; exact hr)
        generalize hcq : checkCounts { s3 with mode := .done } = q at hck
        obtain ⟨q, s4⟩ := q
        simp only at hck
        cases hck with
        | fails hfl he =>
          cases he with
          | exit ha =>
            rw [bind_exit hcq]
            exact .lastFails hop hcl ht hfl (.exit ha)
          | error ha hre =>
            rw [bind_ok hcq]
            exact .lastFails hop hcl ht hfl (.error ha hre)
        | ok hok =>
          rw [bind_ok hcq]
          simp only [Bool.not_true, Bool.false_eq_true, if_false]
          rw [get_bind]
          show OptionRun env o flag s ((match findMultiParent (succState s3).stack with
            | some st => do
              reactivate st.length
              pure (.option o w)
            | none => do
              copyRemaining
              pure (.option o w) : ParserM IterResult) (succState s3)).1 _
          have hne : (succState s3).stack ≠ [] := by simp [succState, hn]
          cases hm : findMultiParent (succState s3).stack with
          | none =>
            obtain ⟨it, g1, g2⟩ := copyRemaining_run (succState s3) hne h3i
            simp only
            have : (copyRemaining >>= fun _ => pure (IterResult.option o w) : ParserM IterResult) (succState s3) =
                (.ok (.option o w), copyState it (succState s3)) := by rw [bind_ok g2]; rfl
            have hm' : findMultiParent (succState { s3 with mode := .done }).stack = none := hm
            rw [hm']
            simp only
            show OptionRun env o flag s ((copyRemaining >>= fun _ => pure (IterResult.option o w) : ParserM IterResult) (succState s3)).1
              ((copyRemaining >>= fun _ => pure (IterResult.option o w) : ParserM IterResult) (succState s3)).2
            rw [this]
            exact .lastDone hop hcl ht hok hm g1
          | some sub =>
            simp only
            have : (reactivate sub.length >>= fun _ => pure (IterResult.option o w) : ParserM IterResult) (succState s3) =
                (.ok (.option o w), reactState sub.length (succState s3)) := by rw [bind_ok (reactivate_run _ _ hne)]; rfl
            have hm' : findMultiParent (succState { s3 with mode := .done }).stack = some sub := hm
            rw [hm']
            simp only
            show OptionRun env o flag s ((reactivate sub.length >>= fun _ => pure (IterResult.option o w) : ParserM IterResult) (succState s3)).1
              ((reactivate sub.length >>= fun _ => pure (IterResult.option o w) : ParserM IterResult) (succState s3)).2
            rw [this]
            exact .lastMulti hop hcl ht hok hm
  cases hop with
  | noValue ht hnv he =>
    unfold processOption
    rw [get_bind, hfo]
    simp only
    cases he with
    | exit ha =>
      have := processOptionData_eq env o flag s
      rw [bind_exit hap] at this
      rw [bind_exit this]
      exact .noValue ht hnv (.exit ha)
    | error ha hrest =>
      have := processOptionData_eq env o flag s
      rw [bind_ok hap] at this
      rw [bind_ok this]
      exact .noValue ht hnv (.error ha hrest)
  | plain hn => exact key _ _ rfl
  | value ht hnv => exact key _ _ rfl

/-! ### Commands -/

/-- The result of `count_arguments`. -/
def ahead (s : PState) : Nat :=
  match countArguments s with
  | .ok n => n
  | _ => 0

/-- The state after a command has been entered. -/
def enterState (c : Command) (s : PState) : PState :=
  let s1 := { s with stack := PNode.make c :: s.stack, command := c }
  { s1 with
    counter := Counter.forCount c.arguments (ahead s1)
    mode := .argumentsAndOptions }

theorem initCounter_run (s : PState) (hi : s.iter.Ok) :
    initCounter s = (.ok (), { s with counter := Counter.forCount s.command.arguments (ahead s) }) := by
  obtain ⟨n, hn⟩ := countArguments_ok s hi
  unfold initCounter Counter.forCount ahead
  rw [hn]
  split <;> rfl

theorem processCommand_run (c : Command) (s : PState) (hi : s.iter.Ok) {cur : Str} (hc : s.iter.current = .ok cur) :
    processCommand c s = (.ok (.command c cur), enterState c s) := by
  unfold processCommand
  rw [modify_bind, bind_ok (initCounter_run { s with stack := PNode.make c :: s.stack, command := c } hi), modify_bind]
  have : iterCurrent (enterState c s) = (.ok cur, enterState c s) := by
    show (s.iter.current, _) = _
    rw [hc]
  show (iterCurrent >>= _ : ParserM IterResult) (enterState c s) = _
  rw [bind_ok this, pure_apply]

/-! ### Arguments -/

/-- The state after a positional argument has been stored. -/
def argState (a : ArgData) (ct : Counter) (value : Str) (s : PState) : PState :=
  storeState (some (.append a.valueId value a.argumentId)) { s with counter := ct }

/-- How the processing of a positional argument ends; `s` is the state after it has been read. -/
inductive ArgumentRun (env : Env) (value : Str) (s : PState) : Outcome IterResult → PState → Prop
  | sibling {c : Command} {size : Nat} {cur : Str} : findSibling s value = some (c, size) → s.iter.current = .ok cur →
      ArgumentRun env value s (.ok (.command c cur)) (enterState c (reactState size s))
  | callThrow {a : ArgData} {ct : Counter} {m : Str} {s' : PState} : findSibling s value = none →
      s.counter.nextArgument = (some a, ct) →
      calls env a.callback ParserSettings.argumentCallback (.arg a) a.valueId true (some value) (argState a ct value s) =
        (.throw m, s') → ArgumentRun env value s (.throw m) s'
  | callExit {a : ArgData} {ct : Counter} {s' : PState} : findSibling s value = none →
      s.counter.nextArgument = (some a, ct) →
      calls env a.callback ParserSettings.argumentCallback (.arg a) a.valueId true (some value) (argState a ct value s) =
        (.exit s.settings.errorExitCode, s') → s.settings.autoExit = true →
      ArgumentRun env value s (.exit s.settings.errorExitCode) s'
  | argument {a : ArgData} {ct : Counter} {w : Option Str} {s' : PState} : findSibling s value = none →
      s.counter.nextArgument = (some a, ct) →
      calls env a.callback ParserSettings.argumentCallback (.arg a) a.valueId true (some value) (argState a ct value s) =
        (.ok w, s') → ArgumentRun env value s (.ok (.argument a w)) s'
  | ignored {ct : Counter} {cur : Str} : findSibling s value = none → s.counter.nextArgument = (none, ct) →
      s.settings.ignoreUndefinedArguments = true → s.iter.current = .ok cur →
      ArgumentRun env value s (.ok (.unknown cur))
        { s with counter := ct, stack := headMap (fun n => { n with unprocessed := n.unprocessed ++ [value] }) s.stack }
  | tooMany {ct : Counter} {r : Outcome IterResult} {s' : PState} : findSibling s value = none →
      s.counter.nextArgument = (none, ct) → s.settings.ignoreUndefinedArguments = false →
      ErrorRun (b!"Too many arguments, starting from \"" ++ value ++ b!"\".") { s with counter := ct } .error r s' →
      ArgumentRun env value s r s'

theorem processArgument_run (env : Env) (value : Str) (s : PState) (hs : s.stack ≠ []) (hi : s.iter.Ok) {cur : Str}
    (hc : s.iter.current = .ok cur) :
    ArgumentRun env value s (processArgument env value s).1 (processArgument env value s).2 := by
  unfold processArgument
  rw [get_bind]
  cases hsib : findSibling s value with
  | some p =>
    obtain ⟨c, size⟩ := p
    simp only
    rw [bind_ok (reactivate_run size s hs), processCommand_run c (reactState size s) hi hc]
    exact .sibling hsib hc
  | none =>
    simp only
    generalize hna : s.counter.nextArgument = p
    obtain ⟨oa, ct⟩ := p
    cases oa with
    | some a =>
      simp only
      rw [modify_bind]
      have hmb := modifyBack_run (fun n => { n with values := n.values.append a.valueId value a.argumentId })
        { s with counter := ct } hs
      rw [bind_ok hmb]
      have hcr := (calls_run env a.callback ParserSettings.argumentCallback (.arg a) a.valueId true (some value)
        (argState a ct value s) (storeState_ne hs) (by rw [argState, storeState_iter]; exact hi)).1
      have hset : (argState a ct value s).settings = s.settings := by rw [argState, storeState_settings]
      have heq : ∀ t, (runCallbackOpt env a.callback (.arg a) a.valueId true (some value) >>= fun v => ParserM.get >>= fun s =>
          runCallbackOpt env s.settings.argumentCallback (.arg a) a.valueId true v >>= fun v =>
            pure (IterResult.argument a v) : ParserM IterResult) t =
          (calls env a.callback ParserSettings.argumentCallback (.arg a) a.valueId true (some value) >>= fun v =>
            pure (IterResult.argument a v) : ParserM IterResult) t := by
        intro t
        unfold calls
        simp only [bind_apply]
        generalize runCallbackOpt env a.callback (ViewRef.arg a) a.valueId true (some value) t = q
        obtain ⟨q, s2⟩ := q
        cases q <;> rfl
      have hst : ({ s with counter := ct, stack := headMap (fun n => { n with values := n.values.append a.valueId value a.argumentId }) s.stack } : PState) =
          argState a ct value s := rfl
      rw [heq]
      show ArgumentRun env value s ((calls env a.callback ParserSettings.argumentCallback (.arg a) a.valueId true (some value) >>= fun v =>
            pure (IterResult.argument a v) : ParserM IterResult) (argState a ct value s)).1
        ((calls env a.callback ParserSettings.argumentCallback (.arg a) a.valueId true (some value) >>= fun v =>
            pure (IterResult.argument a v) : ParserM IterResult) (argState a ct value s)).2
      generalize hcl : calls env a.callback ParserSettings.argumentCallback (.arg a) a.valueId true (some value)
        (argState a ct value s) = q at hcr
      obtain ⟨q, s3⟩ := q
      simp only at hcr
      cases hcr with
      | ok hf => rw [bind_ok hcl]; exact .argument hsib hna hcl
      | throw hf => rw [bind_throw hcl]; exact .callThrow hsib hna hcl
      | exit hf ha =>
        have he : (argState a ct value s).settings.errorExitCode = s.settings.errorExitCode := by rw [hset]
        rw [he] at hcl
        rw [bind_exit hcl]
        exact .callExit hsib hna hcl (by rw [← hset]; exact ha)
    | none =>
      simp only
      rw [modify_bind]
      cases hig : s.settings.ignoreUndefinedArguments with
      | true =>
        simp only [if_true]
        have hmb := modifyBack_run (fun n => { n with unprocessed := n.unprocessed ++ [value] }) { s with counter := ct } hs
        rw [bind_ok hmb]
        have : ∀ (t : PState), t.iter = s.iter →
            (iterCurrent >>= fun cur => pure (IterResult.unknown cur) : ParserM IterResult) t = (.ok (.unknown cur), t) := by
          intro t ht
          have : iterCurrent t = (.ok cur, t) := by unfold iterCurrent; rw [ht, hc]
          rw [bind_ok this, pure_apply]
        have hgen : ∀ p : Outcome IterResult × PState, p = (.ok (.unknown cur),
            { s with counter := ct, stack := headMap (fun n => { n with unprocessed := n.unprocessed ++ [value] }) s.stack }) →
            ArgumentRun env value s p.1 p.2 := by
          rintro _ rfl
          exact .ignored hsib hna hig hc
        exact hgen _ (this _ rfl)
      | false =>
        simp only [Bool.false_eq_true, if_false]
        exact .tooMany hsib hna hig (error_then _ _ { s with counter := ct } hs hi)

/-! ### A call of `next` -/

/-- The part of the command line that `next` reads. -/
def Taken (s : PState) (a : Option Str) (it : Iter) : Prop :=
  (s.mode = .argumentsAndOptions ∧ s.iter.next = .ok (a, it)) ∨
  (s.mode = .argumentsOnly ∧ s.iter.nextValue = .ok (a, it))

/-- The piece read is treated as an option. -/
def OptionLike (s : PState) (arg : Str) : Prop :=
  s.mode = .argumentsAndOptions ∧ isOption arg s.settings.optionStyle = true

/-- Option lookup in the active command. -/
def lookup (s : PState) (flag : Str) : Option OptData :=
  findOption s.command.optionIndex flag s.settings.allowAbbreviatedOptions s.settings.caseInsensitive

/-- All that a call of `next` can do. -/
inductive Step (env : Env) (s : PState) : Outcome IterResult → PState → Prop
  | afterError : s.mode = .error → Step env s (.throw b!"next() called after error.") s
  | afterDone : s.mode = .done → Step env s (.ok .done) s
  | finished {it : Iter} : Taken s none it → CheckOk { s with iter := it } →
      Step env s (.ok .done) (succState { s with iter := it })
  | unfinished {it : Iter} {msg : Str} {r : Outcome IterResult} {s' : PState} : Taken s none it →
      CheckFails { s with iter := it } msg → ErrorRun msg { s with iter := it } .error r s' → Step env s r s'
  | unknownOption {it : Iter} {flag cur : Str} {r : Outcome IterResult} {s' : PState} : Taken s (some flag) it →
      OptionLike s flag → lookup s flag = none → it.current = .ok cur →
      (s.settings.ignoreUndefinedOptions = false ∨ startsWithCs cur flag = false) →
      ErrorRun (b!"Unknown option: " ++ cur) { s with iter := it } .error r s' → Step env s r s'
  | ignoredOption {it : Iter} {flag cur : Str} : Taken s (some flag) it →
      OptionLike s flag → lookup s flag = none → it.current = .ok cur →
      s.settings.ignoreUndefinedOptions = true → startsWithCs cur flag = true →
      Step env s (.ok (.unknown cur))
        { s with iter := it, stack := headMap (fun n => { n with unprocessed := n.unprocessed ++ [cur] }) s.stack }
  | option {it : Iter} {flag : Str} {o : OptData} {r : Outcome IterResult} {s' : PState} : Taken s (some flag) it →
      OptionLike s flag → lookup s flag = some o → OptionRun env o flag { s with iter := it } r s' → Step env s r s'
  | command {it : Iter} {arg cur : Str} {c : Command} : Taken s (some arg) it → ¬ OptionLike s arg →
      s.command.commands ≠ [] → findCommand s.command.commands arg s.settings.caseInsensitive = some c →
      it.current = .ok cur → Step env s (.ok (.command c cur)) (enterState c { s with iter := it })
  | unknownCommand {it : Iter} {arg : Str} {r : Outcome IterResult} {s' : PState} : Taken s (some arg) it →
      ¬ OptionLike s arg → s.command.commands ≠ [] →
      findCommand s.command.commands arg s.settings.caseInsensitive = none →
      ErrorRun (b!"Unknown command: " ++ arg) { s with iter := it } .error r s' → Step env s r s'
  | argument {it : Iter} {arg : Str} {r : Outcome IterResult} {s' : PState} : Taken s (some arg) it →
      ¬ OptionLike s arg → s.command.commands = [] → ArgumentRun env arg { s with iter := it } r s' → Step env s r s'

theorem processOption_unknown (env : Env) (flag cur : Str) (s : PState) (hs : s.stack ≠ []) (hi : s.iter.Ok)
    (hlk : lookup s flag = none) (hcur : s.iter.current = .ok cur) :
    ((s.settings.ignoreUndefinedOptions = false ∨ startsWithCs cur flag = false) →
      ErrorRun (b!"Unknown option: " ++ cur) s IterResult.error (processOption env flag s).1 (processOption env flag s).2) ∧
    (s.settings.ignoreUndefinedOptions = true → startsWithCs cur flag = true →
      processOption env flag s = (.ok (.unknown cur),
        { s with stack := headMap (fun n => { n with unprocessed := n.unprocessed ++ [cur] }) s.stack })) := by
  unfold lookup at hlk
  have hc' : iterCurrent s = (.ok cur, s) := by unfold iterCurrent; rw [hcur]
  constructor
  · intro h
    unfold processOption
    rw [get_bind, hlk]
    simp only
    rw [bind_ok hc', if_pos (by simpa using h)]
    exact error_then _ _ s hs hi
  · intro h1 h2
    unfold processOption
    rw [get_bind, hlk]
    simp only
    rw [bind_ok hc', if_neg (by simp [h1, h2]), bind_ok (modifyBack_run _ s hs), pure_apply]

/-- `next` after a piece has been read. -/
def nextTail (env : Env) (mode : Mode) (s : PState) (a : Option Str) : ParserM IterResult :=
  match a with
  | none => checkCounts >>= fun ok => if ok then pure IterResult.done else pure .error
  | some arg =>
    if mode = .argumentsAndOptions ∧ isOption arg s.settings.optionStyle then
      processOption env arg
    else if s.command.commands.isEmpty then processArgument env arg
    else match findCommand s.command.commands arg s.settings.caseInsensitive with
      | some c => processCommand c
      | none => do
        error (b!"Unknown command: " ++ arg)
        pure .error

theorem next_taken (env : Env) (s : PState) (a : Option Str) (it : Iter) (h : Taken s a it) :
    next env s = nextTail env s.mode s a { s with iter := it } := by
  obtain ⟨se, c, st, i, ct, m, lg, cl⟩ := s
  rcases h with ⟨hm, h1⟩ | ⟨hm, h1⟩
  · simp only at hm h1
    subst hm
    show (iterNext >>= _ : ParserM IterResult) _ = _
    rw [bind_ok (iterNext_run h1)]
    cases a <;> rfl
  · simp only at hm h1
    subst hm
    show (iterNextValue >>= _ : ParserM IterResult) _ = _
    rw [bind_ok (iterNextValue_run h1)]
    cases a <;> rfl

theorem nextTail_step (env : Env) (s : PState) (a : Option Str) (it : Iter) (ht : Taken s a it) (hs : s.stack ≠ [])
    (hr : CmdReady s.command) (hok : it.Ok) (hargs : ∀ x, a = some x → it.args ≠ []) :
    Step env s (nextTail env s.mode s a { s with iter := it }).1 (nextTail env s.mode s a { s with iter := it }).2 := by
  obtain ⟨n, ns, hn⟩ : ∃ n ns, s.stack = n :: ns := by
    cases hn : s.stack with
    | nil => exact absurd hn hs
    | cons n ns => exact ⟨n, ns, rfl⟩
  unfold nextTail
  cases a with
  | none =>
    simp only
    have hck := checkCounts_run { s with iter := it } hok hn hr
    generalize hcq : checkCounts { s with iter := it } = q at hck
    obtain ⟨q, s4⟩ := q
    simp only at hck
    cases hck with
    | fails hfl he =>
      cases he with
      | exit ha => rw [bind_exit hcq]; exact .unfinished ht hfl (.exit ha)
      | error ha hre => rw [bind_ok hcq]; exact .unfinished ht hfl (.error ha hre)
    | ok hok => rw [bind_ok hcq]; exact .finished ht hok
  | some arg =>
    simp only
    obtain ⟨cur, hcur⟩ := it.current_ok (hargs arg rfl)
    by_cases hol : OptionLike s arg
    · have hol' := hol
      unfold OptionLike at hol'
      rw [if_pos hol']
      cases hlk : lookup s arg with
      | some o => exact .option ht hol hlk (processOption_found env arg { s with iter := it } hs hok hr hlk)
      | none =>
        obtain ⟨h1, h2⟩ := processOption_unknown env arg cur { s with iter := it } hs hok hlk hcur
        by_cases hcond : s.settings.ignoreUndefinedOptions = false ∨ startsWithCs cur arg = false
        · exact .unknownOption ht hol hlk hcur hcond (h1 hcond)
        · simp only [not_or, Bool.not_eq_false] at hcond
          rw [h2 hcond.1 hcond.2]
          exact .ignoredOption ht hol hlk hcur hcond.1 hcond.2
    · have hol' := hol
      unfold OptionLike at hol'
      rw [if_neg hol']
      cases hcm : s.command.commands with
      | nil =>
        simp only [List.isEmpty_nil, if_true]
        exact .argument ht hol hcm (processArgument_run env arg { s with iter := it } hs hok hcur)
      | cons c0 cs =>
        simp only [List.isEmpty_cons, Bool.false_eq_true, if_false]
        rw [← hcm]
        cases hfc : findCommand s.command.commands arg s.settings.caseInsensitive with
        | some c =>
          simp only
          rw [processCommand_run c { s with iter := it } hok hcur]
          exact .command ht hol (by rw [hcm]; simp) hfc hcur
        | none =>
          exact .unknownCommand ht hol (by rw [hcm]; simp) hfc
            (error_then (b!"Unknown command: " ++ arg) IterResult.error { s with iter := it } hs hok)

theorem next_step (env : Env) (s : PState) (hi : s.iter.Ok) (hs : s.stack ≠ []) (hr : CmdReady s.command) :
    Step env s (next env s).1 (next env s).2 := by
  cases hm : s.mode with
  | error => unfold next; rw [get_bind, hm]; exact .afterError hm
  | done => unfold next; rw [get_bind, hm]; exact .afterDone hm
  | argumentsAndOptions =>
    obtain ⟨a, it, h1, h2, _⟩ := s.iter.next_ok hi
    have ht : Taken s a it := Or.inl ⟨hm, h1⟩
    rw [next_taken env s a it ht]
    exact nextTail_step env s a it ht hs hr h2 (fun x hx => ((s.iter.next_weight h1).2 x hx).2)
  | argumentsOnly =>
    obtain ⟨a, it, h1, h2, _⟩ := s.iter.nextValue_ok hi
    have ht : Taken s a it := Or.inr ⟨hm, h1⟩
    rw [next_taken env s a it ht]
    exact nextTail_step env s a it ht hs hr h2 (fun x hx => ((s.iter.nextValue_weight h1).2 x hx).2)

end Parser
end Argos
