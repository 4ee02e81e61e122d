import Verif.Proofs.Given
import Verif.Spec.Calls

/-! # Callbacks along a trace -/

namespace Argos
open Spec

namespace Parser

theorem callsIn_append (a b : List Event) : callsIn (a ++ b) = callsIn a ++ callsIn b := by simp [callsIn]

theorem callsIn_callEvents (cb : Option Nat) (view : ViewRef) (v : Option Str) (seen : Values) :
    callsIn (callEvents cb view v seen) = cb.toList.map fun c => (c, view) := by
  cases cb <;> rfl

theorem CallLog.calls {cb g : Option Nat} {view : ViewRef} {v : Str} {stored : Values} {es : List Event}
    (h : CallLog cb g view v stored es) : callsIn es = (cb.toList ++ g.toList).map fun c => (c, view) := by
  obtain ⟨v1, seen, _, _, rfl⟩ := h
  rw [callsIn_append, callsIn_callEvents, callsIn_callEvents, List.map_append]

theorem StepLog.calls {s : PState} {r : IterResult} {es : List Event} (h : StepLog s (.ok r) es) (hne : r ≠ .error) :
    callsIn es = callsOf s.settings r := by
  have hh : ∀ {p : Prop} [Decidable p] {c : Command}, callsIn (if p then [Event.help c] else []) = [] := by
    intro p _ c; split <;> rfl
  cases h with
  | silent h1 h2 _ =>
    cases r with
    | option o w => exact absurd rfl (h1 o w)
    | argument a w => exact absurd rfl (h2 a w)
    | _ => rfl
  | option _ _ _ _ hc => rw [callsIn_append, hc.calls, hh, List.append_nil]; rfl
  | argument _ _ _ hc => rw [hc.calls]; rfl
  | error _ => exact absurd rfl hne
  | lastError _ _ _ _ _ _ _ => exact absurd rfl hne

theorem StepLog.error_calls {s : PState} {es : List Event} (h : StepLog s (.ok .error) es) :
    callsIn es = [] ∨ ∃ o : OptData, o.type = .lastArgument ∧ callsIn es = callsOf s.settings (.option o none) := by
  cases h with
  | silent _ _ h3 => exact absurd rfl h3
  | error _ => exact Or.inl rfl
  | @lastError o _ _ _ m es _ _ _ _ hty _ hc =>
    refine Or.inr ⟨o, hty, ?_⟩
    rw [callsIn_append, hc.calls]
    simp [callsIn, Event.call, callsOf]

theorem _root_.Argos.Trace.calls {env : Env} {d : ParserData} (hr : Ready d) {s s' : PState} {rs : List IterResult}
    (h : Trace env s rs s') (hg : Good d s) (hl : .error ∉ rs) : callsIn s'.log = callsIn s.log ++ rs.flatMap (callsOf d.settings) := by
  induction h with
  | nil => simp
  | cons hn _ ih =>
    rename_i s s1 s' r rs
    obtain ⟨hst, hg1⟩ := next_good hr hg hn
    obtain ⟨es, h1, h2⟩ := hst.log hg
    rw [ih hg1 (fun hm => hl (by simp [hm])), h2, callsIn_append, h1.calls (fun e => hl (by simp [e])), hg.settings,
      List.flatMap_cons, List.append_assoc]

theorem start_log (d : ParserData) (args : List Str) : (start d args).2.log = [] := by
  rw [(start_good d args).1]
  rfl

/-! ### What passive callbacks see -/

theorem storedValues_agrees {s : PState} {st : Open} (h : Agrees s.stack st) :
    (fun id => (storedValues s).getValues id) = valuesOf st.active := by
  unfold storedValues
  cases hs : s.stack with
  | nil =>
    rw [hs] at h
    rw [agrees_nil h]
    rfl
  | cons n ns =>
    rw [hs] at h
    obtain ⟨l, ts, rest, rfl, h1, _⟩ := agrees_cons h
    simp only [List.head?_cons, Option.map_some, Option.getD_some, Open.active, Tree.data, h1]
    exact getValues_rawValues l

theorem active_add {st : Open} (h : st ≠ []) (x : Occ) : (st.add x).active = st.active ++ [x] := by
  cases st with
  | nil => exact absurd rfl h
  | cons t rest => cases t; rfl

theorem called_callEvents (cb : Option Nat) (view : ViewRef) (v : Option Str) (seen : Values) :
    (callEvents cb view v seen).filterMap Event.called = cb.toList.map fun c => ⟨c, view, v, fun id => seen.getValues id⟩ := by
  cases cb <;> rfl

theorem called_both (cb g : Option Nat) (view : ViewRef) (v : Option Str) (seen : Values) (log : List Event) (vm : ValueMap)
    (h : (fun id => seen.getValues id) = vm) :
    (log ++ callEvents cb view v seen ++ callEvents g view v seen).filterMap Event.called =
      log.filterMap Event.called ++ (cb.toList ++ g.toList).map fun c => ⟨c, view, v, vm⟩ := by
  rw [List.filterMap_append, List.filterMap_append, called_callEvents, called_callEvents, h, List.map_append, List.append_assoc]

theorem stopState_called (o : OptData) (s : PState) :
    (stopState o s).log.filterMap Event.called = s.log.filterMap Event.called := by
  unfold stopState
  split <;> simp [Event.called]

/-- A step with passive callbacks. -/
theorem Step.called {env : Env} (hp : env.Passive) {d : ParserData} {s s' : PState} (hg : Good d s) {r : IterResult} {st : Open}
    (h : Step env s (.ok r) s') (hr : r ≠ .error) (ha : Agrees s.stack st) :
    s'.log.filterMap Event.called = s.log.filterMap Event.called ++ calledFor s.settings st r := by
  have herr : ∀ {msg t}, ErrorRun msg t IterResult.error (.ok r) s' → False := by
    intro msg t he
    cases he with
    | error _ _ => exact hr rfl
  obtain ⟨n, ns, hs, hcmd⟩ := hg.head
  have hst : st ≠ [] := by
    rintro rfl
    rw [hs] at ha
    simp [Agrees, AgreesBy] at ha
  have silent : s'.log = s.log → calledFor s.settings st r = [] → s'.log.filterMap Event.called =
      s.log.filterMap Event.called ++ calledFor s.settings st r := by
    intro h1 h2; rw [h1, h2, List.append_nil]
  -- options
  have opt : ∀ {it : Iter} {flag : Str} {o : OptData} {s2 s3 : PState} {v : Str} {stored : Bool} {w : Option Str},
      Taken s (some flag) it → OpRun o flag { s with iter := it } (.ok (some (v, stored))) s2 →
      calls env o.callback ParserSettings.optionCallback (.opt o) o.valueId stored (some v) s2 = (.ok w, s3) →
      s3.log.filterMap Event.called = s.log.filterMap Event.called ++ calledFor s.settings st (.option o w) := by
    intro it flag o s2 s3 v stored w ht h1 h2
    have hg' := (hg.taken ht).2.2
    have hg2 := hg'.opRun h1
    obtain ⟨rfl, k, rfl⟩ := calls_passive hp _ _ _ _ _ _ _ hg2.ne hg2.iterOk h2
    obtain ⟨w1, w2, w3⟩ := h1.write hg'.ne
    have f := h1.ok_facts hg'.ne hg'.iterOk
    have f4 := f.2.2.2.1
    have f7 := f.2.2.2.2.2.2.1
    have hag : Agrees s2.stack (st.add (.option o v)) := by
      rw [w3]
      have := agrees_occWrite (s := { s with iter := it }) ha o v
      exact this
    have hv := storedValues_agrees hag
    rw [active_add hst] at hv
    show List.filterMap Event.called (s2.log ++ _ ++ _) = _
    rw [called_both _ _ _ _ _ _ _ hv, f7, f4]
    simp [calledFor, callsOf, valueOf, occOf, Function.comp_def]
  cases h with
  | afterDone _ => exact silent rfl rfl
  | finished _ _ => exact silent rfl rfl
  | unfinished _ _ he => exact (herr he).elim
  | unknownOption _ _ _ _ _ he => exact (herr he).elim
  | ignoredOption ht _ _ _ _ _ => exact silent rfl rfl
  | option ht _ _ hrun =>
    cases hrun with
    | noValue _ _ he => exact (herr he).elim
    | normal h1 h2 hty => exact opt ht h1 h2
    | lastOption h1 h2 hty => rw [← opt ht h1 h2]
    | stopped h1 h2 ho _ hre =>
      rw [← opt ht h1 h2]
      exact stopState_called _ _
    | lastFails _ _ _ _ he => exact (herr he).elim
    | lastDone h1 h2 hty hok hnm hre => rw [← opt ht h1 h2]; rfl
    | lastMulti h1 h2 hty hok hfm => rw [← opt ht h1 h2]; rfl
  | command ht hno hc hf hcur => exact silent rfl rfl
  | unknownCommand _ _ _ _ he => exact (herr he).elim
  | @argument it arg _ _ ht hno hce hrun =>
    cases hrun with
    | sibling hf hc => exact silent rfl rfl
    | @argument a ct w _ _ hn hc =>
      have hg' := (hg.taken ht).2.2
      have hg2 := hg'.arg (v := arg) hn
      obtain ⟨rfl, k, rfl⟩ := calls_passive hp _ _ _ _ _ _ _ hg2.ne hg2.iterOk hc
      have hag : Agrees (argState a ct arg { s with iter := it }).stack (st.add (.argument a arg)) := agrees_add ha (.argument a arg)
      have hv := storedValues_agrees hag
      rw [active_add hst] at hv
      show List.filterMap Event.called (s.log ++ _ ++ _) = _
      rw [called_both _ _ _ _ _ _ _ hv]
      simp [calledFor, callsOf, valueOf, occOf, argState, storeState, Function.comp_def]
    | ignored _ _ _ _ => exact silent rfl rfl
    | tooMany _ _ _ he => exact (herr he).elim

theorem _root_.Argos.Trace.called {env : Env} (hp : env.Passive) {d : ParserData} (hr : Ready d) {s s' : PState} {rs : List IterResult}
    (h : Trace env s rs s') (hg : Good d s) (hl : ∀ r ∈ rs, ¬ r.IsLast) {st : Open} (ha : Agrees s.stack st) :
    s'.log.filterMap Event.called = s.log.filterMap Event.called ++ calledAll d.settings st rs := by
  induction h generalizing st with
  | nil => simp [calledAll]
  | @cons _ _ _ r rs hn _ ih =>
    obtain ⟨hst, hg1⟩ := next_good hr hg hn
    have hr' := hl r (by simp)
    rw [ih hg1 (fun r hr => hl r (by simp [hr])) (hst.agrees hp hg hr' ha),
      hst.called hp hg (fun e => hr' (by rw [e]; trivial)) ha, hg.settings, calledAll, List.append_assoc]

end Parser
end Argos
