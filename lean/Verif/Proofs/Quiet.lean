import Verif.Proofs.Good

/-! # Callbacks that insert nothing, or only watch -/

namespace Argos
open Spec

/-- Callbacks never insert arguments. -/
def Env.Quiet (env : Env) : Prop := ∀ cb k v x n, (env.callback cb k v x n).newArguments = []

/-- Callbacks never insert arguments and never change values (they may throw or report errors). -/
def Env.Passive (env : Env) : Prop :=
  ∀ cb k v x n, (env.callback cb k v x n).newArguments = [] ∧ (env.callback cb k v x n).ops = []

theorem Env.Passive.quiet {env : Env} (h : env.Passive) : env.Quiet := fun cb k v x n => (h cb k v x n).1

theorem Env.inert_passive : Env.inert.Passive := fun _ _ _ _ _ => ⟨rfl, rfl⟩

namespace Parser
open ParserM

theorem builderError_state (msg : Str) (s : PState) : (builderError msg s).2.iter = s.iter ∧
    (builderError msg s).2.counter = s.counter ∧ (∀ v s', builderError msg s ≠ (.ok v, s')) := by
  unfold builderError
  cases hs : s.stack with
  | nil =>
    have hb : back s = (.ub, s) := by simp [back, hs]
    rw [bind_apply, hb]
    exact ⟨rfl, rfl, by intro v s' h; simp at h⟩
  | cons n ns =>
    rw [bind_ok (back_run hs)]
    unfold emit
    rw [modify_bind, get_bind]
    split <;> exact ⟨rfl, rfl, by intro v s' h; simp [lift_apply] at h⟩

theorem runCallback_quiet {env : Env} (hq : env.Quiet) (cb : Nat) (view : ViewRef) (vid : Nat) (stored : Bool) (value : Option Str)
    (s : PState) (hs : s.stack ≠ []) : (runCallback env cb view vid stored value s).2.iter = s.iter ∧
      (runCallback env cb view vid stored value s).2.counter = s.counter := by
  cases hn : s.stack with
  | nil => exact absurd hn hs
  | cons n ns =>
    unfold runCallback
    rw [bind_ok (back_run hn), get_bind]
    have hnew := hq cb s.calls view value n
    generalize env.callback cb s.calls view value n = r at hnew
    have hcs : (called cb view value n.values s).stack ≠ [] := hs
    show ((applyOps vid r.ops false >>= _ : ParserM (Option Str)) (called cb view value n.values s)).2.iter = _ ∧
      ((applyOps vid r.ops false >>= _ : ParserM (Option Str)) (called cb view value n.values s)).2.counter = _
    rcases applyOps_run vid r.ops false (called cb view value n.values s) hcs with
      ⟨b, s1, h1, h2, h3, h4, h5, h6⟩ | ⟨m, s1, h1, h2, h3, h4, h5, h6⟩
    · rw [bind_ok h1]
      cases hfin : r.fin with
      | throws m => exact ⟨h3, h4⟩
      | error m =>
        simp only
        have := builderError_state m s1
        rw [bind_apply]
        generalize builderError m s1 = q at this
        obtain ⟨q, s2⟩ := q
        simp only at this
        cases q with
        | ok v => exact absurd rfl (this.2.2 v s2)
        | _ => exact ⟨this.1.trans h3, this.2.1.trans h4⟩
      | returns =>
        simp only [hnew]
        exact ⟨h3, h4⟩
    · rw [bind_throw h1]
      exact ⟨h3, h4⟩

theorem runCallbackOpt_quiet {env : Env} (hq : env.Quiet) (cb : Option Nat) (view : ViewRef) (vid : Nat) (stored : Bool) (value : Option Str)
    (s : PState) (hs : s.stack ≠ []) : (runCallbackOpt env cb view vid stored value s).2.iter = s.iter ∧
      (runCallbackOpt env cb view vid stored value s).2.counter = s.counter := by
  cases cb with
  | none => exact ⟨rfl, rfl⟩
  | some cb => exact runCallback_quiet hq cb view vid stored value s hs

theorem calls_quiet {env : Env} (hq : env.Quiet) (cb : Option Nat) (sel : ParserSettings → Option Nat) (view : ViewRef) (vid : Nat)
    (stored : Bool) (value : Option Str) (s : PState) (hs : s.stack ≠ []) (hi : s.iter.Ok) :
    (calls env cb sel view vid stored value s).2.iter = s.iter ∧ (calls env cb sel view vid stored value s).2.counter = s.counter := by
  unfold calls
  have h1 := runCallbackOpt_quiet hq cb view vid stored value s hs
  have hr := (runCallbackOpt_run env cb view vid stored value s hs hi).1
  generalize hq1 : runCallbackOpt env cb view vid stored value s = q at h1 hr
  obtain ⟨q, s1⟩ := q
  simp only at h1 hr
  cases hr with
  | throw _ => rw [bind_throw hq1]; exact h1
  | exit _ _ => rw [bind_exit hq1]; exact h1
  | ok hf =>
    rename_i v
    rw [bind_ok hq1, get_bind]
    have h2 := runCallbackOpt_quiet hq (sel s1.settings) view vid stored v s1 (hf.stack_ne hs)
    exact ⟨h2.1.trans h1.1, h2.2.trans h1.2⟩

theorem runCallback_passive {env : Env} (hq : env.Passive) (cb : Nat) (view : ViewRef) (vid : Nat) (stored : Bool) (value : Option Str)
    (s : PState) (hs : s.stack ≠ []) {v : Option Str} {s' : PState} (h : runCallback env cb view vid stored value s = (.ok v, s')) :
    v = value ∧ s' = { s with calls := s.calls + 1, log := s.log ++ [.callback cb view value (storedValues s)] } := by
  cases hn : s.stack with
  | nil => exact absurd hn hs
  | cons n ns =>
    unfold runCallback at h
    rw [bind_ok (back_run hn), get_bind] at h
    obtain ⟨hnew, hops⟩ := hq cb s.calls view value n
    generalize env.callback cb s.calls view value n = r at hnew hops h
    have hsv : storedValues s = n.values := by simp [storedValues, hn]
    have h' : (applyOps vid r.ops false >>= fun touched =>
        match r.fin with
        | .throws m => lift (.throw m)
        | .error m => do
          builderError m
          pure none
        | .returns => do
          updateArguments r.newArguments
          pure (if stored && touched then none else value) : ParserM (Option Str)) (called cb view value n.values s) = (.ok v, s') := h
    rw [hops, bind_ok (a := false) (s' := called cb view value n.values s) (by rfl)] at h'
    cases hfin : r.fin with
    | throws m => rw [hfin] at h'; simp [lift_apply] at h'
    | error m =>
      rw [hfin] at h'
      simp only at h'
      have := builderError_state m (called cb view value n.values s)
      rw [bind_apply] at h'
      generalize builderError m (called cb view value n.values s) = q at this h'
      obtain ⟨q, s2⟩ := q
      cases q with
      | ok v => exact absurd rfl (this.2.2 v s2)
      | _ => simp at h'
    | returns =>
      rw [hfin] at h'
      simp only [hnew] at h'
      have hu : updateArguments [] (called cb view value n.values s) = (.ok (), called cb view value n.values s) := rfl
      rw [bind_ok hu, pure_apply] at h'
      simp only [Bool.and_false, Bool.false_eq_true, if_false, Prod.mk.injEq, Outcome.ok.injEq] at h'
      refine ⟨h'.1.symm, ?_⟩
      rw [← h'.2, hsv]
      simp [called, hn]

theorem runCallbackOpt_passive {env : Env} (hq : env.Passive) (cb : Option Nat) (view : ViewRef) (vid : Nat) (stored : Bool) (value : Option Str)
    (s : PState) (hs : s.stack ≠ []) {v : Option Str} {s' : PState} (h : runCallbackOpt env cb view vid stored value s = (.ok v, s')) :
    v = value ∧ ∃ k, s' = { s with calls := k, log := s.log ++ callEvents cb view value (storedValues s) } := by
  cases cb with
  | none =>
    simp only [runCallbackOpt, pure_apply, Prod.mk.injEq, Outcome.ok.injEq] at h
    refine ⟨h.1.symm, s.calls, ?_⟩
    rw [← h.2]
    simp [callEvents]
  | some cb =>
    obtain ⟨h1, h2⟩ := runCallback_passive hq cb view vid stored value s hs h
    exact ⟨h1, _, h2⟩

/-- Watching callbacks are given the value and leave no trace. -/
theorem calls_passive {env : Env} (hq : env.Passive) (cb : Option Nat) (sel : ParserSettings → Option Nat) (view : ViewRef) (vid : Nat)
    (stored : Bool) (value : Option Str) (s : PState) (hs : s.stack ≠ []) (hi : s.iter.Ok) {v : Option Str} {s' : PState}
    (h : calls env cb sel view vid stored value s = (.ok v, s')) :
    v = value ∧ ∃ k, s' = { s with
      calls := k
      log := s.log ++ callEvents cb view value (storedValues s) ++ callEvents (sel s.settings) view value (storedValues s) } := by
  unfold calls at h
  have hr := (runCallbackOpt_run env cb view vid stored value s hs hi).1
  generalize hq1 : runCallbackOpt env cb view vid stored value s = q at hr
  obtain ⟨q, s1⟩ := q
  simp only at hr
  cases hr with
  | throw _ => rw [bind_throw hq1] at h; simp at h
  | exit _ _ => rw [bind_exit hq1] at h; simp at h
  | ok hf =>
    obtain ⟨e1, k1, e2⟩ := runCallbackOpt_passive hq cb view vid stored value s hs hq1
    rw [bind_ok hq1, get_bind] at h
    obtain ⟨e3, k2, e4⟩ := runCallbackOpt_passive hq (sel s1.settings) view vid stored _ s1 (hf.stack_ne hs) h
    subst e1
    refine ⟨e3, k2, ?_⟩
    rw [e4, e2]
    rfl

end Parser
end Argos
