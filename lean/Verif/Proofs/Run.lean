import Verif.Proofs.Quiet

/-! # Whole parses -/

namespace Argos
open Spec

namespace Parser
open ParserM

theorem Taken.weight {s : PState} {x : Str} {it : Iter} (h : Taken s (some x) it) : it.weight < s.iter.weight := by
  rcases h with ⟨_, h⟩ | ⟨_, h⟩
  · exact ((s.iter.next_weight h).2 x rfl).1
  · exact ((s.iter.nextValue_weight h).2 x rfl).1

theorem Taken.mode {s : PState} {a : Option Str} {it : Iter} (h : Taken s a it) : s.mode ≠ .done ∧ s.mode ≠ .error := by
  rcases h with ⟨h, _⟩ | ⟨h, _⟩ <;> simp [h]

/-! ### Modes -/

theorem Step.last_mode {env : Env} {s s' : PState} {r : IterResult} (h : Step env s (.ok r) s') :
    (r = .done → s'.mode = .done) ∧ (r = .error → s'.mode = .error) := by
  have herr : ∀ {msg t}, ErrorRun msg t IterResult.error (.ok r) s' → (r = .done → s'.mode = .done) ∧ (r = .error → s'.mode = .error) := by
    intro msg t he
    cases he with
    | error _ _ => exact ⟨by simp, fun _ => rfl⟩
  cases h with
  | afterDone h => exact ⟨fun _ => h, by simp⟩
  | finished _ _ => exact ⟨fun _ => rfl, by simp⟩
  | unfinished _ _ he => exact herr he
  | unknownOption _ _ _ _ _ he => exact herr he
  | ignoredOption _ _ _ _ _ _ => exact ⟨by simp, by simp⟩
  | option _ _ _ hr =>
    cases hr with
    | noValue _ _ he => exact herr he
    | normal _ _ _ => exact ⟨by simp, by simp⟩
    | lastOption _ _ _ => exact ⟨by simp, by simp⟩
    | stopped _ _ _ _ _ => exact ⟨by simp, by simp⟩
    | lastFails _ _ _ _ he => exact herr he
    | lastDone _ _ _ _ _ _ => exact ⟨by simp, by simp⟩
    | lastMulti _ _ _ _ _ => exact ⟨by simp, by simp⟩
  | command _ _ _ _ _ => exact ⟨by simp, by simp⟩
  | unknownCommand _ _ _ _ he => exact herr he
  | argument _ _ _ hr =>
    cases hr with
    | sibling _ _ => exact ⟨by simp, by simp⟩
    | argument _ _ _ => exact ⟨by simp, by simp⟩
    | ignored _ _ _ _ => exact ⟨by simp, by simp⟩
    | tooMany _ _ _ he => exact herr he

theorem Step.outcome {env : Env} {s s' : PState} {r : Outcome IterResult} (h : Step env s r s') :
    (∃ x, r = .ok x) ∨ (∃ m, r = .throw m) ∨ (∃ c, r = .exit c) := by
  have herr : ∀ {msg t}, ErrorRun msg t IterResult.error r s' → (∃ x, r = .ok x) ∨ (∃ m, r = .throw m) ∨ (∃ c, r = .exit c) := by
    intro msg t he
    cases he with
    | error _ _ => exact Or.inl ⟨_, rfl⟩
    | exit _ => exact Or.inr (Or.inr ⟨_, rfl⟩)
  cases h with
  | afterError _ => exact Or.inr (Or.inl ⟨_, rfl⟩)
  | afterDone h => exact Or.inl ⟨_, rfl⟩
  | finished _ _ => exact Or.inl ⟨_, rfl⟩
  | unfinished _ _ he => exact herr he
  | unknownOption _ _ _ _ _ he => exact herr he
  | ignoredOption _ _ _ _ _ _ => exact Or.inl ⟨_, rfl⟩
  | option _ _ _ hr =>
    cases hr with
    | noValue _ _ he => exact herr he
    | callThrow _ _ => exact Or.inr (Or.inl ⟨_, rfl⟩)
    | callExit _ _ _ => exact Or.inr (Or.inr ⟨_, rfl⟩)
    | stopExit _ _ _ _ => exact Or.inr (Or.inr ⟨_, rfl⟩)
    | lastFails _ _ _ _ he => exact herr he
    | _ => exact Or.inl ⟨_, rfl⟩
  | command _ _ _ _ _ => exact Or.inl ⟨_, rfl⟩
  | unknownCommand _ _ _ _ he => exact herr he
  | argument _ _ _ hr =>
    cases hr with
    | callThrow _ _ _ => exact Or.inr (Or.inl ⟨_, rfl⟩)
    | callExit _ _ _ _ => exact Or.inr (Or.inr ⟨_, rfl⟩)
    | tooMany _ _ _ he => exact herr he
    | _ => exact Or.inl ⟨_, rfl⟩

/-! ### Termination -/

/-- What is left to do. -/
def todo (s : PState) : Nat :=
  match s.mode with
  | .done | .error => 0
  | _ => s.iter.weight + 1

theorem todo_le (s : PState) : todo s ≤ s.iter.weight + 1 := by
  unfold todo; split <;> omega

theorem todo_taken {s : PState} {a : Option Str} {it : Iter} (h : Taken s a it) : todo s = s.iter.weight + 1 := by
  rcases h with ⟨h, _⟩ | ⟨h, _⟩ <;> simp [todo, h]

theorem Step.todo {env : Env} (hq : env.Quiet) {d : ParserData} {s s' : PState} (hg : Good d s) {r : IterResult}
    (h : Step env s (.ok r) s') (hr : ¬ r.IsLast) : todo s' < todo s := by
  have herr : ∀ {msg t}, ErrorRun msg t IterResult.error (.ok r) s' → False := by
    intro msg t he
    cases he with
    | error _ _ => exact hr trivial
  have key : ∀ {x it}, Taken s (some x) it → s'.iter.weight ≤ it.weight → Parser.todo s' < Parser.todo s := by
    intro x it ht hw
    have h1 := todo_taken ht
    have h2 := todo_le s'
    have h3 := ht.weight
    omega
  cases h with
  | afterDone h => exact absurd trivial hr
  | finished _ _ => exact absurd trivial hr
  | unfinished _ _ he => exact (herr he).elim
  | unknownOption _ _ _ _ _ he => exact (herr he).elim
  | ignoredOption ht _ _ _ _ _ => exact key ht (Nat.le_refl _)
  | option ht _ _ hrun =>
    have hg' := (hg.taken ht).2.2
    have aux : ∀ {o : OptData} {flag : Str} {it : Iter} {s2 s3 : PState} {v : Str} {st : Bool} {w : Option Str},
        Good d { s with iter := it } → OpRun o flag { s with iter := it } (.ok (some (v, st))) s2 →
        calls env o.callback ParserSettings.optionCallback (.opt o) o.valueId st (some v) s2 = (.ok w, s3) →
        s3.iter.weight ≤ it.weight := by
      intro o flag it s2 s3 v st w hg1 h1 h2
      have f := h1.ok_facts hg1.ne hg1.iterOk
      have := calls_quiet hq o.callback ParserSettings.optionCallback (.opt o) o.valueId st (some v) s2 f.1 f.2.1
      rw [h2] at this
      rw [this.1]
      exact f.2.2.2.2.2.2.2.2.2.2
    cases hrun with
    | noValue _ _ he => exact (herr he).elim
    | normal h1 h2 _ => exact key ht (aux hg' h1 h2)
    | lastOption h1 h2 _ =>
      have := aux hg' h1 h2
      exact key ht this
    | stopped h1 h2 _ _ _ =>
      rw [todo_taken ht]
      show 0 < _
      omega
    | lastFails _ _ _ _ he => exact (herr he).elim
    | lastDone _ _ _ _ _ _ =>
      rw [todo_taken ht]
      show 0 < _
      omega
    | lastMulti h1 h2 _ _ _ =>
      have := aux hg' h1 h2
      exact key ht this
  | command ht _ _ _ _ => exact key ht (Nat.le_refl _)
  | unknownCommand _ _ _ _ he => exact (herr he).elim
  | argument ht _ _ hrun =>
    have hg' := (hg.taken ht).2.2
    cases hrun with
    | sibling _ _ => exact key ht (Nat.le_refl _)
    | argument _ hn hc =>
      refine key ht ?_
      rename_i arg _ _ a ct _ _
      have hga := hg'.arg (v := arg) hn
      have := calls_quiet hq a.callback ParserSettings.argumentCallback (.arg a) a.valueId true (some arg) _ hga.ne hga.iterOk
      rw [hc] at this
      rw [this.1, argState, storeState_iter]
      exact Nat.le_refl _
    | ignored _ _ _ _ => exact key ht (Nat.le_refl _)
    | tooMany _ _ _ he => exact (herr he).elim

theorem run_succ (env : Env) (fuel : Nat) (s : PState) : run env (fuel + 1) s = (next env >>= fun r =>
    match r with
    | .error => pure ()
    | .done => pure ()
    | _ => run env fuel) s := rfl

theorem run_bound {env : Env} (hq : env.Quiet) {d : ParserData} (hr : Ready d) (fuel : Nat) : ∀ {s : PState}, Good d s → todo s < fuel →
    (run env fuel s).1 ≠ .diverges := by
  induction fuel with
  | zero => intro s _ h; omega
  | succ fuel ih =>
    intro s hg hf
    obtain ⟨hst, hg'⟩ := hg.next env hr
    rw [run_succ]
    generalize hn : next env s = q at hst hg'
    obtain ⟨o, s1⟩ := q
    simp only at hst hg'
    rcases hst.outcome with ⟨x, rfl⟩ | ⟨m, rfl⟩ | ⟨c, rfl⟩
    · rw [bind_ok hn]
      have key : ¬ x.IsLast → (run env fuel s1).1 ≠ .diverges := by
        intro hl
        exact ih hg' (by have := hst.todo hq hg hl; omega)
      cases x with
      | done => simp [pure_apply]
      | error => simp [pure_apply]
      | argument a v => exact key id
      | option a v => exact key id
      | command a v => exact key id
      | unknown a => exact key id
    · rw [bind_throw hn]; simp
    · rw [bind_exit hn]; simp

/-! ### `parse` and traces -/

theorem run_trace {env : Env} (fuel : Nat) : ∀ {s s' : PState}, run env fuel s = (.ok (), s') →
    ∃ rs last s1, Trace env s rs s1 ∧ next env s1 = (.ok last, s') ∧ (∀ r ∈ rs, ¬ r.IsLast) ∧ last.IsLast := by
  induction fuel with
  | zero => intro s s' h; simp [run, lift_apply] at h
  | succ fuel ih =>
    intro s s' h
    rw [run_succ, bind_apply] at h
    generalize hn : next env s = q at h
    obtain ⟨o, s1⟩ := q
    cases o with
    | ok x =>
      simp only at h
      have key : ¬ x.IsLast → run env fuel s1 = (.ok (), s') →
          ∃ rs last s1, Trace env s rs s1 ∧ next env s1 = (.ok last, s') ∧ (∀ r ∈ rs, ¬ r.IsLast) ∧ last.IsLast := by
        intro hl h
        obtain ⟨rs, last, s2, h1, h2, h3, h4⟩ := ih h
        exact ⟨x :: rs, last, s2, .cons hn h1, h2, by simpa using ⟨hl, h3⟩, h4⟩
      cases x with
      | done =>
        simp only [pure_apply, Prod.mk.injEq, true_and] at h
        exact ⟨[], .done, s, .nil, by rw [hn, h], by simp, trivial⟩
      | error =>
        simp only [pure_apply, Prod.mk.injEq, true_and] at h
        exact ⟨[], .error, s, .nil, by rw [hn, h], by simp, trivial⟩
      | argument a v => exact key id h
      | option a v => exact key id h
      | command a v => exact key id h
      | unknown a => exact key id h
    | _ => simp at h

theorem trace_run {env : Env} {s s1 s' : PState} {rs : List IterResult} {last : IterResult} (h : Trace env s rs s1)
    (hl : next env s1 = (.ok last, s')) (hb : ∀ r ∈ rs, ¬ r.IsLast) (hlast : last.IsLast) (k : Nat) :
    run env (rs.length + 1 + k) s = (.ok (), s') := by
  induction h with
  | nil =>
    have : ([] : List IterResult).length + 1 + k = k + 1 := by simp; omega
    rw [this, run_succ, bind_ok hl]
    cases last with
    | done => rfl
    | error => rfl
    | _ => exact hlast.elim
  | cons hn _ ih =>
    rename_i r rs _
    have : (r :: rs).length + 1 + k = (rs.length + 1 + k) + 1 := by simp; omega
    rw [this, run_succ, bind_ok hn]
    have hr := hb r (by simp)
    have ih := ih hl (fun r hr => hb r (by simp [hr]))
    cases r with
    | done => exact absurd trivial hr
    | error => exact absurd trivial hr
    | _ => exact ih

theorem parse_parses {env : Env} {d : ParserData} {args : List Str} {fuel : Nat} {t : Option PNode} {s' : PState}
    (h : parse env d args fuel = (.ok t, s')) : t = topLevel s' ∧ ∃ rs last, Parses env d args rs last s' := by
  unfold parse at h
  rw [(start_good d args).1] at h
  simp only at h
  generalize hrun : run env fuel _ = q at h
  obtain ⟨o, s1⟩ := q
  cases o with
  | ok u =>
    simp only [Prod.mk.injEq, Outcome.ok.injEq] at h
    obtain ⟨h1, h2⟩ := h
    subst h2
    obtain ⟨rs, last, s1, t1, t2, t3, t4⟩ := run_trace fuel hrun
    refine ⟨h1.symm, rs, last, ⟨s1, ?_, t2⟩, t3, t4⟩
    rw [(start_good d args).1]
    exact t1
  | _ => simp at h

theorem parses_parse {env : Env} {d : ParserData} {args : List Str} {rs : List IterResult} {last : IterResult} {s' : PState}
    (h : Parses env d args rs last s') (k : Nat) : parse env d args (rs.length + 1 + k) = (.ok (topLevel s'), s') := by
  obtain ⟨⟨s1, h1, h2⟩, h3, h4⟩ := h
  rw [(start_good d args).1] at h1
  unfold parse
  rw [(start_good d args).1]
  simp only
  rw [trace_run h1 h2 h3 h4 k]

theorem _root_.Argos.Trace.good {env : Env} {d : ParserData} (hr : Ready d) {s s' : PState} {rs : List IterResult} (h : Trace env s rs s')
    (hg : Good d s) : Good d s' := by
  induction h with
  | nil => exact hg
  | cons hn _ ih =>
    have := (hg.next env hr).2
    rw [hn] at this
    exact ih this

theorem next_good {env : Env} {d : ParserData} (hr : Ready d) {s s' : PState} {r : Outcome IterResult} (hg : Good d s)
    (h : next env s = (r, s')) : Step env s r s' ∧ Good d s' := by
  have := hg.next env hr
  rw [h] at this
  exact this

theorem Reach.trace {env : Env} {d : ParserData} {args : List Str} {s s' : PState} {rs : List IterResult}
    (h : Reach env d args s) (ht : Trace env s rs s') : Reach env d args s' := by
  induction ht with
  | nil => exact h
  | cons hn _ ih =>
    apply ih
    have := h.next
    rw [hn] at this
    exact this

theorem _root_.Argos.Parses.good {env : Env} {d : ParserData} (hr : Ready d) {args : List Str} {rs : List IterResult} {last : IterResult} {s' : PState}
    (h : Parses env d args rs last s') : ∃ s, Trace env (start d args).2 rs s ∧ Good d s ∧ next env s = (.ok last, s') ∧
      Step env s (.ok last) s' ∧ Good d s' := by
  obtain ⟨s, h1, h2⟩ := h.trace
  have hg := h1.good hr (start_good d args).2
  have := next_good hr hg h2
  exact ⟨s, h1, hg, h2, this.1, this.2⟩

end Parser
end Argos
