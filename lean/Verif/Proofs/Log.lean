import Verif.Proofs.Run

/-! # What is written and which callbacks run -/

namespace Argos
open Spec

namespace Parser
open ParserM

/-- What follows the call of a callback that does not return: nothing, or the error message it asked
for, which is one of the active command. -/
structure Tail (s : PState) (o : Outcome (Option Str)) (tl : List Event) : Prop where
  error : tl = [] ∨ ∃ n ns m, s.stack = n :: ns ∧ tl = [.error n.command m]
  exit : ∀ c, o = .exit c → tl ≠ []

theorem Tail.of {s : PState} {c : Command} (h : s.stack.head?.map (·.command) = some c) {o : Outcome (Option Str)}
    {tl : List Event} (ht : Tail s o tl) : (tl = [] ∨ ∃ m, tl = [.error c m]) ∧ ∀ c, o = .exit c → tl ≠ [] := by
  refine ⟨?_, ht.exit⟩
  rcases ht.error with h1 | ⟨n, ns, m, h1, h2⟩
  · exact Or.inl h1
  · rw [h1] at h
    simp only [List.head?_cons, Option.map_some, Option.some.injEq] at h
    exact Or.inr ⟨m, by rw [h2, h]⟩

theorem builderError_log (msg : Str) (s : PState) (hs : s.stack ≠ []) :
    ∃ n ns, s.stack = n :: ns ∧ (builderError msg s).2.log = s.log ++ [.error n.command msg] := by
  unfold builderError
  cases hn : s.stack with
  | nil => exact absurd hn hs
  | cons n ns =>
    rw [bind_ok (back_run hn)]
    unfold emit
    rw [modify_bind, get_bind]
    split <;> exact ⟨_, _, rfl, rfl⟩

theorem runCallback_tail (env : Env) (cb : Nat) (view : ViewRef) (vid : Nat) (stored : Bool) (value : Option Str)
    (s : PState) (hs : s.stack ≠ []) (hi : s.iter.Ok) {o : Outcome (Option Str)} {s' : PState}
    (h : runCallback env cb view vid stored value s = (o, s')) (ho : ∀ v, o ≠ .ok v) :
    ∃ tl, Tail s o tl ∧ s'.log = s.log ++ .callback cb view value (storedValues s) :: tl := by
  cases hn : s.stack with
  | nil => exact absurd hn hs
  | cons n ns =>
    have hsv : storedValues s = n.values := by simp [storedValues, hn]
    unfold runCallback at h
    rw [bind_ok (back_run hn), get_bind] at h
    generalize env.callback cb s.calls view value n = r at h
    have hcs : (called cb view value n.values s).stack ≠ [] := hs
    replace h : (applyOps vid r.ops false >>= fun touched =>
        match r.fin with
        | .throws m => lift (.throw m)
        | .error m => do
          builderError m
          pure none
        | .returns => do
          updateArguments r.newArguments
          pure (if stored && touched then none else value) : ParserM (Option Str)) (called cb view value n.values s) = (o, s') := h
    have hlog : (called cb view value n.values s).log = s.log ++ [.callback cb view value (storedValues s)] := by
      rw [hsv]; rfl
    rcases applyOps_run vid r.ops false (called cb view value n.values s) hcs with
      ⟨b, s1, h1, h2, h3, h4, h5, h6⟩ | ⟨m, s1, h1, h2, h3, h4, h5, h6⟩
    · rw [bind_ok h1] at h
      have hs1 : s1.stack ≠ [] := h2.stack_ne hcs
      cases hfin : r.fin with
      | throws m =>
        rw [hfin] at h
        simp only [lift_apply, Prod.mk.injEq] at h
        refine ⟨[], ⟨Or.inl rfl, ?_⟩, ?_⟩
        · intro c hc; rw [← h.1] at hc; simp at hc
        · rw [← h.2, h5, hlog]
      | error m =>
        rw [hfin] at h
        simp only at h
        obtain ⟨n1, ns1, hn1, hc⟩ := builderError_log m s1 hs1
        have hnc : n1.command = n.command := by
          obtain ⟨ws, e⟩ := h2.stack n ns hn
          rw [hn1] at e
          simp only [List.cons.injEq] at e
          rw [e.1]
        have hne := (builderError_state m s1).2.2
        rw [bind_apply] at h
        generalize builderError m s1 = q at h hc hne
        obtain ⟨q, s2⟩ := q
        have : s' = s2 := by
          cases q with
          | ok v => exact absurd rfl (hne v s2)
          | _ => simp only [Prod.mk.injEq] at h; exact h.2.symm
        subst this
        refine ⟨[.error n.command m], ⟨Or.inr ⟨n, ns, m, hn, rfl⟩, by simp⟩, ?_⟩
        rw [hc, h5, hlog, hnc]
        simp
      | returns =>
        rw [hfin] at h
        simp only at h
        have hi1 : s1.iter.Ok := by rw [h3]; exact hi
        obtain ⟨s2, g1, _⟩ := updateArguments_run r.newArguments s1 hi1
        rw [bind_ok g1, pure_apply] at h
        simp only [Prod.mk.injEq] at h
        exact absurd h.1.symm (ho _)
    · rw [bind_throw h1] at h
      simp only [Prod.mk.injEq] at h
      refine ⟨[], ⟨Or.inl rfl, ?_⟩, ?_⟩
      · intro c hc; rw [← h.1] at hc; simp at hc
      · rw [← h.2, h5, hlog]

/-- The callbacks that have run when one of them does not return. -/
theorem calls_tail (env : Env) (cb : Option Nat) (sel : ParserSettings → Option Nat) (view : ViewRef) (vid : Nat)
    (stored : Bool) (value : Option Str) (s : PState) (hs : s.stack ≠ []) (hi : s.iter.Ok) {o : Outcome (Option Str)} {s' : PState}
    (h : calls env cb sel view vid stored value s = (o, s')) (ho : ∀ v, o ≠ .ok v) :
    ∃ tl, Tail s o tl ∧
      ((∃ cb', cb = some cb' ∧ s'.log = s.log ++ .callback cb' view value (storedValues s) :: tl) ∨
       (∃ g v1 seen, sel s.settings = some g ∧
         s'.log = s.log ++ callEvents cb view value (storedValues s) ++ .callback g view v1 seen :: tl)) := by
  unfold calls at h
  obtain ⟨hr, hl⟩ := runCallbackOpt_run env cb view vid stored value s hs hi
  generalize hq1 : runCallbackOpt env cb view vid stored value s = q at hr hl
  obtain ⟨q, s1⟩ := q
  simp only at hr
  have first : (q, s1) = (o, s') → ∃ tl, Tail s o tl ∧
      ((∃ cb', cb = some cb' ∧ s'.log = s.log ++ .callback cb' view value (storedValues s) :: tl) ∨
       (∃ g v1 seen, sel s.settings = some g ∧
         s'.log = s.log ++ callEvents cb view value (storedValues s) ++ .callback g view v1 seen :: tl)) := by
    intro he
    rw [he] at hq1
    cases cb with
    | none =>
      simp only [runCallbackOpt, pure_apply, Prod.mk.injEq] at hq1
      exact absurd hq1.1.symm (ho _)
    | some cb' =>
      obtain ⟨tl, h1, h2⟩ := runCallback_tail env cb' view vid stored value s hs hi hq1 ho
      exact ⟨tl, h1, Or.inl ⟨cb', rfl, h2⟩⟩
  cases hr with
  | throw _ => rw [bind_throw hq1] at h; exact first h
  | exit _ _ => rw [bind_exit hq1] at h; exact first h
  | ok hf =>
    rename_i v
    rw [bind_ok hq1, get_bind] at h
    obtain ⟨l1, _⟩ := hl v s1 rfl
    cases hg : sel s1.settings with
    | none =>
      rw [hg] at h
      simp only [runCallbackOpt, pure_apply, Prod.mk.injEq] at h
      exact absurd h.1.symm (ho _)
    | some g =>
      rw [hg] at h
      obtain ⟨tl, h1, h2⟩ := runCallback_tail env g view vid stored v s1 (hf.stack_ne hs) (hf.iterOk hi) h ho
      have h1' : Tail s o tl := by
        refine ⟨?_, h1.exit⟩
        rcases h1.error with h1 | ⟨n, ns, m, h1, h3⟩
        · exact Or.inl h1
        · right
          cases hn : s.stack with
          | nil => exact absurd hn hs
          | cons n' ns' =>
            obtain ⟨ws, e⟩ := hf.stack n' ns' hn
            rw [h1] at e
            simp only [List.cons.injEq] at e
            exact ⟨n', ns', m, rfl, by rw [h3, e.1]⟩
      refine ⟨tl, h1', Or.inr ⟨g, v, storedValues s1, by rw [← hf.settings]; exact hg, ?_⟩⟩
      rw [h2, l1]

/-- The values stored when the callbacks of an option with value `v` are entered. -/
def afterWrite (w : Option Write) (vs : Values) : Values :=
  match w with
  | none => vs
  | some w => w.exec vs

theorem storedValues_store (w : Option Write) (s : PState) (hs : s.stack ≠ []) :
    storedValues (storeState w s) = afterWrite w (storedValues s) := by
  cases w with
  | none => rfl
  | some w =>
    cases hn : s.stack with
    | nil => exact absurd hn hs
    | cons n ns => simp [storedValues, storeState, headMap, hn, afterWrite]

/-- The value of an occurrence of an option, from the iterator after the flag. -/
inductive ValueRead (o : OptData) (it : Iter) : Str → Prop
  | plain : ¬ TakesValue o → ValueRead o it []
  | value {v : Str} {it' : Iter} : TakesValue o → it.nextValue = .ok (some v, it') → ValueRead o it v

/-- The change of the values by an occurrence of an option with the value `v`. -/
def occWrite (o : OptData) (v : Str) : Option Write :=
  match o.operation with
  | .assign => some (.assign o.valueId (if o.constant = [] then v else o.constant) o.argumentId)
  | .append => some (.append o.valueId (if o.constant = [] then v else o.constant) o.argumentId)
  | .clear => some (.clear o.valueId)
  | .none => none

theorem OpRun.write {o : OptData} {flag : Str} {s s2 : PState} {v : Str} {st : Bool}
    (h : OpRun o flag s (.ok (some (v, st))) s2) (hs : s.stack ≠ []) :
    ValueRead o s.iter v ∧ storedValues s2 = afterWrite (occWrite o v) (storedValues s) ∧
      s2.stack = (storeState (occWrite o v) s).stack := by
  cases h with
  | plain hn =>
    have he : optWrite o o.constant = occWrite o [] := by
      unfold optWrite occWrite
      cases hop : o.operation with
      | assign => rw [if_neg (fun hc => hn ⟨Or.inl hop, hc⟩)]
      | append => rw [if_neg (fun hc => hn ⟨Or.inr hop, hc⟩)]
      | clear => rfl
      | none => rfl
    rw [he]
    exact ⟨.plain hn, storedValues_store _ _ hs, rfl⟩
  | value ht hnv =>
    have he : optWrite o v = occWrite o v := by
      unfold optWrite occWrite
      rw [if_pos ht.2]
      cases o.operation <;> rfl
    rw [he]
    refine ⟨.value ht hnv, ?_, ?_⟩
    · rw [storedValues_store _ _ (by exact hs)]; rfl
    · cases occWrite o v <;> rfl
  | noValue _ _ he => cases he

/-- The events of the callbacks for one occurrence: its own callback, then the parser-wide one. The
first one gets the value and sees the stored values. -/
structure CallLog (cb g : Option Nat) (view : ViewRef) (v : Str) (stored : Values) (es : List Event) : Prop where
  events : ∃ v1 seen, (v1 = some v ∨ v1 = none) ∧ (cb = none → v1 = some v ∧ seen = stored) ∧
    es = callEvents cb view (some v) stored ++ callEvents g view v1 seen

/-- The events up to a callback that does not return. -/
inductive CutLog (cb g : Option Nat) (view : ViewRef) (v : Str) (stored : Values) : List Event → Prop
  | own {c : Nat} : cb = some c → CutLog cb g view v stored [.callback c view (some v) stored]
  | general {c : Nat} {v1 : Option Str} {seen : Values} : g = some c →
      CutLog cb g view v stored (callEvents cb view (some v) stored ++ [.callback c view v1 seen])

theorem calls_ok_log {env : Env} {cb : Option Nat} {sel : ParserSettings → Option Nat} {view : ViewRef} {vid : Nat}
    {stored : Bool} {v : Str} {s s' : PState} {w : Option Str} (hs : s.stack ≠ []) (hi : s.iter.Ok)
    (h : calls env cb sel view vid stored (some v) s = (.ok w, s')) :
    ∃ es, CallLog cb (sel s.settings) view v (storedValues s) es ∧ s'.log = s.log ++ es := by
  obtain ⟨v1, seen, h1, h2, h3, h4⟩ := (calls_run env cb sel view vid stored (some v) s hs hi).2 w s' h
  exact ⟨_, ⟨v1, seen, h1, h3, rfl⟩, by rw [h4, List.append_assoc]⟩

theorem calls_cut_log {env : Env} {cb : Option Nat} {sel : ParserSettings → Option Nat} {view : ViewRef} {vid : Nat}
    {stored : Bool} {v : Str} {s s' : PState} {o : Outcome (Option Str)} (hs : s.stack ≠ []) (hi : s.iter.Ok)
    (h : calls env cb sel view vid stored (some v) s = (o, s')) (ho : ∀ v, o ≠ .ok v) :
    ∃ es tl, CutLog cb (sel s.settings) view v (storedValues s) es ∧ Tail s o tl ∧ s'.log = s.log ++ es ++ tl := by
  obtain ⟨tl, h1, h2⟩ := calls_tail env cb sel view vid stored (some v) s hs hi h ho
  rcases h2 with ⟨c, e1, e2⟩ | ⟨g, v1, seen, e1, e2⟩
  · exact ⟨_, tl, .own e1, h1, by rw [e2]; simp⟩
  · exact ⟨_, tl, .general (v1 := v1) (seen := seen) e1, h1, by rw [e2]; simp⟩

/-- All events of one call of `next`. -/
inductive StepLog (s : PState) : Outcome IterResult → List Event → Prop
  /-- A result that is neither an option nor an argument nor an error: nothing happens. -/
  | silent {r : IterResult} : (∀ o w, r ≠ .option o w) → (∀ a w, r ≠ .argument a w) → r ≠ .error → StepLog s (.ok r) []
  | afterError {m : Str} : s.mode = .error → StepLog s (.throw m) []
  | option {o : OptData} {w : Option Str} {it : Iter} {flag v : Str} {es : List Event} :
      Taken s (some flag) it → OptionLike s flag → lookup s flag = some o → ValueRead o it v →
      CallLog o.callback s.settings.optionCallback (.opt o) v (afterWrite (occWrite o v) (storedValues s)) es →
      StepLog s (.ok (.option o w)) (es ++ if o.type = .help then [.help s.command] else [])
  | argument {a : ArgData} {w : Option Str} {it : Iter} {v : Str} {es : List Event} : Taken s (some v) it →
      ¬ OptionLike s v → (∃ ct, s.counter.nextArgument = (some a, ct)) →
      CallLog a.callback s.settings.argumentCallback (.arg a) v ((Write.append a.valueId v a.argumentId).exec (storedValues s)) es →
      StepLog s (.ok (.argument a w)) es
  /-- Errors: after no callback, or after those of an option of type `LAST_ARGUMENT`. -/
  | error {m : Str} : s.settings.autoExit = false → StepLog s (.ok .error) [.error s.command m]
  | errorExit {m : Str} : s.settings.autoExit = true → StepLog s (.exit s.settings.errorExitCode) [.error s.command m]
  | lastError {o : OptData} {it : Iter} {flag v m : Str} {es : List Event} : s.settings.autoExit = false →
      Taken s (some flag) it → OptionLike s flag → lookup s flag = some o → o.type = .lastArgument → ValueRead o it v →
      CallLog o.callback s.settings.optionCallback (.opt o) v (afterWrite (occWrite o v) (storedValues s)) es →
      StepLog s (.ok .error) (es ++ [.error s.command m])
  | lastErrorExit {o : OptData} {it : Iter} {flag v m : Str} {es : List Event} : s.settings.autoExit = true →
      Taken s (some flag) it → OptionLike s flag → lookup s flag = some o → o.type = .lastArgument → ValueRead o it v →
      CallLog o.callback s.settings.optionCallback (.opt o) v (afterWrite (occWrite o v) (storedValues s)) es →
      StepLog s (.exit s.settings.errorExitCode) (es ++ [.error s.command m])
  /-- A callback that does not return. -/
  | optionThrow {o : OptData} {it : Iter} {flag v m : Str} {es tl : List Event} :
      Taken s (some flag) it → OptionLike s flag → lookup s flag = some o → ValueRead o it v →
      CutLog o.callback s.settings.optionCallback (.opt o) v (afterWrite (occWrite o v) (storedValues s)) es →
      tl = [] ∨ (∃ m, tl = [.error s.command m]) → StepLog s (.throw m) (es ++ tl)
  | optionExit {o : OptData} {it : Iter} {flag v m : Str} {es : List Event} : s.settings.autoExit = true →
      Taken s (some flag) it → OptionLike s flag → lookup s flag = some o → ValueRead o it v →
      CutLog o.callback s.settings.optionCallback (.opt o) v (afterWrite (occWrite o v) (storedValues s)) es →
      StepLog s (.exit s.settings.errorExitCode) (es ++ [.error s.command m])
  | argumentThrow {a : ArgData} {it : Iter} {v m : Str} {es tl : List Event} : Taken s (some v) it →
      ¬ OptionLike s v → (∃ ct, s.counter.nextArgument = (some a, ct)) →
      CutLog a.callback s.settings.argumentCallback (.arg a) v ((Write.append a.valueId v a.argumentId).exec (storedValues s)) es →
      tl = [] ∨ (∃ m, tl = [.error s.command m]) → StepLog s (.throw m) (es ++ tl)
  | argumentExit {a : ArgData} {it : Iter} {v m : Str} {es : List Event} : s.settings.autoExit = true → Taken s (some v) it →
      ¬ OptionLike s v → (∃ ct, s.counter.nextArgument = (some a, ct)) →
      CutLog a.callback s.settings.argumentCallback (.arg a) v ((Write.append a.valueId v a.argumentId).exec (storedValues s)) es →
      StepLog s (.exit s.settings.errorExitCode) (es ++ [.error s.command m])
  /-- The normal exit of a `HELP` or `EXIT` option. -/
  | stopExit {o : OptData} {it : Iter} {flag v : Str} {es : List Event} : s.settings.autoExit = true →
      Taken s (some flag) it → OptionLike s flag → lookup s flag = some o → o.type = .help ∨ o.type = .exit → ValueRead o it v →
      CallLog o.callback s.settings.optionCallback (.opt o) v (afterWrite (occWrite o v) (storedValues s)) es →
      StepLog s (.exit s.settings.normalExitCode) (es ++ if o.type = .help then [.help s.command] else [])

theorem ErrorRun.log {msg : Str} {s t s' : PState} {r : Outcome IterResult} (h : ErrorRun msg t IterResult.error r s')
    (hset : t.settings = s.settings) (hlog : t.log = s.log) (hcmd : t.command = s.command) : ∃ es, StepLog s r es ∧ s'.log = s.log ++ es := by
  cases h with
  | exit ha =>
    rw [hset]
    exact ⟨_, .errorExit (by rw [← hset]; exact ha), by show t.log ++ [.error t.command msg] = _; rw [hlog, hcmd]⟩
  | error ha _ => exact ⟨_, .error (by rw [← hset]; exact ha), by show t.log ++ [.error t.command msg] = _; rw [hlog, hcmd]⟩

theorem Step.log {env : Env} {d : ParserData} {s s' : PState} (hg : Good d s) {r : Outcome IterResult} (h : Step env s r s') :
    ∃ es, StepLog s r es ∧ s'.log = s.log ++ es := by
  have silent : ∀ {x : IterResult}, (∀ o w, x ≠ .option o w) → (∀ a w, x ≠ .argument a w) → x ≠ .error → s'.log = s.log →
      ∃ es, StepLog s (.ok x) es ∧ s'.log = s.log ++ es :=
    fun h1 h2 h3 h4 => ⟨[], .silent h1 h2 h3, by rw [h4]; simp⟩
  cases h with
  | afterError hm => exact ⟨[], .afterError hm, by simp⟩
  | afterDone _ => exact silent (by simp) (by simp) (by simp) rfl
  | finished _ _ => exact silent (by simp) (by simp) (by simp) rfl
  | unfinished _ _ he => exact he.log rfl rfl rfl
  | unknownOption _ _ _ _ _ he => exact he.log rfl rfl rfl
  | ignoredOption _ _ _ _ _ _ => exact silent (by simp) (by simp) (by simp) rfl
  | command _ _ _ _ _ => exact silent (by simp) (by simp) (by simp) rfl
  | unknownCommand _ _ _ _ he => exact he.log rfl rfl rfl
  | option ht hol hlk hrun =>
    rename_i it flag o
    have hg' := (hg.taken ht).2.2
    have aux : ∀ {s2 s3 : PState} {v : Str} {st : Bool} {w : Option Str},
        OpRun o flag { s with iter := it } (.ok (some (v, st))) s2 →
        calls env o.callback ParserSettings.optionCallback (.opt o) o.valueId st (some v) s2 = (.ok w, s3) →
        ValueRead o it v ∧ s3.settings = s.settings ∧ s3.command = s.command ∧ ∃ es,
          CallLog o.callback s.settings.optionCallback (.opt o) v (afterWrite (occWrite o v) (storedValues s)) es ∧
          s3.log = s.log ++ es := by
      intro s2 s3 v st w h1 h2
      have f := h1.ok_facts hg'.ne hg'.iterOk
      obtain ⟨w1, w2, _⟩ := h1.write hg'.ne
      obtain ⟨es, e1, e2⟩ := calls_ok_log f.1 f.2.1 h2
      have hcf := (calls_run env o.callback ParserSettings.optionCallback (.opt o) o.valueId st (some v) s2 f.1 f.2.1).1
      rw [h2] at hcf
      have f4 := f.2.2.2.1
      have f5 := f.2.2.2.2.1
      have f7 := f.2.2.2.2.2.2.1
      cases hcf with
      | ok hcf =>
        refine ⟨w1, hcf.settings.trans f4, hcf.command.trans f5, es, ?_, by rw [e2, f7]⟩
        rw [w2, f4] at e1
        exact e1
    have auxcut : ∀ {s2 s3 : PState} {v : Str} {st : Bool} {q : Outcome (Option Str)},
        OpRun o flag { s with iter := it } (.ok (some (v, st))) s2 →
        calls env o.callback ParserSettings.optionCallback (.opt o) o.valueId st (some v) s2 = (q, s3) → (∀ v, q ≠ .ok v) →
        ValueRead o it v ∧ ∃ es tl,
          CutLog o.callback s.settings.optionCallback (.opt o) v (afterWrite (occWrite o v) (storedValues s)) es ∧
          ((tl = [] ∨ ∃ m, tl = [.error s.command m]) ∧ ∀ c, q = .exit c → tl ≠ []) ∧
          s3.log = s.log ++ es ++ tl := by
      intro s2 s3 v st q h1 h2 h3
      have f := h1.ok_facts hg'.ne hg'.iterOk
      obtain ⟨w1, w2, w3⟩ := h1.write hg'.ne
      have hc2 : s2.stack.head?.map (·.command) = some s.command := by
        rw [w3]; exact (hg'.store _).command.trans (by cases occWrite o v <;> rfl)
      obtain ⟨es, tl, e1, e2, e3⟩ := calls_cut_log f.1 f.2.1 h2 h3
      have f4 := f.2.2.2.1
      have f7 := f.2.2.2.2.2.2.1
      refine ⟨w1, es, tl, ?_, e2.of hc2, by rw [e3, f7]⟩
      rw [w2, f4] at e1
      exact e1
    cases hrun with
    | noValue _ _ he => exact he.log rfl rfl rfl
    | callThrow h1 h2 =>
      obtain ⟨a1, es, tl, a2, a3, a4⟩ := auxcut h1 h2 (by simp)
      exact ⟨es ++ tl, .optionThrow ht hol hlk a1 a2 a3.1, by rw [a4, List.append_assoc]⟩
    | callExit h1 h2 ha =>
      obtain ⟨a1, es, tl, a2, a3, a4⟩ := auxcut h1 h2 (by simp)
      rcases a3.1 with rfl | ⟨m, rfl⟩
      · exact absurd rfl (a3.2 _ rfl)
      · exact ⟨_, .optionExit ha ht hol hlk a1 a2, by rw [a4, List.append_assoc]⟩
    | normal h1 h2 hty =>
      obtain ⟨a1, _, _, es, a2, a3⟩ := aux h1 h2
      exact ⟨_, .option ht hol hlk a1 a2, by rw [a3, hty]; simp⟩
    | lastOption h1 h2 hty =>
      obtain ⟨a1, _, _, es, a2, a3⟩ := aux h1 h2
      exact ⟨_, .option ht hol hlk a1 a2, by rw [hty]; simp only [reduceCtorEq, if_false, List.append_nil]; exact a3⟩
    | stopExit h1 h2 hty ha =>
      obtain ⟨a1, _, a5, es, a2, a3⟩ := aux h1 h2
      refine ⟨_, .stopExit ha ht hol hlk hty a1 a2, ?_⟩
      show _ ++ _ = _
      rw [a3, a5, List.append_assoc]
    | stopped h1 h2 hty _ _ =>
      obtain ⟨a1, _, a5, es, a2, a3⟩ := aux h1 h2
      refine ⟨_, .option ht hol hlk a1 a2, ?_⟩
      show _ ++ _ = _
      rw [a3, a5, List.append_assoc]
    | lastFails h1 h2 hty _ he =>
      rename_i s3 _ _ _ msg _
      obtain ⟨a1, a4, a5, es, a2, a3⟩ := aux h1 h2
      cases he with
      | exit ha =>
        have he : ∀ (t : PState), t.settings = s.settings → t.settings.errorExitCode = s.settings.errorExitCode :=
          fun t h => by rw [h]
        rw [he _ a4]
        refine ⟨_, .lastErrorExit (m := msg) (by rw [← a4]; exact ha) ht hol hlk hty a1 a2, ?_⟩
        show _ ++ _ = _
        rw [← List.append_assoc, ← a3, ← a5]
      | error ha hre =>
        refine ⟨_, .lastError (m := msg) (by rw [← a4]; exact ha) ht hol hlk hty a1 a2, ?_⟩
        show _ ++ _ = _
        rw [← List.append_assoc, ← a3, ← a5]
    | lastDone h1 h2 hty _ _ _ =>
      obtain ⟨a1, _, _, es, a2, a3⟩ := aux h1 h2
      exact ⟨_, .option ht hol hlk a1 a2, by rw [hty]; simp only [reduceCtorEq, if_false, List.append_nil]; exact a3⟩
    | lastMulti h1 h2 hty _ _ =>
      obtain ⟨a1, _, _, es, a2, a3⟩ := aux h1 h2
      exact ⟨_, .option ht hol hlk a1 a2, by rw [hty]; simp only [reduceCtorEq, if_false, List.append_nil]; exact a3⟩
  | argument ht hol hcs hrun =>
    rename_i it arg
    have hg' := (hg.taken ht).2.2
    have sv : ∀ (a : ArgData) (ct : Counter), storedValues (argState a ct arg { s with iter := it }) =
        (Write.append a.valueId arg a.argumentId).exec (storedValues s) := by
      intro a ct
      unfold argState
      rw [storedValues_store _ _ (by exact hg.ne)]
      rfl
    have st : ∀ (a : ArgData) (ct : Counter), (argState a ct arg { s with iter := it }).settings = s.settings := by
      intro a ct; rw [argState, storeState_settings]
    have lg : ∀ (a : ArgData) (ct : Counter), (argState a ct arg { s with iter := it }).log = s.log := by
      intro a ct; rw [argState, storeState_log]
    have hc' : ∀ (a : ArgData) (ct : Counter), ({ s with iter := it } : PState).counter.nextArgument = (some a, ct) →
        (argState a ct arg { s with iter := it }).stack.head?.map (·.command) = some s.command := by
      intro a ct hn
      have := (hg'.arg (v := arg) hn).command
      rw [this, argState, storeState_command]
    cases hrun with
    | sibling _ _ => exact silent (by simp) (by simp) (by simp) rfl
    | ignored _ _ _ _ => exact silent (by simp) (by simp) (by simp) rfl
    | tooMany _ _ _ he => exact he.log rfl rfl rfl
    | argument _ hn hc =>
      rename_i a ct _ _
      have hga := hg'.arg (v := arg) hn
      obtain ⟨es, e1, e2⟩ := calls_ok_log hga.ne hga.iterOk hc
      rw [sv, st] at e1
      rw [lg] at e2
      exact ⟨es, .argument ht hol ⟨ct, hn⟩ e1, e2⟩
    | callThrow _ hn hc =>
      rename_i a ct _ _
      have hga := hg'.arg (v := arg) hn
      obtain ⟨es, tl, e1, e2, e3⟩ := calls_cut_log hga.ne hga.iterOk hc (by simp)
      rw [sv, st] at e1
      rw [lg] at e3
      exact ⟨es ++ tl, .argumentThrow ht hol ⟨ct, hn⟩ e1 (e2.of (hc' a ct hn)).1, by rw [e3, List.append_assoc]⟩
    | callExit _ hn hc ha =>
      rename_i a ct _
      have hga := hg'.arg (v := arg) hn
      obtain ⟨es, tl, e1, e2, e3⟩ := calls_cut_log hga.ne hga.iterOk hc (by simp)
      rw [sv, st] at e1
      rw [lg] at e3
      rcases (e2.of (hc' a ct hn)).1 with rfl | ⟨m, rfl⟩
      · exact absurd rfl (e2.exit _ rfl)
      · exact ⟨_, .argumentExit ha ht hol ⟨ct, hn⟩ e1, by rw [e3, List.append_assoc]⟩

end Parser
end Argos
