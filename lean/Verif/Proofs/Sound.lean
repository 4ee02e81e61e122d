import Verif.Proofs.Log

/-! # The argument counter counts the arguments of the active command -/

namespace Argos

/-- The counters are for the arguments. -/
def Counter.Sound (c : Counter) (args : List ArgData) : Prop := ∀ p ∈ c.counters, p.2 ∈ args

namespace Parser
open Spec

theorem nextArgument_sound {args : List ArgData} {c c' : Counter} {a : Option ArgData} (h : c.nextArgument = (a, c'))
    (hb : c.Sound args) : c'.Sound args := by
  unfold Counter.nextArgument at h
  simp only at h
  split at h
  · simp only [Prod.mk.injEq] at h
    rw [← h.2]; exact hb
  · rename_i n a' he
    simp only [Prod.mk.injEq] at h
    rw [← h.2]
    intro p hp
    rcases List.mem_or_eq_of_mem_set hp with hp | rfl
    · exact hb p hp
    · exact hb (n, a') (List.mem_of_getElem? he)

theorem nextArgument_own {args : List ArgData} {c c' : Counter} {a : ArgData} (h : c.nextArgument = (some a, c'))
    (hb : c.Sound args) : a ∈ args := by
  unfold Counter.nextArgument at h
  simp only at h
  split at h
  · simp at h
  · rename_i n a' he
    simp only [Prod.mk.injEq, Option.some.injEq] at h
    rw [← h.1]
    exact hb _ (List.mem_of_getElem? he)

theorem skip_sound {args : List ArgData} (c : Counter) (n : Nat) (hb : c.Sound args) : (c.skip n).Sound args := by
  induction n generalizing c with
  | zero => exact hb
  | succ n ih =>
    unfold Counter.skip
    cases h : c.nextArgument with
    | mk a c' =>
      cases a with
      | none => exact nextArgument_sound h hb
      | some a => exact ih c' (nextArgument_sound h hb)

theorem ofArgsN_sound (args : List ArgData) (n k : Nat) : (Counter.ofArgsN args n k).Sound args := by
  refine skip_sound _ _ ?_
  intro p hp
  have := List.mem_map_of_mem (f := (·.2)) hp
  unfold Counter.makeCountersN at this
  rwa [Counter.distribute_snd] at this

theorem makeCountersLoop_own (fo : Nat) (args : List ArgData) (i : Nat) : ∀ p ∈ Counter.makeCountersLoop fo args i, p.2 ∈ args := by
  induction args generalizing i with
  | nil => simp [Counter.makeCountersLoop]
  | cons a as ih =>
    intro p hp
    unfold Counter.makeCountersLoop at hp
    split at hp
    · simp only [List.mem_cons] at hp
      rcases hp with rfl | rfl | hp
      · simp
      · simp
      · exact List.mem_cons_of_mem _ (ih _ _ hp)
    · simp only [List.mem_cons] at hp
      rcases hp with rfl | hp
      · simp
      · exact List.mem_cons_of_mem _ (ih _ _ hp)

theorem forCount_sound (args : List ArgData) (n : Nat) : (Counter.forCount args n).Sound args := by
  unfold Counter.forCount
  split
  · exact makeCountersLoop_own _ _ _
  · exact ofArgsN_sound _ _ _

/-- The counter counts the arguments of the active command. -/
def Sound (s : PState) : Prop := s.counter.Sound s.command.arguments

theorem Sound.errorRun {s s' : PState} {msg : Str} {α : Type} {a : α} {r : Outcome α} (h : Sound s) (he : ErrorRun msg s a r s') : Sound s' := by
  cases he <;> exact h

theorem Sound.store {s : PState} (h : Sound s) (w : Option Write) : Sound (storeState w s) := by
  cases w <;> exact h

theorem Sound.frame {s s' : PState} (h : Sound s) (hf : CallFrame s s') : Sound s' := by
  unfold Sound at *
  rw [hf.command]
  rcases hf.counter with e | ⟨_, m, k, e⟩
  · rw [e]; exact h
  · rw [e]; exact ofArgsN_sound _ _ _

theorem Sound.calls {s s' : PState} (h : Sound s) (hs : s.stack ≠ []) (hi : s.iter.Ok) {env : Env} {cb : Option Nat}
    {sel : ParserSettings → Option Nat} {view : ViewRef} {vid : Nat} {st : Bool} {v : Option Str} {o : Outcome (Option Str)}
    (hc : calls env cb sel view vid st v s = (o, s')) : Sound s' := by
  have := (calls_run env cb sel view vid st v s hs hi).1
  rw [hc] at this
  cases this with
  | ok hf => exact h.frame hf
  | throw hf => exact h.frame hf
  | exit hf _ => exact h.frame hf

theorem Sound.opRun {s s' : PState} {o : OptData} {flag : Str} {r : Outcome (Option (Str × Bool))} (h : Sound s)
    (hr : OpRun o flag s r s') : Sound s' := by
  cases hr with
  | plain _ => exact h.store _
  | value _ _ => exact Sound.store (by exact h) _
  | noValue _ _ he => exact Sound.errorRun (by exact h) he

theorem sound_react (n : Nat) (s : PState) : Sound (reactState n s) := by
  intro p hp
  simp [reactState] at hp

theorem sound_enter (c : Command) (s : PState) : Sound (enterState c s) := forCount_sound _ _

theorem Step.sound {env : Env} {d : ParserData} {s s' : PState} (hg : Good d s) (h : Sound s) {r : Outcome IterResult}
    (hs : Step env s r s') : Sound s' := by
  cases hs with
  | afterError _ => exact h
  | afterDone _ => exact h
  | finished _ _ => exact h
  | unfinished _ _ he => exact Sound.errorRun (by exact h) he
  | unknownOption _ _ _ _ _ he => exact Sound.errorRun (by exact h) he
  | ignoredOption _ _ _ _ _ _ => exact h
  | command _ _ _ _ _ => exact sound_enter _ _
  | unknownCommand _ _ _ _ he => exact Sound.errorRun (by exact h) he
  | @option it flag o _ _ ht _ _ hr =>
    have hg' := (hg.taken ht).2.2
    have h' : Sound { s with iter := it } := h
    have key : ∀ {s2 s3 : PState} {v : Str} {st : Bool} {q : Outcome (Option Str)}, OpRun o flag { s with iter := it } (.ok (some (v, st))) s2 →
        Parser.calls env o.callback ParserSettings.optionCallback (.opt o) o.valueId st (some v) s2 = (q, s3) → Sound s3 := by
      intro s2 s3 v st q h1 h2
      exact (h'.opRun h1).calls (hg'.opRun h1).ne (hg'.opRun h1).iterOk h2
    cases hr with
    | noValue _ _ he => exact Sound.errorRun (by exact h) he
    | callThrow h1 h2 => exact key h1 h2
    | callExit h1 h2 _ => exact key h1 h2
    | normal h1 h2 _ => exact key h1 h2
    | lastOption h1 h2 _ => have := key h1 h2; exact this
    | stopExit h1 h2 _ _ => have := key h1 h2; exact this
    | stopped h1 h2 _ _ _ => have := key h1 h2; exact this
    | lastFails h1 h2 _ _ he =>
      have := key h1 h2
      exact Sound.errorRun (by exact this) he
    | lastDone h1 h2 _ _ _ _ => have := key h1 h2; exact this
    | lastMulti _ _ _ _ _ => exact sound_react _ _
  | @argument it _ _ _ ht _ _ hr =>
    have hg' := (hg.taken ht).2.2
    have harg : ∀ {a : ArgData} {ct : Counter} {v : Str}, s.counter.nextArgument = (some a, ct) →
        Sound (argState a ct v { s with iter := it }) := fun hn => Sound.store (by exact nextArgument_sound hn h) _
    cases hr with
    | sibling _ _ => exact sound_enter _ _
    | callThrow _ hn hc => exact (harg hn).calls (hg'.arg hn).ne (hg'.arg hn).iterOk hc
    | callExit _ hn hc _ => exact (harg hn).calls (hg'.arg hn).ne (hg'.arg hn).iterOk hc
    | argument _ hn hc => exact (harg hn).calls (hg'.arg hn).ne (hg'.arg hn).iterOk hc
    | ignored _ hn _ _ => exact nextArgument_sound hn h
    | tooMany _ hn _ he => exact Sound.errorRun (by exact nextArgument_sound hn h) he

theorem start_sound (d : ParserData) (args : List Str) : Sound (start d args).2 := by
  rw [(start_good d args).1]
  exact forCount_sound _ _

theorem _root_.Argos.Trace.sound {env : Env} {d : ParserData} (hr : Ready d) {s s' : PState} {rs : List IterResult} (h : Trace env s rs s')
    (hg : Good d s) (hs : Sound s) : Sound s' := by
  induction h with
  | nil => exact hs
  | cons hn _ ih =>
    obtain ⟨hst, hg1⟩ := next_good hr hg hn
    exact ih hg1 (hst.sound hg hs)

end Parser
end Argos
