import Verif.Proofs.Grammar
import Verif.Spec.Faults

/-! # The error messages of the parser and what is wrong with the command line -/

namespace Argos
open Spec

namespace Parser

theorem natToStr_eq (n : Nat) : natToStr n = decimalNat n := by
  induction n using Nat.strongRecOn with
  | ind n ih =>
    unfold decimalNat
    by_cases h : n < 10
    · rw [if_pos h]
      unfold natToStr
      rw [Nat.toDigits_of_lt_base h]
      have : n = 0 ∨ n = 1 ∨ n = 2 ∨ n = 3 ∨ n = 4 ∨ n = 5 ∨ n = 6 ∨ n = 7 ∨ n = 8 ∨ n = 9 := by omega
      rcases this with rfl | rfl | rfl | rfl | rfl | rfl | rfl | rfl | rfl | rfl <;> rfl
    · rw [if_neg h, ← ih (n / 10) (by omega)]
      have e : n = 10 * (n / 10) + n % 10 := by omega
      have h1 := Nat.toDigits_append_toDigits (b := 10) (n := n / 10) (d := n % 10) (by omega) (by omega) (by omega)
      rw [← e] at h1
      have h2 : natToStr (n % 10) = [UInt8.ofNat (48 + n % 10)] := by
        rw [ih (n % 10) (by omega)]
        unfold decimalNat
        rw [if_pos (by omega)]
      unfold natToStr at h2 ⊢
      rw [← h1, List.map_append, h2]

theorem joinFlags_eq (fs : List Str) : joinFlags fs = flagList fs := by
  have key : ∀ (fs : List Str) (f : Str), joinFlags (f :: fs) = f ++ fs.flatMap (fun g => b!", " ++ g) := by
    intro fs
    induction fs with
    | nil => intro f; simp [joinFlags]
    | cons g fs ih =>
      intro f
      have : joinFlags (f :: g :: fs) = f ++ b!", " ++ joinFlags (g :: fs) := rfl
      rw [this, ih g, List.flatMap_cons, List.append_assoc, List.append_assoc]
  cases fs with
  | nil => rfl
  | cons f fs => exact key fs f

end Parser

theorem StdIt.next_pending {it it' : StdIt} (h : it.Ok) {f : Str} (hn : it.next = .ok (some f, it')) (hp : it.reader.pending ≠ [])
    {cur : Str} (hc : it'.current = .ok cur) : ∃ flags, cur = flags ++ it.reader.pending ∧ 2 ≤ flags.length := by
  obtain ⟨args, pos⟩ := it
  match pos, args with
  | .at 0, _ => simp [StdIt.reader] at hp
  | .npos, _ => simp [StdIt.reader] at hp
  | .at (p + 1), [] => simp [StdIt.reader] at hp
  | .at (p + 1), a :: rest =>
    have hp1 : 2 ≤ p + 1 ∧ p + 1 ≤ a.length := by
      rcases h with h | ⟨a', rest', e, h | ⟨q, h, h'⟩⟩
      · simp at h
      · simp at h
      · simp only [List.cons.injEq, Pos.at.injEq] at e h
        obtain ⟨rfl, rfl⟩ := e
        omega
    simp only [StdIt.reader] at hp ⊢
    by_cases hd : a[1]? = some c!"-"
    · rw [if_pos hd] at hp; simp at hp
    · rw [if_neg hd] at hp ⊢
      simp only [StdIt.next] at hn
      cases hcx : a[p + 1]? with
      | none =>
        exfalso
        apply hp
        simp only
        exact List.drop_eq_nil_of_le (List.getElem?_eq_none_iff.mp hcx)
      | some c =>
        rw [hcx] at hn
        simp only at hn
        cases h1 : a[1]? with
        | none => rw [h1] at hn; simp at hn
        | some a1 =>
          rw [h1] at hn hd
          simp only at hn
          rw [if_pos (by simpa using hd)] at hn
          simp only [Outcome.ok.injEq, Prod.mk.injEq, Option.some.injEq] at hn
          rw [← hn.2] at hc
          simp only [StdIt.current, Outcome.ok.injEq] at hc
          subst hc
          exact ⟨a.take (p + 1), (List.take_append_drop _ _).symm, by rw [List.length_take]; omega⟩

theorem Iter.next_pending {it it' : Iter} (h : it.Ok) {f cur : Str} (hn : it.next = .ok (some f, it'))
    (hc : it'.current = .ok cur) (hr : it.reader.pending ≠ []) : ∃ flags, cur = flags ++ it.reader.pending ∧ 2 ≤ flags.length := by
  cases it with
  | std i =>
    simp only [Iter.next] at hn
    cases hi : i.next with
    | ok q =>
      rw [hi] at hn
      simp only [Outcome.bind_ok, Outcome.pure_eq, Outcome.ok.injEq, Prod.mk.injEq] at hn
      obtain ⟨h1, rfl⟩ := hn
      obtain ⟨q1, q2⟩ := q
      simp only at h1
      subst h1
      exact StdIt.next_pending h hi hr hc
    | _ => rw [hi] at hn; simp at hn
  | opt i =>
    exfalso
    apply hr
    show i.reader.pending = []
    unfold OptIt.reader
    split <;> rfl

namespace Parser
open ParserM Counter

/-- Why a call of `next` writes an error message, when callbacks don't. -/
inductive Cause (env : Env) (s : PState) : Str → Prop
  | unfinished {it : Iter} {msg : Str} : Taken s none it → CheckFails { s with iter := it } msg → Cause env s msg
  | unknownOption {it : Iter} {flag cur : Str} : Taken s (some flag) it → OptionLike s flag → lookup s flag = none → it.current = .ok cur →
      Cause env s (b!"Unknown option: " ++ cur)
  | noValue {it it2 : Iter} {flag : Str} {o : OptData} : Taken s (some flag) it → OptionLike s flag → lookup s flag = some o → TakesValue o →
      it.nextValue = .ok (none, it2) → Cause env s (flag ++ b!": no value given.")
  | lastFails {it : Iter} {flag : Str} {o : OptData} {s2 s3 : PState} {v : Str} {st : Bool} {w : Option Str} {msg : Str} :
      Taken s (some flag) it → OptionLike s flag → lookup s flag = some o → OpRun o flag { s with iter := it } (.ok (some (v, st))) s2 →
      calls env o.callback ParserSettings.optionCallback (.opt o) o.valueId st (some v) s2 = (.ok w, s3) → o.type = .lastArgument →
      CheckFails { s3 with mode := .done } msg → Cause env s msg
  | unknownCommand {it : Iter} {arg : Str} : Taken s (some arg) it → ¬ OptionLike s arg → s.command.commands ≠ [] →
      findCommand s.command.commands arg s.settings.caseInsensitive = none → Cause env s (b!"Unknown command: " ++ arg)
  | tooMany {it : Iter} {arg : Str} {ct : Counter} : Taken s (some arg) it → ¬ OptionLike s arg → s.command.commands = [] →
      s.counter.nextArgument = (none, ct) → Cause env s (b!"Too many arguments, starting from \"" ++ arg ++ b!"\".")

theorem Cause.mode {env : Env} {s : PState} {msg : Str} (h : Cause env s msg) : s.mode ≠ .done := by
  cases h with
  | unfinished ht _ => exact ht.mode.1
  | unknownOption ht _ _ _ => exact ht.mode.1
  | noValue ht _ _ _ _ => exact ht.mode.1
  | lastFails ht _ _ _ _ _ _ => exact ht.mode.1
  | unknownCommand ht _ _ _ => exact ht.mode.1
  | tooMany ht _ _ _ => exact ht.mode.1

/-- The error messages among the events. -/
def errorsIn (log : List Event) : List Event := log.filter Event.isError

theorem errorsIn_append (a b : List Event) : errorsIn (a ++ b) = errorsIn a ++ errorsIn b := List.filter_append ..

theorem errorsIn_callEvents (cb : Option Nat) (view : ViewRef) (v : Option Str) (seen : Values) : errorsIn (callEvents cb view v seen) = [] := by
  cases cb <;> rfl

/-- The call has ended with an error. -/
def _root_.Argos.Outcome.Failed (s : PState) (r : Outcome IterResult) : Prop :=
  r = .ok .error ∨ (s.settings.autoExit = true ∧ r = .exit s.settings.errorExitCode)

theorem ErrorRun.errors {msg : Str} {t s' : PState} {r : Outcome IterResult} (h : ErrorRun msg t IterResult.error r s') :
    errorsIn s'.log = errorsIn t.log ++ [.error t.command msg] ∧ r.Failed t := by
  cases h with
  | exit ha => exact ⟨errorsIn_append _ _, Or.inr ⟨ha, rfl⟩⟩
  | error _ _ => exact ⟨errorsIn_append _ _, Or.inl rfl⟩

theorem option_log {env : Env} (hp : env.Passive) {d : ParserData} {s s2 s3 : PState} (hg : Good d s) {o : OptData} {flag : Str} {it : Iter}
    {v : Str} {stored : Bool} {w : Option Str} (ht : Taken s (some flag) it)
    (h1 : OpRun o flag { s with iter := it } (.ok (some (v, stored))) s2)
    (h2 : calls env o.callback ParserSettings.optionCallback (.opt o) o.valueId stored (some v) s2 = (.ok w, s3)) :
    errorsIn s3.log = errorsIn s.log ∧ s3.command = s.command ∧ s3.settings = s.settings := by
  have hg' := (hg.taken ht).2.2
  have hg2 := hg'.opRun h1
  have f := h1.ok_facts hg'.ne hg'.iterOk
  obtain ⟨e1, k, rfl⟩ := calls_passive hp _ _ _ _ _ _ _ hg2.ne hg2.iterOk h2
  refine ⟨?_, f.2.2.2.2.1, f.2.2.2.1⟩
  simp only [errorsIn_append, errorsIn_callEvents, List.append_nil]
  rw [f.2.2.2.2.2.2.1]

theorem errorsIn_stop (o : OptData) (s : PState) : errorsIn (stopState o s).log = errorsIn s.log := by
  show errorsIn (s.log ++ _) = _
  rw [errorsIn_append]
  split <;> simp [errorsIn, Event.isError]

/-- A call of `next` writes no error message, or one. -/
theorem Step.errors {env : Env} (hsi : env.Silent) {d : ParserData} {s s' : PState} (hg : Good d s) {r : Outcome IterResult} (h : Step env s r s') :
    (errorsIn s'.log = errorsIn s.log ∧ r ≠ .ok .error) ∨
    ∃ msg, Cause env s msg ∧ errorsIn s'.log = errorsIn s.log ++ [.error s.command msg] ∧ r.Failed s := by
  have key : ∀ {msg t}, ErrorRun msg t IterResult.error r s' → errorsIn t.log = errorsIn s.log → t.command = s.command → t.settings = s.settings →
      Cause env s msg → ∃ msg, Cause env s msg ∧ errorsIn s'.log = errorsIn s.log ++ [.error s.command msg] ∧ r.Failed s := by
    intro msg t he h1 h2 h3 hc
    obtain ⟨e1, e2⟩ := he.errors
    rw [h1, h2] at e1
    unfold Outcome.Failed at e2
    rw [h3] at e2
    exact ⟨msg, hc, e1, e2⟩
  cases h with
  | afterError _ => exact Or.inl ⟨rfl, by simp⟩
  | afterDone _ => exact Or.inl ⟨rfl, by simp⟩
  | finished _ _ => exact Or.inl ⟨rfl, by simp⟩
  | unfinished ht hf he => exact Or.inr (key he rfl rfl rfl (.unfinished ht hf))
  | unknownOption ht hol hlk hc _ he => exact Or.inr (key he rfl rfl rfl (.unknownOption ht hol hlk hc))
  | ignoredOption _ _ _ _ _ _ => exact Or.inl ⟨rfl, by simp⟩
  | command _ _ _ _ _ => exact Or.inl ⟨rfl, by simp⟩
  | unknownCommand ht hno hc hf he => exact Or.inr (key he rfl rfl rfl (.unknownCommand ht hno hc hf))
  | option ht hol hlk hrun =>
    have hg' := (hg.taken ht).2.2
    cases hrun with
    | noValue htv hnv he => exact Or.inr (key he rfl rfl rfl (.noValue ht hol hlk htv hnv))
    | @callThrow s2 _ v st m h1 h2 =>
      obtain ⟨v', s3', h3⟩ := calls_silent hsi _ ParserSettings.optionCallback _ _ st (some v) s2 (hg'.opRun h1).ne
      rw [h3] at h2
      simp at h2
    | @callExit s2 _ v st h1 h2 _ =>
      obtain ⟨v', s3', h3⟩ := calls_silent hsi _ ParserSettings.optionCallback _ _ st (some v) s2 (hg'.opRun h1).ne
      rw [h3] at h2
      simp at h2
    | normal h1 h2 _ => exact Or.inl ⟨(option_log hsi.passive hg ht h1 h2).1, by simp⟩
    | lastOption h1 h2 _ => exact Or.inl ⟨(option_log hsi.passive hg ht h1 h2).1, by simp⟩
    | stopExit h1 h2 _ _ =>
      left
      refine ⟨?_, by simp⟩
      rw [← (option_log hsi.passive hg ht h1 h2).1]
      exact errorsIn_stop _ _
    | stopped h1 h2 _ _ _ =>
      left
      refine ⟨?_, by simp⟩
      rw [← (option_log hsi.passive hg ht h1 h2).1]
      exact errorsIn_stop _ _
    | lastFails h1 h2 hty hf he =>
      obtain ⟨e1, e2, e3⟩ := option_log hsi.passive hg ht h1 h2
      exact Or.inr (key he e1 e2 e3 (.lastFails ht hol hlk h1 h2 hty hf))
    | lastDone h1 h2 _ _ _ _ => exact Or.inl ⟨(option_log hsi.passive hg ht h1 h2).1, by simp⟩
    | lastMulti h1 h2 _ _ _ => exact Or.inl ⟨(option_log hsi.passive hg ht h1 h2).1, by simp⟩
  | @argument it arg _ _ ht hno hc hrun =>
    have hg' := (hg.taken ht).2.2
    cases hrun with
    | sibling _ _ => exact Or.inl ⟨rfl, by simp⟩
    | @callThrow a ct m _ _ h1 h2 =>
      obtain ⟨v', s3', h3⟩ := calls_silent hsi a.callback ParserSettings.argumentCallback (.arg a) a.valueId true (some arg) _ (hg'.arg (v := arg) h1).ne
      rw [h3] at h2
      simp at h2
    | @callExit a ct _ _ h1 h2 _ =>
      obtain ⟨v', s3', h3⟩ := calls_silent hsi a.callback ParserSettings.argumentCallback (.arg a) a.valueId true (some arg) _ (hg'.arg (v := arg) h1).ne
      rw [h3] at h2
      simp at h2
    | @argument a ct w _ _ h1 h2 =>
      left
      have hg2 := hg'.arg (v := arg) h1
      obtain ⟨e1, k, rfl⟩ := calls_passive hsi.passive _ _ _ _ _ _ _ hg2.ne hg2.iterOk h2
      refine ⟨?_, by simp⟩
      simp only [errorsIn_append, errorsIn_callEvents, List.append_nil]
      rfl
    | ignored _ _ _ _ => exact Or.inl ⟨rfl, by simp⟩
    | tooMany _ h1 _ he => exact Or.inr (key he rfl rfl rfl (.tooMany ht hno hc h1))

section
variable {names : Command → Str → OptData → Prop} {subs : Command → Str → Command → Prop} {d : ParserData}

/-- What the counter does in a step that doesn't enter a command. -/
theorem Step.counter_cases {env : Env} (hp : env.Passive) (hru : Rules d names subs) {s s' : PState} (hg : Good d s) {r : IterResult}
    (h : Step env s (.ok r) s') (hr : ¬ r.IsLast) (hcmd : ∀ c t, r ≠ .command c t) :
    s'.command = s.command ∧
    ((∃ a v ct, r = .argument a v ∧ s.counter.nextArgument = (some a, ct) ∧ s'.counter = ct) ∨
      ((∃ o v, r = .option o v) ∧ s'.counter = s.counter)) := by
  have herr : ∀ {msg t}, ErrorRun msg t IterResult.error (.ok r) s' → False := by
    intro msg t he
    cases he with
    | error _ _ => exact hr trivial
  cases h with
  | afterDone _ => exact absurd trivial hr
  | finished _ _ => exact absurd trivial hr
  | unfinished _ _ he => exact (herr he).elim
  | unknownOption _ _ _ _ _ he => exact (herr he).elim
  | ignoredOption _ _ _ _ hi _ => rw [hg.settings, hru.options] at hi; simp at hi
  | command _ _ _ _ _ => exact absurd rfl (hcmd _ _)
  | unknownCommand _ _ _ _ he => exact (herr he).elim
  | option ht hol hlk hrun =>
    cases hrun with
    | noValue _ _ he => exact (herr he).elim
    | normal h1 h2 _ => exact ⟨(option_log hp hg ht h1 h2).2.1, Or.inr ⟨⟨_, _, rfl⟩, option_passive_counter hp hg ht h1 h2⟩⟩
    | lastOption h1 h2 _ =>
      have hct := option_passive_counter hp hg ht h1 h2
      exact ⟨(option_log hp hg ht h1 h2).2.1, Or.inr ⟨⟨_, _, rfl⟩, hct⟩⟩
    | stopped h1 h2 _ _ _ =>
      have hct := option_passive_counter hp hg ht h1 h2
      exact ⟨(option_log hp hg ht h1 h2).2.1, Or.inr ⟨⟨_, _, rfl⟩, hct⟩⟩
    | lastFails _ _ _ _ he => exact (herr he).elim
    | lastDone h1 h2 _ _ _ _ =>
      have hct := option_passive_counter hp hg ht h1 h2
      exact ⟨(option_log hp hg ht h1 h2).2.1, Or.inr ⟨⟨_, _, rfl⟩, hct⟩⟩
    | @lastMulti s2 s3 v st w sub h1 h2 _ _ hf =>
      obtain ⟨_, e⟩ := option_passive hp hg ht h1 h2
      have : findMultiParent s3.stack = none := by
        rw [e, findMultiParent_none_iff, storeState_commands, ← findMultiParent_none_iff]
        exact hru.multi hg
      have h3 : findMultiParent (succState s3).stack = none := by rw [findMultiParent_succ, this]; rfl
      rw [hf] at h3
      simp at h3
  | @argument it arg _ _ ht hno hc hrun =>
    cases hrun with
    | sibling hs _ =>
      rw [findSibling_none (s := { s with iter := it }) (hru.multi (hg.taken ht).2.2)] at hs
      simp at hs
    | @argument a ct w _ _ h1 h2 =>
      have hg' := (hg.taken ht).2.2
      have hg2 := hg'.arg (v := arg) h1
      obtain ⟨e1, k, rfl⟩ := calls_passive hp _ _ _ _ _ _ _ hg2.ne hg2.iterOk h2
      exact ⟨rfl, Or.inl ⟨a, _, ct, rfl, h1, rfl⟩⟩
    | ignored _ _ hi _ =>
      have : s.settings.ignoreUndefinedArguments = true := hi
      rw [hg.settings, hru.arguments] at this
      simp at this
    | tooMany _ _ _ he => exact (herr he).elim

/-- The counter hands out what it must, given what is still on the line. -/
def Foreseen (s : PState) (given : List ArgData) : Prop :=
  ∃ cs fo, Inv cs fo given.length s.counter ∧ given = (expand cs).take given.length ∧
    ((requiresArgumentCount s.command.arguments = false ∧ cs = makeCountersLoop (findFirstOptional s.command.arguments) s.command.arguments 0 ∧
        fo = findFirstOptional s.command.arguments) ∨
      (requiresArgumentCount s.command.arguments = true ∧ ∃ s0 lo n, Plain s0 ∧ SameCommand s0 s ∧ CountFrom s0 lo s.mode s.iter given.length n ∧
        cs = makeCountersN s.command.arguments n ∧ fo = cs.length ∧ s0.settings.ignoreUndefinedArguments = false))

theorem Foreseen.step {env : Env} (hp : env.Passive) (hru : Rules d names subs) {s s' : PState} (hg : Good d s) {r : IterResult}
    (h : Step env s (.ok r) s') (hr : ¬ r.IsLast) (hcmd : ∀ c t, r ≠ .command c t) {given : List ArgData} (hf : Foreseen s given) :
    Foreseen s' (given ++ argsGiven (occOf r).toList) := by
  obtain ⟨hcm, hct⟩ := h.counter_cases hp hru hg hr hcmd
  obtain ⟨cs, fo, hi, hgv, hk⟩ := hf
  have hcount : ∀ k, k = given.length + r.argCount → ((requiresArgumentCount s'.command.arguments = false ∧ cs = makeCountersLoop (findFirstOptional s'.command.arguments) s'.command.arguments 0 ∧
        fo = findFirstOptional s'.command.arguments) ∨
      (requiresArgumentCount s'.command.arguments = true ∧ ∃ s0 lo n, Plain s0 ∧ SameCommand s0 s' ∧ CountFrom s0 lo s'.mode s'.iter k n ∧
        cs = makeCountersN s'.command.arguments n ∧ fo = cs.length ∧ s0.settings.ignoreUndefinedArguments = false)) := by
    rintro k rfl
    rw [hcm]
    rcases hk with hk | ⟨hk, s0, lo, n, k1, k2, k3, k4, k5, k6⟩
    · exact Or.inl hk
    · obtain ⟨g1, g2⟩ := h.count hp k1 k2 hg k6 hr hcmd k3
      exact Or.inr ⟨hk, s0, lo, n, k1, g1, g2, k4, k5, k6⟩
  rcases hct with ⟨a, v, ct, rfl, h1, h2⟩ | ⟨⟨o, v, rfl⟩, h2⟩
  · have hga : argsGiven (occOf (.argument a v)).toList = [a] := rfl
    rw [hga]
    have hlt : given.length < total cs := by
      apply Classical.byContradiction
      intro hge
      obtain ⟨c', e⟩ := hi.next_none (by have := hi.le; omega)
      rw [h1] at e
      simp at e
    obtain ⟨a', c'', e1, e2, e3⟩ := hi.next_some hlt
    rw [h1] at e1
    simp only [Prod.mk.injEq, Option.some.injEq] at e1
    obtain ⟨rfl, rfl⟩ := e1
    refine ⟨cs, fo, ?_, ?_, hcount _ (by simp [IterResult.argCount])⟩
    · rw [h2, List.length_append]; exact e3
    · rw [List.length_append, List.length_singleton, List.take_add_one, e2, ← hgv]; rfl
  · have hga : argsGiven (occOf (.option o v)).toList = [] := rfl
    rw [hga, List.append_nil]
    exact ⟨cs, fo, by rw [h2]; exact hi, hgv, hcount _ (by simp [IterResult.argCount])⟩

theorem Foreseen.trace {env : Env} (hp : env.Passive) (hru : Rules d names subs) (hrd : Ready d) {s s' : PState} {rs : List IterResult}
    (ht : Trace env s rs s') (hg : Good d s) (hl : ∀ r ∈ rs, ¬ r.IsLast) (hcmd : ∀ c t, .command c t ∉ rs) {given : List ArgData}
    (hf : Foreseen s given) : Foreseen s' (given ++ argsGiven (rs.filterMap occOf)) := by
  induction ht generalizing given with
  | nil => rw [List.filterMap_nil, show argsGiven [] = [] from rfl, List.append_nil]; exact hf
  | @cons s s1 s' r rs hn _ ih =>
    obtain ⟨hst, hg1⟩ := next_good hrd hg hn
    have h1 := hf.step hp hru hg hst (hl r (by simp)) (fun c t e => hcmd c t (by simp [e]))
    have h2 := ih hg1 (fun r hr => hl r (by simp [hr])) (fun c t hm => hcmd c t (by simp [hm])) h1
    have : argsGiven ((r :: rs).filterMap occOf) = argsGiven (occOf r).toList ++ argsGiven (rs.filterMap occOf) := by
      rw [← argsGiven_append, List.filterMap_cons]
      cases occOf r <;> rfl
    rw [this, ← List.append_assoc]
    exact h2

/-- Where a command begins. -/
theorem foreseen_start (hru : Rules d names subs) {s s0 : PState} (hg : Good d s) (hb : Reckonable d names s.command) (hm : s.mode = .argumentsAndOptions)
    (hsc : SameCommand s0 s) (hit : s0.iter = s.iter) (hct : s.counter = forCount s.command.arguments (ahead s0)) : Foreseen s [] := by
  unfold Foreseen
  rw [hct]
  unfold forCount
  cases hr : requiresArgumentCount s.command.arguments with
  | false => exact ⟨_, _, Inv.start _ _, by simp, Or.inl ⟨rfl, rfl, rfl⟩⟩
  | true =>
    obtain ⟨n, hn⟩ := countArguments_ok s0 (by rw [hit]; exact hg.iterOk)
    have hlk : ∀ q o, Parser.lookup s0 q = some o → names s.command q o := by
      intro q o h
      rw [← hsc.lookup, hru.lookup hg] at h
      exact h
    have hreg := hb.options hr
    have hpl : Plain s0 := by
      refine ⟨⟨fun q o h => (hreg q o (hlk q o h)).1, ?_⟩, ?_⟩
      rotate_left
      · rw [findMultiParent_none_iff, ← hsc.stack, ← findMultiParent_none_iff]
        exact hru.multi hg
      · intro arg h
        cases hq : Parser.lookup s0 arg with
        | none => rfl
        | some o =>
          exfalso
          have := (hreg arg o (hlk arg o hq)).2
          rw [← hsc.settings, hg.settings] at h
          have h' := (isOption_iff arg _).mpr this
          rw [h] at h'
          simp at h'
    refine ⟨_, _, Inv.start _ _, by simp, Or.inr ⟨rfl, s0, (Counter.getMinMaxCount s0.command.arguments).1, n, hpl, hsc, ?_, ?_, rfl, ?_⟩⟩
    · rw [hm, ← hit]
      exact ⟨_, hn⟩
    · unfold ahead
      rw [hn]
    · rw [← hsc.settings, hg.settings]; exact hru.arguments

theorem countArgsOnly_ge (s0 : PState) (lo : Nat) : ∀ (fuel : Nat) (it : Iter) (k n : Nat), countArgsOnly s0 lo fuel it k = .ok n → k ≤ n := by
  intro fuel
  induction fuel with
  | zero => intro it k n h; simp [countArgsOnly] at h
  | succ fuel ih =>
    intro it k n h
    unfold countArgsOnly at h
    split at h <;> try (simp at h; done)
    · exact Nat.le_of_eq (Outcome.ok.inj h)
    · split at h
      · exact Nat.le_of_eq (Outcome.ok.inj h)
      · have := ih _ _ _ h
        omega

theorem countLoop_ge (s0 : PState) (lo : Nat) : ∀ (fuel : Nat) (it : Iter) (k n : Nat), countLoop s0 lo fuel it k = .ok n → k ≤ n := by
  intro fuel
  induction fuel with
  | zero => intro it k n h; simp [countLoop] at h
  | succ fuel ih =>
    intro it k n h
    unfold countLoop at h
    split at h <;> try (simp at h; done)
    · exact countArgsOnly_ge _ _ _ _ _ _ h
    · split at h
      · dsimp only at h
        split at h <;> try (simp at h; done)
        split at h
        · exact Nat.le_of_eq (Outcome.ok.inj h)
        · exact Nat.le_of_eq (Outcome.ok.inj h)
        · exact Nat.le_of_eq (Outcome.ok.inj h)
        · exact countArgsOnly_ge _ _ _ _ _ _ h
        · exact ih _ _ _ h
      · split at h
        · exact ih _ _ _ h
        · split at h
          · exact Nat.le_of_eq (Outcome.ok.inj h)
          · have := ih _ _ _ h
            omega

theorem CountFrom.ge {s0 : PState} {lo : Nat} {mode : Mode} {it : Iter} {k n : Nat} (h : CountFrom s0 lo mode it k n) : k ≤ n := by
  cases mode with
  | argumentsAndOptions => obtain ⟨_, h⟩ := h; exact countLoop_ge _ _ _ _ _ _ h
  | argumentsOnly => obtain ⟨_, h⟩ := h; exact countArgsOnly_ge _ _ _ _ _ _ h
  | done => exact Nat.le_of_eq h.symm
  | error => exact h.elim

/-- What the parser calls too few arguments. -/
def Missed (c : Command) (n : Nat) : Prop := TooFew c n ∨ Overlooked c n

/-- At the end of the line, the counter has handed out everything as it should. -/
theorem Foreseen.at_end {s : PState} {given : List ArgData} (hf : Foreseen s given) (hmm : ∀ a ∈ s.command.arguments, a.minCount ≤ a.maxCount)
    (hcap : minTotal s.command.arguments < sizeMax) (hsz : given.length ≤ sizeMax)
    (hend : ∀ s0 lo n, Plain s0 → SameCommand s0 s → CountFrom s0 lo s.mode s.iter given.length n → n = given.length) :
    (∀ ks, IsAllotment s.command.arguments given.length ks → given = handedOut s.command.arguments ks) ∧
    (s.counter.isComplete = false → Missed s.command given.length) ∧ s.counter.counter = given.length := by
  obtain ⟨cs, fo, hi, hgv, ⟨hr, rfl, rfl⟩ | ⟨hr, s0, lo, n, k1, k2, k3, rfl, rfl, k6⟩⟩ := hf
  · obtain ⟨f1, f2, f3⟩ := ofArgs_complete_facts s.command.arguments hmm hr
    refine ⟨?_, ?_, hi.counter⟩
    · intro ks hal
      obtain ⟨h1, h2⟩ := IsAllotment.totals hal
      obtain ⟨ks', g1, g2⟩ := ofArgs_allot s.command.arguments hmm hr given.length h1 h2
      rw [C13_unique _ _ _ _ hal g1, ← g2]
      exact hgv
    · intro hc
      have := hi.complete f1 f2
      rw [f3, hc] at this
      simp at this
      left
      unfold TooFew
      omega
  · obtain rfl := hend s0 lo n k1 k2 k3
    have htot := makeCountersN_total s.command.arguments hmm (by omega) given.length
    have hle := hi.le
    have hmx := minTotal_le_maxTotal _ hmm
    refine ⟨?_, ?_, hi.counter⟩
    · intro ks hal
      obtain ⟨h1, h2⟩ := IsAllotment.totals hal
      obtain ⟨g1, g2⟩ := makeCountersN_allot s.command.arguments hmm given.length hsz h1 h2
      rw [C13_unique _ _ _ _ hal g1, ← g2]
      refine hgv.trans (List.take_of_length_le ?_)
      have e := g1.total
      rw [expand_length, total_eq_sum]
      omega
    · intro hc
      apply Classical.byContradiction
      intro hnm
      have hge : ¬ given.length < minTotal s.command.arguments := fun h => hnm (Or.inl h)
      have hls : LastServed s.command.arguments given.length := by
        apply Classical.byContradiction
        intro hls
        exact hnm (Or.inr ⟨(requires_iff _).mp hr, by omega, by omega, hls⟩)
      have hcs : total (makeCountersN s.command.arguments given.length) = given.length := by omega
      obtain ⟨g1, _⟩ := makeCountersN_allot s.command.arguments hmm given.length hsz (by omega) (by omega)
      have hcomp := hi.complete (Nat.le_refl _) (by
        intro h h0
        obtain ⟨k, q1, q2⟩ := (allotment_last g1 (by intro e; rw [e] at hr; simp [requiresArgumentCount, requiresArgumentCountLoop] at hr)).mpr hls
        rw [List.getLast?_map, List.getLast?_eq_getElem?, List.getElem?_eq_getElem h] at q1
        simp only [Option.map_some, Option.some.injEq] at q1
        omega)
      rw [List.take_length, hc] at hcomp
      simp at hcomp
      omega

/-- When the final check fails. -/
theorem fault_of_check {style : OptionStyle} {t : PState} {c : Command} {l : Line} {occs occs' : List Occ} {rest : Open} {msg : Str}
    (he : EndsWith style names c occs l occs') (hcm : t.command = c) (ha : Agrees t.stack (.node c occs' [] :: rest))
    (hmm : ∀ a ∈ c.arguments, a.minCount ≤ a.maxCount) (hcap : minTotal c.arguments < sizeMax)
    (h1 : Allotted c occs') (h2 : t.counter.isComplete = false → Missed c (argsGiven occs').length)
    (h3 : t.counter.counter = (argsGiven occs').length) (h : CheckFails t msg) : Fault style names subs Missed c occs l msg := by
  subst hcm
  have key : ∀ n, t.stack.head? = some n → n.subs = [] ∧ ∀ id, n.values.has id = true ↔ valuesOf occs' id ≠ [] := by
    intro n hn
    cases hs : t.stack with
    | nil => rw [hs] at hn; simp at hn
    | cons k ks =>
      rw [hs] at hn ha
      obtain rfl : k = n := by simpa using hn
      obtain ⟨l, ts, rst', f1, f2, f3, _⟩ := agrees_cons ha
      simp only [List.cons.injEq, Tree.node.injEq] at f1
      obtain ⟨⟨_, rfl, rfl⟩, _⟩ := f1
      refine ⟨by simpa using f3, fun id => ?_⟩
      rw [f2, rawValues_has]
  cases h with
  | mandatory hn ho hop hv =>
    rw [joinFlags_eq]
    refine .mandatory he ho hop ?_ h1
    have := (key _ hn).2
    apply Classical.byContradiction
    intro hne
    rw [(this _).mpr hne] at hv
    simp at hv
  | noCommand hn hok hreq _ => exact .noCommand he hreq (fun o ho hop => ((key _ hn).2 _).mp (hok o ho hop))
  | tooFew hn hok hreq hc =>
    have hmx := minTotal_le_maxTotal _ hmm
    rw [natToStr_eq, natToStr_eq, h3, getMinMaxCount_eq]
    have hco : Complete t.command occs' := ⟨fun o ho hop => ((key _ hn).2 _).mp (hok o ho hop), fun hr => absurd (key _ hn).1 (hreq hr)⟩
    have := Fault.tooFew (subs := subs) he hco (h2 hc)
    unfold tooFewText expectedCount at this
    simp only
    by_cases hq : minTotal t.command.arguments = maxTotal t.command.arguments
    · rw [if_pos hq] at this
      rw [if_pos (by omega)]
      simpa using this
    · rw [if_neg hq] at this
      rw [if_neg (by omega)]
      have e : b!"Too few arguments. Expected at least " = b!"Too few arguments. Expected " ++ b!"at least " := rfl
      rw [e]
      simpa using this

theorem Taken.at_end {s : PState} (hg : Good d s) (htm : (lineOf s).Tame d.settings.optionStyle) {it : Iter} (ht : Taken s none it) :
    (lineOf s).AtEnd d.settings.optionStyle := by
  rcases ht with ⟨hm, h1⟩ | ⟨hm, h1⟩
  · rw [lineOf_mixed hm]
    exact Iter.read_none hg.iterOk hg.pfx h1
  · have hstd : d.settings.optionStyle = .standard := by rw [lineOf_plain hm] at htm; exact htm
    have hpfx : s.iter.pfx = none := by rw [hg.pfx, hstd]; rfl
    rw [lineOf_plain hm]
    obtain ⟨g1, _⟩ := Iter.value_read_standard hg.iterOk hpfx h1
    show s.iter.plainOf = []
    unfold Iter.plainOf
    obtain ⟨i, hi⟩ := Iter.standard hpfx
    rw [hi] at g1 ⊢
    have key : ∀ j : StdIt, none = j.valueState.1 → j.valueState.1.toList ++ j.valueState.2.rest = [] := by
      intro j hj
      obtain ⟨args, pos⟩ := j
      match pos, args with
      | .npos, [] => rfl
      | .npos, [a] => rfl
      | .npos, a :: b :: l => simp [StdIt.valueState] at hj
      | .at p, a :: l => simp [StdIt.valueState] at hj
      | .at p, [] => rfl
    exact key i g1

theorem Taken.goes_on {s : PState} (hg : Good d s) (htm : (lineOf s).Tame d.settings.optionStyle) {it : Iter} {arg : Str} (ht : Taken s (some arg) it)
    (hno : ¬ OptionLike s arg) : GoesOn d.settings.optionStyle (lineOf s) arg := by
  rcases ht.modes with hm | hm
  · obtain ⟨x, f1, f2, f3, f4, _⟩ := current_std hg ht hm hno
    rw [lineOf_mixed hm, f2]
    exact .mixed f1 f3
  · rw [(plain_read hg htm ht hm).1]
    exact .plain

theorem _root_.Argos.Spec.GoesOn.size {style : OptionStyle} {l : Line} {v : Str} (h : GoesOn style l v) : 1 ≤ lineSize l := by
  cases h with
  | mixed h1 h2 => have := (readIn_size h1).2.2.2.2 h2; omega
  | plain => simp [lineSize]

theorem Foreseen.too_many {s : PState} {given : List ArgData} (hf : Foreseen s given) (hmm : ∀ a ∈ s.command.arguments, a.minCount ≤ a.maxCount)
    (hcap : minTotal s.command.arguments < sizeMax) (hsz : given.length + 1 ≤ sizeMax) {arg : Str} {it : Iter} (ht : Taken s (some arg) it)
    (hno : ¬ OptionLike s arg) (hce : s.command.commands = []) {ct : Counter} (hn : s.counter.nextArgument = (none, ct)) :
    given.length = maxTotal s.command.arguments := by
  obtain ⟨cs, fo, hi, hgv, hk⟩ := hf
  have hle := hi.le
  have htot : given.length = total cs := by
    apply Classical.byContradiction
    intro hne
    obtain ⟨a, c', e, _⟩ := hi.next_some (by omega)
    rw [hn] at e
    simp at e
  rcases hk with ⟨hr, rfl, rfl⟩ | ⟨hr, s0, lo, n, k1, k2, k3, rfl, rfl, k6⟩
  · rw [makeCountersLoop_total _ _ _ hmm] at htot
    exact htot
  · have hge := (count_argument k1.toForetold k2 ht hno (k1.no_stop k2 hce _ _ _) k3).ge
    have hmx := minTotal_le_maxTotal _ hmm
    have := makeCountersN_total s.command.arguments hmm (by omega) n
    omega

/-- The message says what is wrong with the line. -/
theorem Cause.fault {env : Env} (hp : env.Passive) (hru : Rules d names subs) {s : PState} (hg : Good d s) (htm : (lineOf s).Tame d.settings.optionStyle)
    (hmm : ∀ a ∈ s.command.arguments, a.minCount ≤ a.maxCount) (hcap : minTotal s.command.arguments < sizeMax)
    {occs : List Occ} {rest : Open} (ha : Agrees s.stack (.node s.command occs [] :: rest)) (hf : Foreseen s (argsGiven occs))
    (hsz : (argsGiven occs).length + lineSize (lineOf s) ≤ sizeMax) {msg : Str} (h : Cause env s msg) :
    Fault d.settings.optionStyle names subs Missed s.command occs (lineOf s) msg := by
  have hnext : ∀ {flag it}, Taken s (some flag) it → OptionLike s flag → s.iter.next = .ok (some flag, it) := by
    intro flag it ht hol
    rcases ht with ⟨_, h⟩ | ⟨h, _⟩
    · exact h
    · rw [OptionLike, h] at hol; simp at hol
  have hflag : ∀ {flag}, OptionLike s flag → IsFlag d.settings.optionStyle flag := by
    intro flag hol
    have := hol.2
    rw [hg.settings] at this
    exact (isOption_iff _ _).mp this
  cases h with
  | @unfinished it _ ht hcf =>
    obtain ⟨g1, g2, g3⟩ := hf.at_end hmm hcap (by omega) (fun s0 lo n _ _ hc => ht.count_none hc)
    exact fault_of_check (t := { s with iter := it }) (.line (Taken.at_end hg htm ht)) rfl ha hmm hcap g1 g2 g3 hcf
  | @unknownOption it flag cur ht hol hlk hc =>
    have hn := hnext ht hol
    obtain ⟨x, f1, rfl, _⟩ := Iter.read_some hg.iterOk hg.pfx hn
    rw [lineOf_mixed hol.1]
    refine .unknownOption f1 (hflag hol) ?_ (fun hp => Iter.next_current hg.iterOk hn hc hp) (fun hp => Iter.next_pending hg.iterOk hn hc hp)
    intro o ho
    rw [(hru.lookup hg _ o).mpr ho] at hlk
    simp at hlk
  | @noValue it it2 flag o ht hol hlk htv hnv =>
    have hn := hnext ht hol
    obtain ⟨x, e1, rfl, e3, e4, e5, e6⟩ := Iter.read_some hg.iterOk hg.pfx hn
    have htm' : it.pfx = none ∨ [] ∉ it.reader.rest := by
      rw [lineOf_mixed hol.1] at htm
      rcases htm with htm | htm
      · left; rw [e4, htm]; rfl
      · right
        rw [e5]
        exact fun hm => htm ((readIn_rest e1).1.subset hm)
    obtain ⟨g1, _⟩ := Iter.value_read e3 htm' hnv
    rw [e6] at g1
    rw [lineOf_mixed hol.1]
    exact .noValue e1 (hflag hol) ((hru.lookup hg _ o).mp hlk) htv g1.symm
  | @lastFails it flag o s2 s3 v st w msg ht hol hlk h1 h2 hty hcf =>
    obtain ⟨rfl, e2, x, e3, e4, e5, _⟩ := option_read hp hg htm ht hol h1 h2
    obtain ⟨x', f1, rfl, _⟩ := Iter.read_some hg.iterOk hg.pfx (hnext ht hol)
    rw [e3] at f1
    obtain rfl := Option.some.inj f1
    have hgo : argsGiven (occs ++ [.option o v]) = argsGiven occs := by rw [argsGiven_append]; simp [argsGiven]
    obtain ⟨g1, g2, g3⟩ := hf.at_end hmm hcap (by omega)
      (fun s0 lo n k1 k2 hc => (count_option hp k1.toForetold k2 hg ht hol hlk h1 h2 hc).2.2.2.2 (by rw [hty]; simp) (by rw [hty]; simp))
    have hct := option_passive_counter hp hg ht h1 h2
    obtain ⟨_, hst⟩ := option_passive hp hg ht h1 h2
    have ha3 := agrees_occWrite ha o v
    rw [← hst] at ha3
    rw [e2]
    refine fault_of_check (t := { s3 with mode := .done }) (.last e3 e4 ((hru.lookup hg _ o).mp hlk) e5 hty) (near_option hg ht h1 h2).1.command ha3 hmm hcap ?_ ?_ ?_ hcf
    · unfold Allotted; rw [hgo]; exact g1
    · rw [hgo]; show s3.counter.isComplete = false → _; rw [hct]; exact g2
    · rw [hgo]; show s3.counter.counter = _; rw [hct]; exact g3
  | @unknownCommand it arg ht hno hc hfc =>
    refine .unknownCommand (ht.goes_on hg htm hno) hc ?_
    intro c' hc'
    rw [hg.settings, (hru.subs _ hg.within arg c').mpr hc'] at hfc
    simp at hfc
  | @tooMany it arg ct ht hno hc hn =>
    have hgo := ht.goes_on hg htm hno
    have := hgo.size
    exact .tooMany hgo hc (hf.too_many hmm hcap (by omega) ht hno hc hn)

theorem Foreseen.le {s : PState} {given : List ArgData} (hf : Foreseen s given) (hmm : ∀ a ∈ s.command.arguments, a.minCount ≤ a.maxCount)
    (hcap : minTotal s.command.arguments < sizeMax) : given.length ≤ maxTotal s.command.arguments := by
  obtain ⟨cs, fo, hi, hgv, hk⟩ := hf
  have hle := hi.le
  rcases hk with ⟨hr, rfl, rfl⟩ | ⟨hr, s0, lo, n, k1, k2, k3, rfl, rfl, k6⟩
  · rw [makeCountersLoop_total _ _ _ hmm] at hle
    exact hle
  · have hmx := minTotal_le_maxTotal _ hmm
    have := makeCountersN_total s.command.arguments hmm (by omega) n
    omega

theorem report_no_command (ps : List Piece) : ∀ (as : List ArgData) (c : Command) (t : Str), IterResult.command c t ∉ report ps as := by
  induction ps with
  | nil => intro as c t; simp [report]
  | cons p ps ih =>
    intro as c t
    cases p with
    | option o v => simp [report, ih as c t]
    | argument v =>
      cases as with
      | nil => simp [report]
      | cons a as => simp [report, ih as c t]

/-- When parsing fails, the line is rejected with that message. -/
theorem rejects {env : Env} (hp : env.Passive) (hru : Rules d names subs) (hrd : Ready d) (hx : Exclusive d.command) (hmm : CountsOk d.command)
    (hcb : ∀ c : Command, c.Within d.command → Reckonable d names c) (hcap : ∀ c : Command, c.Within d.command → minTotal c.arguments < sizeMax)
    {s s1 : PState} {rs : List IterResult} (ht : Trace env s rs s1) (hg : Good d s) (htm : (lineOf s).Tame d.settings.optionStyle)
    (hl : ∀ r ∈ rs, ¬ r.IsLast) (hns : NoStop rs) {msg : Str}
    (hd : Cause env s1 msg) (hm : s.mode = .argumentsAndOptions) {occs : List Occ} (h0 : argsGiven occs = []) {rest : Open}
    (ha : Agrees s.stack (.node s.command occs [] :: rest)) (hc : Counted s.counter (.node s.command occs [] :: rest))
    (hf : Foreseen s []) (hsz : lineSize (lineOf s) ≤ sizeMax) :
    Rejects d.settings.optionStyle names subs Missed s.command occs (lineOf s) s1.command msg := by
  induction hn : rs.length using Nat.strongRecOn generalizing rs s occs rest with
  | ind n ih =>
    rcases ht.segment hp hru hrd hx hg htm hl hns (by rw [hm]; simp) ha hc with
      ⟨ps, as, e1, e2, e3, e4, e5, e6, e7, e8, e9⟩ | ⟨ps, c', t, rs2, sa, sb, rest', e1, e2, e3, e4, e5, e6, e7, e8, e9, e10, it, e11⟩
    · have hf1 := hf.trace hp hru hrd ht hg hl (by rw [e1]; exact report_no_command ps as)
      rw [List.nil_append, ← e7] at hf1
      have hmm1 : ∀ a ∈ s1.command.arguments, a.minCount ≤ a.maxCount := hmm _ e6.within
      have hle := hf1.le hmm1 (hcap _ e6.within)
      have hgo : argsGiven (occs ++ rs.filterMap occOf) = as := by rw [argsGiven_append, h0, List.nil_append, ← e7]
      have hsize := e3.size
      have := hd.fault (subs := subs) hp hru e6 (e3.tame hru hg.within htm) hmm1 (hcap _ e6.within) (occs := occs ++ rs.filterMap occOf) (rest := rest)
        (by rw [e4]; exact e8) (by rw [hgo]; exact hf1) (by rw [hgo]; omega)
      rw [e4] at this hle ⊢
      rw [e1] at this
      exact .here e3 e2 (by omega) this
    · subst e6
      have hsize := e2.size
      have hsize' := e3.size
      have := ih rs2.length (by omega) e4 e5 (e3.tame (e2.tame hru hg.within htm)) (fun r hr => hl r (by rw [e1]; simp [hr])) (fun o v hm => hns o v (by rw [e1]; simp [hm]))
        e7 rfl e8 e9 (foreseen_start (s0 := { sa with iter := it, stack := PNode.make sb.command :: sa.stack, command := sb.command }) hru e5
          (hcb _ e5.within) e7 (by rw [e11]; exact ⟨rfl, rfl, rfl⟩) (by rw [e11]; rfl) (by rw [e11]; rfl)) (by omega) rfl
      exact .sub e2 e3 this

/-- The error messages of a whole run. -/
theorem run_errors {env : Env} (hsi : env.Silent) (hrd : Ready d) (fuel : Nat) : ∀ {s : PState}, Good d s → s.mode ≠ .error →
    errorsIn (run env fuel s).2.log = errorsIn s.log ∨
    ∃ rs s1 msg, Trace env s rs s1 ∧ (∀ r ∈ rs, ¬ r.IsLast) ∧ Cause env s1 msg ∧
      errorsIn (run env fuel s).2.log = errorsIn s.log ++ [.error s1.command msg] := by
  induction fuel with
  | zero => intro s _ _; exact Or.inl rfl
  | succ fuel ih =>
    intro s hg hm
    rw [run_succ, bind_apply]
    generalize hn : next env s = q
    obtain ⟨o, s1⟩ := q
    have hst := (hg.next env hrd).1
    rw [hn] at hst
    have hg1 : Good d s1 := by
      have := (hg.next env hrd).2
      rw [hn] at this
      exact this
    rcases hst.errors hsi hg with ⟨h1, h2⟩ | ⟨msg, h1, h2, h3⟩
    · cases o with
      | ok r =>
        have cont : ¬ r.IsLast → run env fuel s1 = run env fuel s1 → 
            errorsIn (run env fuel s1).2.log = errorsIn s.log ∨
            ∃ rs s1' msg, Trace env s rs s1' ∧ (∀ r ∈ rs, ¬ r.IsLast) ∧ Cause env s1' msg ∧
              errorsIn (run env fuel s1).2.log = errorsIn s.log ++ [.error s1'.command msg] := by
          intro hl _
          rcases ih hg1 (hst.mode_ok hsi.passive hg hl) with h | ⟨rs, s2, msg, g1, g2, g3, g4⟩
          · exact Or.inl (h.trans h1)
          · refine Or.inr ⟨r :: rs, s2, msg, .cons hn g1, ?_, g3, by rw [g4, h1]⟩
            intro r' hr'
            rcases List.mem_cons.mp hr' with rfl | hr'
            · exact hl
            · exact g2 _ hr'
        cases r with
        | error => exact absurd rfl h2
        | done => exact Or.inl h1
        | argument a v => exact cont (by simp [IterResult.IsLast]) rfl
        | option o v => exact cont (by simp [IterResult.IsLast]) rfl
        | command c t => exact cont (by simp [IterResult.IsLast]) rfl
        | unknown x => exact cont (by simp [IterResult.IsLast]) rfl
      | _ => exact Or.inl h1
    · right
      refine ⟨[], s, msg, .nil, by simp, h1, ?_⟩
      rcases h3 with rfl | ⟨_, rfl⟩
      · exact h2
      · exact h2

/-! ### A rejected line isn't well-formed -/

theorem _root_.Argos.Spec.WrittenAll.extend {c : Command} (hf : ∀ q o o', names c q o → names c q o' → o = o') {l l1 l2 : Line}
    {ps qs : List Piece} (h1 : WrittenAll d.settings.optionStyle names c l ps l1) (h2 : WrittenAll d.settings.optionStyle names c l qs l2)
    (e2 : ∀ p l', ¬ Written d.settings.optionStyle names c l2 p l') :
    ∃ qs', qs = ps ++ qs' ∧ WrittenAll d.settings.optionStyle names c l1 qs' l2 := by
  induction h1 generalizing qs with
  | nil => exact ⟨qs, rfl, h2⟩
  | cons h _ ih =>
    cases h2 with
    | nil => exact absurd h (e2 _ _)
    | cons h' hs' =>
      obtain ⟨rfl, rfl⟩ := h.unique hf h'
      obtain ⟨qs', rfl, g⟩ := ih hs'
      exact ⟨qs', rfl, g⟩

theorem report_snoc (o : OptData) (v : Str) (ps : List Piece) : ∀ as : List ArgData, as.length = argPieces ps →
    report (ps ++ [.option o v]) as = report ps as ++ [.option o (some v)] := by
  induction ps with
  | nil => intro as _; rfl
  | cons p ps ih =>
    intro as h
    cases p with
    | option o' v' =>
      have := ih as h
      simp only [List.cons_append, report, this]
    | argument v' =>
      cases as with
      | nil => simp [argPieces] at h
      | cons a as =>
        have := ih as (by simpa [argPieces] using h)
        simp only [List.cons_append, report, this]

theorem argPieces_append (ps qs : List Piece) : argPieces (ps ++ qs) = argPieces ps + argPieces qs := by
  unfold argPieces
  rw [List.filter_append, List.length_append]

theorem _root_.Argos.Spec.GoesOn.not_end {l : Line} {v : Str} (h : GoesOn d.settings.optionStyle l v) : ¬ l.AtEnd d.settings.optionStyle := by
  cases h with
  | mixed h1 h2 => simp [Line.AtEnd, h1]
  | plain => simp [Line.AtEnd]

theorem _root_.Argos.Spec.GoesOn.written {c : Command} {l l' : Line} {v : Str} {p : Piece} (h : GoesOn d.settings.optionStyle l v)
    (hw : Written d.settings.optionStyle names c l p l') : p = .argument v := by
  cases h with
  | mixed h1 h2 =>
    cases hw with
    | argument a1 _ _ => rw [h1] at a1; cases a1; rfl
    | option a1 a2 _ _ _ => rw [h1] at a1; cases a1; exact absurd a2 h2
    | lastOption a1 a2 _ _ _ => rw [h1] at a1; cases a1; exact absurd a2 h2
    | lastArgument a1 a2 _ _ _ => rw [h1] at a1; cases a1; exact absurd a2 h2
  | plain => cases hw; rfl

theorem _root_.Argos.Spec.GoesOn.enters {c c' : Command} {l l' : Line} {v : Str} (h : GoesOn d.settings.optionStyle l v)
    (hw : Enters d.settings.optionStyle subs c l c' l') : subs c v c' := by
  cases h with
  | mixed h1 h2 => cases hw with | command a1 _ _ a4 => rw [h1] at a1; cases a1; exact a4
  | plain => cases hw with | plainCommand _ a => exact a

/-- A well-formed line that has been read up to a point: what follows there. -/
theorem accepts_from {c : Command} (hf : ∀ q o o', names c q o → names c q o' → o = o') {inits : List Occ} {l l1 : Line} {ps : List Piece}
    (hw : WrittenAll d.settings.optionStyle names c l ps l1) {rs : List IterResult} (hacc : Accepts d.settings.optionStyle names subs c inits l rs) :
    ∃ qs l2, WrittenAll d.settings.optionStyle names c l1 qs l2 ∧
      ((l2.AtEnd d.settings.optionStyle ∧ ∃ ks, IsAllotment c.arguments (argPieces (ps ++ qs)) ks ∧
          Complete c (inits ++ (report (ps ++ qs) (handedOut c.arguments ks)).filterMap occOf)) ∨
        ∃ c' l3, Enters d.settings.optionStyle subs c l2 c' l3) := by
  cases hacc with
  | last hw' he hal hco =>
    obtain ⟨qs, rfl, g⟩ := hw.extend hf hw' (fun p l' h => h.not_end he)
    exact ⟨qs, _, g, Or.inl ⟨he, _, hal, hco⟩⟩
  | sub hw' hen _ =>
    obtain ⟨qs, rfl, g⟩ := hw.extend hf hw' (fun p l' h => hen.not_written h)
    exact ⟨qs, _, g, Or.inr ⟨_, _, hen⟩⟩

theorem accepts_ends {c : Command} (hf : ∀ q o o', names c q o → names c q o' → o = o') {inits occs' : List Occ} {l l1 : Line} {ps : List Piece}
    {as : List ArgData} (has : as.length = argPieces ps)
    (hw : WrittenAll d.settings.optionStyle names c l ps l1) (he : EndsWith d.settings.optionStyle names c (inits ++ (report ps as).filterMap occOf) l1 occs')
    {rs : List IterResult} (hacc : Accepts d.settings.optionStyle names subs c inits l rs) :
    ∃ ks, IsAllotment c.arguments (argPieces ps) ks ∧ c.requireSubcommand ≠ some true ∧
      (as = handedOut c.arguments ks → Complete c occs') ∧ argsGiven occs' = argsGiven inits ++ as := by
  obtain ⟨qs, l2, hq, h⟩ := accepts_from hf hw hacc
  cases he with
  | line hend =>
    cases hq with
    | cons h' _ => exact absurd hend h'.not_end
    | nil =>
      rcases h with ⟨_, ks, hal, hco⟩ | ⟨c', l3, hen⟩
      · rw [List.append_nil] at hal hco
        refine ⟨ks, hal, hco.subcommand, ?_, by rw [argsGiven_append, report_occs ps as has]⟩
        rintro rfl
        exact hco
      · exact absurd hend hen.not_end
  | @last r x o v a1 a2 a3 a4 a5 =>
    have hga : argsGiven (inits ++ (report ps as).filterMap occOf ++ [.option o v]) = argsGiven inits ++ as := by
      rw [argsGiven_append, argsGiven_append, report_occs ps as has]
      simp [argsGiven]
    have hw1 : Written d.settings.optionStyle names c (.mixed r) (.option o v) (.closed (x.leftBy o).unread) := .lastArgument a1 a2 a3 a4 a5
    cases hq with
    | nil =>
      rcases h with ⟨hend, _⟩ | ⟨c', l3, hen⟩
      · exact absurd hend hw1.not_end
      · exact absurd hw1 hen.not_written
    | cons h' hq' =>
      obtain ⟨rfl, rfl⟩ := hw1.unique hf h'
      cases hq' with
      | cons h'' _ => cases h''
      | nil =>
        rcases h with ⟨_, ks, hal, hco⟩ | ⟨c', l3, hen⟩
        · have hap : argPieces (ps ++ [.option o v]) = argPieces ps := by rw [argPieces_append]; rfl
          rw [hap] at hal
          refine ⟨ks, hal, hco.subcommand, ?_, hga⟩
          rintro rfl
          rw [report_snoc o v ps _ has, List.filterMap_append] at hco
          simpa [occOf] using hco
        · cases hen

/-- A rejection is of one kind or of the other. -/
theorem _root_.Argos.Spec.Rejects.split {style : OptionStyle} {few few' : Command → Nat → Prop} {c who : Command} {inits : List Occ} {l : Line} {msg : Str}
    (h : Rejects style names subs (fun c n => few c n ∨ few' c n) c inits l who msg) :
    Rejects style names subs few c inits l who msg ∨
      (Rejects style names subs few' c inits l who msg ∧ ∃ n, few' who n ∧ msg = tooFewText who n) := by
  induction h with
  | sub hw hen _ ih =>
    rcases ih with ih | ih
    · exact Or.inl (.sub hw hen ih)
    · exact Or.inr ⟨.sub hw hen ih.1, ih.2⟩
  | here hw has hle hfa =>
    cases hfa with
    | unknownOption a1 a2 a3 a4 a5 => exact Or.inl (.here hw has hle (.unknownOption a1 a2 a3 a4 a5))
    | noValue a1 a2 a3 a4 a5 => exact Or.inl (.here hw has hle (.noValue a1 a2 a3 a4 a5))
    | tooMany a1 a2 a3 => exact Or.inl (.here hw has hle (.tooMany a1 a2 a3))
    | unknownCommand a1 a2 a3 => exact Or.inl (.here hw has hle (.unknownCommand a1 a2 a3))
    | mandatory a1 a2 a3 a4 a5 => exact Or.inl (.here hw has hle (.mandatory a1 a2 a3 a4 a5))
    | noCommand a1 a2 a3 => exact Or.inl (.here hw has hle (.noCommand a1 a2 a3))
    | tooFew a1 a2 a3 =>
      rcases a3 with a3 | a3
      · exact Or.inl (.here hw has hle (.tooFew a1 a2 a3))
      · exact Or.inr ⟨.here hw has hle (.tooFew a1 a2 a3), _, a3, rfl⟩

/-- What is rejected isn't accepted. -/
theorem _root_.Argos.Spec.Rejects.not_accepts (hf : ∀ c : Command, c.Within d.command → ∀ q o o', names c q o → names c q o' → o = o')
    (hs : ∀ c q c1 c2, subs c q c1 → subs c q c2 → c1 = c2) (hm : ∀ c q c', subs c q c' → c' ∈ c.commands)
    {c who : Command} (hc : c.Within d.command) {inits : List Occ} (h0 : argsGiven inits = []) {l : Line} {msg : Str} {rs : List IterResult}
    (h : Rejects d.settings.optionStyle names subs TooFew c inits l who msg) : ¬ Accepts d.settings.optionStyle names subs c inits l rs := by
  intro hacc
  induction h generalizing rs with
  | @here c inits l l' ps as msg hw has hle hfa =>
    have hfc := hf c hc
    obtain ⟨qs, l2, hq, hr⟩ := accepts_from hfc hw hacc
    have hga : argsGiven (inits ++ (report ps as).filterMap occOf) = as := by rw [argsGiven_append, h0, report_occs ps as has]; rfl
    cases hfa with
    | unknownOption a1 a2 a3 _ _ =>
      cases hq with
      | nil =>
        rcases hr with ⟨hend, _⟩ | ⟨c', l3, hen⟩
        · simp [Line.AtEnd, a1] at hend
        · cases hen with | command b1 b2 _ _ => rw [a1] at b1; cases b1; exact b2 a2
      | cons h' _ =>
        cases h' with
        | argument b1 b2 _ => rw [a1] at b1; cases b1; exact b2 a2
        | option b1 _ b3 _ _ => rw [a1] at b1; cases b1; exact a3 _ b3
        | lastOption b1 _ b3 _ _ => rw [a1] at b1; cases b1; exact a3 _ b3
        | lastArgument b1 _ b3 _ _ => rw [a1] at b1; cases b1; exact a3 _ b3
    | @noValue r x o a1 a2 a3 a4 a5 =>
      have hno : ∀ o' v, names c x.flag o' → x.valueFor o' = some v → False := by
        intro o' v n1 n2
        obtain rfl := hfc _ _ _ a3 n1
        rw [Reading.valueFor, if_pos a4, a5] at n2
        simp at n2
      cases hq with
      | nil =>
        rcases hr with ⟨hend, _⟩ | ⟨c', l3, hen⟩
        · simp [Line.AtEnd, a1] at hend
        · cases hen with | command b1 b2 _ _ => rw [a1] at b1; cases b1; exact b2 a2
      | cons h' _ =>
        cases h' with
        | argument b1 b2 _ => rw [a1] at b1; cases b1; exact b2 a2
        | option b1 _ b3 b4 _ => rw [a1] at b1; cases b1; exact hno _ _ b3 b4
        | lastOption b1 _ b3 b4 _ => rw [a1] at b1; cases b1; exact hno _ _ b3 b4
        | lastArgument b1 _ b3 b4 _ => rw [a1] at b1; cases b1; exact hno _ _ b3 b4
    | tooMany a1 a2 a3 =>
      rw [hga] at a3
      rcases hr with ⟨hend, ks, hal, _⟩ | ⟨c', l3, hen⟩
      · cases hq with
        | nil => exact a1.not_end hend
        | cons h' _ =>
          obtain rfl := a1.written h'
          have := (IsAllotment.totals hal).2
          rw [argPieces_append] at this
          simp only [argPieces, List.filter_cons, if_true, List.length_cons] at this has
          omega
      · exact hen.commands_ne a2
    | unknownCommand a1 a2 a3 =>
      cases hq with
      | nil =>
        rcases hr with ⟨hend, _⟩ | ⟨c', l3, hen⟩
        · exact a1.not_end hend
        · exact a3 _ (a1.enters hen)
      | cons h' _ =>
        obtain rfl := a1.written h'
        exact a2 h'.argument_leaf
    | @mandatory _ o occs' a1 a2 a3 a4 a5 =>
      obtain ⟨ks, g1, g2, g3, g4⟩ := accepts_ends hfc has hw a1 hacc
      rw [h0, List.nil_append] at g4
      unfold Allotted at a5
      rw [g4, has] at a5
      exact (g3 (a5 ks g1)).mandatory o a2 a3 a4
    | noCommand a1 a2 a3 =>
      obtain ⟨ks, g1, g2, _⟩ := accepts_ends hfc has hw a1 hacc
      exact g2 a2
    | @tooFew _ occs' a1 a2 a3 =>
      obtain ⟨ks, g1, g2, g3, g4⟩ := accepts_ends hfc has hw a1 hacc
      rw [h0, List.nil_append] at g4
      rw [g4, has] at a3
      unfold TooFew at a3
      have := (IsAllotment.totals g1).1
      omega
  | @sub c c' who inits l l1 l2 ps msg hw hen hrej ih =>
    cases hacc with
    | last hw' he' _ _ =>
      obtain ⟨_, rfl⟩ := hw.unique (hf _ hc) hw' (fun p l' h => hen.not_written h) (fun p l' h => h.not_end he')
      exact hen.not_end he'
    | sub hw' hen' hacc' =>
      obtain ⟨rfl, rfl⟩ := hw.unique (hf _ hc) hw' (fun p l' h => hen.not_written h) (fun p l' h => hen'.not_written h)
      obtain ⟨q, g1, g2⟩ := hen.named hen'
      obtain rfl := hs _ _ _ _ g1 g2
      obtain rfl := hen.line_unique hen'
      exact ih (Command.Within.trans (.sub (hm _ _ _ g1) .self) hc) rfl hacc'

end

end Parser
end Argos
