import Verif.Proofs.Ends
import Verif.Props.Lookup

/-! # C21, C22, C27, C28: termination, safety, iteration after the end, process exit -/

set_option synthInstance.maxSize 1000

namespace Argos
open Spec Parser

/-- The parser of the examples: an option with a value, a flag, a stop option, a file argument and
an optional one. -/
def cliData : ParserData :=
  { command :=
      { name := b!"cli"
        options := [{ flags := [b!"-o", b!"--output"], argument := b!"FILE" }, { flags := [b!"-v"], constant := b!"1" },
          { flags := [b!"--stop"], type := .stop, operation := .none }]
        arguments := [{ name := b!"IN" }, { name := b!"MORE", minCount := 0, maxCount := 2 }] }
    settings := { autoExit := false } }

/-- A parser with two sub-commands. -/
def treeData : ParserData :=
  { command :=
      { name := b!"git"
        options := [{ flags := [b!"-v"], constant := b!"1" }]
        commands := [
          { name := b!"add", arguments := [{ name := b!"FILE", minCount := 1, maxCount := 9 }] },
          { name := b!"stop", options := [{ flags := [b!"--now"], type := .stop, operation := .none }] }] }
    settings := { autoExit := false } }

/-- A callback that reports an error. -/
def failingEnv : Env := ⟨fun _ _ _ _ _ => { fin := .error b!"no" }⟩

/-- A callback that inserts the argument "-v" again whenever it is called. -/
def loopingEnv : Env := ⟨fun _ _ _ _ _ => { newArguments := [b!"-v"] }⟩

/-! ## C21 -/

/-- Termination: the size of a command line, in bytes, with three added for each argument. -/
def cmdSize (args : List Str) : Nat := (args.map List.length).sum + 3 * args.length

/-- For examples: a condition on a returned value, decided by evaluation. -/
theorem Outcome.exists_ok {α : Type} {x : Outcome α} {P : α → Prop} [DecidablePred P]
    (h : (match x with | .ok a => decide (P a) | _ => false) = true) : ∃ a, x = .ok a ∧ P a := by
  cases x with
  | ok a => exact ⟨a, rfl, by simpa using h⟩
  | _ => simp at h

theorem argsWeight_eq (args : List Str) : argsWeight args = cmdSize args := by
  unfold argsWeight cmdSize
  induction args with
  | nil => rfl
  | cons a as ih => simp only [List.map_cons, List.sum_cons, List.length_cons, ih]; omega

theorem make_weight (style : OptionStyle) (args : List Str) : (Iter.make style args).weight ≤ argsWeight args := by
  have : posWeight (.at 0) args ≤ argsWeight args := by
    cases args with
    | nil => simp [posWeight]
    | cons a as => simp only [posWeight, argsWeight, List.map_cons, List.sum_cons]; omega
  cases style <;> exact this

theorem start_todo (d : ParserData) (args : List Str) : todo (start d args).2 ≤ cmdSize args + 1 := by
  rw [(start_good d args).1]
  refine Nat.le_trans (todo_le _) ?_
  have := make_weight d.settings.optionStyle args
  rw [argsWeight_eq] at this
  show (Iter.make d.settings.optionStyle args).weight + 1 ≤ _
  omega

/-- **C21**: `parse` ends after at most `cmdSize args + 2` calls of `next`, when callbacks insert nothing. -/
theorem C21_terminates {d0 d : ParserData} (h : finishInitialization d0 = .ok d) {env : Env}
    (hq : ∀ cb k v x n, (env.callback cb k v x n).newArguments = []) (args : List Str) (fuel : Nat)
    (hf : cmdSize args + 1 < fuel) : (parse env d args fuel).1 ≠ .diverges := by
  have hr := ready_of_init h
  have hb := run_bound (env := env) hq hr fuel (start_good d args).2 (by have := start_todo d args; omega)
  unfold parse
  rw [(start_good d args).1] at hb ⊢
  simp only at hb ⊢
  generalize run env fuel _ = q at hb
  obtain ⟨o, s⟩ := q
  cases o <;> simp_all

/-- **C21**, for iterators: at most `cmdSize args + 1` results precede the end or an error. -/
theorem C21_steps {d0 d : ParserData} (h : finishInitialization d0 = .ok d) {env : Env}
    (hq : ∀ cb k v x n, (env.callback cb k v x n).newArguments = []) {args : List Str} {rs : List IterResult} {s : PState}
    (ht : Trace env (start d args).2 rs s) (hl : ∀ r ∈ rs, ¬ r.IsLast) : rs.length ≤ cmdSize args + 1 := by
  have hr := ready_of_init h
  have key : ∀ {s0 s : PState} {rs : List IterResult}, Trace env s0 rs s → Good d s0 → (∀ r ∈ rs, ¬ r.IsLast) →
      rs.length + todo s ≤ todo s0 := by
    intro s0 s rs ht
    induction ht with
    | nil => intro _ _; simp
    | cons hn _ ih =>
      intro hg hl
      obtain ⟨hst, hg'⟩ := next_good hr hg hn
      have h1 := hst.todo hq hg (hl _ (by simp))
      have h2 := ih hg' (fun r hr => hl r (by simp [hr]))
      simp only [List.length_cons]
      omega
  have := key ht (start_good d args).2 hl
  have := start_todo d args
  omega

-- A command line of size 17 is parsed in 4 steps.
example : ∃ d, finishInitialization cliData = .ok d ∧ cmdSize [b!"-vo", b!"x", b!"in"] = 15 ∧
    (parse Env.inert d [b!"-vo", b!"x", b!"in"] 17).1.isOk = true ∧
    (parse Env.inert d [b!"-vo", b!"x", b!"in"] 3).1.isOk = false := by
  refine Outcome.exists_ok ?_
  decide +kernel

/-! ## C22 -/

/-- **C22**: at every moment of the life of an iterator (whatever callbacks have done, and also after
exceptions), `next()` returns, throws or exits: it never has undefined behaviour, never leaves a
`std::out_of_range` and never runs forever. -/
theorem C22_next {d0 d : ParserData} (h : finishInitialization d0 = .ok d) {env : Env} {args : List Str} {s : PState}
    (hs : Reach env d args s) :
    (∃ r, (next env s).1 = .ok r) ∨ (∃ m, (next env s).1 = .throw m) ∨ (∃ c, (next env s).1 = .exit c) := by
  have hr := ready_of_init h
  exact ((hs.good hr).next env hr).1.outcome

/-- **C22**: construction always succeeds. -/
theorem C22_start (d : ParserData) (args : List Str) : (start d args).1 = .ok () := by rw [(start_good d args).1]

/-- **C22**: for `parse`. -/
theorem C22_parse {d0 d : ParserData} (h : finishInitialization d0 = .ok d) (env : Env) (args : List Str) (fuel : Nat) :
    (parse env d args fuel).1 ≠ .ub ∧ (parse env d args fuel).1 ≠ .outOfRange := by
  have hr := ready_of_init h
  have key : ∀ fuel (s : PState), Good d s → (run env fuel s).1 ≠ .ub ∧ (run env fuel s).1 ≠ .outOfRange := by
    intro fuel
    induction fuel with
    | zero => intro s _; simp [run, ParserM.lift_apply]
    | succ fuel ih =>
      intro s hg
      obtain ⟨hst, hg'⟩ := hg.next env hr
      rw [run_succ]
      generalize hn : next env s = q at hst hg'
      obtain ⟨o, s1⟩ := q
      simp only at hst hg'
      rcases hst.outcome with ⟨x, rfl⟩ | ⟨m, rfl⟩ | ⟨c, rfl⟩
      · rw [ParserM.bind_ok hn]
        cases x with
        | done => simp [ParserM.pure_apply]
        | error => simp [ParserM.pure_apply]
        | _ => exact ih s1 hg'
      · rw [ParserM.bind_throw hn]; simp
      · rw [ParserM.bind_exit hn]; simp
  have hb := key fuel _ (start_good d args).2
  unfold parse
  rw [(start_good d args).1] at hb ⊢
  simp only at hb ⊢
  generalize run env fuel _ = q at hb
  obtain ⟨o, s⟩ := q
  cases o <;> simp_all

/-- **C22**: the argument counter is always in range: `m_index + 1 == m_first_optional` implies that
`m_counters[m_index]` exists (the access in `ArgumentCounter::is_complete`). -/
theorem C22_counter {d0 d : ParserData} (h : finishInitialization d0 = .ok d) {env : Env} {args : List Str} {s : PState}
    (hs : Reach env d args s) (hi : s.counter.index + 1 = s.counter.firstOptional) :
    s.counter.index < s.counter.counters.length := by
  have := (hs.good (ready_of_init h)).bounds
  omega

/-- **C22**: an exception comes from a callback, or from calling `next()` after an error: some callback
has been invoked by the call. -/
theorem C22_throws {d0 d : ParserData} (h : finishInitialization d0 = .ok d) {env : Env} {args : List Str} {s s' : PState}
    (hs : Reach env d args s) {m : Str} (hn : next env s = (.throw m, s')) :
    s.mode = .error ∨ ∃ es, s'.log = s.log ++ es ∧ ∃ cb view v seen, .callback cb view v seen ∈ es := by
  have hr := ready_of_init h
  have hg := hs.good hr
  obtain ⟨es, h1, h2⟩ := (next_good hr hg hn).1.log hg
  have cut : ∀ {cb g view v stored es} {tl : List Event}, CutLog cb g view v stored es → ∃ cb' v' seen,
      Event.callback cb' view v' seen ∈ es ++ tl := by
    intro cb g view v stored es tl hc
    cases hc with
    | @own c _ => exact ⟨c, some v, stored, by simp⟩
    | @general c v1 seen _ => exact ⟨c, v1, seen, by simp⟩
  cases h1 with
  | afterError hm => exact Or.inl hm
  | optionThrow _ _ _ _ hc _ =>
    obtain ⟨a, b, c, hmem⟩ := cut hc
    exact Or.inr ⟨_, h2, a, _, b, c, hmem⟩
  | argumentThrow _ _ _ hc _ =>
    obtain ⟨a, b, c, hmem⟩ := cut hc
    exact Or.inr ⟨_, h2, a, _, b, c, hmem⟩

-- Reachable states with insertions, and after an exception.
example : ∃ d, finishInitialization { cliData with settings := { cliData.settings with optionCallback := some 0 } } = .ok d ∧
    Reach loopingEnv d [b!"-v"] (next loopingEnv (next loopingEnv (start d [b!"-v"]).2).2).2 ∧
    Reach failingEnv d [b!"-v"] (next failingEnv (start d [b!"-v"]).2).2 ∧
    (next failingEnv (start d [b!"-v"]).2).1.isOk = false := by
  obtain ⟨d, h, h1⟩ := Outcome.exists_ok (x := finishInitialization
      { cliData with settings := { cliData.settings with optionCallback := some 0 } })
    (P := fun d => (next failingEnv (start d [b!"-v"]).2).1.isOk = false) (by decide +kernel)
  exact ⟨d, h, .next (.next .start), .next .start, h1⟩

/-! ## C27 -/

/-- **C27**: after the end, `next()` reports the end again and changes nothing, however often it is called
and whatever callbacks would do. -/
theorem C27_end_repeats {d0 d : ParserData} (h : finishInitialization d0 = .ok d) {env : Env} {args : List Str} {s s' : PState}
    (hs : Reach env d args s) (hn : next env s = (.ok .done, s')) (env' : Env) :
    next env' s' = (.ok .done, s') ∧
      ∀ rs s'', Trace env' s' rs s'' → s'' = s' ∧ ∀ r ∈ rs, r = .done := by
  have hr := ready_of_init h
  have hm := ((next_good hr (hs.good hr) hn).1.last_mode).1 rfl
  have hd : next env' s' = (.ok .done, s') := by
    unfold next
    rw [ParserM.get_bind, hm]
    rfl
  refine ⟨hd, ?_⟩
  intro rs s'' ht
  generalize hq : s' = t at ht
  induction ht with
  | nil => exact ⟨rfl, by simp⟩
  | cons hn1 _ ih =>
    subst hq
    rw [hd] at hn1
    simp only [Prod.mk.injEq, Outcome.ok.injEq] at hn1
    obtain ⟨e1, e2⟩ := hn1
    obtain ⟨i1, i2⟩ := ih e2
    refine ⟨by rw [i1, e2], ?_⟩
    intro r hr
    rcases List.mem_cons.mp hr with rfl | hr
    · exact e1.symm
    · exact i2 r hr

/-- **C27**: after an option that ends parsing has been reported, `next()` reports the end. -/
theorem C27_end_after_stop {d0 d : ParserData} (h : finishInitialization d0 = .ok d) {env : Env} {args : List Str} {s s' : PState}
    (hs : Reach env d args s) {o : OptData} {v : Option Str} (hn : next env s = (.ok (.option o v), s')) (ho : EndsParsing o)
    (env' : Env) : next env' s' = (.ok .done, s') := by
  have hr := ready_of_init h
  have hst := (next_good hr (hs.good hr) hn).1
  have hm : s'.mode = .done := by
    cases hst with
    | option _ _ _ hrun =>
      cases hrun with
      | normal _ _ ht => rw [EndsParsing, ht] at ho; simp at ho
      | lastOption _ _ ht => rw [EndsParsing, ht] at ho; simp at ho
      | stopped _ _ _ _ _ => rfl
      | lastFails _ _ _ _ he => cases he
      | lastDone _ _ ht _ _ _ => rfl
      | lastMulti _ _ ht _ _ => rw [EndsParsing, ht] at ho; simp at ho
      | noValue _ _ he => cases he
    | unfinished _ _ he => cases he
    | unknownOption _ _ _ _ _ he => cases he
    | unknownCommand _ _ _ _ he => cases he
    | argument _ _ _ hrun =>
      cases hrun with
      | tooMany _ _ _ he => cases he
  unfold next
  rw [ParserM.get_bind, hm]
  rfl

/-- **C27**: after an error, every call throws, and changes nothing. -/
theorem C27_error_throws {d0 d : ParserData} (h : finishInitialization d0 = .ok d) {env : Env} {args : List Str} {s s' : PState}
    (hs : Reach env d args s) (hn : next env s = (.ok .error, s')) (env' : Env) :
    next env' s' = (.throw b!"next() called after error.", s') := by
  have hr := ready_of_init h
  have hm := ((next_good hr (hs.good hr) hn).1.last_mode).2 rfl
  unfold next
  rw [ParserM.get_bind, hm]
  rfl

-- The end, and an error ("-x" is unknown), are reached.
example : ∃ d, finishInitialization cliData = .ok d ∧
    (match (next Env.inert (next Env.inert (start d [b!"in"]).2).2).1 with | .ok .done => true | _ => false) = true ∧
    (match (next Env.inert (start d [b!"--stop", b!"in"]).2).1 with | .ok (.option o _) => o.type = .stop | _ => false) = true ∧
    (match (next Env.inert (start d [b!"-x"]).2).1 with | .ok .error => true | _ => false) = true := by
  refine Outcome.exists_ok ?_
  decide +kernel

/-! ## C28 -/

/-- **C28**: the process exits only with `auto_exit` on, and then either with the error code after an error
message, or with the normal code for an option of type `HELP` or `EXIT` that was read. -/
theorem C28_exit {d0 d : ParserData} (h : finishInitialization d0 = .ok d) {env : Env} {args : List Str} {s s' : PState}
    (hs : Reach env d args s) {c : Int} (hn : next env s = (.exit c, s')) :
    d0.settings.autoExit = true ∧
      ((c = d0.settings.errorExitCode ∧ ∃ es cmd msg, s'.log = s.log ++ es ++ [.error cmd msg]) ∨
       (c = d0.settings.normalExitCode ∧ ∃ flag it o, s.iter.next = .ok (some flag, it) ∧
          findOption s.command.optionIndex flag d0.settings.allowAbbreviatedOptions d0.settings.caseInsensitive = some o ∧
          (o.type = .help ∨ o.type = .exit))) := by
  have hr := ready_of_init h
  have hset := (finishInitialization_ok h).1
  have hg := hs.good hr
  have hset' : s.settings = d0.settings := hg.settings.trans hset
  obtain ⟨es, h1, h2⟩ := (next_good hr hg hn).1.log hg
  rw [← hset']
  cases h1 with
  | @errorExit m ha => exact ⟨ha, Or.inl ⟨rfl, [], s.command, m, by rw [h2]; simp⟩⟩
  | @lastErrorExit _ _ _ _ m es ha _ _ _ _ _ _ => exact ⟨ha, Or.inl ⟨rfl, es, s.command, m, by rw [h2, ← List.append_assoc]⟩⟩
  | @optionExit _ _ _ _ m es ha _ _ _ _ _ => exact ⟨ha, Or.inl ⟨rfl, es, s.command, m, by rw [h2, ← List.append_assoc]⟩⟩
  | @argumentExit _ _ _ m es ha _ _ _ _ => exact ⟨ha, Or.inl ⟨rfl, es, s.command, m, by rw [h2, ← List.append_assoc]⟩⟩
  | @stopExit o it flag _ _ ha ht hol hlk hty _ _ =>
    refine ⟨ha, Or.inr ⟨rfl, flag, it, o, ?_, hlk, hty⟩⟩
    rcases ht with ⟨_, ht⟩ | ⟨hm, _⟩
    · exact ht
    · rw [OptionLike, hm] at hol; simp at hol

/-- **C28**: with `auto_exit` on no error and no option of type `HELP` or `EXIT` is ever reported to the
client: the process has exited. -/
theorem C28_no_return {d0 d : ParserData} (h : finishInitialization d0 = .ok d) (ha : d0.settings.autoExit = true)
    {env : Env} {args : List Str} {s s' : PState} (hs : Reach env d args s) {r : IterResult} (hn : next env s = (.ok r, s')) :
    r ≠ .error ∧ ∀ o v, r = .option o v → o.type ≠ .help ∧ o.type ≠ .exit := by
  have hr := ready_of_init h
  have hg := hs.good hr
  have hset' : s.settings.autoExit = true := by rw [hg.settings, (finishInitialization_ok h).1, ha]
  obtain ⟨hst, _⟩ := next_good hr hg hn
  constructor
  · rintro rfl
    obtain ⟨es, h1, _⟩ := hst.log hg
    cases h1 with
    | silent _ _ h => exact absurd rfl h
    | error hf => rw [hset'] at hf; simp at hf
    | lastError hf _ _ _ _ _ => rw [hset'] at hf; simp at hf
  · rintro o v rfl
    cases hst with
    | option _ _ _ hrun =>
      cases hrun with
      | normal _ _ ht => rw [ht]; simp
      | lastOption _ _ ht => rw [ht]; simp
      | stopped _ _ _ hor _ =>
        rcases hor with ht | hf
        · rw [ht]; simp
        · rw [hset'] at hf; simp at hf
      | lastFails _ _ _ _ he => cases he
      | lastDone _ _ ht _ _ _ => rw [ht]; simp
      | lastMulti _ _ ht _ _ => rw [ht]; simp
      | noValue _ _ he => cases he
    | unfinished _ _ he => cases he
    | unknownOption _ _ _ _ _ he => cases he
    | unknownCommand _ _ _ _ he => cases he
    | argument _ _ _ hrun =>
      cases hrun with
      | tooMany _ _ _ he => cases he

/-- **C28**: with `auto_exit` on, whenever a call of `next()` writes an error message it exits with the error
code. -/
theorem C28_error_exits {d0 d : ParserData} (h : finishInitialization d0 = .ok d) (ha : d0.settings.autoExit = true)
    {env : Env} {args : List Str} {s s' : PState} (hs : Reach env d args s) {r : Outcome IterResult} (hn : next env s = (r, s'))
    (hth : ∀ m, r ≠ .throw m) {es : List Event} (hl : s'.log = s.log ++ es) {cmd : Command} {msg : Str} (he : .error cmd msg ∈ es) :
    r = .exit d0.settings.errorExitCode := by
  have hr := ready_of_init h
  have hg := hs.good hr
  have hset' : s.settings = d0.settings := by rw [hg.settings, (finishInitialization_ok h).1]
  obtain ⟨es', h1, h2⟩ := (next_good hr hg hn).1.log hg
  rw [hl] at h2
  have := List.append_cancel_left h2
  subst this
  have ce : ∀ {cb view v seen}, Event.error cmd msg ∉ callEvents cb view v seen := by
    intro cb view v seen hm
    cases cb <;> simp [callEvents] at hm
  have hlog : ∀ {cb g view v stored es}, CallLog cb g view v stored es → .error cmd msg ∉ es := by
    rintro cb g view v stored es ⟨v1, seen, _, _, rfl⟩ hm
    rcases List.mem_append.mp hm with hm | hm
    · exact ce hm
    · exact ce hm
  have hhelp : ∀ {c : Command} {p : Prop} [Decidable p], Event.error cmd msg ∉ (if p then [Event.help c] else []) := by
    intro c p _ hm
    split at hm <;> simp at hm
  rw [← hset']
  cases h1 with
  | silent _ _ _ => simp at he
  | afterError _ => simp at he
  | option _ _ _ _ hc =>
    rcases List.mem_append.mp he with he | he
    · exact absurd he (hlog hc)
    · exact absurd he hhelp
  | argument _ _ _ hc => exact absurd he (hlog hc)
  | error hf => rw [hset', ha] at hf; simp at hf
  | lastError hf _ _ _ _ _ => rw [hset', ha] at hf; simp at hf
  | stopExit _ _ _ _ _ _ hc =>
    rcases List.mem_append.mp he with he | he
    · exact absurd he (hlog hc)
    · exact absurd he hhelp
  | optionThrow _ _ _ _ _ _ => exact absurd rfl (hth _)
  | argumentThrow _ _ _ _ _ => exact absurd rfl (hth _)
  | _ => rfl

/-- **C28**, for `parse`: with `auto_exit` off it never exits. -/
theorem C28_parse_off {d0 d : ParserData} (h : finishInitialization d0 = .ok d) (ha : d0.settings.autoExit = false)
    (env : Env) (args : List Str) (fuel : Nat) (c : Int) : (parse env d args fuel).1 ≠ .exit c := by
  have hr := ready_of_init h
  have hset : d.settings.autoExit = false := by rw [(finishInitialization_ok h).1, ha]
  have key : ∀ fuel (s : PState), Good d s → (run env fuel s).1 ≠ .exit c := by
    intro fuel
    induction fuel with
    | zero => intro s _; simp [run, ParserM.lift_apply]
    | succ fuel ih =>
      intro s hg
      obtain ⟨hst, hg'⟩ := hg.next env hr
      rw [run_succ]
      generalize hn : next env s = q at hst hg'
      obtain ⟨o, s1⟩ := q
      simp only at hst hg'
      rcases hst.outcome with ⟨x, rfl⟩ | ⟨m, rfl⟩ | ⟨c', rfl⟩
      · rw [ParserM.bind_ok hn]
        cases x with
        | done => simp [ParserM.pure_apply]
        | error => simp [ParserM.pure_apply]
        | _ => exact ih s1 hg'
      · rw [ParserM.bind_throw hn]; simp
      · have hs' : s.settings.autoExit = false := by rw [hg.settings, hset]
        obtain ⟨es, h1, _⟩ := hst.log hg
        cases h1 <;> simp_all
  have hb := key fuel _ (start_good d args).2
  unfold parse
  rw [(start_good d args).1] at hb ⊢
  simp only at hb ⊢
  generalize run env fuel _ = q at hb
  obtain ⟨o, s⟩ := q
  cases o <;> simp_all

/-- **C28**, for `parse`: with `auto_exit` on it never returns a result with the code `FAILURE`. -/
theorem C28_parse_on {d0 d : ParserData} (h : finishInitialization d0 = .ok d) (ha : d0.settings.autoExit = true)
    (env : Env) (args : List Str) (fuel : Nat) {n : PNode} {s' : PState} (hp : parse env d args fuel = (.ok (some n), s')) :
    n.code ≠ .failure := by
  have hr := ready_of_init h
  obtain ⟨e, rs, last, hpa⟩ := parse_parses hp
  have hl := hpa.last
  obtain ⟨_, _, _, _, _, hg'⟩ := hpa.good hr
  have h2 : NoFailure s' := by
    cases last with
    | done => exact hpa.noFailure hr
    | error =>
      cases hpa.ending hr with
      | error _ _ hf _ _ => rw [(finishInitialization_ok h).1, ha] at hf; simp at hf
    | _ => exact hl.elim
  obtain ⟨a, l, hs, _⟩ := hg'.head
  rw [topLevel_eq hs, Option.some.injEq] at e
  obtain ⟨subs, e2⟩ := nest_last a l
  rw [e, e2]
  exact h2 ((a :: l).getLast (by simp)) (by rw [hs]; exact List.getLast_mem _)

-- Exits in three ways: an error, a HELP option, an error reported by a callback.
example : ∃ d, finishInitialization { cliData with settings := { errorExitCode := 3, normalExitCode := 4, autoExit := true } } = .ok d ∧
    (next Env.inert (start d [b!"-x"]).2).1.isOk = false ∧
    (match (next Env.inert (start d [b!"-x"]).2).1 with | .exit c => c = 3 | _ => false) = true ∧
    (match (next Env.inert (start d [b!"--help"]).2).1 with | .exit c => c = 4 | _ => false) = true := by
  refine Outcome.exists_ok ?_
  decide +kernel

end Argos
