import Verif.Proofs.Line

/-! # Looking ahead: what `count_arguments` counts -/

namespace Argos
open Spec

/-- A flag that was accepted looks like an option. -/
theorem checkFlagStyle_isOption {style : OptionStyle} {f : Str} {o : OptData} (h : checkFlagStyle style f o = .ok true) :
    isOption f style = true := by
  cases style
  all_goals
    match f, h with
    | [], hck => simp [checkFlagStyle, checkStandardFlag, checkFlag, hasWhitespace] at hck
    | [_], hck => simp [checkFlagStyle, checkStandardFlag, checkFlag] at hck
    | [a, b], hck =>
      simp only [checkFlagStyle, checkStandardFlag, checkFlag] at hck
      split at hck
      · simp at hck
      · simp_all [isOption]
    | a :: b :: x :: xs, hck =>
      simp only [checkFlagStyle, checkStandardFlag, checkFlag] at hck
      repeat (split at hck; · simp at hck)
      simp_all [isOption]

theorem foldByte_punct {a b : UInt8} (hb : b = c!"-" ∨ b = c!"/") (h : foldByte b = foldByte a) : a = b := by
  have ha : a.toNat < 256 := a.toNat_lt
  have e : b.toNat = 45 ∨ b.toNat = 47 := by
    rcases hb with rfl | rfl
    · exact Or.inl rfl
    · exact Or.inr rfl
  apply UInt8.toNat_inj.mp
  unfold foldByte at h
  split at h <;> split at h <;> omega

/-- A text found in the index without abbreviations looks like an option. -/
theorem findOptionImpl_isOption {index : List (Str × OptData)} {q : Str} {ci : Bool} {style : OptionStyle} {o : OptData}
    (hi : ∀ p ∈ index, isOption p.1 style = true) (h : findOptionImpl index q false ci = some o) : isOption q style = true := by
  unfold findOptionImpl at h
  simp only [Bool.not_false, if_true] at h
  split at h
  · simp at h
  · rename_i it hit
    have hp := hi it (List.mem_of_getElem? hit)
    split at h
    · rename_i he
      rw [← (eq_of_beq he)]; exact hp
    · split at h
      · rename_i he
        simp only [Bool.and_eq_true] at he
        have he := (areEqualCi_iff _ _).mp he.2
        unfold foldCase at he
        match hq : it.1, q with
        | [], _ => rw [hq] at hp; simp [isOption] at hp
        | [_], _ => rw [hq] at hp; simp [isOption] at hp
        | _ :: _ :: _, [] => rw [hq] at he; simp at he
        | _ :: _ :: _, [_] => rw [hq] at he; simp at he
        | a :: b :: r, a' :: b' :: r' =>
          rw [hq] at hp he
          simp only [List.map_cons, List.cons.injEq] at he
          simp only [isOption, beq_iff_eq] at hp ⊢
          rw [hp] at he
          refine foldByte_punct ?_ he.1
          split
          · exact Or.inr rfl
          · exact Or.inl rfl
      · simp at h

theorem findOption_isOption {index : List (Str × OptData)} {q : Str} {ci : Bool} {style : OptionStyle} {o : OptData}
    (hi : ∀ p ∈ index, isOption p.1 style = true) (h : findOption index q false ci = some o) : isOption q style = true := by
  unfold findOption at h
  split at h
  · exact findOptionImpl_isOption hi (by assumption)
  · split at h
    · split at h
      · rename_i he
        have := findOptionImpl_isOption hi he
        match q, this with
        | [], h => simp [isOption] at h
        | [_], h => simp [isOption] at h
        | a :: b :: [], h => simp [isOption] at h
        | a :: b :: x :: r, h => simpa [isOption] using h
      · simp at h
    · simp at h

/-- When nothing is left to read, there is no value either. -/
theorem Iter.next_none_value {it it' : Iter} (h : it.next = .ok (none, it')) : ∃ it2, it'.nextValue = .ok (none, it2) := by
  have key : ∀ {args : List Str} {i : StdIt}, StdIt.nextFresh args = (none, i) → i.args = [] := by
    intro args i h
    unfold StdIt.nextFresh at h
    split at h
    · simp only [Prod.mk.injEq] at h; rw [← h.2]
    · split at h
      · split at h
        · simp at h
        · split at h
          · simp at h
          · split at h <;> simp at h
      · simp at h
  have key2 : ∀ {args : List Str} {p : UInt8} {i : OptIt}, OptIt.nextFresh args p = (none, i) → i.args = [] := by
    intro args p i h
    unfold OptIt.nextFresh at h
    split at h
    · simp only [Prod.mk.injEq] at h; rw [← h.2]
    · split at h
      · split at h
        · simp at h
        · split at h <;> simp at h
      · simp at h
  cases it with
  | std it =>
    have : ∃ i, it' = .std i ∧ i.args = [] := by
      simp only [Iter.next] at h
      cases hq : it.next with
      | ok q =>
        obtain ⟨a, i⟩ := q
        rw [hq] at h
        simp only [Outcome.bind_ok, Outcome.pure_eq, Outcome.ok.injEq, Prod.mk.injEq] at h
        obtain ⟨rfl, rfl⟩ := h
        refine ⟨i, rfl, ?_⟩
        unfold StdIt.next at hq
        split at hq
        · exact key (Outcome.ok.inj hq)
        · split at hq
          · simp at hq
          · split at hq
            · split at hq
              · simp at hq
              · split at hq
                · simp at hq
                · exact key (Outcome.ok.inj hq)
            · exact key (Outcome.ok.inj hq)
        · split at hq
          · simp at hq
          · exact key (Outcome.ok.inj hq)
      | _ => rw [hq] at h; simp at h
    obtain ⟨i, rfl, e⟩ := this
    refine ⟨.std i, ?_⟩
    simp [Iter.nextValue, StdIt.nextValue, e]
  | opt it =>
    have : ∃ i, it' = .opt i ∧ i.args = [] := by
      simp only [Iter.next] at h
      cases hq : it.next with
      | ok q =>
        obtain ⟨a, i⟩ := q
        rw [hq] at h
        simp only [Outcome.bind_ok, Outcome.pure_eq, Outcome.ok.injEq, Prod.mk.injEq] at h
        obtain ⟨rfl, rfl⟩ := h
        refine ⟨i, rfl, ?_⟩
        unfold OptIt.next at hq
        split at hq
        · exact key2 (Outcome.ok.inj hq)
        · split at hq
          · simp at hq
          · exact key2 (Outcome.ok.inj hq)
      | _ => rw [hq] at h; simp at h
    obtain ⟨i, rfl, e⟩ := this
    refine ⟨.opt i, ?_⟩
    simp [Iter.nextValue, OptIt.nextValue, e]

namespace Parser
open ParserM

/-- Looking ahead from a position `it`, with `k` arguments counted so far, gives `n`. -/
def CountFrom (s0 : PState) (lo : Nat) (mode : Mode) (it : Iter) (k n : Nat) : Prop :=
  match mode with
  | .argumentsAndOptions => ∃ fuel, countLoop s0 lo fuel it k = .ok n
  | .argumentsOnly => ∃ fuel, countArgsOnly s0 lo fuel it k = .ok n
  | .done => n = k
  | .error => False

/-- What a result adds to the number of arguments. -/
def _root_.Argos.IterResult.argCount : IterResult → Nat
  | .argument _ _ => 1
  | _ => 0

/-- The state in which counting began, and a later one with the same active command. -/
structure SameCommand (s0 s : PState) : Prop where
  command : s.command = s0.command
  settings : s.settings = s0.settings
  stack : s.stack.map (·.command) = s0.stack.map (·.command)

theorem SameCommand.multi {s0 s : PState} (h : SameCommand s0 s) (hm : findMultiParent s0.stack = none) : findMultiParent s.stack = none := by
  rw [findMultiParent_none_iff] at hm ⊢
  rw [h.stack]; exact hm

theorem findSibling_none {s : PState} (hm : findMultiParent s.stack = none) (arg : Str) : findSibling s arg = none := by
  unfold findSibling
  rw [hm]
  simp

theorem headMap_commands {f : PNode → PNode} (hf : ∀ n, (f n).command = n.command) (l : List PNode) :
    (headMap f l).map (·.command) = l.map (·.command) := by
  cases l with
  | nil => rfl
  | cons n ns => simp [headMap, hf]

theorem storeState_commands (w : Option Write) (s : PState) : (storeState w s).stack.map (·.command) = s.stack.map (·.command) := by
  cases w with
  | none => rfl
  | some w => exact headMap_commands (by intro; rfl) _

/-- The options of a command with which looking ahead agrees with reading: those with an argument name take a
value, the others don't, and none of them is an EXIT option. -/
def _root_.Argos.OptData.Regular (o : OptData) : Prop := (NeedsValue o ↔ o.argument ≠ []) ∧ o.type ≠ .exit

/-- The assumptions about the options in the state in which counting begins. -/
structure Foretold (s0 : PState) : Prop where
  regular : ∀ flag o, lookup s0 flag = some o → o.Regular
  flags : ∀ arg, isOption arg s0.settings.optionStyle = false → lookup s0 arg = none

/-- The same, when there is no command around the active one that allows several sub-commands. -/
structure Plain (s0 : PState) : Prop extends Foretold s0 where
  multi : findMultiParent s0.stack = none

theorem SameCommand.lookup {s0 s : PState} (h : SameCommand s0 s) (flag : Str) : Parser.lookup s flag = Parser.lookup s0 flag := by
  unfold Parser.lookup
  rw [h.command, h.settings]

/-- The look-ahead reads past an option as the parser does. -/
theorem count_option {env : Env} (hp : env.Passive) {d : ParserData} {s0 s s2 s3 : PState} (hpl : Foretold s0) (hsc : SameCommand s0 s)
    (hg : Good d s) {o : OptData} {flag : Str} {it : Iter} {v : Str} {stored : Bool} {w : Option Str} (ht : Taken s (some flag) it)
    (hol : OptionLike s flag) (hlk : Parser.lookup s flag = some o) (h1 : OpRun o flag { s with iter := it } (.ok (some (v, stored))) s2)
    (h2 : calls env o.callback ParserSettings.optionCallback (.opt o) o.valueId stored (some v) s2 = (.ok w, s3))
    {lo k n : Nat} (hc : CountFrom s0 lo s.mode s.iter k n) :
    SameCommand s0 s3 ∧ s3.mode = .argumentsAndOptions ∧
      (o.type = .normal → CountFrom s0 lo .argumentsAndOptions s3.iter k n) ∧
      (o.type = .lastOption → CountFrom s0 lo .argumentsOnly s3.iter k n) ∧
      (o.type ≠ .normal → o.type ≠ .lastOption → n = k) := by
  have hg' := (hg.taken ht).2.2
  have hg2 := hg'.opRun h1
  obtain ⟨rfl, kk, rfl⟩ := calls_passive hp _ _ _ _ _ _ _ hg2.ne hg2.iterOk h2
  have hn : s.iter.next = .ok (some flag, it) := by
    rcases ht with ⟨_, h⟩ | ⟨h, _⟩
    · exact h
    · rw [OptionLike, h] at hol; simp at hol
  rw [hol.1] at hc
  obtain ⟨fuel, hc⟩ := hc
  cases fuel with
  | zero => simp [countLoop] at hc
  | succ fuel =>
    rw [hsc.lookup] at hlk
    obtain ⟨hr1, hr2⟩ := hpl.regular flag o hlk
    unfold Parser.lookup at hlk
    unfold countLoop at hc
    rw [hn] at hc
    simp only [hlk] at hc
    have key : ∃ it2, ((o.argument = [] ∧ it2 = it) ∨ (o.argument ≠ [] ∧ it.nextValue = .ok (some v, it2))) ∧ s2.iter = it2 ∧
        s2.mode = .argumentsAndOptions ∧ SameCommand s0 s2 := by
      cases h1 with
      | plain hnt =>
        have : o.argument = [] := by
          rcases Decidable.em (o.argument = []) with h | h
          · exact h
          · exact absurd (hr1.mpr h) hnt
        refine ⟨it, Or.inl ⟨this, rfl⟩, by rw [storeState_iter], by rw [storeState_mode]; exact hol.1, ?_⟩
        exact ⟨by rw [storeState_command]; exact hsc.command, by rw [storeState_settings]; exact hsc.settings,
          by rw [storeState_commands]; exact hsc.stack⟩
      | @value _ it2 htv hnv =>
        refine ⟨it2, Or.inr ⟨hr1.mp htv, hnv⟩, by rw [storeState_iter], by rw [storeState_mode]; exact hol.1, ?_⟩
        exact ⟨by rw [storeState_command]; exact hsc.command, by rw [storeState_settings]; exact hsc.settings,
          by rw [storeState_commands]; exact hsc.stack⟩
      | noValue _ _ he => cases he
    obtain ⟨it2, e1, e2, e3, e4⟩ := key
    refine ⟨⟨e4.command, e4.settings, e4.stack⟩, e3, ?_⟩
    rw [e2]
    cases hty : o.type with
    | exit => exact absurd hty hr2
    | _ =>
      rcases e1 with ⟨e1, rfl⟩ | ⟨e1, e1'⟩
      · simp only [e1, hty, List.isEmpty_nil, if_true] at hc
        simp [CountFrom]
        first
          | exact ⟨fuel, hc⟩
          | exact ⟨fuel + 1, hc⟩
          | exact (Outcome.ok.inj hc).symm
      · simp only [List.isEmpty_iff, e1, hty, e1', if_false] at hc
        simp [CountFrom]
        first
          | exact ⟨fuel, hc⟩
          | exact ⟨fuel + 1, hc⟩
          | exact (Outcome.ok.inj hc).symm

/-- The look-ahead counts an argument as the parser does. -/
theorem count_argument {s0 s : PState} (hpl : Foretold s0) (hsc : SameCommand s0 s) {arg : Str} {it : Iter} (ht : Taken s (some arg) it)
    (hno : ¬ OptionLike s arg) {lo k n : Nat} (hst : countStops s0 lo k arg = false) (hc : CountFrom s0 lo s.mode s.iter k n) :
    CountFrom s0 lo s.mode it (k + 1) n := by
  rcases ht with ⟨hm, hn⟩ | ⟨hm, hn⟩
  · have hio : isOption arg s0.settings.optionStyle = false := by
      rw [← hsc.settings]
      cases hq : isOption arg s.settings.optionStyle with
      | false => rfl
      | true => exact absurd ⟨hm, hq⟩ hno
    have hlk := hpl.flags arg hio
    unfold Parser.lookup at hlk
    rw [hm] at hc ⊢
    obtain ⟨fuel, hc⟩ := hc
    cases fuel with
    | zero => simp [countLoop] at hc
    | succ fuel =>
      unfold countLoop at hc
      rw [hn] at hc
      simp only [hlk, hio, hst, Bool.false_eq_true, if_false] at hc
      exact ⟨fuel, hc⟩
  · rw [hm] at hc ⊢
    obtain ⟨fuel, hc⟩ := hc
    cases fuel with
    | zero => simp [countArgsOnly] at hc
    | succ fuel =>
      unfold countArgsOnly at hc
      rw [hn] at hc
      simp only [hst, Bool.false_eq_true, if_false] at hc
      exact ⟨fuel, hc⟩

theorem Plain.no_stop {s0 s : PState} (hpl : Plain s0) (hsc : SameCommand s0 s) (hce : s.command.commands = []) (lo k : Nat) (v : Str) :
    countStops s0 lo k v = false := by
  unfold countStops
  rw [← hsc.command, hce, findSibling_none hpl.multi]
  simp [findCommand]

theorem IterResult.isCommand_or (r : IterResult) : (∃ c t, r = .command c t) ∨ ∀ c t, r ≠ .command c t := by
  cases r <;> simp

/-- The look-ahead follows a step of the parser, if it doesn't take an argument for a sub-command. -/
theorem Step.follow {env : Env} (hp : env.Passive) {d : ParserData} {s0 s s' : PState} (hpl : Foretold s0) (hsc : SameCommand s0 s) (hg : Good d s)
    (hia : s0.settings.ignoreUndefinedArguments = false) {r : IterResult} (h : Step env s (.ok r) s') (hr : ¬ r.IsLast)
    (hcmd : ∀ c t, r ≠ .command c t) (hml : ∀ o v, r = .option o v → o.type = .lastArgument → findMultiParent s.stack = none)
    {lo k n : Nat} (hst : ∀ a v, r = .argument a (some v) → countStops s0 lo k v = false) (hc : CountFrom s0 lo s.mode s.iter k n) :
    SameCommand s0 s' ∧ CountFrom s0 lo s'.mode s'.iter (k + r.argCount) n := by
  have herr : ∀ {msg t}, ErrorRun msg t IterResult.error (.ok r) s' → False := by
    intro msg t he
    cases he with
    | error _ _ => exact hr trivial
  cases h with
  | afterDone _ => exact absurd trivial hr
  | finished _ _ => exact absurd trivial hr
  | unfinished _ _ he => exact (herr he).elim
  | unknownOption _ _ _ _ _ he => exact (herr he).elim
  | @ignoredOption it flag cur ht hol hlk hcur hi hsw =>
    refine ⟨⟨hsc.command, hsc.settings, ?_⟩, ?_⟩
    · exact (headMap_commands (by intro; rfl) _).trans hsc.stack
    · have hn : s.iter.next = .ok (some flag, it) := by
        rcases ht with ⟨_, h⟩ | ⟨h, _⟩
        · exact h
        · rw [OptionLike, h] at hol; simp at hol
      rw [hol.1] at hc
      obtain ⟨fuel, hc⟩ := hc
      cases fuel with
      | zero => simp [countLoop] at hc
      | succ fuel =>
        rw [hsc.lookup] at hlk
        unfold Parser.lookup at hlk
        have := hol.2
        rw [hsc.settings] at this
        unfold countLoop at hc
        rw [hn] at hc
        simp only [hlk, this, if_true] at hc
        simp only [hol.1]
        exact ⟨fuel, hc⟩
  | @option it flag o _ _ ht hol hlk hrun =>
    cases hrun with
    | noValue _ _ he => exact (herr he).elim
    | lastFails _ _ _ _ he => exact (herr he).elim
    | normal h1 h2 hty =>
      obtain ⟨e1, e2, e3, _⟩ := count_option hp hpl hsc hg ht hol hlk h1 h2 hc
      exact ⟨e1, by rw [e2]; exact e3 hty⟩
    | lastOption h1 h2 hty =>
      obtain ⟨e1, e2, _, e3, _⟩ := count_option hp hpl hsc hg ht hol hlk h1 h2 hc
      exact ⟨⟨e1.command, e1.settings, e1.stack⟩, e3 hty⟩
    | stopped h1 h2 ho _ hre =>
      obtain ⟨e1, e2, _, _, e3⟩ := count_option hp hpl hsc hg ht hol hlk h1 h2 hc
      refine ⟨⟨e1.command, e1.settings, ?_⟩, ?_⟩
      · exact (headMap_commands (by intro; rfl) _).trans ((headMap_commands (by intro; rfl) _).trans e1.stack)
      · refine e3 ?_ ?_ <;> (intro h; unfold EndsParsing at ho; rw [h] at ho; simp at ho)
    | lastDone h1 h2 hty _ _ hre =>
      obtain ⟨e1, e2, _, _, e3⟩ := count_option hp hpl hsc hg ht hol hlk h1 h2 hc
      refine ⟨⟨e1.command, e1.settings, ?_⟩, ?_⟩
      · refine (headMap_commands (by intro; rfl) _).trans ?_
        unfold succState
        simp only [List.map_map]
        exact e1.stack
      · exact e3 (by rw [hty]; simp) (by rw [hty]; simp)
    | lastMulti h1 h2 hty _ hfm =>
      obtain ⟨e1, _⟩ := count_option hp hpl hsc hg ht hol hlk h1 h2 hc
      have := hml _ _ rfl hty
      rw [findMultiParent_none_iff, hsc.stack, ← e1.stack, ← findMultiParent_none_iff] at this
      rw [findMultiParent_succ, this] at hfm
      simp at hfm
  | command _ _ _ _ _ => exact absurd rfl (hcmd _ _)
  | unknownCommand _ _ _ _ he => exact (herr he).elim
  | @argument it arg _ _ ht hno hce hrun =>
    cases hrun with
    | sibling _ _ => exact absurd rfl (hcmd _ _)
    | @argument a ct w _ _ hn hcl =>
      have hg' := (hg.taken ht).2.2
      have hg2 := hg'.arg (v := arg) hn
      obtain ⟨rfl, kk, rfl⟩ := calls_passive hp _ _ _ _ _ _ _ hg2.ne hg2.iterOk hcl
      have h4 := count_argument hpl hsc ht hno (hst _ _ rfl) hc
      refine ⟨⟨?_, ?_, ?_⟩, ?_⟩
      · show (argState a ct arg { s with iter := it }).command = _
        unfold argState; rw [storeState_command]; exact hsc.command
      · show (argState a ct arg { s with iter := it }).settings = _
        unfold argState; rw [storeState_settings]; exact hsc.settings
      · show (argState a ct arg { s with iter := it }).stack.map _ = _
        unfold argState; rw [storeState_commands]; exact hsc.stack
      · show CountFrom s0 lo (argState a ct arg { s with iter := it }).mode (argState a ct arg { s with iter := it }).iter (k + 1) n
        unfold argState; rw [storeState_mode, storeState_iter]; exact h4
    | ignored _ _ hi _ =>
      have : s.settings.ignoreUndefinedArguments = true := hi
      rw [hsc.settings, hia] at this
      simp at this
    | tooMany _ _ _ he => exact (herr he).elim

/-- The look-ahead follows a step of the parser. -/
theorem Step.count {env : Env} (hp : env.Passive) {d : ParserData} {s0 s s' : PState} (hpl : Plain s0) (hsc : SameCommand s0 s) (hg : Good d s)
    (hia : s0.settings.ignoreUndefinedArguments = false) {r : IterResult} (h : Step env s (.ok r) s') (hr : ¬ r.IsLast)
    (hcmd : ∀ c t, r ≠ .command c t) {lo k n : Nat} (hc : CountFrom s0 lo s.mode s.iter k n) :
    SameCommand s0 s' ∧ CountFrom s0 lo s'.mode s'.iter (k + r.argCount) n := by
  refine Step.follow hp hpl.toForetold hsc hg hia h hr hcmd (fun _ _ _ _ => hsc.multi hpl.multi) ?_ hc
  rintro a v rfl
  have hce : s.command.commands = [] := by
    cases h with
    | argument _ _ hce _ => exact hce
    | unfinished _ _ he => cases he
    | unknownOption _ _ _ _ _ he => cases he
    | unknownCommand _ _ _ _ he => cases he
    | option _ _ _ hrun =>
      cases hrun with
      | noValue _ _ he => cases he
      | lastFails _ _ _ _ he => cases he
  exact hpl.no_stop hsc hce _ _ _

theorem Taken.count_none {s0 s : PState} {it : Iter} (ht : Taken s none it) {lo k n : Nat} (hc : CountFrom s0 lo s.mode s.iter k n) : n = k := by
  have hv : ∀ {fuel : Nat} {it it2 : Iter}, it.nextValue = .ok (none, it2) → countArgsOnly s0 lo fuel it k = .ok n → n = k := by
    intro fuel it it2 h1 h2
    cases fuel with
    | zero => simp [countArgsOnly] at h2
    | succ fuel =>
      unfold countArgsOnly at h2
      rw [h1] at h2
      exact (Outcome.ok.inj h2).symm
  rcases ht with ⟨hm, hn⟩ | ⟨hm, hn⟩
  · rw [hm] at hc
    obtain ⟨fuel, hc⟩ := hc
    cases fuel with
    | zero => simp [countLoop] at hc
    | succ fuel =>
      unfold countLoop at hc
      rw [hn] at hc
      obtain ⟨it2, h2⟩ := Iter.next_none_value hn
      exact hv h2 hc
  · rw [hm] at hc
    obtain ⟨fuel, hc⟩ := hc
    exact hv hn hc

theorem Step.count_done {env : Env} {s0 s s' : PState} (h : Step env s (.ok .done) s') {lo k n : Nat}
    (hc : CountFrom s0 lo s.mode s.iter k n) : n = k := by
  have hv : ∀ {fuel : Nat} {it it2 : Iter}, it.nextValue = .ok (none, it2) → countArgsOnly s0 lo fuel it k = .ok n → n = k := by
    intro fuel it it2 h1 h2
    cases fuel with
    | zero => simp [countArgsOnly] at h2
    | succ fuel =>
      unfold countArgsOnly at h2
      rw [h1] at h2
      exact (Outcome.ok.inj h2).symm
  rcases h.done_cases with ⟨hm, rfl⟩ | ⟨it, ht, _, rfl⟩
  · rw [hm] at hc; exact hc
  · rcases ht with ⟨hm, hn⟩ | ⟨hm, hn⟩
    · rw [hm] at hc
      obtain ⟨fuel, hc⟩ := hc
      cases fuel with
      | zero => simp [countLoop] at hc
      | succ fuel =>
        unfold countLoop at hc
        rw [hn] at hc
        obtain ⟨it2, h2⟩ := Iter.next_none_value hn
        exact hv h2 hc
    · rw [hm] at hc
      obtain ⟨fuel, hc⟩ := hc
      exact hv hn hc

/-- Looking ahead gives the number of arguments that are then read. -/
theorem _root_.Argos.Trace.count {env : Env} (hp : env.Passive) {d : ParserData} (hrd : Ready d) {s0 s s1 s' : PState} {rs : List IterResult}
    (hpl : Plain s0) (hsc : SameCommand s0 s) (hg : Good d s) (hia : s0.settings.ignoreUndefinedArguments = false)
    (ht : Trace env s rs s1) (hl : ∀ r ∈ rs, ¬ r.IsLast) (hcmd : ∀ c t, .command c t ∉ rs) (hd : next env s1 = (.ok .done, s')) {lo k n : Nat}
    (hc : CountFrom s0 lo s.mode s.iter k n) : n = k + (rs.map IterResult.argCount).sum := by
  induction ht generalizing k with
  | nil => simpa using Step.count_done (next_good hrd hg hd).1 hc
  | @cons _ _ _ r rs hn _ ih =>
    obtain ⟨h1, h2⟩ := next_good hrd hg hn
    obtain ⟨h3, h4⟩ := Step.count hp hpl hsc hg hia h1 (hl r (by simp)) (fun c t e => hcmd c t (by simp [e])) hc
    have := ih h3 h2 (fun r hr => hl r (by simp [hr])) (fun c t hm => hcmd c t (by simp [hm])) hd h4
    rw [this]
    simp only [List.map_cons, List.sum_cons]
    omega

end Parser

end Argos
