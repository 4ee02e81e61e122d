import Verif.Proofs.Belongs
import Verif.Proofs.Weight
import Verif.Proofs.InitTree
import Verif.Spec.Grammar
import Verif.Spec.Settings

/-!
# The parser under settings that allow more

Until the first error message a parser with looser settings does exactly the same.
-/

namespace Argos

open Spec

/-! ## Lookup -/

theorem findOptionImpl_looser {index : List (Str × OptData)} {flag : Str} {ci : Bool} {o : OptData} (h : findOptionImpl index flag false ci = some o) :
    findOptionImpl index flag true ci = some o := by
  unfold findOptionImpl at h ⊢
  simp only at h ⊢
  split at h
  · simp at h
  · rename_i it hi
    split at h
    · rename_i h1
      rw [if_pos h1]; exact h
    · rename_i h1
      rw [if_neg h1]
      split at h
      · rename_i h2
        rw [if_pos h2]; exact h
      · simp at h

/-- No flag goes on after an equals sign (in flags of three or more characters). -/
def EqualsLast (index : List (Str × OptData)) : Prop := ∀ p ∈ index, 3 < p.1.length → ∀ i, i < p.1.length - 1 → p.1[i]? ≠ some c!"="

theorem flagKey_equals {ci : Bool} {f : Str} {i : Nat} : (flagKey ci f)[i]? = some 61 ↔ f[i]? = some c!"=" := by
  have h1 : ∀ c : UInt8, foldByte c = 61 ↔ c = c!"=" := forall_byte (by decide +kernel)
  have h2 : ∀ c : UInt8, c.toNat = 61 ↔ c = c!"=" := forall_byte (by decide +kernel)
  cases ci with
  | false => cases h : f[i]? <;> simp [flagKey, h, h2]
  | true => cases h : f[i]? <;> simp [flagKey, foldCase, h, h1]

theorem findOptionImpl_equals {index : List (Str × OptData)} (hx : EqualsLast index) {flag : Str} {ci : Bool} (hl : 2 < flag.length)
    (he : flag.getLast? = some c!"=") (h : findOptionImpl index flag false ci = none) : findOptionImpl index flag true ci = none := by
  unfold findOptionImpl at h ⊢
  simp only at h ⊢
  split at h
  · rfl
  · rename_i it hi
    split at h
    · simp at h
    rename_i h1
    rw [if_neg h1]
    split at h
    · simp at h
    rename_i h2
    rw [if_neg h2]
    simp only [Bool.not_true, Bool.false_eq_true, if_false]
    rw [if_pos]
    cases hs : startsWith it.1 flag ci with
    | false => rfl
    | true =>
      exfalso
      have hm : it ∈ index := List.mem_of_getElem? hi
      have hp := (startsWith_key ci it.1 flag).mp hs
      have hkl : ∀ f, (flagKey ci f).length = f.length := by intro f; cases ci <;> simp [flagKey, foldCase]
      have hle := hp.length_le
      rw [hkl, hkl] at hle
      by_cases heq : flag.length = it.1.length
      · have : flagKey ci flag = flagKey ci it.1 := hp.eq_of_length (by rw [hkl, hkl, heq])
        have := (areEqual_key ci it.1 flag).mpr this.symm
        unfold areEqual at this
        cases ci with
        | true => exact h2 (by simpa using this)
        | false => exact h1 (by simpa using this)
      · refine hx it hm (by omega) (flag.length - 1) (by omega) ?_
        have e1 : flag[flag.length - 1]? = some c!"=" := by rw [← List.getLast?_eq_getElem?]; exact he
        obtain ⟨t, ht⟩ := hp
        have e2 : (flagKey ci it.1)[flag.length - 1]? = (flagKey ci flag)[flag.length - 1]? := by
          rw [← ht, List.getElem?_append_left (by rw [hkl]; omega)]
        exact flagKey_equals.mp (e2.trans (flagKey_equals.mpr e1))

theorem findOption_looser {index : List (Str × OptData)} (hx : EqualsLast index) {flag : Str} {ab ab' ci : Bool} (hab : ab = true → ab' = true)
    {o : OptData} (h : findOption index flag ab ci = some o) : findOption index flag ab' ci = some o := by
  cases ab with
  | true => rw [hab rfl]; exact h
  | false =>
    cases ab' with
    | false => exact h
    | true =>
      unfold findOption at h ⊢
      cases h1 : findOptionImpl index flag false ci with
      | some o' =>
        rw [h1] at h
        rw [findOptionImpl_looser h1]
        exact h
      | none =>
        rw [h1] at h
        simp only at h
        by_cases hc : flag.length > 2 ∧ flag.getLast? = some c!"="
        · rw [if_pos hc] at h
          rw [findOptionImpl_equals hx hc.1 hc.2 h1]
          simp only
          rw [if_pos hc]
          cases h2 : findOptionImpl index flag.dropLast false ci with
          | none => rw [h2] at h; simp at h
          | some o' =>
            rw [h2] at h
            rw [findOptionImpl_looser h2]
            exact h
        · rw [if_neg hc] at h
          simp at h

theorem findChar_le {c : UInt8} {f : Str} {i : Nat} (h : f[i]? = some c) : ∃ e, findChar c f = some e ∧ e ≤ i := by
  induction f generalizing i with
  | nil => simp at h
  | cons a f ih =>
    by_cases ha : a = c
    · exact ⟨0, by simp [findChar, ha], by omega⟩
    · cases i with
      | zero => simp at h; exact absurd h ha
      | succ i =>
        obtain ⟨e, h1, h2⟩ := ih (i := i) (by simpa using h)
        exact ⟨e + 1, by simp [findChar, ha, h1], by omega⟩

theorem flag_equals {s : ParserSettings} {c : Command} (h : OptionsReady s c) {o : OptData} (ho : o ∈ c.options) {f : Str} (hf : f ∈ o.flags)
    (hl : 3 < f.length) {i : Nat} (hi : i < f.length - 1) : f[i]? ≠ some c!"=" := by
  intro he
  have hck := h.flags_ok o ho f hf
  have key : checkFlagWithEqual f o = .ok true → False := by
    intro hck
    obtain ⟨e, h1, h2⟩ := findChar_le he
    simp only [checkFlagWithEqual, h1] at hck
    rw [if_pos (by omega)] at hck
    simp at hck
  cases hst : s.optionStyle with
  | standard =>
    simp only [hst, checkFlagStyle, checkStandardFlag] at hck
    match f, hl with
    | _ :: _ :: _ :: _, _ =>
      simp only at hck
      repeat' split at hck
      all_goals first | exact key hck | simp at hck
  | _ =>
    simp only [hst, checkFlagStyle, checkFlag] at hck
    match f, hl with
    | _ :: _ :: _ :: _, _ =>
      simp only at hck
      repeat' split at hck
      all_goals first | exact key hck | simp_all

theorem equalsLast_ready {s : ParserSettings} {c : Command} (h : OptionsReady s c) : EqualsLast c.optionIndex := by
  rintro ⟨f, o⟩ hm hl i hi
  obtain ⟨ho, hf⟩ := buildOptionIndex_mem h.index hm
  exact flag_equals h ho hf hl hi

theorem selects_looser {ci : Bool} {os : List OptData} {q : Str} {o : OptData} (h : Selects ci false os q o) : Selects ci true os q o :=
  ⟨h.1, h.2.imp id fun h => absurd h.1 (by simp)⟩

theorem names_looser {s : ParserSettings} {c : Command} (h : OptionsReady s c) {ci : Bool} {q : Str} {o : OptData} (hn : Names ci false c q o) :
    Names ci true c q o := by
  rcases hn with hn | ⟨f, rfl, h2, h3, h4, h5⟩
  · exact .inl (selects_looser hn)
  · refine .inr ⟨f, rfl, h2, fun o' ho' => ?_, selects_looser h4, h5⟩
    rcases ho' with ⟨ho, h1 | ⟨_, h1, g, hg, h6, _⟩⟩
    · exact h3 o' ⟨ho, .inl h1⟩
    · have hk : flagKey ci (f ++ b!"=") <+: flagKey ci g := by
        cases ci with
        | true => simpa [IsAbbrev, flagKey] using h6
        | false => simpa [IsAbbrev, flagKey] using h6.map UInt8.toNat
      have hkl : ∀ f, (flagKey ci f).length = f.length := by intro f; cases ci <;> simp [flagKey, foldCase]
      have hle := hk.length_le
      rw [hkl, hkl] at hle
      simp only [List.length_append, List.length_cons, List.length_nil] at hle
      by_cases heq : (f ++ b!"=").length = g.length
      · refine h1 g (List.mem_flatMap.mpr ⟨o', ho, hg⟩) ?_
        have := hk.eq_of_length (by rw [hkl, hkl, heq])
        exact (sameFlag_key ci g (f ++ b!"=")).mpr this.symm
      · simp only [List.length_append, List.length_cons, List.length_nil] at heq
        refine flag_equals h ho hg (by omega) (i := f.length) (by omega) ?_
        obtain ⟨t, ht⟩ := hk
        have e2 : (flagKey ci g)[f.length]? = (flagKey ci (f ++ b!"="))[f.length]? := by
          rw [← ht, List.getElem?_append_left (by rw [hkl]; simp)]
        exact flagKey_equals.mp (e2.trans (flagKey_equals.mpr (by simp)))

/-! ## Methods -/

/-- What both kinds of settings have in common for a command. -/
structure Loosable (σ σ' : ParserSettings) (c : Command) : Prop where
  index : EqualsLast c.optionIndex
  count : σ'.allowAbbreviatedOptions = σ.allowAbbreviatedOptions ∨ Counter.requiresArgumentCount c.arguments = false

/-- The invariant: settings and commands are as they were declared. -/
structure Calm (σ σ' : ParserSettings) (s : PState) : Prop where
  settings : s.settings = σ
  command : ∀ c, c.Within s.command → Loosable σ σ' c
  stack : ∀ n ∈ s.stack, ∀ c, c.Within n.command → Loosable σ σ' c

/-- The same state with other settings. -/
def loosen (σ' : ParserSettings) (s : PState) : PState := { s with settings := σ' }

/-- Error messages remain. -/
def Persists {α : Type} (m : ParserM α) : Prop := ∀ s, Complained s.log → Complained (m s).2.log

/-- The second method does under looser settings what the first one does, unless that one complains. -/
def Loosens {α : Type} (σ σ' : ParserSettings) (m m' : ParserM α) : Prop :=
  ∀ s, Calm σ σ' s → Complained (m s).2.log ∨ (m' (loosen σ' s) = ((m s).1, loosen σ' (m s).2) ∧ Calm σ σ' (m s).2)

namespace Persists

variable {α β : Type}

theorem bind {m : ParserM α} {f : α → ParserM β} (hm : Persists m) (hf : ∀ a, Persists (f a)) : Persists (m >>= f) := by
  intro s hs
  have h1 := hm s hs
  rw [ParserM.bind_apply]
  cases h : m s with
  | mk r s' =>
    rw [h] at h1
    cases r with
    | ok a => exact hf a s' h1
    | _ => exact h1

theorem pure (a : α) : Persists (pure a : ParserM α) := fun _ h => h
theorem lift (x : Outcome α) : Persists (ParserM.lift x : ParserM α) := fun _ h => h
theorem get : Persists ParserM.get := fun _ h => h
theorem modify {f : PState → PState} (h : ∀ s, (f s).log = s.log) : Persists (ParserM.modify f) := by
  intro s hs
  show Complained (f s).log
  rw [h]; exact hs

theorem same {m : ParserM α} (h : ∀ s, (m s).2.log = s.log) : Persists m := by
  intro s hs
  rw [h]; exact hs

theorem ite {c : Prop} [Decidable c] {m n : ParserM α} (hm : Persists m) (hn : Persists n) : Persists (if c then m else n) := by
  split
  · exact hm
  · exact hn

end Persists

theorem _root_.Argos.Spec.Complained.append {l : List Event} (h : Complained l) (l' : List Event) : Complained (l ++ l') := by
  obtain ⟨c, m, h⟩ := h
  exact ⟨c, m, List.mem_append_left _ h⟩

namespace Loosens

variable {α β : Type} {σ σ' : ParserSettings}

theorem bind {m m' : ParserM α} {f f' : α → ParserM β} (hm : Loosens σ σ' m m') (hg : ∀ a, Persists (f a))
    (hf : ∀ a, Loosens σ σ' (f a) (f' a)) : Loosens σ σ' (m >>= f) (m' >>= f') := by
  intro s hs
  rw [ParserM.bind_apply, ParserM.bind_apply]
  cases h : m s with
  | mk r s' =>
    have h1 := hm s hs
    rw [h] at h1
    rcases h1 with h1 | ⟨h1, h2⟩
    · left
      cases r with
      | ok a => exact hg a s' h1
      | _ => exact h1
    · rw [h1]
      cases r with
      | ok a => exact hf a s' h2
      | _ => exact .inr ⟨rfl, h2⟩

theorem pure (a : α) : Loosens σ σ' (pure a : ParserM α) (Pure.pure a) := fun _ h => .inr ⟨rfl, h⟩
theorem lift (x : Outcome α) : Loosens σ σ' (ParserM.lift x) (ParserM.lift x) := fun _ h => .inr ⟨rfl, h⟩

theorem get_bind {f f' : PState → ParserM β} (hf : ∀ s, Calm σ σ' s → Loosens σ σ' (f s) (f' (loosen σ' s))) :
    Loosens σ σ' (ParserM.get >>= f) (ParserM.get >>= f') := fun s hs => hf s hs s hs

theorem modify {f f' : PState → PState} (h : ∀ s, Calm σ σ' s → f' (loosen σ' s) = loosen σ' (f s) ∧ Calm σ σ' (f s)) :
    Loosens σ σ' (ParserM.modify f) (ParserM.modify f') := by
  intro s hs
  obtain ⟨h1, h2⟩ := h s hs
  exact .inr ⟨by simp only [ParserM.modify, h1], h2⟩

theorem ite {c : Prop} [Decidable c] {m n m' n' : ParserM α} (hm : c → Loosens σ σ' m m') (hn : ¬ c → Loosens σ σ' n n') :
    Loosens σ σ' (if c then m else n) (if c then m' else n') := by
  by_cases h : c
  · rw [if_pos h, if_pos h]; exact hm h
  · rw [if_neg h, if_neg h]; exact hn h

/-- What complains in the first case need not be compared. -/
theorem complains {m m' : ParserM α} (h : ∀ s, Complained (m s).2.log) : Loosens σ σ' m m' := fun s _ => .inl (h s)

/-- A method that does not look at the settings. -/
theorem of {m : ParserM α} (h1 : ∀ s, m (loosen σ' s) = ((m s).1, loosen σ' (m s).2)) (h2 : ∀ s, Calm σ σ' s → Calm σ σ' (m s).2) :
    Loosens σ σ' m m := fun s hs => .inr ⟨h1 s, h2 s hs⟩

end Loosens

namespace Parser

variable {σ σ' : ParserSettings}

theorem back_grows : Persists back := .same fun s => by unfold back; split <;> rfl
theorem modifyBack_grows (f : PNode → PNode) : Persists (modifyBack f) := .same fun s => by unfold modifyBack; split <;> rfl
theorem iterNext_grows : Persists iterNext := .same fun s => by unfold iterNext; split <;> rfl
theorem iterNextValue_grows : Persists iterNextValue := .same fun s => by unfold iterNextValue; split <;> rfl
theorem iterRemaining_grows : Persists iterRemaining := .same fun s => by unfold iterRemaining; split <;> rfl
theorem iterInsert_grows (args : List Str) : Persists (iterInsert args) := .same fun s => by unfold iterInsert; split <;> rfl
theorem iterCurrent_grows : Persists iterCurrent := .same fun _ => rfl
theorem emit_grows (e : Event) : Persists (emit e) := fun _ h => h.append _

theorem copyRemaining_grows : Persists copyRemaining := iterRemaining_grows.bind fun _ => modifyBack_grows _

theorem errorRest_grows (s : PState) : Persists (if s.settings.autoExit then ParserM.lift (.exit s.settings.errorExitCode)
    else do
      copyRemaining
      ParserM.modify fun s => { s with
        stack := s.stack.map fun n => { n with code := .failure }
        mode := .error }) := .ite (.lift _) (copyRemaining_grows.bind fun _ => .modify fun _ => rfl)

theorem error_grows (msg : Str) : Persists (error msg) := Persists.get.bind fun s => (emit_grows _).bind fun _ => errorRest_grows s

theorem error_complains (msg : Str) (s : PState) : Complained (error msg s).2.log := by
  have : error msg s = (if s.settings.autoExit then ParserM.lift (.exit s.settings.errorExitCode)
    else do
      copyRemaining
      ParserM.modify fun s => { s with
        stack := s.stack.map fun n => { n with code := .failure }
        mode := .error } : ParserM Unit) { s with log := s.log ++ [.error s.command msg] } := rfl
  rw [this]
  exact errorRest_grows s _ ⟨s.command, msg, by simp⟩

theorem error_then_complains {α : Type} (msg : Str) (a : α) (s : PState) : Complained ((error msg >>= fun _ => pure a : ParserM α) s).2.log := by
  have h := error_complains msg s
  rw [ParserM.bind_apply]
  cases he : error msg s with
  | mk r s' =>
    rw [he] at h
    cases r <;> exact h

theorem error_loosens (msg : Str) : Loosens σ σ' (error msg) (error msg) := .complains (error_complains msg)
theorem error_then_loosens {α : Type} (msg : Str) (a : α) : Loosens σ σ' (error msg >>= fun _ => pure a : ParserM α) (error msg >>= fun _ => pure a) :=
  .complains (error_then_complains msg a)

theorem hasAllMandatory_grows (vs : Values) (os : List OptData) : Persists (hasAllMandatory vs os) := by
  induction os with
  | nil => exact .pure true
  | cons o os ih =>
    unfold hasAllMandatory
    exact .ite (.ite (.lift _) ((error_grows _).bind fun _ => .pure _)) ih

theorem checkCounts_grows : Persists checkCounts := by
  refine back_grows.bind fun n => Persists.get.bind fun s => (hasAllMandatory_grows _ _).bind fun ok => .ite (.pure _) ?_
  cases s.command.requireSubcommand with
  | none => exact .lift _
  | some req =>
    exact .ite ((error_grows _).bind fun _ => .pure _) (.ite (Persists.bind (.modify fun _ => rfl) fun _ => .pure _) ((error_grows _).bind fun _ => .pure _))

theorem initCounter_grows : Persists initCounter := .same fun s => by
  unfold initCounter
  split
  · rfl
  · split <;> rfl

theorem updateArguments_grows (args : List Str) : Persists (updateArguments args) := by
  refine .ite (.pure _) ((iterInsert_grows _).bind fun _ => Persists.get.bind fun s => .ite (.pure _) ?_)
  exact (Persists.lift _).bind fun _ => .modify fun _ => rfl

theorem applyOps_grows (vid : Nat) (ops : List BuilderOp) (b : Bool) : Persists (applyOps vid ops b) := by
  induction ops generalizing b with
  | nil => exact .pure b
  | cons op ops ih =>
    intro s hs
    unfold applyOps
    split
    · exact hs
    · split
      · exact ih _ _ hs
      all_goals exact hs

theorem builderError_grows (msg : Str) : Persists (builderError msg) :=
  back_grows.bind fun n => (emit_grows _).bind fun _ => Persists.get.bind fun s => .ite (.lift _) (.lift _)

theorem runCallback_grows (env : Env) (cb : Nat) (view : ViewRef) (vid : Nat) (stored : Bool) (value : Option Str) :
    Persists (runCallback env cb view vid stored value) := by
  refine back_grows.bind fun n => Persists.get.bind fun s => Persists.bind (fun _ h => h.append _) fun _ => (applyOps_grows _ _ _).bind fun t => ?_
  cases (env.callback cb s.calls view value n).fin with
  | returns => exact (updateArguments_grows _).bind fun _ => .pure _
  | throws m => exact .lift _
  | error m => exact (builderError_grows m).bind fun _ => .pure _

theorem runCallbackOpt_grows (env : Env) (cb : Option Nat) (view : ViewRef) (vid : Nat) (stored : Bool) (value : Option Str) :
    Persists (runCallbackOpt env cb view vid stored value) := by
  cases cb with
  | none => exact .pure _
  | some cb => exact runCallback_grows env cb view vid stored value

theorem applyOperation_grows (o : OptData) (flag : Str) : Persists (applyOperation o flag) := by
  unfold applyOperation
  have hv : ∀ f : Str → PNode → PNode, Persists (do
      match (← iterNextValue) with
      | some v => do
        modifyBack (f v)
        pure (some (v, true))
      | none => do
        error (flag ++ b!": no value given.")
        pure none) := by
    intro f
    refine iterNextValue_grows.bind fun v => ?_
    cases v with
    | none => exact (error_grows _).bind fun _ => .pure _
    | some v => exact (modifyBack_grows _).bind fun _ => .pure _
  cases o.operation with
  | none => exact .pure _
  | clear => exact (modifyBack_grows _).bind fun _ => .pure _
  | assign => exact .ite ((modifyBack_grows _).bind fun _ => .pure _) (hv fun v n => { n with values := n.values.assign o.valueId v o.argumentId })
  | append => exact .ite ((modifyBack_grows _).bind fun _ => .pure _) (hv fun v n => { n with values := n.values.append o.valueId v o.argumentId })

theorem applyType_grows (o : OptData) : Persists (applyType o) := by
  have hm : ∀ m : Mode, Persists (ParserM.modify fun s => { s with mode := m }) := fun m => .modify fun _ => rfl
  unfold applyType
  cases o.type with
  | normal => exact .pure _
  | help => exact Persists.get.bind fun s => (emit_grows _).bind fun _ => (hm _).bind fun _ => (modifyBack_grows _).bind fun _ => .pure _
  | exit => exact (hm _).bind fun _ => (modifyBack_grows _).bind fun _ => .pure _
  | stop => exact (hm _).bind fun _ => (modifyBack_grows _).bind fun _ => .pure _
  | lastArgument => exact (hm _).bind fun _ => .pure _
  | lastOption => exact (hm _).bind fun _ => .pure _

theorem processOptionData_grows (env : Env) (o : OptData) (flag : Str) : Persists (processOptionData env o flag) := by
  refine (applyOperation_grows o flag).bind fun r => ?_
  cases r with
  | none => exact .pure _
  | some p =>
    exact Persists.bind (runCallbackOpt_grows _ _ _ _ _ _) fun v => Persists.get.bind fun s => Persists.bind (runCallbackOpt_grows _ _ _ _ _ _) fun v => (applyType_grows o).bind fun _ => .pure _

theorem reactivate_grows (size : Nat) : Persists (reactivate size) := .same fun s => by
  unfold reactivate
  simp only
  split <;> rfl

theorem processOption_grows (env : Env) (flag : Str) : Persists (processOption env flag) := by
  refine Persists.get.bind fun s => ?_
  cases findOption s.command.optionIndex flag s.settings.allowAbbreviatedOptions s.settings.caseInsensitive with
  | some o =>
    refine (processOptionData_grows env o flag).bind fun p => ?_
    obtain ⟨res, v⟩ := p
    have hc : Persists (copyRemaining >>= fun _ => pure (.option o v) : ParserM IterResult) := copyRemaining_grows.bind fun _ => .pure _
    cases res with
    | normal => exact .pure _
    | error => exact .pure _
    | stop => exact hc
    | exit => exact .ite (.lift _) hc
    | lastArgument =>
      refine checkCounts_grows.bind fun ok => .ite (.pure _) (Persists.get.bind fun t => ?_)
      cases findMultiParent t.stack with
      | none => exact hc
      | some st => exact (reactivate_grows _).bind fun _ => .pure _
  | none => exact iterCurrent_grows.bind fun cur => .ite ((error_grows _).bind fun _ => .pure _) ((modifyBack_grows _).bind fun _ => .pure _)

theorem processCommand_grows (c : Command) : Persists (processCommand c) :=
  Persists.bind (.modify fun _ => rfl) fun _ => initCounter_grows.bind fun _ => Persists.bind (.modify fun _ => rfl) fun _ => iterCurrent_grows.bind fun _ => .pure _

theorem processArgument_grows (env : Env) (value : Str) : Persists (processArgument env value) := by
  refine Persists.get.bind fun s => ?_
  cases findSibling s value with
  | some p => exact (reactivate_grows _).bind fun _ => processCommand_grows _
  | none =>
    cases s.counter.nextArgument with
    | mk a counter' =>
      cases a with
      | some a =>
        exact Persists.bind (.modify fun _ => rfl) fun _ => (modifyBack_grows _).bind fun _ => Persists.bind (runCallbackOpt_grows _ _ _ _ _ _) fun v =>
          Persists.get.bind fun t => Persists.bind (runCallbackOpt_grows _ _ _ _ _ _) fun v => .pure _
      | none =>
        exact Persists.bind (.modify fun _ => rfl) fun _ => .ite ((modifyBack_grows _).bind fun _ => iterCurrent_grows.bind fun _ => .pure _)
          ((error_grows _).bind fun _ => .pure _)

theorem nextWord_grows (env : Env) (s : PState) (p : Prop) [Decidable p] (arg : Option Str) : Persists (match arg with
    | none => do
      if (← checkCounts) then pure .done else pure .error
    | some arg =>
      if p ∧ isOption arg s.settings.optionStyle then processOption env arg
      else if s.command.commands.isEmpty then processArgument env arg
      else match findCommand s.command.commands arg s.settings.caseInsensitive with
        | some c => processCommand c
        | none => do
          error (b!"Unknown command: " ++ arg)
          pure .error : ParserM IterResult) := by
  cases arg with
  | none => exact checkCounts_grows.bind fun ok => .ite (.pure _) (.pure _)
  | some arg =>
    refine .ite (processOption_grows env arg) (.ite (processArgument_grows env arg) ?_)
    cases findCommand s.command.commands arg s.settings.caseInsensitive with
    | none => exact (error_grows _).bind fun _ => .pure _
    | some c => exact processCommand_grows c

theorem next_grows (env : Env) : Persists (next env) := by
  refine Persists.get.bind fun s => ?_
  cases s.mode with
  | error => exact .lift _
  | done => exact .pure _
  | argumentsAndOptions => exact iterNext_grows.bind fun arg => nextWord_grows env s _ arg
  | argumentsOnly => exact iterNextValue_grows.bind fun arg => nextWord_grows env s _ arg

theorem run_grows (env : Env) (fuel : Nat) : Persists (run env fuel) := by
  induction fuel with
  | zero => exact .lift _
  | succ fuel ih =>
    refine (next_grows env).bind fun r => ?_
    cases r <;> first | exact ih | exact Persists.pure ()

/-! ## The same under looser settings -/

theorem _root_.Argos.Calm.with {s t : PState} (h : Calm σ σ' s) (h1 : t.settings = s.settings) (h2 : t.command = s.command) (h3 : t.stack = s.stack) :
    Calm σ σ' t := ⟨h1.trans h.settings, by rw [h2]; exact h.command, by rw [h3]; exact h.stack⟩

theorem _root_.Argos.Calm.map {s t : PState} (h : Calm σ σ' s) (h1 : t.settings = s.settings) (h2 : t.command = s.command) {f : PNode → PNode}
    (hf : ∀ n, (f n).command = n.command) (h3 : t.stack = s.stack.map f) : Calm σ σ' t := by
  refine ⟨h1.trans h.settings, by rw [h2]; exact h.command, fun n hn => ?_⟩
  rw [h3] at hn
  obtain ⟨n', hn', rfl⟩ := List.mem_map.mp hn
  rw [hf]
  exact h.stack n' hn'

theorem back_loosens : Loosens σ σ' back back := .of (fun s => by unfold back loosen; simp only; split <;> rfl)
  (fun s hs => by unfold back; split <;> exact hs)

theorem modifyBack_loosens {f : PNode → PNode} (hf : ∀ n, (f n).command = n.command) : Loosens σ σ' (modifyBack f) (modifyBack f) := by
  refine .of (fun s => by unfold modifyBack loosen; simp only; split <;> rfl) (fun s hs => ?_)
  unfold modifyBack
  split
  · exact hs
  · rename_i n ns hst
    refine ⟨hs.settings, hs.command, fun m hm => ?_⟩
    rcases List.mem_cons.mp hm with rfl | hm
    · rw [hf]; exact hs.stack n (by simp [hst])
    · exact hs.stack m (by simp [hst, hm])

theorem iterNext_loosens : Loosens σ σ' iterNext iterNext := .of (fun s => by unfold iterNext loosen; simp only; split <;> rfl)
  (fun s hs => by unfold iterNext; split <;> exact hs.with rfl rfl rfl)
theorem iterNextValue_loosens : Loosens σ σ' iterNextValue iterNextValue := .of (fun s => by unfold iterNextValue loosen; simp only; split <;> rfl)
  (fun s hs => by unfold iterNextValue; split <;> exact hs.with rfl rfl rfl)
theorem iterRemaining_loosens : Loosens σ σ' iterRemaining iterRemaining := .of (fun s => by unfold iterRemaining loosen; simp only; split <;> rfl)
  (fun s hs => by unfold iterRemaining; split <;> exact hs.with rfl rfl rfl)
theorem iterInsert_loosens (args : List Str) : Loosens σ σ' (iterInsert args) (iterInsert args) :=
  .of (fun s => by unfold iterInsert loosen; simp only; split <;> rfl) (fun s hs => by unfold iterInsert; split <;> exact hs.with rfl rfl rfl)
theorem iterCurrent_loosens : Loosens σ σ' iterCurrent iterCurrent := .of (fun _ => rfl) (fun _ hs => hs)
theorem emit_loosens (e : Event) : Loosens σ σ' (emit e) (emit e) := .modify fun _ hs => ⟨rfl, hs.with rfl rfl rfl⟩
theorem copyRemaining_loosens : Loosens σ σ' copyRemaining copyRemaining :=
  iterRemaining_loosens.bind (fun _ => modifyBack_grows _) fun _ => modifyBack_loosens (by intro n; rfl)

theorem hasAllMandatory_loosens (vs : Values) (os : List OptData) : Loosens σ σ' (hasAllMandatory vs os) (hasAllMandatory vs os) := by
  induction os with
  | nil => exact .pure true
  | cons o os ih =>
    unfold hasAllMandatory
    exact .ite (fun _ => .ite (fun _ => .lift _) fun _ => error_then_loosens _ _) fun _ => ih

theorem checkCounts_loosens : Loosens σ σ' checkCounts checkCounts := by
  refine back_loosens.bind (fun n => ?_) fun n => ?_
  · refine Persists.get.bind fun s => (hasAllMandatory_grows _ _).bind fun ok => .ite (.pure _) ?_
    cases s.command.requireSubcommand with
    | none => exact .lift _
    | some req =>
      exact .ite ((error_grows _).bind fun _ => .pure _) (.ite (Persists.bind (.modify fun _ => rfl) fun _ => .pure _) ((error_grows _).bind fun _ => .pure _))
  refine .get_bind fun s hs => ?_
  refine (hasAllMandatory_loosens _ _).bind (fun ok => .ite (.pure _) ?_) fun ok => .ite (fun _ => .pure _) fun _ => ?_
  · cases s.command.requireSubcommand with
    | none => exact .lift _
    | some req =>
      exact .ite ((error_grows _).bind fun _ => .pure _) (.ite (Persists.bind (.modify fun _ => rfl) fun _ => .pure _) ((error_grows _).bind fun _ => .pure _))
  show Loosens σ σ' (match s.command.requireSubcommand with | none => _ | some req => _) (match s.command.requireSubcommand with | none => _ | some req => _)
  cases s.command.requireSubcommand with
  | none => exact .lift _
  | some req =>
    refine .ite (fun _ => error_then_loosens _ _) fun _ => .ite (fun _ => ?_) fun _ => error_then_loosens _ _
    refine .bind (.modify fun t ht => ⟨rfl, ?_⟩) (fun _ => .pure _) fun _ => .pure _
    exact ht.map rfl rfl (f := fun n => { n with code := .success }) (fun _ => rfl) rfl

theorem findSibling_loosen (hl : Looser σ σ') {s : PState} (hs : s.settings = σ) (name : Str) : findSibling (loosen σ' s) name = findSibling s name := by
  have : σ'.caseInsensitive = σ.caseInsensitive := by rw [hl.same]
  unfold findSibling loosen
  simp only [hs, this]

theorem countStops_loosen (hl : Looser σ σ') {s : PState} (hs : s.settings = σ) (k r : Nat) (arg : Str) :
    countStops (loosen σ' s) k r arg = countStops s k r arg := by
  have : σ'.caseInsensitive = σ.caseInsensitive := by rw [hl.same]
  simp only [countStops, findSibling_loosen hl hs]
  simp only [loosen, hs, this]

theorem countArgsOnly_loosen (hl : Looser σ σ') {s : PState} (hs : s.settings = σ) (k fuel : Nat) (it : Iter) (r : Nat) :
    countArgsOnly (loosen σ' s) k fuel it r = countArgsOnly s k fuel it r := by
  induction fuel generalizing it r with
  | zero => rfl
  | succ fuel ih => simp only [countArgsOnly, countStops_loosen hl hs, ih]

theorem countLoop_loosen (hl : Looser σ σ') (ha : σ'.allowAbbreviatedOptions = σ.allowAbbreviatedOptions) {s : PState} (hs : s.settings = σ)
    (k fuel : Nat) (it : Iter) (r : Nat) : countLoop (loosen σ' s) k fuel it r = countLoop s k fuel it r := by
  have h1 : σ'.caseInsensitive = σ.caseInsensitive := by rw [hl.same]
  have h2 : σ'.optionStyle = σ.optionStyle := by rw [hl.same]
  induction fuel generalizing it r with
  | zero => rfl
  | succ fuel ih =>
    simp only [countLoop, countStops_loosen hl hs, ih, countArgsOnly_loosen hl hs]
    simp only [loosen, hs, ha, h1, h2]

theorem countArguments_loosen (hl : Looser σ σ') (ha : σ'.allowAbbreviatedOptions = σ.allowAbbreviatedOptions) {s : PState} (hs : s.settings = σ) :
    countArguments (loosen σ' s) = countArguments s := by
  simp only [countArguments]
  exact countLoop_loosen hl ha hs _ _ _ _

theorem initCounter_loosens (hl : Looser σ σ') : Loosens σ σ' initCounter initCounter := by
  intro s hs
  right
  rcases (hs.command _ .self).count with ha | hc
  · unfold initCounter
    rw [countArguments_loosen hl ha hs.settings]
    show (if !Counter.requiresArgumentCount s.command.arguments then _ else _) = _ ∧ _
    split
    · exact ⟨rfl, hs.with rfl rfl rfl⟩
    · cases countArguments s <;> exact ⟨rfl, hs.with rfl rfl rfl⟩
  · have e1 : initCounter s = (.ok (), { s with counter := Counter.ofArgs s.command.arguments }) := by simp [initCounter, hc]
    have e2 : initCounter (loosen σ' s) = (.ok (), { loosen σ' s with counter := Counter.ofArgs s.command.arguments }) := by
      simp [initCounter, loosen, hc]
    rw [e1, e2]
    exact ⟨rfl, hs.with rfl rfl rfl⟩

theorem updateArguments_loosens (hl : Looser σ σ') (args : List Str) : Loosens σ σ' (updateArguments args) (updateArguments args) := by
  refine .ite (fun _ => .pure _) fun _ => (iterInsert_loosens args).bind (fun _ => ?_) fun _ => .get_bind fun s hs => ?_
  · exact Persists.get.bind fun s => .ite (.pure _) ((Persists.lift _).bind fun _ => .modify fun _ => rfl)
  refine .ite (fun _ => .pure _) fun hr => ?_
  rcases (hs.command _ .self).count with ha | hc
  · rw [countArguments_loosen hl ha hs.settings]
    exact (Loosens.lift _).bind (fun _ => .modify fun _ => rfl) fun more => .modify fun t ht => ⟨rfl, ht.with rfl rfl rfl⟩
  · simp [hc] at hr

theorem apply_command {op : BuilderOp} {n n' : PNode} {t : Option Nat} (h : op.apply n = .ok (n', t)) : n'.command = n.command := by
  cases op <;> simp only [BuilderOp.apply, Outcome.pure_eq] at h
  case append | assign | clear =>
    obtain ⟨id, _, h⟩ := Outcome.bind_eq_ok.mp h
    simp at h
    rw [← h.1]
  all_goals simp at h; rw [← h.1]

theorem applyOps_loosens (vid : Nat) (ops : List BuilderOp) (b : Bool) : Loosens σ σ' (applyOps vid ops b) (applyOps vid ops b) := by
  induction ops generalizing b with
  | nil => exact .pure b
  | cons op ops ih =>
    intro s hs
    unfold applyOps
    show _ ∨ ((match s.stack with | [] => _ | n :: ns => _) = _ ∧ _)
    cases hst : s.stack with
    | nil => exact .inr ⟨rfl, hs⟩
    | cons n ns =>
      simp only
      cases hop : op.apply n with
      | ok p =>
        obtain ⟨n', t⟩ := p
        refine ih (b || t == some vid) { s with stack := n' :: ns } ⟨hs.settings, hs.command, fun m hm => ?_⟩
        rcases List.mem_cons.mp hm with rfl | hm
        · rw [apply_command hop]; exact hs.stack n (by simp [hst])
        · exact hs.stack m (by simp [hst, hm])
      | _ => exact .inr ⟨rfl, hs⟩

theorem builderError_complains {α : Type} (msg : Str) (a : α) {s : PState} (hs : s.stack ≠ []) :
    Complained ((builderError msg >>= fun _ => pure a : ParserM α) s).2.log := by
  cases hst : s.stack with
  | nil => exact absurd hst hs
  | cons n ns =>
    have hb : builderError msg s = (if s.settings.autoExit then ParserM.lift (.exit s.settings.errorExitCode)
        else ParserM.lift (.throw b!"Error while parsing arguments.") : ParserM Unit) { s with log := s.log ++ [.error n.command msg] } := by
      unfold builderError
      rw [ParserM.bind_ok (back_run hst)]
      rfl
    have hc : Complained (s.log ++ [.error n.command msg]) := ⟨n.command, msg, by simp⟩
    rw [ParserM.bind_apply, hb]
    cases s.settings.autoExit <;> exact hc

theorem runCallback_loosens (hl : Looser σ σ') (env : Env) (cb : Nat) (view : ViewRef) (vid : Nat) (stored : Bool) (value : Option Str) :
    Loosens σ σ' (runCallback env cb view vid stored value) (runCallback env cb view vid stored value) := by
  have hfin : ∀ (r : CallbackResult) (t : Bool), Persists (match r.fin with
      | .throws m => ParserM.lift (.throw m)
      | .error m => do
        builderError m
        pure none
      | .returns => do
        updateArguments r.newArguments
        pure (if stored && t then none else value) : ParserM (Option Str)) := by
    intro r t
    cases r.fin with
    | returns => exact (updateArguments_grows _).bind fun _ => .pure _
    | throws m => exact .lift _
    | error m => exact (builderError_grows m).bind fun _ => .pure _
  refine back_loosens.bind (fun n => Persists.get.bind fun s => Persists.bind (fun _ h => h.append _) fun _ => (applyOps_grows _ _ _).bind fun t => hfin _ t) fun n => ?_
  refine .get_bind fun s hs => ?_
  refine .bind (.modify fun t ht => ⟨rfl, ht.with rfl rfl rfl⟩) (fun _ => (applyOps_grows _ _ _).bind fun t => hfin _ t) fun _ => ?_
  refine (applyOps_loosens _ _ _).bind (fun t => hfin _ t) fun touched => ?_
  show Loosens σ σ' (match (env.callback cb s.calls view value n).fin with | .throws m => _ | .error m => _ | .returns => _)
    (match (env.callback cb s.calls view value n).fin with | .throws m => _ | .error m => _ | .returns => _)
  cases (env.callback cb s.calls view value n).fin with
  | returns => exact (updateArguments_loosens hl _).bind (fun _ => .pure _) fun _ => .pure _
  | throws m => exact .lift _
  | error m =>
    intro s hs
    by_cases hst : s.stack = []
    · right
      have e : ∀ s : PState, s.stack = [] → (builderError m >>= fun _ => pure none : ParserM (Option Str)) s = (.ub, s) := by
        intro s h
        have : builderError m s = (.ub, s) := by
          unfold builderError
          have : back s = (.ub, s) := by simp [back, h]
          rw [ParserM.bind_apply, this]
        rw [ParserM.bind_apply, this]
      show (builderError m >>= fun _ => pure none : ParserM (Option Str)) (loosen σ' s) = (((builderError m >>= fun _ => pure none : ParserM (Option Str)) s).1,
        loosen σ' ((builderError m >>= fun _ => pure none : ParserM (Option Str)) s).2) ∧ Calm σ σ' ((builderError m >>= fun _ => pure none : ParserM (Option Str)) s).2
      rw [e s hst, e (loosen σ' s) hst]
      exact ⟨rfl, hs⟩
    · exact .inl (builderError_complains m none hst)

theorem runCallbackOpt_loosens (hl : Looser σ σ') (env : Env) (cb : Option Nat) (view : ViewRef) (vid : Nat) (stored : Bool) (value : Option Str) :
    Loosens σ σ' (runCallbackOpt env cb view vid stored value) (runCallbackOpt env cb view vid stored value) := by
  cases cb with
  | none => exact .pure _
  | some cb => exact runCallback_loosens hl env cb view vid stored value

theorem applyOperation_loosens (o : OptData) (flag : Str) : Loosens σ σ' (applyOperation o flag) (applyOperation o flag) := by
  unfold applyOperation
  have hb : ∀ (f : PNode → PNode) (r : Option (Str × Bool)), (∀ n, (f n).command = n.command) → Loosens σ σ' (modifyBack f >>= fun _ => pure r)
      (modifyBack f >>= fun _ => pure r) := fun f r hf => (modifyBack_loosens hf).bind (fun _ => .pure _) fun _ => .pure _
  have hv : ∀ f : Str → PNode → PNode, (∀ v n, (f v n).command = n.command) → Loosens σ σ' (do
      match (← iterNextValue) with
      | some v => do
        modifyBack (f v)
        pure (some (v, true))
      | none => do
        error (flag ++ b!": no value given.")
        pure none) (do
      match (← iterNextValue) with
      | some v => do
        modifyBack (f v)
        pure (some (v, true))
      | none => do
        error (flag ++ b!": no value given.")
        pure none) := by
    intro f hf
    refine iterNextValue_loosens.bind (fun v => ?_) fun v => ?_
    · cases v with
      | none => exact (error_grows _).bind fun _ => .pure _
      | some v => exact (modifyBack_grows _).bind fun _ => .pure _
    · cases v with
      | none => exact error_then_loosens _ _
      | some v => exact hb _ _ (hf v)
  cases o.operation with
  | none => exact .pure _
  | clear => exact hb _ _ fun _ => rfl
  | assign => exact .ite (fun _ => hb _ _ fun _ => rfl) fun _ => hv (fun v n => { n with values := n.values.assign o.valueId v o.argumentId }) fun _ _ => rfl
  | append => exact .ite (fun _ => hb _ _ fun _ => rfl) fun _ => hv (fun v n => { n with values := n.values.append o.valueId v o.argumentId }) fun _ _ => rfl

theorem applyType_loosens (o : OptData) : Loosens σ σ' (applyType o) (applyType o) := by
  have hm : ∀ m : Mode, Loosens σ σ' (ParserM.modify fun s => { s with mode := m }) (ParserM.modify fun s => { s with mode := m }) :=
    fun m => .modify fun _ hs => ⟨rfl, hs.with rfl rfl rfl⟩
  have hs : ∀ r : OptionResult, Persists (modifyBack (fun n => { n with code := .stop, stopOption := some o }) >>= fun _ => pure r) :=
    fun r => (modifyBack_grows _).bind fun _ => .pure _
  have hstop : ∀ r : OptionResult, Loosens σ σ' (modifyBack (fun n => { n with code := .stop, stopOption := some o }) >>= fun _ => pure r)
      (modifyBack (fun n => { n with code := .stop, stopOption := some o }) >>= fun _ => pure r) :=
    fun r => (modifyBack_loosens (by intro n; rfl)).bind (fun _ => .pure _) fun _ => .pure _
  have hg : ∀ m : Mode, Persists (ParserM.modify fun s => { s with mode := m }) := fun m => .modify fun _ => rfl
  unfold applyType
  cases o.type with
  | normal => exact .pure _
  | help =>
    refine .get_bind fun s _ => ?_
    exact (emit_loosens _).bind (fun _ => (hg _).bind fun _ => hs _) fun _ => (hm _).bind (fun _ => hs _) fun _ => hstop _
  | exit => exact (hm _).bind (fun _ => hs _) fun _ => hstop _
  | stop => exact (hm _).bind (fun _ => hs _) fun _ => hstop _
  | lastArgument => exact (hm _).bind (fun _ => .pure _) fun _ => .pure _
  | lastOption => exact (hm _).bind (fun _ => .pure _) fun _ => .pure _

theorem processOptionData_loosens (hl : Looser σ σ') (env : Env) (o : OptData) (flag : Str) :
    Loosens σ σ' (processOptionData env o flag) (processOptionData env o flag) := by
  have hc : σ'.optionCallback = σ.optionCallback := by rw [hl.same]
  refine (applyOperation_loosens o flag).bind (fun r => ?_) fun r => ?_
  · cases r with
    | none => exact .pure _
    | some p =>
      exact Persists.bind (runCallbackOpt_grows _ _ _ _ _ _) fun v => Persists.get.bind fun s => Persists.bind (runCallbackOpt_grows _ _ _ _ _ _) fun v => (applyType_grows o).bind fun _ => .pure _
  · cases r with
    | none => exact .pure _
    | some p =>
      refine Loosens.bind (runCallbackOpt_loosens hl _ _ _ _ _ _) (fun v => ?_) fun v => .get_bind fun s hs => ?_
      · exact Persists.get.bind fun s => Persists.bind (runCallbackOpt_grows _ _ _ _ _ _) fun v => (applyType_grows o).bind fun _ => .pure _
      · simp only [loosen, hs.settings, hc]
        exact Loosens.bind (runCallbackOpt_loosens hl _ _ _ _ _ _) (fun v => (applyType_grows o).bind fun _ => .pure _) fun v =>
          (applyType_loosens o).bind (fun _ => .pure _) fun _ => .pure _

theorem closeFrames_commands (k : Nat) (st : List PNode) : ∀ n ∈ closeFrames k st, ∃ n' ∈ st, n.command = n'.command := by
  induction k generalizing st with
  | zero => exact fun n hn => ⟨n, hn, rfl⟩
  | succ k ih =>
    match st with
    | [] => exact fun n hn => ⟨n, hn, rfl⟩
    | [m] => exact fun n hn => ⟨n, hn, rfl⟩
    | m :: p :: st =>
      intro n hn
      obtain ⟨n', h1, h2⟩ := ih _ n hn
      rcases List.mem_cons.mp h1 with rfl | h1
      · exact ⟨p, by simp, h2⟩
      · exact ⟨n', by simp [h1], h2⟩

theorem reactivate_loosens (size : Nat) : Loosens σ σ' (reactivate size) (reactivate size) := by
  refine .of (fun s => ?_) fun s hs => ?_
  · unfold reactivate loosen
    simp only
    split <;> rfl
  · unfold reactivate
    simp only
    split
    · exact hs
    · rename_i n ns hst
      have key : ∀ m ∈ closeFrames (s.stack.length - size) s.stack, ∀ c, c.Within m.command → Loosable σ σ' c := by
        intro m hm
        obtain ⟨m', h1, h2⟩ := closeFrames_commands _ _ m hm
        rw [h2]
        exact hs.stack m' h1
      exact ⟨hs.settings, key n (by rw [hst]; simp), key⟩

theorem processOption_loosens (hl : Looser σ σ') (hi : σ'.allowAbbreviatedOptions = σ.allowAbbreviatedOptions ∨ σ.ignoreUndefinedOptions = false)
    (env : Env) (flag : Str) {s : PState} (hs : Calm σ σ' s) (hcur : s.iter.args ≠ []) :
    Complained (processOption env flag s).2.log ∨
      (processOption env flag (loosen σ' s) = ((processOption env flag s).1, loosen σ' (processOption env flag s).2) ∧
        Calm σ σ' (processOption env flag s).2) := by
  have hci : σ'.caseInsensitive = σ.caseInsensitive := by rw [hl.same]
  have hae : σ'.autoExit = σ.autoExit := by rw [hl.same]
  have hnc : σ'.normalExitCode = σ.normalExitCode := by rw [hl.same]
  have hix := (hs.command _ .self).index
  unfold processOption
  rw [ParserM.get_bind, ParserM.get_bind]
  cases ho : findOption s.command.optionIndex flag s.settings.allowAbbreviatedOptions s.settings.caseInsensitive with
  | some o =>
    have ho' : findOption (loosen σ' s).command.optionIndex flag (loosen σ' s).settings.allowAbbreviatedOptions (loosen σ' s).settings.caseInsensitive = some o := by
      rw [hs.settings] at ho
      show findOption s.command.optionIndex flag σ'.allowAbbreviatedOptions σ'.caseInsensitive = some o
      rw [hci]
      exact findOption_looser hix hl.abbreviations ho
    rw [ho']
    have e1 : (loosen σ' s).settings.autoExit = s.settings.autoExit := by rw [hs.settings]; exact hae
    have e2 : (loosen σ' s).settings.normalExitCode = s.settings.normalExitCode := by rw [hs.settings]; exact hnc
    simp only [e1, e2]
    refine Loosens.bind (processOptionData_loosens hl env o flag) (fun p => ?_) (fun p => ?_) s hs
    · obtain ⟨res, v⟩ := p
      have hc : Persists (copyRemaining >>= fun _ => pure (.option o v) : ParserM IterResult) := copyRemaining_grows.bind fun _ => .pure _
      cases res with
      | normal => exact .pure _
      | error => exact .pure _
      | stop => exact hc
      | exit => exact .ite (.lift _) hc
      | lastArgument =>
        refine checkCounts_grows.bind fun ok => .ite (.pure _) (Persists.get.bind fun t => ?_)
        cases findMultiParent t.stack with
        | none => exact hc
        | some st => exact (reactivate_grows _).bind fun _ => .pure _
    · obtain ⟨res, v⟩ := p
      have hg : Persists (copyRemaining >>= fun _ => pure (.option o v) : ParserM IterResult) := copyRemaining_grows.bind fun _ => .pure _
      have hc : Loosens σ σ' (copyRemaining >>= fun _ => pure (.option o v) : ParserM IterResult) (copyRemaining >>= fun _ => pure (.option o v)) :=
        copyRemaining_loosens.bind (fun _ => .pure _) fun _ => .pure _
      cases res with
      | normal => exact .pure _
      | error => exact .pure _
      | stop => exact hc
      | exit => exact .ite (fun _ => .lift _) fun _ => hc
      | lastArgument =>
        refine checkCounts_loosens.bind (fun ok => .ite (.pure _) (Persists.get.bind fun t => ?_)) fun ok => .ite (fun _ => .pure _) fun _ => .get_bind fun t ht => ?_
        · cases findMultiParent t.stack with
          | none => exact hg
          | some st => exact (reactivate_grows _).bind fun _ => .pure _
        · show Loosens σ σ' (match findMultiParent t.stack with | some st => _ | none => _) (match findMultiParent t.stack with | some st => _ | none => _)
          cases findMultiParent t.stack with
          | none => exact hc
          | some st => exact (reactivate_loosens _).bind (fun _ => .pure _) fun _ => .pure _
  | none =>
    obtain ⟨cur, hc⟩ := Iter.current_ok _ hcur
    have hc' : iterCurrent s = (.ok cur, s) := by unfold iterCurrent; rw [hc]
    have hc2 : iterCurrent (loosen σ' s) = (.ok cur, loosen σ' s) := by unfold iterCurrent loosen; simp only [hc]
    simp only
    rw [ParserM.bind_ok hc']
    by_cases hu : (!s.settings.ignoreUndefinedOptions || !startsWithCs cur flag) = true
    · rw [if_pos hu]
      exact .inl (error_then_complains _ _ _)
    · have hig : σ.ignoreUndefinedOptions = true := by
        rw [hs.settings] at hu
        cases h : σ.ignoreUndefinedOptions with
        | true => rfl
        | false => simp [h] at hu
      have hab : σ'.allowAbbreviatedOptions = σ.allowAbbreviatedOptions := hi.resolve_right (by simp [hig])
      have ho' : findOption (loosen σ' s).command.optionIndex flag (loosen σ' s).settings.allowAbbreviatedOptions (loosen σ' s).settings.caseInsensitive = none := by
        rw [hs.settings] at ho
        show findOption s.command.optionIndex flag σ'.allowAbbreviatedOptions σ'.caseInsensitive = none
        rw [hci, hab]; exact ho
      have hu' : ¬ (!(loosen σ' s).settings.ignoreUndefinedOptions || !startsWithCs cur flag) = true := by
        have : (loosen σ' s).settings.ignoreUndefinedOptions = s.settings.ignoreUndefinedOptions := by
          rw [hs.settings, hig]; exact hl.options hig
        rw [this]; exact hu
      rw [ho']
      simp only
      rw [ParserM.bind_ok hc2, if_neg hu, if_neg hu']
      exact Loosens.bind (modifyBack_loosens (by intro n; rfl)) (fun _ => .pure _) (fun _ => .pure _) s hs

theorem processCommand_loosens (hl : Looser σ σ') (c : Command) (hc : ∀ c', c'.Within c → Loosable σ σ' c') : Loosens σ σ' (processCommand c) (processCommand c) := by
  have h1 : Persists (ParserM.modify (fun s => { s with mode := .argumentsAndOptions }) >>= fun _ => iterCurrent >>= fun cur => pure (.command c cur) : ParserM IterResult) :=
    Persists.bind (.modify fun _ => rfl) fun _ => iterCurrent_grows.bind fun _ => .pure _
  refine .bind (.modify fun s hs => ⟨rfl, ?_⟩) (fun _ => initCounter_grows.bind fun _ => h1) fun _ => ?_
  · refine ⟨hs.settings, hc, fun n hn => ?_⟩
    rcases List.mem_cons.mp hn with rfl | hn
    · exact hc
    · exact hs.stack n hn
  · refine (initCounter_loosens hl).bind (fun _ => h1) fun _ => ?_
    refine .bind (.modify fun s hs => ⟨rfl, hs.with rfl rfl rfl⟩) (fun _ => iterCurrent_grows.bind fun _ => .pure _) fun _ => ?_
    exact iterCurrent_loosens.bind (fun _ => .pure _) fun _ => .pure _

theorem findMultiParent_mem {st : List PNode} {p : PNode} {ps : List PNode} (h : findMultiParent st = some (p :: ps)) : p ∈ st := by
  have go : ∀ st : List PNode, findMultiParent.go st = some (p :: ps) → p ∈ st := by
    intro st
    induction st with
    | nil => intro h; simp [findMultiParent.go] at h
    | cons q qs ih =>
      intro h
      unfold findMultiParent.go at h
      split at h
      · simp only [Option.some.injEq, List.cons.injEq] at h
        simp [h.1]
      · exact List.mem_cons_of_mem _ (ih h)
  cases st with
  | nil => simp [findMultiParent] at h
  | cons q qs => exact List.mem_cons_of_mem _ (go qs h)

theorem processArgument_loosens (hl : Looser σ σ') (env : Env) (value : Str) : Loosens σ σ' (processArgument env value) (processArgument env value) := by
  have hcb : σ'.argumentCallback = σ.argumentCallback := by rw [hl.same]
  refine .get_bind fun s hs => ?_
  rw [findSibling_loosen hl hs.settings]
  cases hsib : findSibling s value with
  | some p =>
    obtain ⟨c, size⟩ := p
    refine (reactivate_loosens size).bind (fun _ => processCommand_grows c) fun _ => processCommand_loosens hl c ?_
    unfold findSibling at hsib
    split at hsib
    · simp at hsib
    · split at hsib
      · simp at hsib
      · simp at hsib
      · rename_i p ps hp
        simp only [Option.map_eq_some_iff, Prod.mk.injEq] at hsib
        obtain ⟨c', h1, rfl, _⟩ := hsib
        exact fun c'' hc'' => hs.stack p (findMultiParent_mem hp) c'' (.sub (findCommand_mem h1) hc'')
  | none =>
    show Loosens σ σ' (match s.counter.nextArgument with | (some a, counter') => _ | (none, counter') => _)
      (match s.counter.nextArgument with | (some a, counter') => _ | (none, counter') => _)
    cases s.counter.nextArgument with
    | mk a counter' =>
      cases a with
      | some a =>
        have hg : ∀ v, Persists (do
            let s ← ParserM.get
            let v ← runCallbackOpt env s.settings.argumentCallback (.arg a) a.valueId true v
            pure (.argument a v) : ParserM IterResult) := fun v => Persists.get.bind fun t => Persists.bind (runCallbackOpt_grows _ _ _ _ _ _) fun v => .pure _
        refine .bind (.modify fun s hs => ⟨rfl, hs.with rfl rfl rfl⟩) (fun _ => (modifyBack_grows _).bind fun _ => Persists.bind (runCallbackOpt_grows _ _ _ _ _ _) hg) fun _ => ?_
        refine (modifyBack_loosens (by intro n; rfl)).bind (fun _ => Persists.bind (runCallbackOpt_grows _ _ _ _ _ _) hg) fun _ => ?_
        refine Loosens.bind (runCallbackOpt_loosens hl _ _ _ _ _ _) hg fun v => .get_bind fun t ht => ?_
        simp only [loosen, ht.settings, hcb]
        exact Loosens.bind (runCallbackOpt_loosens hl _ _ _ _ _ _) (fun _ => .pure _) fun v => .pure _
      | none =>
        by_cases hu : σ.ignoreUndefinedArguments = true
        · have hu' := hl.arguments hu
          simp only [loosen, hs.settings, hu, hu', if_true]
          refine .bind (.modify fun s hs => ⟨rfl, hs.with rfl rfl rfl⟩) (fun _ => (modifyBack_grows _).bind fun _ => iterCurrent_grows.bind fun _ => .pure _) fun _ => ?_
          exact (modifyBack_loosens (by intro n; rfl)).bind (fun _ => iterCurrent_grows.bind fun _ => .pure _) fun _ =>
            iterCurrent_loosens.bind (fun _ => .pure _) fun _ => .pure _
        · refine .complains fun t => ?_
          simp only [hs.settings, hu]
          exact error_then_complains _ _ _

theorem nextWord_loosens (hl : Looser σ σ') (hi : σ'.allowAbbreviatedOptions = σ.allowAbbreviatedOptions ∨ σ.ignoreUndefinedOptions = false)
    (env : Env) {s t : PState} (hs : Calm σ σ' s) (ht : Calm σ σ' t) (p : Prop) [Decidable p] (arg : Option Str) (hcur : ∀ x, arg = some x → t.iter.args ≠ []) :
    let word (s : PState) (arg : Option Str) : ParserM IterResult := match arg with
      | none => do
        if (← checkCounts) then pure .done else pure .error
      | some arg =>
        if p ∧ isOption arg s.settings.optionStyle then processOption env arg
        else if s.command.commands.isEmpty then processArgument env arg
        else match findCommand s.command.commands arg s.settings.caseInsensitive with
          | some c => processCommand c
          | none => do
            error (b!"Unknown command: " ++ arg)
            pure .error
    Complained (word s arg t).2.log ∨ (word (loosen σ' s) arg (loosen σ' t) = ((word s arg t).1, loosen σ' (word s arg t).2) ∧ Calm σ σ' (word s arg t).2) := by
  have hst : σ'.optionStyle = σ.optionStyle := by rw [hl.same]
  have hci : σ'.caseInsensitive = σ.caseInsensitive := by rw [hl.same]
  intro word
  cases arg with
  | none =>
    exact Loosens.bind checkCounts_loosens (fun ok => .ite (.pure _) (.pure _)) (fun ok => .ite (fun _ => .pure _) fun _ => .pure _) t ht
  | some arg =>
    have e1 : (loosen σ' s).settings.optionStyle = s.settings.optionStyle := by rw [hs.settings]; exact hst
    have e2 : (loosen σ' s).settings.caseInsensitive = s.settings.caseInsensitive := by rw [hs.settings]; exact hci
    have e3 : (loosen σ' s).command = s.command := rfl
    simp only [word, e1, e2, e3]
    by_cases h1 : p ∧ isOption arg s.settings.optionStyle = true
    · rw [if_pos h1]
      exact processOption_loosens hl hi env arg ht (hcur arg rfl)
    · rw [if_neg h1]
      by_cases h2 : s.command.commands.isEmpty = true
      · rw [if_pos h2]
        exact processArgument_loosens hl env arg t ht
      · rw [if_neg h2]
        cases hf : findCommand s.command.commands arg s.settings.caseInsensitive with
        | none => exact .inl (error_then_complains _ _ _)
        | some c => exact processCommand_loosens hl c (fun c' hc' => hs.command c' (.sub (findCommand_mem hf) hc')) t ht

theorem next_loosens (hl : Looser σ σ') (hi : σ'.allowAbbreviatedOptions = σ.allowAbbreviatedOptions ∨ σ.ignoreUndefinedOptions = false)
    (env : Env) : Loosens σ σ' (next env) (next env) := by
  intro s hs
  have key : ∀ (read : ParserM (Option Str)) (p : Prop) [Decidable p], Loosens σ σ' read read → (∀ x s1, read s = (.ok (some x), s1) → s1.iter.args ≠ []) →
      let m (s : PState) : ParserM IterResult := do
        let arg ← read
        match arg with
        | none => do
          if (← checkCounts) then pure .done else pure .error
        | some arg =>
          if p ∧ isOption arg s.settings.optionStyle then processOption env arg
          else if s.command.commands.isEmpty then processArgument env arg
          else match findCommand s.command.commands arg s.settings.caseInsensitive with
            | some c => processCommand c
            | none => do
              error (b!"Unknown command: " ++ arg)
              pure .error
      Complained (m s s).2.log ∨ (m (loosen σ' s) (loosen σ' s) = ((m s s).1, loosen σ' (m s s).2) ∧ Calm σ σ' (m s s).2) := by
    intro read p _ hrd hargs m
    simp only [m]
    rw [ParserM.bind_apply, ParserM.bind_apply]
    have h1 := hrd s hs
    cases h : read s with
    | mk r s1 =>
      rw [h] at h1
      rcases h1 with h1 | ⟨h1, h2⟩
      · left
        cases r with
        | ok a => exact nextWord_grows env s p a s1 h1
        | _ => exact h1
      · rw [h1]
        cases r with
        | ok a =>
          refine nextWord_loosens hl hi env hs h2 p a fun x hx => ?_
          subst hx
          exact hargs x s1 h
        | _ => exact .inr ⟨rfl, h2⟩
  unfold next
  rw [ParserM.get_bind, ParserM.get_bind]
  have em : (loosen σ' s).mode = s.mode := rfl
  rw [em]
  cases s.mode with
  | error => exact .inr ⟨rfl, hs⟩
  | done => exact .inr ⟨rfl, hs⟩
  | argumentsAndOptions =>
    refine key iterNext _ iterNext_loosens fun x s1 h => ?_
    · unfold iterNext at h
      split at h <;> simp only [Prod.mk.injEq, Outcome.ok.injEq, reduceCtorEq, false_and] at h
      rename_i a it hn
      obtain ⟨rfl, rfl⟩ := h
      exact ((Iter.next_weight _ hn).2 x rfl).2
  | argumentsOnly =>
    refine key iterNextValue _ iterNextValue_loosens fun x s1 h => ?_
    · unfold iterNextValue at h
      split at h <;> simp only [Prod.mk.injEq, Outcome.ok.injEq, reduceCtorEq, false_and] at h
      rename_i a it hn
      obtain ⟨rfl, rfl⟩ := h
      exact ((Iter.nextValue_weight _ hn).2 x rfl).2

theorem run_loosens (hl : Looser σ σ') (hi : σ'.allowAbbreviatedOptions = σ.allowAbbreviatedOptions ∨ σ.ignoreUndefinedOptions = false)
    (env : Env) (fuel : Nat) : Loosens σ σ' (run env fuel) (run env fuel) := by
  induction fuel with
  | zero => exact .lift _
  | succ fuel ih =>
    refine (next_loosens hl hi env).bind (fun r => ?_) fun r => ?_
    · cases r <;> first | exact run_grows env fuel | exact Persists.pure ()
    · cases r <;> first | exact ih | exact Loosens.pure ()

end Parser

end Argos
