import Verif.Proofs.BareParser
import Verif.Proofs.Screen
import Verif.Proofs.Store
import Verif.Proofs.Links
import Verif.Spec.Links
import Verif.Spec.Reorder

/-!
# Parsers that give their arguments and options different numbers

Two initialised parsers are alike if they differ in the numbers of values and of arguments and options, in a consistent way,
and in the order of the options. Such parsers do the same.
-/

namespace Argos

open Spec

/-! ## Commands -/

/-- The numbers of the value of the same argument or option in the two commands. -/
def Corr (c c' : Command) (v v' : Nat) : Prop :=
  (v = 0 ∧ v' = 0) ∨ ∃ i ∈ items c, ∃ i' ∈ items c', i.own = i'.own ∧ i.alias_ = i'.alias_ ∧ i.valueId = v ∧ i'.valueId = v'

/-- The options are the same except for numbers. -/
structure SameOpt (c c' : Command) (o o' : OptData) : Prop where
  plain : plainOpt o = plainOpt o'
  value : Corr c c' o.valueId o'.valueId

/-- The arguments are the same except for numbers. -/
structure SameArg (c c' : Command) (a a' : ArgData) : Prop where
  plain : plainArg a = plainArg a'
  value : Corr c c' a.valueId a'.valueId

/-- The commands are the same except for numbers and the order of options. -/
inductive Alike : Command → Command → Prop
  | intro {c c' : Command} (name : c.name = c'.name) (fullName : c.fullName = c'.fullName) (require : c.requireSubcommand = c'.requireSubcommand)
      (multi : c.multiCommand = c'.multiCommand) (arguments : Each (SameArg c c') c.arguments c'.arguments)
      (index : Each (fun p p' => p.1 = p'.1 ∧ SameOpt c c' p.2 p'.2) c.optionIndex c'.optionIndex)
      (options : ∀ o ∈ c.options, ∃ o' ∈ c'.options, SameOpt c c' o o') (options' : ∀ o' ∈ c'.options, ∃ o ∈ c.options, SameOpt c c' o o')
      (flags : ∀ o ∈ c.options, o.flags ≠ []) (left : ∀ v w w', Corr c c' v w → Corr c c' v w' → w = w')
      (right : ∀ v v' w, Corr c c' v w → Corr c c' v' w → v = v')
      (names : ∀ name, SameEnd (Corr c c') (getValueId (makeIds c) name) (getValueId (makeIds c') name))
      (commands : Each Alike c.commands c'.commands) : Alike c c'

namespace SameOpt

variable {c c' : Command} {o o' : OptData}

theorem flags (h : SameOpt c c' o o') : o.flags = o'.flags := by
  have := congrArg OptData.flags h.plain; exact this
theorem argument (h : SameOpt c c' o o') : o.argument = o'.argument := by
  have := congrArg OptData.argument h.plain; exact this
theorem constant (h : SameOpt c c' o o') : o.constant = o'.constant := by
  have := congrArg OptData.constant h.plain; exact this
theorem callback (h : SameOpt c c' o o') : o.callback = o'.callback := by
  have := congrArg OptData.callback h.plain; exact this
theorem operation (h : SameOpt c c' o o') : o.operation = o'.operation := by
  have := congrArg OptData.operation h.plain; exact this
theorem type (h : SameOpt c c' o o') : o.type = o'.type := by
  have := congrArg OptData.type h.plain; exact this
theorem optional (h : SameOpt c c' o o') : o.optional = o'.optional := by
  have := congrArg OptData.optional h.plain; exact this

end SameOpt

namespace SameArg

variable {c c' : Command} {a a' : ArgData}

theorem minCount (h : SameArg c c' a a') : a.minCount = a'.minCount := by
  have := congrArg ArgData.minCount h.plain; exact this
theorem maxCount (h : SameArg c c' a a') : a.maxCount = a'.maxCount := by
  have := congrArg ArgData.maxCount h.plain; exact this
theorem callback (h : SameArg c c' a a') : a.callback = a'.callback := by
  have := congrArg ArgData.callback h.plain; exact this

end SameArg

/-- Both or none. -/
inductive OptRel {α β : Type} (R : α → β → Prop) : Option α → Option β → Prop
  | none : OptRel R none none
  | some {a : α} {b : β} : R a b → OptRel R (some a) (some b)

theorem OptRel.isSome {α β : Type} {R : α → β → Prop} {a : Option α} {b : Option β} (h : OptRel R a b) : a.isSome = b.isSome := by cases h <;> rfl

theorem OptRel.map {α β γ δ : Type} {R : α → β → Prop} {S : γ → δ → Prop} {f : α → γ} {g : β → δ} {a : Option α} {b : Option β} (h : OptRel R a b)
    (hf : ∀ x y, R x y → S (f x) (g y)) : OptRel S (a.map f) (b.map g) := by
  cases h with
  | none => exact .none
  | some h => exact .some (hf _ _ h)

section
variable {α β : Type} {R : α → β → Prop} {xs : List α} {ys : List β}

theorem _root_.Argos.Spec.Each.length_eq (h : Each R xs ys) : xs.length = ys.length := by
  induction h with
  | nil => rfl
  | cons _ _ ih => simp only [List.length_cons, ih]

theorem _root_.Argos.Spec.Each.isEmpty (h : Each R xs ys) : xs.isEmpty = ys.isEmpty := by cases h <;> rfl

theorem _root_.Argos.Spec.Each.get? (h : Each R xs ys) (i : Nat) : OptRel R xs[i]? ys[i]? := by
  induction h generalizing i with
  | nil => exact .none
  | cons hx _ ih =>
    cases i with
    | zero => exact .some hx
    | succ i => simpa using ih i

theorem _root_.Argos.Spec.Each.drop (h : Each R xs ys) (i : Nat) : Each R (xs.drop i) (ys.drop i) := by
  induction h generalizing i with
  | nil => simp; exact .nil
  | cons hx h ih =>
    cases i with
    | zero => exact .cons hx h
    | succ i => exact ih i

theorem _root_.Argos.Spec.Each.set (h : Each R xs ys) (i : Nat) {x : α} {y : β} (hxy : R x y) : Each R (xs.set i x) (ys.set i y) := by
  induction h generalizing i with
  | nil => exact .nil
  | cons hx h ih =>
    cases i with
    | zero => exact .cons hxy h
    | succ i => exact .cons hx (ih i)

theorem _root_.Argos.Spec.Each.map {γ δ : Type} {S : γ → δ → Prop} {f : α → γ} {g : β → δ} (h : Each R xs ys) (hf : ∀ x y, R x y → S (f x) (g y)) :
    Each S (xs.map f) (ys.map g) := by
  induction h with
  | nil => exact .nil
  | cons hx _ ih => exact .cons (hf _ _ hx) ih

theorem _root_.Argos.Spec.Each.imp {S : α → β → Prop} (h : Each R xs ys) (hf : ∀ x y, R x y → S x y) : Each S xs ys := by
  induction h with
  | nil => exact .nil
  | cons hx _ ih => exact .cons (hf _ _ hx) ih

theorem _root_.Argos.Spec.Each.getLast? (h : Each R xs ys) : OptRel R xs.getLast? ys.getLast? := by
  have := h.get? (xs.length - 1)
  rw [List.getLast?_eq_getElem?, List.getLast?_eq_getElem?, ← h.length_eq]
  exact this

end

theorem findCommand_alike {cs cs' : List Command} (h : Each Alike cs cs') (name : Str) (ci : Bool) :
    OptRel Alike (findCommand cs name ci) (findCommand cs' name ci) := by
  induction h with
  | nil => exact .none
  | @cons x y xs ys hc _ ih =>
    have e : x.name = y.name := by cases hc; assumption
    simp only [findCommand, List.find?_cons, e]
    cases areEqual y.name name ci with
    | true => exact .some hc
    | false => exact ih

theorem lowerBound_each {α β γ : Type} {R : α → β → Prop} {less : α → γ → Bool} {less' : β → γ → Bool} (hl : ∀ a b, R a b → ∀ x, less a x = less' b x)
    {l : List α} {l' : List β} (h : Each R l l') (x : γ) : lowerBound less l x = lowerBound less' l' x := by
  have key : ∀ fuel first len, lowerBoundLoop less l x fuel first len = lowerBoundLoop less' l' x fuel first len := by
    intro fuel
    induction fuel with
    | zero => intro _ _; rfl
    | succ fuel ih =>
      intro first len
      simp only [lowerBoundLoop, ih]
      have g := h.get? (first + len / 2)
      revert g
      generalize l[first + len / 2]? = a
      generalize l'[first + len / 2]? = b
      intro g
      cases g with
      | none => rfl
      | some g => simp only [hl _ _ g]
  unfold lowerBound
  rw [key, h.length_eq]

theorem findOptionImpl_alike {S : OptData → OptData → Prop} {l l' : List (Str × OptData)} (h : Each (fun p p' => p.1 = p'.1 ∧ S p.2 p'.2) l l')
    (flag : Str) (ab ci : Bool) : OptRel S (findOptionImpl l flag ab ci) (findOptionImpl l' flag ab ci) := by
  have e := lowerBound_each (less := fun (a : Str × OptData) f => isLess a.1 f ci) (less' := fun (a : Str × OptData) f => isLess a.1 f ci)
    (fun a b hab x => by rw [hab.1]) h flag
  simp only [findOptionImpl, e]
  have k1 := h.get? (lowerBound (fun (a : Str × OptData) f => isLess a.1 f ci) l' flag)
  have k2 := h.get? (lowerBound (fun (a : Str × OptData) f => isLess a.1 f ci) l' flag + 1)
  revert k1 k2
  generalize l[lowerBound (fun (a : Str × OptData) f => isLess a.1 f ci) l' flag]? = a
  generalize l'[lowerBound (fun (a : Str × OptData) f => isLess a.1 f ci) l' flag]? = a'
  generalize l[lowerBound (fun (a : Str × OptData) f => isLess a.1 f ci) l' flag + 1]? = b
  generalize l'[lowerBound (fun (a : Str × OptData) f => isLess a.1 f ci) l' flag + 1]? = b'
  intro k1 k2
  cases k1 with
  | none => exact .none
  | some k1 =>
    simp only [k1.1]
    have hs := OptRel.some k1.2
    cases k2 with
    | none =>
      repeat' split
      all_goals first | exact hs | exact .none
    | some k2 =>
      simp only [k2.1]
      repeat' split
      all_goals first | exact hs | exact .none

theorem findOption_alike {S : OptData → OptData → Prop} (hS : ∀ o o', S o o' → o.argument = o'.argument) {l l' : List (Str × OptData)}
    (h : Each (fun p p' => p.1 = p'.1 ∧ S p.2 p'.2) l l') (flag : Str) (ab ci : Bool) : OptRel S (findOption l flag ab ci) (findOption l' flag ab ci) := by
  simp only [findOption]
  have k1 := findOptionImpl_alike h flag ab ci
  have k2 := findOptionImpl_alike h flag.dropLast ab ci
  revert k1 k2
  generalize findOptionImpl l flag ab ci = x
  generalize findOptionImpl l' flag ab ci = x'
  generalize findOptionImpl l flag.dropLast ab ci = y
  generalize findOptionImpl l' flag.dropLast ab ci = y'
  intro k1 k2
  cases k1 with
  | some k1 => exact .some k1
  | none =>
    simp only []
    split
    · cases k2 with
      | none => exact .none
      | some k2 =>
        simp only [hS _ _ k2]
        split
        · exact .none
        · exact .some k2
    · exact .none

/-! ## Counters -/

/-- The counters are the same except for numbers. -/
structure SameCounter (c c' : Command) (k k' : Counter) : Prop where
  counters : Each (fun p p' => p.1 = p'.1 ∧ SameArg c c' p.2 p'.2) k.counters k'.counters
  index : k.index = k'.index
  firstOptional : k.firstOptional = k'.firstOptional
  counter : k.counter = k'.counter

namespace Counter

variable {c c' : Command} {as as' : List ArgData}

theorem findFirstOptional_alike (h : Each (SameArg c c') as as') : findFirstOptional as = findFirstOptional as' := by
  have : ∀ i r, findFirstOptionalLoop as i r = findFirstOptionalLoop as' i r := by
    induction h with
    | nil => intro i r; rfl
    | cons h _ ih => intro i r; simp only [findFirstOptionalLoop, ih, h.minCount]
  exact this 0 0

theorem makeCountersLoop_alike (h : Each (SameArg c c') as as') (k i : Nat) :
    Each (fun p p' => p.1 = p'.1 ∧ SameArg c c' p.2 p'.2) (makeCountersLoop k as i) (makeCountersLoop k as' i) := by
  induction h generalizing i with
  | nil => exact .nil
  | cons h _ ih =>
    simp only [makeCountersLoop, h.minCount, h.maxCount]
    split
    · exact .cons ⟨rfl, h⟩ (.cons ⟨rfl, h⟩ (ih _))
    · exact .cons ⟨rfl, h⟩ (ih _)

theorem getMinMaxCount_alike (h : Each (SameArg c c') as as') : getMinMaxCount as = getMinMaxCount as' := by
  have : ∀ lo hi, minMaxLoop as lo hi = minMaxLoop as' lo hi := by
    induction h with
    | nil => intro _ _; rfl
    | cons h _ ih => intro _ _; simp only [minMaxLoop, h.minCount, h.maxCount, ih]
  exact this 0 0

theorem distribute_alike (h : Each (SameArg c c') as as') (n : Nat) :
    Each (fun p p' => p.1 = p'.1 ∧ SameArg c c' p.2 p'.2) (distribute as n) (distribute as' n) := by
  induction h generalizing n with
  | nil => exact .nil
  | cons h _ ih =>
    simp only [distribute, h.minCount, h.maxCount]
    repeat' split
    all_goals exact .cons ⟨rfl, h⟩ (ih _)

theorem ofArgs_alike (h : Each (SameArg c c') as as') : SameCounter c c' (ofArgs as) (ofArgs as') := by
  refine ⟨?_, rfl, findFirstOptional_alike h, rfl⟩
  simp only [ofArgs, findFirstOptional_alike h]
  exact makeCountersLoop_alike h _ _

theorem leadingZeros_alike {S : ArgData → ArgData → Prop} {l l' : List (Nat × ArgData)} (h : Each (fun p p' => p.1 = p'.1 ∧ S p.2 p'.2) l l') :
    leadingZeros l = leadingZeros l' := by
  induction h with
  | nil => rfl
  | @cons x y xs ys h _ ih =>
    obtain ⟨n, a⟩ := x
    obtain ⟨n', a'⟩ := y
    obtain ⟨h1, _⟩ := h
    simp only at h1
    subst h1
    cases n with
    | zero => simp only [leadingZeros, ih]
    | succ n => rfl

theorem nextArgument_alike {k k' : Counter} (h : SameCounter c c' k k') :
    OptRel (SameArg c c') k.nextArgument.1 k'.nextArgument.1 ∧ SameCounter c c' k.nextArgument.2 k'.nextArgument.2 := by
  have e := leadingZeros_alike (h.counters.drop k.index)
  have g := h.counters.get? (k.index + leadingZeros (k.counters.drop k.index))
  simp only [nextArgument]
  rw [← h.index, ← e]
  revert g
  generalize hx : k.counters[k.index + leadingZeros (k.counters.drop k.index)]? = x
  generalize hy : k'.counters[k.index + leadingZeros (k.counters.drop k.index)]? = y
  intro g
  cases g with
  | none => exact ⟨.none, h.counters, rfl, h.firstOptional, h.counter⟩
  | some g =>
    refine ⟨.some g.2, ?_, rfl, h.firstOptional, ?_⟩
    · exact h.counters.set _ ⟨by rw [g.1], g.2⟩
    · show k.counter + 1 = k'.counter + 1
      rw [h.counter]

theorem skip_alike {k k' : Counter} (h : SameCounter c c' k k') (n : Nat) : SameCounter c c' (skip k n) (skip k' n) := by
  induction n generalizing k k' with
  | zero => exact h
  | succ n ih =>
    have g := nextArgument_alike h
    revert g
    simp only [skip]
    generalize k.nextArgument = r
    generalize k'.nextArgument = r'
    obtain ⟨a, k1⟩ := r
    obtain ⟨a', k1'⟩ := r'
    rintro ⟨g1, g2⟩
    cases g1 with
    | none => exact g2
    | some _ => exact ih g2

theorem ofArgsN_alike (h : Each (SameArg c c') as as') (n i : Nat) : SameCounter c c' (ofArgsN as n i) (ofArgsN as' n i) := by
  have e : Each (fun p p' => p.1 = p'.1 ∧ SameArg c c' p.2 p'.2) (makeCountersN as n) (makeCountersN as' n) := by
    simp only [makeCountersN, getMinMaxCount_alike h]
    exact distribute_alike h _
  refine skip_alike ?_ i
  constructor
  · exact e
  · rfl
  · exact e.length_eq
  · rfl

theorem isComplete_alike {k k' : Counter} (h : SameCounter c c' k k') : k.isComplete = k'.isComplete := by
  have g := h.counters.get? k.index
  simp only [isComplete, ← h.index, ← h.firstOptional]
  revert g
  generalize k.counters[k.index]? = x
  generalize k'.counters[k.index]? = y
  intro g
  cases g with
  | none => rfl
  | some g => simp only [Option.map_some, g.1]

theorem requiresArgumentCount_alike (h : Each (SameArg c c') as as') : requiresArgumentCount as = requiresArgumentCount as' := by
  have : ∀ b, requiresArgumentCountLoop as b = requiresArgumentCountLoop as' b := by
    induction h with
    | nil => intro _; rfl
    | cons h _ ih => intro b; simp only [requiresArgumentCountLoop, h.minCount, h.maxCount, ih]
  exact this true

end Counter

end Argos
