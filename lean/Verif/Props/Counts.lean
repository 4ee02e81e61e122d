import Verif.Proofs.Counter
import Verif.Model.Handles

/-! # C13, C14, C15: positional argument counts -/

set_option synthInstance.maxSize 1000

namespace Argos
open Spec Counter

/-- A(1..2) B(0..1) C(1..3): an argument list for which the values ahead must be counted. -/
def demoArgs : List ArgData :=
  [{ name := b!"A", minCount := 1, maxCount := 2 }, { name := b!"B", minCount := 0, maxCount := 1 },
   { name := b!"C", minCount := 1, maxCount := 3 }]

/-- FILE(1) REST(0..5): an argument list that needs no counting. -/
def demoArgs2 : List ArgData :=
  [{ name := b!"FILE" }, { name := b!"REST", minCount := 0, maxCount := 5 }]

/-- **C13**: when `n` is in range, the `n` calls of `next_argument` made for `n` values all yield an
argument, and the arguments they yield are those of an allotment: in declaration order, each within its
counts, all values used, surplus values to the earliest arguments. `SIZE_MAX` bounds the number of
values, as it does in any process. -/
theorem C13_distribution (args : List ArgData) (hmm : ∀ a ∈ args, a.minCount ≤ a.maxCount) (n : Nat)
    (hn : n ≤ sizeMax) (h1 : minTotal args ≤ n) (h2 : n ≤ maxTotal args) :
    ∃ ks, IsAllotment args n ks ∧ (hand (forCount args n) n).1 = (handedOut args ks).map some := by
  obtain ⟨cs, fo, hi, ht, hf, hle, _⟩ := forCount_inv args hmm n hn
  obtain ⟨e, _⟩ := hi.hand n (by have := hle h2; omega)
  rw [e, List.drop_zero]
  cases hr : requiresArgumentCount args with
  | true =>
    obtain ⟨rfl, _⟩ := ht hr
    obtain ⟨a1, a2⟩ := makeCountersN_allot args hmm n hn h1 h2
    refine ⟨_, a1, ?_⟩
    have htot : (expand (makeCountersN args n)).length = n := by
      rw [expand_length, total_eq_sum, a1.total]
    rw [List.take_of_length_le (by omega), a2]
  | false =>
    obtain ⟨rfl, _⟩ := hf hr
    obtain ⟨ks, a1, a2⟩ := ofArgs_allot args hmm hr n h1 h2
    exact ⟨ks, a1, by rw [a2]⟩

example : minTotal demoArgs ≤ 4 ∧ 4 ≤ maxTotal demoArgs ∧ requiresArgumentCount demoArgs = true ∧
    (hand (forCount demoArgs 4) 4).1.map (·.map (·.name)) =
      [some b!"A", some b!"A", some b!"B", some b!"C"] := by decide
example : minTotal demoArgs2 ≤ 3 ∧ 3 ≤ maxTotal demoArgs2 ∧ requiresArgumentCount demoArgs2 = false ∧
    (hand (forCount demoArgs2 3) 3).1.map (·.map (·.name)) =
      [some b!"FILE", some b!"REST", some b!"REST"] := by decide

theorem sum_lt_exists (as : List ArgData) (ks ks' : List Nat) (h1 : ks.length = as.length)
    (h2 : ks'.length = as.length) (h : ks'.sum < ks.sum) :
    ∃ (j : Nat) (hj : j < as.length), ks'[j] < ks[j] := by
  induction as generalizing ks ks' with
  | nil =>
    have : ks = [] := List.eq_nil_of_length_eq_zero h1
    subst this
    simp at h
  | cons a as ih =>
    match ks, ks', h1, h2 with
    | k :: t, k' :: t', h1, h2 =>
      simp only [List.sum_cons] at h
      simp only [List.length_cons, Nat.add_right_cancel_iff] at h1 h2
      by_cases hk : k' < k
      · exact ⟨0, by simp, hk⟩
      · obtain ⟨j, hj, hlt⟩ := ih t t' h1 h2 (by omega)
        exact ⟨j + 1, by simpa using hj, hlt⟩

theorem Spec.IsAllotment.tail {a as n k t} (h : IsAllotment (a :: as) n (k :: t)) :
    IsAllotment as (n - k) t := by
  obtain ⟨l1, l2, l3, l4⟩ := h
  refine ⟨by simpa using l1, by simp at l2; omega, ?_, ?_⟩
  · intro i hi hi'
    exact l3 (i + 1) (by simpa using hi) (by simpa using hi')
  · intro i j hj hj' hij hlt
    exact l4 (i + 1) (j + 1) (by simpa using hj) (by simpa using hj') (by omega) hlt

/-- **C13**: the allotment is determined by the declarations and the number of values. -/
theorem C13_unique (args : List ArgData) (n : Nat) (ks ks' : List Nat) (h : IsAllotment args n ks)
    (h' : IsAllotment args n ks') : ks = ks' := by
  induction args generalizing n ks ks' with
  | nil =>
    rw [List.eq_nil_of_length_eq_zero h.length, List.eq_nil_of_length_eq_zero h'.length]
  | cons a as ih =>
    match ks, ks', h.length, h'.length with
    | k :: t, k' :: t', l, l' =>
      simp only [List.length_cons, Nat.add_right_cancel_iff] at l l'
      have key : ∀ (k k' : Nat) (t t' : List Nat), IsAllotment (a :: as) n (k :: t) →
          IsAllotment (a :: as) n (k' :: t') → t.length = as.length → t'.length = as.length → ¬ k < k' := by
        intro k k' t t' h h' l l' hlt
        have e1 := h.total
        have e2 := h'.total
        simp only [List.sum_cons] at e1 e2
        obtain ⟨j, hj, hjlt⟩ := sum_lt_exists as t t' l l' (by omega)
        have w := h'.within (j + 1) (by simpa using hj) (by simp; omega)
        simp only [List.getElem_cons_succ] at w
        have e := h.earliest 0 (j + 1) (by simpa using hj) (by simp; omega) (by omega)
          (by simp only [List.getElem_cons_succ]; omega)
        simp only [List.getElem_cons_zero] at e
        have w0 := (h'.within 0 (by simp) (by simp)).2
        simp only [List.getElem_cons_zero] at w0
        omega
      have hk : k = k' := by
        have a1 := key k k' t t' h h' l l'
        have a2 := key k' k t' t h' h l' l
        omega
      subst hk
      rw [ih _ t t' h.tail h'.tail]

example : IsAllotment demoArgs 4 [2, 1, 1] := by
  have := distribute_allot demoArgs (by decide) 2 (by decide)
  exact this

/-- **C14**: `process_argument` finds no argument for one of the `n` values ("too many arguments")
exactly when `n` exceeds the sum of the maximum counts. -/
theorem C14_too_many (args : List ArgData) (hmm : ∀ a ∈ args, a.minCount ≤ a.maxCount) (n : Nat)
    (hn : n ≤ sizeMax) : none ∈ (hand (forCount args n) n).1 ↔ maxTotal args < n := by
  obtain ⟨cs, fo, hi, _, _, hle, hgt⟩ := forCount_inv args hmm n hn
  rw [hi.hand_none n]
  constructor
  · intro h
    apply Classical.byContradiction
    intro hc
    have := hle (by omega)
    omega
  · intro h
    rw [hgt h]; omega

example : maxTotal demoArgs < 7 ∧ none ∈ (hand (forCount demoArgs 7) 7).1 := by decide

/-- **C14** (partial: the second disjunct of `hlast` excludes lists that need counting in which no value
is left for the last argument; `C14_violated` shows that the claim fails there): with at most as many
values as the maximum counts, `is_complete` after the last value ("not too few arguments") holds
exactly when there are at least as many values as the minimum counts. -/
theorem C14_too_few_partial (args : List ArgData) (hmm : ∀ a ∈ args, a.minCount ≤ a.maxCount) (n : Nat)
    (hn : n ≤ sizeMax) (h2 : n ≤ maxTotal args)
    (hlast : requiresArgumentCount args = false ∨
      ∀ ks, IsAllotment args n ks → ∃ k, ks.getLast? = some k ∧ 0 < k) :
    (hand (forCount args n) n).2.isComplete = true ↔ minTotal args ≤ n := by
  obtain ⟨cs, fo, hi, ht, hf, hle, _⟩ := forCount_inv args hmm n hn
  obtain ⟨_, hinv⟩ := hi.hand n (by have := hle h2; omega)
  rw [Nat.zero_add] at hinv
  cases hr : requiresArgumentCount args with
  | false =>
    obtain ⟨rfl, rfl⟩ := hf hr
    obtain ⟨f1, f2, f3⟩ := ofArgs_complete_facts args hmm hr
    rw [hinv.complete f1 f2, f3]
  | true =>
    obtain ⟨rfl, rfl⟩ := ht hr
    rw [hr] at hlast
    simp only [Bool.true_eq_false, false_or] at hlast
    have hmt := minTotal_le_maxTotal args hmm
    by_cases h1 : minTotal args ≤ n
    · simp only [h1, iff_true]
      obtain ⟨a1, _⟩ := makeCountersN_allot args hmm n hn h1 h2
      obtain ⟨k, k1, k2⟩ := hlast _ a1
      rw [hinv.complete (Nat.le_refl _) ?_]
      · rw [List.take_of_length_le (Nat.le_refl _), total_eq_sum, a1.total]
        exact Nat.le_refl _
      · intro h h0
        have : (makeCountersN args n).getLast? = some (makeCountersN args n)[(makeCountersN args n).length - 1] := by
          rw [List.getLast?_eq_getElem?, List.getElem?_eq_getElem h]
        rw [List.getLast?_map, this] at k1
        simp only [Option.map_some, Option.some.injEq] at k1
        omega
    · simp only [h1, iff_false, Bool.not_eq_true]
      -- the counters are the minimum counts
      have hcs : total (makeCountersN args n) = minTotal args := by
        simp only [makeCountersN, getMinMaxCount_eq]
        rw [if_pos (by omega), distribute_total args hmm 0 (by omega)]
        omega
      by_cases hz : ∃ h : 0 < (makeCountersN args n).length, (makeCountersN args n)[(makeCountersN args n).length - 1].1 = 0
      · obtain ⟨hz0, hz⟩ := hz
        by_cases hlen : 2 ≤ (makeCountersN args n).length
        · exact hinv.incomplete hlen hz
        · exfalso
          have h1' : (makeCountersN args n).length = 1 := by omega
          match hm : makeCountersN args n, h1' with
          | [p], _ =>
            simp only [hm] at hz hcs
            simp at hz
            rw [total_cons, hz] at hcs
            have : total ([] : List (Nat × ArgData)) = 0 := rfl
            omega
      · have := (hinv.complete (Nat.le_refl _) (by
          intro h h0
          apply Nat.pos_of_ne_zero
          intro hc
          exact hz ⟨by omega, hc⟩)).mp
        cases hcomp : (hand (forCount args n) n).2.isComplete with
        | false => rfl
        | true =>
          have := this hcomp
          rw [List.take_of_length_le (Nat.le_refl _), hcs] at this
          omega

example : requiresArgumentCount demoArgs = true ∧ minTotal demoArgs = 2 ∧
    (hand (forCount demoArgs 2) 2).2.isComplete = true ∧
    (hand (forCount demoArgs 1) 1).2.isComplete = false := by decide

/-- **C14**: too few values are always reported: with fewer values than the minimum counts,
`is_complete` is false at the end. -/
theorem C14_too_few_reported (args : List ArgData) (hmm : ∀ a ∈ args, a.minCount ≤ a.maxCount) (n : Nat)
    (hn : n ≤ sizeMax) (h1 : n < minTotal args) : (hand (forCount args n) n).2.isComplete = false := by
  have hmt := minTotal_le_maxTotal args hmm
  have key := (C14_too_few_partial args hmm n hn (by omega) (by
    right
    intro ks hks
    exfalso
    have : ∀ (as : List ArgData) (ks : List Nat), ks.length = as.length →
        (∀ (i : Nat) (h : i < as.length) (h' : i < ks.length), as[i].minCount ≤ ks[i]) → minTotal as ≤ ks.sum := by
      intro as
      induction as with
      | nil => intro ks _ _; simp [minTotal]
      | cons a as ih =>
        intro ks hl hw
        match ks, hl with
        | k :: t, hl =>
          rw [minTotal_cons, List.sum_cons]
          have h0 := hw 0 (by simp) (by simp)
          have h3 := ih t (by simpa using hl) (fun i h h' => hw (i + 1) (by simpa using h) (by simpa using h'))
          simp only [List.getElem_cons_zero] at h0
          omega
    have := this args ks hks.length (fun i h h' => (hks.within i h h').1)
    rw [hks.total] at this
    omega)).mp
  cases hc : (hand (forCount args n) n).2.isComplete with
  | false => rfl
  | true => have := key hc; omega

example : 1 < minTotal demoArgs ∧ (hand (forCount demoArgs 1) 1).2.isComplete = false := by decide

/-- In an allotment, the last argument gets a value exactly if it is mandatory or the others have all they can take. -/
theorem allotment_last {args : List ArgData} {n : Nat} {ks : List Nat} (h : IsAllotment args n ks) (hne : args ≠ []) :
    (∃ k, ks.getLast? = some k ∧ 0 < k) ↔ LastServed args n := by
  obtain ⟨pre, a, rfl⟩ : ∃ pre a, args = pre ++ [a] := ⟨args.dropLast, args.getLast hne, (List.dropLast_concat_getLast hne).symm⟩
  have hkne : ks ≠ [] := by
    intro e
    have := h.length
    rw [e] at this
    simp at this
  obtain ⟨kpre, k, rfl⟩ : ∃ kpre k, ks = kpre ++ [k] := ⟨ks.dropLast, ks.getLast hkne, (List.dropLast_concat_getLast hkne).symm⟩
  have hl : kpre.length = pre.length := by simpa using h.length
  have ht : kpre.sum + k = n := by simpa using h.total
  have hlast : a.minCount ≤ k := by
    have := (h.within pre.length (by simp) (by simp [hl])).1
    simpa [hl] using this
  have hw : ∀ (i : Nat) (h1 : i < pre.length) (h2 : i < kpre.length), kpre[i] ≤ pre[i].maxCount := by
    intro i h1 h2
    have := (h.within i (by simp; omega) (by simp; omega)).2
    rwa [List.getElem_append_left h1, List.getElem_append_left h2] at this
  have hsum : ∀ (as : List ArgData) (js : List Nat), js.length = as.length →
      (∀ (i : Nat) (h1 : i < as.length) (h2 : i < js.length), js[i] ≤ as[i].maxCount) → js.sum ≤ maxTotal as := by
    intro as
    induction as with
    | nil => intro js hj _; rw [List.eq_nil_of_length_eq_zero hj]; simp [maxTotal]
    | cons b as ih =>
      intro js hj hjs
      match js, hj with
      | j :: t, hj =>
        have h0 := hjs 0 (by simp) (by simp)
        have h1 := ih t (by simpa using hj) (fun i h1 h2 => hjs (i + 1) (by simpa using h1) (by simpa using h2))
        simp only [List.getElem_cons_zero] at h0
        simp only [maxTotal, List.map_cons, List.sum_cons] at h1 ⊢
        omega
  unfold LastServed
  simp only [List.getLast?_append, List.getLast?_singleton, Option.some_or, Option.some.injEq, exists_eq_left', List.dropLast_concat]
  constructor
  · intro hk
    by_cases hm : 0 < a.minCount
    · exact Or.inl hm
    · right
      have hfull : ∀ (as : List ArgData) (js : List Nat), js.length = as.length →
          (∀ (i : Nat) (h1 : i < as.length) (h2 : i < js.length), js[i] = as[i].maxCount) → js.sum = maxTotal as := by
        intro as
        induction as with
        | nil => intro js hj _; rw [List.eq_nil_of_length_eq_zero hj]; simp [maxTotal]
        | cons b as ih =>
          intro js hj hjs
          match js, hj with
          | j :: t, hj =>
            have h0 := hjs 0 (by simp) (by simp)
            have h1 := ih t (by simpa using hj) (fun i h1 h2 => hjs (i + 1) (by simpa using h1) (by simpa using h2))
            simp only [List.getElem_cons_zero] at h0
            simp only [maxTotal, List.map_cons, List.sum_cons] at h1 ⊢
            omega
      have := hfull pre kpre hl (by
        intro i h1 h2
        have := h.earliest i pre.length (by simp) (by simp [hl]) h1 (by simp [hl]; omega)
        rwa [List.getElem_append_left h1, List.getElem_append_left h2] at this)
      omega
  · rintro (hm | hm)
    · omega
    · have := hsum pre kpre hl hw
      omega

theorem requires_iff (args : List ArgData) : requiresArgumentCount args = true ↔ VariableBeforeLast args := by
  constructor
  · have key : ∀ (args : List ArgData), requiresArgumentCountLoop args true = true →
        ∃ before a after, args = before ++ a :: after ∧ after ≠ [] ∧ a.minCount ≠ a.maxCount := by
      intro args
      induction args with
      | nil => intro h; simp [requiresArgumentCountLoop] at h
      | cons a as ih =>
        intro h
        simp only [requiresArgumentCountLoop, Bool.not_true, Bool.false_eq_true, if_false] at h
        by_cases he : a.minCount = a.maxCount
        · rw [decide_eq_true he] at h
          obtain ⟨b, x, y, e1, e2, e3⟩ := ih h
          exact ⟨a :: b, x, y, by rw [e1]; rfl, e2, e3⟩
        · cases as with
          | nil => simp [requiresArgumentCountLoop] at h
          | cons a' as => exact ⟨[], a, a' :: as, rfl, by simp, he⟩
    exact key _
  · rintro ⟨before, a, after, e, hne, hm⟩
    cases hr : requiresArgumentCount args with
    | true => rfl
    | false =>
      cases after with
      | nil => exact absurd rfl hne
      | cons b post => exact absurd (requires_false args hr before a b post e) hm

/-- **C14**, exactly: `n` values are accepted (each has an argument, and the counter is complete after them) if and only
if there are at least as many as the minimum counts and at most as many as the maximum counts, and, when an argument that isn't the last
one has a variable count, there is a value left for the last argument or it is mandatory. -/
theorem C14_exact (args : List ArgData) (hmm : ∀ a ∈ args, a.minCount ≤ a.maxCount) (n : Nat) (hn : n ≤ sizeMax) :
    (none ∉ (hand (forCount args n) n).1 ∧ (hand (forCount args n) n).2.isComplete = true) ↔
      minTotal args ≤ n ∧ n ≤ maxTotal args ∧ (VariableBeforeLast args → LastServed args n) := by
  rw [C14_too_many args hmm n hn, Nat.not_lt, ← requires_iff]
  by_cases h2 : n ≤ maxTotal args
  rotate_left
  · exact ⟨fun h => absurd h.1 h2, fun h => absurd h.2.1 h2⟩
  by_cases h1 : minTotal args ≤ n
  rotate_left
  · have := C14_too_few_reported args hmm n hn (by omega)
    rw [this]
    exact ⟨fun h => by simp at h, fun h => absurd h.1 h1⟩
  simp only [h1, h2, true_and]
  cases hr : requiresArgumentCount args with
  | false =>
    rw [C14_too_few_partial args hmm n hn h2 (Or.inl hr)]
    simp [h1]
  | true =>
    have hne : args ≠ [] := by rintro rfl; simp [requiresArgumentCount, requiresArgumentCountLoop] at hr
    obtain ⟨a1, a2⟩ := makeCountersN_allot args hmm n hn h1 h2
    rw [← allotment_last a1 hne]
    simp only [true_implies]
    constructor
    · intro hc
      obtain ⟨cs, fo, hi, ht, _, hle, _⟩ := forCount_inv args hmm n hn
      obtain ⟨_, hinv⟩ := hi.hand n (by have := hle h2; omega)
      rw [Nat.zero_add] at hinv
      obtain ⟨rfl, rfl⟩ := ht hr
      have hlen2 : 2 ≤ args.length := by
        obtain ⟨b, a, t, e, ht, _⟩ := (requires_iff args).mp hr
        rw [e]
        have := List.length_pos_iff.mpr ht
        simp only [List.length_append, List.length_cons]
        omega
      have hlen : (makeCountersN args n).length = args.length := by simpa using a1.length
      have hg : (makeCountersN args n).getLast? = some ((makeCountersN args n)[(makeCountersN args n).length - 1]'(by omega)) := by
        rw [List.getLast?_eq_getElem?, List.getElem?_eq_getElem]
      rw [List.getLast?_map, hg]
      refine ⟨_, rfl, Nat.pos_of_ne_zero fun hz => ?_⟩
      rw [hinv.incomplete (by omega) hz] at hc
      simp at hc
    · intro hl
      refine (C14_too_few_partial args hmm n hn h2 (Or.inr ?_)).mpr h1
      intro ks hks
      rwa [C13_unique args n ks _ hks a1]

-- A(1..2) B(0..1): two values are refused although B is optional; three values are accepted.
example : let args : List ArgData := [{ name := b!"A", minCount := 1, maxCount := 2 }, { name := b!"B", minCount := 0, maxCount := 1 }]
    VariableBeforeLast args ∧ ¬ LastServed args 2 ∧ LastServed args 3 ∧ (hand (forCount args 2) 2).2.isComplete = false ∧
      (hand (forCount args 3) 3).2.isComplete = true := by
  refine ⟨⟨[], _, _, rfl, by simp, by decide⟩, ?_, Or.inr (by decide), by decide, by decide⟩
  rintro (⟨a, h, h'⟩ | h)
  · simp only [List.getLast?_cons_cons, List.getLast?_singleton, Option.some.injEq] at h
    subst h
    exact absurd h' (by decide)
  · exact absurd h (by decide)

/-- **C14 is violated**: two arguments A(1..2) and B(0..1) accept one value, but with one value
`is_complete` is false, and parsing reports "Too few arguments". The cause: the counters of a known number
of values are checked as if the last of them had to be used. -/
theorem C14_violated :
    ∃ (args : List ArgData) (n : Nat), (∀ a ∈ args, a.minCount ≤ a.maxCount ∧ 0 < a.maxCount) ∧
      minTotal args ≤ n ∧ n ≤ maxTotal args ∧ (hand (forCount args n) n).2.isComplete = false :=
  ⟨[{ name := b!"A", minCount := 1, maxCount := 2 }, { name := b!"B", minCount := 0, maxCount := 1 }], 1,
    by decide⟩

/-! ### C15 -/

/-- **C15**: whatever setters are called on an `Argument`, in whatever order and with whatever
parameters, its minimum count does not exceed its maximum count and the maximum is not 0. -/
theorem C15_counts (name : Str) (cs : List ArgCall) (a : ArgData)
    (h : ArgHandle.calls (some { name }) cs = some a) : a.minCount ≤ a.maxCount ∧ 0 < a.maxCount := by
  have key : ∀ (cs : List ArgCall) (b : ArgData), (b.minCount ≤ b.maxCount ∧ 0 < b.maxCount) →
      ∀ a, ArgHandle.calls (some b) cs = some a → a.minCount ≤ a.maxCount ∧ 0 < a.maxCount := by
    intro cs
    induction cs with
    | nil => intro b hb a h; simp only [ArgHandle.calls, Option.some.injEq] at h; subst h; exact hb
    | cons c cs ih =>
      intro b hb a h
      have hstep : ∃ b', (ArgHandle.call (some b) c).2 = some b' ∧ b'.minCount ≤ b'.maxCount ∧ 0 < b'.maxCount := by
        cases c <;> simp only [ArgHandle.call]
        case count n => split <;> exact ⟨_, rfl, by (try simp only); omega⟩
        case countRange lo hi =>
          split
          · exact ⟨_, rfl, hb⟩
          · split
            · exact ⟨_, rfl, hb⟩
            · exact ⟨_, rfl, by (try simp only); omega⟩
        case optional v =>
          refine ⟨_, rfl, ?_⟩
          unfold ArgData.setOptional
          split
          · (try simp only); omega
          · split <;> (try simp only) <;> omega
        case mandatory v =>
          refine ⟨_, rfl, ?_⟩
          unfold ArgData.setOptional
          split
          · (try simp only); omega
          · split <;> (try simp only) <;> omega
        all_goals exact ⟨_, rfl, hb⟩
      obtain ⟨b', e, hb'⟩ := hstep
      simp only [ArgHandle.calls, e] at h
      exact ih b' hb' a h
  exact key cs { name } (by simp) a h

example : ArgHandle.calls (some { name := b!"A" })
    [.countRange 2 5, .optional true, .count 0, .mandatory true, .countRange 3 1] =
    some { name := b!"A", minCount := 1, maxCount := 5 } := by decide

/-- **C15**: a rejected call leaves the argument unchanged. -/
theorem C15_rejected (h : ArgHandle) (c : ArgCall) (hr : (h.call c).1 ≠ .ok ()) : (h.call c).2 = h := by
  cases h with
  | none => cases c <;> simp only [ArgHandle.call] <;> (repeat' split) <;> rfl
  | some a =>
    cases c <;> simp only [ArgHandle.call] at hr ⊢
    case count n => split <;> simp_all
    case countRange lo hi => split <;> simp_all; split <;> simp_all
    all_goals exact absurd rfl hr

example : (ArgHandle.call (some { name := b!"A" }) (.countRange 3 1)).1 ≠ .ok () := by decide

/-- **C15**: which calls are rejected, and what an accepted call does to the counts. -/
theorem C15_effect (a : ArgData) (c : ArgCall) :
    (∀ n, c = .count n → ((ArgHandle.call (some a) c).1 = .ok () ↔ 0 < n) ∧
      (0 < n → (ArgHandle.call (some a) c).2 = some { a with minCount := n, maxCount := n })) ∧
    (∀ lo hi, c = .countRange lo hi → ((ArgHandle.call (some a) c).1 = .ok () ↔ lo ≤ hi ∧ 0 < hi) ∧
      (lo ≤ hi → 0 < hi → (ArgHandle.call (some a) c).2 = some { a with minCount := lo, maxCount := hi })) ∧
    (∀ b, (c = .optional b ∨ c = .mandatory (!b)) → (ArgHandle.call (some a) c).1 = .ok () ∧
      ∃ a', (ArgHandle.call (some a) c).2 = some a' ∧ a'.maxCount = a.maxCount ∧
        (b = true → a'.minCount = 0) ∧ (b = false → a'.minCount = max 1 a.minCount)) := by
  refine ⟨?_, ?_, ?_⟩
  · rintro n rfl
    by_cases h : n = 0
    · subst h; simp [ArgHandle.call]
    · simp [ArgHandle.call, h]; omega
  · rintro lo hi rfl
    by_cases h : hi = 0
    · subst h; simp [ArgHandle.call]
    · by_cases h' : hi < lo
      · simp [ArgHandle.call, h, h']; omega
      · simp [ArgHandle.call, h, h']; omega
  · intro b hb
    have e : ArgHandle.call (some a) c = (.ok (), some (a.setOptional b)) := by
      rcases hb with rfl | rfl
      · rfl
      · simp only [ArgHandle.call, Bool.not_not]
    rw [e]
    refine ⟨rfl, _, rfl, ?_⟩
    unfold ArgData.setOptional
    cases b
    · simp only [Bool.false_eq_true, if_false]
      split
      · rename_i h; simp [h]
      · refine ⟨rfl, by simp, ?_⟩; intro _; omega
    · simp

example : (ArgHandle.call (some { name := b!"A", minCount := 0, maxCount := 4 }) (.mandatory true)).2 =
    some { name := b!"A", minCount := 1, maxCount := 4 } := by decide

end Argos
