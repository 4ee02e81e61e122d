import Verif.Model.Counter
import Verif.Spec.Counts

/-! # The argument counters -/

namespace Argos
open Spec

namespace Counter

/-- `n` calls of `next_argument`. -/
def hand : Counter → Nat → List (Option ArgData) × Counter
  | c, 0 => ([], c)
  | c, n + 1 =>
    let (a, c') := c.nextArgument
    let (as, c'') := hand c' n
    (a :: as, c'')

/-- What the counters have to give. -/
def expand (cs : List (Nat × ArgData)) : List ArgData := cs.flatMap fun p => List.replicate p.1 p.2

/-- The total of counters. -/
def total (cs : List (Nat × ArgData)) : Nat := (cs.map (·.1)).sum

theorem expand_length (cs : List (Nat × ArgData)) : (expand cs).length = total cs := by
  induction cs with
  | nil => rfl
  | cons p cs ih => simp only [expand, total] at *; simp [ih]

theorem expand_append (a b : List (Nat × ArgData)) : expand (a ++ b) = expand a ++ expand b := by
  simp [expand]

theorem total_append (a b : List (Nat × ArgData)) : total (a ++ b) = total a + total b := by
  simp [total]

theorem total_cons (p : Nat × ArgData) (b : List (Nat × ArgData)) : total (p :: b) = p.1 + total b := by
  simp [total]

theorem total_zero (l : List (Nat × ArgData)) (h : ∀ p ∈ l, p.1 = 0) : total l = 0 := by
  induction l with
  | nil => rfl
  | cons p l ih => rw [total_cons, h p (by simp), ih (fun q hq => h q (by simp [hq]))]

/-- The state of a counter made from `cs` after `k` values were handed out. -/
structure Inv (cs : List (Nat × ArgData)) (fo k : Nat) (c : Counter) : Prop where
  fo : c.firstOptional = fo
  counter : c.counter = k
  state : (cs = [] ∧ c.counters = [] ∧ c.index = 0 ∧ k = 0) ∨
    ∃ pre n a rest pre' r, cs = pre ++ (n, a) :: rest ∧ c.index = pre.length ∧
      c.counters = pre' ++ (r, a) :: rest ∧ pre'.length = pre.length ∧ r ≤ n ∧
      k = total pre + (n - r) ∧ (k = 0 → pre = []) ∧ (0 < k → r < n)

theorem Inv.start (cs : List (Nat × ArgData)) (fo : Nat) :
    Inv cs fo 0 { counters := cs, firstOptional := fo } := by
  refine ⟨rfl, rfl, ?_⟩
  cases cs with
  | nil => exact Or.inl ⟨rfl, rfl, rfl, rfl⟩
  | cons p cs =>
    exact Or.inr ⟨[], p.1, p.2, cs, [], p.1, rfl, rfl, rfl, rfl, Nat.le_refl _, by simp [total], fun _ => rfl, by simp⟩

theorem leadingZeros_cases (l : List (Nat × ArgData)) :
    ((∀ p ∈ l, p.1 = 0) ∧ leadingZeros l = l.length) ∨
    ∃ zs m b l', l = zs ++ (m + 1, b) :: l' ∧ (∀ p ∈ zs, p.1 = 0) ∧ leadingZeros l = zs.length := by
  induction l with
  | nil => exact Or.inl ⟨by simp, rfl⟩
  | cons p l ih =>
    obtain ⟨n, a⟩ := p
    cases n with
    | succ m => exact Or.inr ⟨[], m, a, l, rfl, by simp, rfl⟩
    | zero =>
      rcases ih with ⟨h1, h2⟩ | ⟨zs, m, b, l', rfl, h1, h2⟩
      · exact Or.inl ⟨by simpa using h1, by simp [leadingZeros, h2]⟩
      · exact Or.inr ⟨(0, a) :: zs, m, b, l', rfl, by simpa using h1, by simp [leadingZeros, h2]⟩

theorem Inv.le {cs fo k c} (h : Inv cs fo k c) : k ≤ total cs := by
  rcases h.state with ⟨_, _, _, rfl⟩ | ⟨pre, n, a, rest, pre', r, rfl, _, _, _, _, rfl, _, _⟩
  · omega
  · rw [total_append, total_cons]; simp only; omega

theorem Inv.next_some {cs fo k c} (h : Inv cs fo k c) (hk : k < total cs) :
    ∃ a c', c.nextArgument = (some a, c') ∧ (expand cs)[k]? = some a ∧ Inv cs fo (k + 1) c' := by
  obtain ⟨hfo, hcnt, hs⟩ := h
  rcases hs with ⟨rfl, _, _, rfl⟩ | ⟨pre, n, a, rest, pre', r, rfl, hi, hc, hl, hr, hk', hk0, hk1⟩
  · simp [total] at hk
  · obtain ⟨counters, index, firstOptional, counter⟩ := c
    simp only at hfo hcnt hi hc
    subst hfo hcnt hi hc
    have hdrop : (pre' ++ (r, a) :: rest).drop pre.length = (r, a) :: rest := by
      rw [← hl, List.drop_left']; rfl
    rw [total_append, total_cons] at hk
    simp only at hk
    cases r with
    | succ m =>
      have hz : leadingZeros ((m + 1, a) :: rest) = 0 := rfl
      have hget : (pre' ++ (m + 1, a) :: rest)[pre.length]? = some (m + 1, a) := by
        rw [← hl]; simp
      have hn : nextArgument { counters := pre' ++ (m + 1, a) :: rest, index := pre.length, firstOptional := firstOptional, counter := counter } =
          (some a, { counters := (pre' ++ (m + 1, a) :: rest).set pre.length (m, a), index := pre.length, firstOptional := firstOptional, counter := counter + 1 }) := by
        simp only [nextArgument, hdrop, hz, Nat.add_zero, hget]
        rfl
      refine ⟨a, _, hn, ?_, ?_⟩
      · rw [expand_append]
        have e1 : expand ((n, a) :: rest) = List.replicate n a ++ expand rest := rfl
        rw [e1, hk', List.getElem?_append_right (by rw [expand_length]; omega), expand_length]
        rw [List.getElem?_append_left (by simp; omega), List.getElem?_replicate, if_pos (by omega)]
      · refine ⟨rfl, rfl, Or.inr ⟨pre, n, a, rest, pre', m, rfl, rfl, ?_, hl, by omega, ?_, ?_, ?_⟩⟩
        · simp [← hl]
        · omega
        · intro h; omega
        · intro _; omega
    | zero =>
      rcases leadingZeros_cases ((0, a) :: rest) with ⟨h1, h2⟩ | ⟨zs, m, b, rest', e, h1, h2⟩
      · exfalso
        have := total_zero rest (fun p hp => h1 p (by simp [hp]))
        omega
      · cases zs with
        | nil => simp at e
        | cons z zs =>
          simp only [List.cons_append, List.cons.injEq] at e
          obtain ⟨rfl, rfl⟩ := e
          have hzs : total zs = 0 := total_zero zs (fun p hp => h1 p (by simp [hp]))
          have hget : (pre' ++ (0, a) :: (zs ++ (m + 1, b) :: rest'))[pre.length + ((0, a) :: zs).length]? =
              some (m + 1, b) := by
            rw [← hl, List.getElem?_append_right (by omega)]
            simp
          have hn : nextArgument { counters := pre' ++ (0, a) :: (zs ++ (m + 1, b) :: rest'), index := pre.length, firstOptional := firstOptional, counter := counter } =
              (some b, { counters := (pre' ++ (0, a) :: (zs ++ (m + 1, b) :: rest')).set (pre.length + ((0, a) :: zs).length) (m, b), index := pre.length + ((0, a) :: zs).length, firstOptional := firstOptional, counter := counter + 1 }) := by
            simp only [nextArgument, hdrop, h2, hget]
            rfl
          refine ⟨b, _, hn, ?_, ?_⟩
          · have e2 : pre ++ (n, a) :: (zs ++ (m + 1, b) :: rest') =
                (pre ++ (n, a) :: zs) ++ (m + 1, b) :: rest' := by simp
            rw [e2, expand_append, List.getElem?_append_right]
            · rw [expand_length, total_append, total_cons, hzs]
              simp only [expand, List.flatMap_cons]
              rw [hk']
              simp [List.replicate_succ]
            · rw [expand_length, total_append, total_cons, hzs, hk']
              simp
          · refine ⟨rfl, rfl, Or.inr ⟨pre ++ (n, a) :: zs, m + 1, b, rest', pre' ++ (0, a) :: zs, m, ?_, ?_, ?_, ?_, by omega, ?_, ?_, ?_⟩⟩
            · simp
            · simp
            · have e3 : pre' ++ (0, a) :: (zs ++ (m + 1, b) :: rest') =
                  (pre' ++ (0, a) :: zs) ++ (m + 1, b) :: rest' := by simp
              have e4 : pre.length + ((0, a) :: zs).length = (pre' ++ (0, a) :: zs).length := by
                simp [hl]
              rw [e3, e4]
              simp
            · simp [hl]
            · rw [total_append, total_cons, hzs]; simp only; omega
            · intro h; omega
            · intro _; omega

theorem Inv.next_none {cs fo k c} (h : Inv cs fo k c) (hk : k = total cs) :
    ∃ c', c.nextArgument = (none, c') := by
  obtain ⟨hfo, hcnt, hs⟩ := h
  obtain ⟨counters, index, firstOptional, counter⟩ := c
  simp only at hfo hcnt
  subst hfo hcnt
  rcases hs with ⟨rfl, hc, hi, _⟩ | ⟨pre, n, a, rest, pre', r, rfl, hi, hc, hl, hr, hk', hk0, hk1⟩
  · simp only at hc hi
    subst hc hi
    exact ⟨_, rfl⟩
  · simp only at hi hc
    subst hi hc
    rw [total_append, total_cons] at hk
    simp only at hk
    have hr0 : r = 0 := by omega
    subst hr0
    have ht : total rest = 0 := by omega
    have hall : ∀ p ∈ rest, p.1 = 0 := by
      intro p hp
      obtain ⟨s, t, rfl⟩ := List.append_of_mem hp
      rw [total_append, total_cons] at ht
      omega
    have hdrop : (pre' ++ (0, a) :: rest).drop pre.length = (0, a) :: rest := by
      rw [← hl, List.drop_left']; rfl
    have hz : leadingZeros ((0, a) :: rest) = rest.length + 1 := by
      rcases leadingZeros_cases ((0, a) :: rest) with ⟨_, h2⟩ | ⟨zs, m, b, rest', e, h1, h2⟩
      · rw [h2]; simp
      · exfalso
        cases zs with
        | nil => simp at e
        | cons z zs =>
          simp only [List.cons_append, List.cons.injEq] at e
          obtain ⟨_, rfl⟩ := e
          have := hall (m + 1, b) (by simp)
          simp at this
    unfold nextArgument
    simp only [hdrop, hz]
    rw [List.getElem?_eq_none (by simp [hl])]
    exact ⟨_, rfl⟩

theorem Inv.complete {cs fo k c} (h : Inv cs fo k c) (hfo : fo ≤ cs.length)
    (hpos : ∀ (h : fo - 1 < cs.length), 0 < fo → 0 < cs[fo - 1].1) :
    c.isComplete = true ↔ total (cs.take fo) ≤ k := by
  obtain ⟨h1, h2, hs⟩ := h
  obtain ⟨counters, index, firstOptional, counter⟩ := c
  simp only at h1 h2
  subst h1 h2
  rcases hs with ⟨rfl, hc, hi, _⟩ | ⟨pre, n, a, rest, pre', r, rfl, hi, hc, hl, hr, hk', hk0, hk1⟩
  · simp only at hc hi
    subst hc hi
    simp at hfo
    subst hfo
    simp [isComplete, total]
  · simp only at hi hc
    subst hi hc
    have hget : (pre' ++ (r, a) :: rest)[pre.length]? = some (r, a) := by
      rw [← hl]; simp
    simp only [isComplete, hget, Option.map_some]
    by_cases c1 : pre.length ≥ firstOptional
    · have : (pre ++ (n, a) :: rest).take firstOptional = pre.take firstOptional := by
        rw [List.take_append_of_le_length c1]
      rw [this]
      have h3 := total_append (pre.take firstOptional) (pre.drop firstOptional)
      rw [List.take_append_drop] at h3
      simp [c1]; omega
    · by_cases c2 : pre.length + 1 = firstOptional
      · have : (pre ++ (n, a) :: rest).take firstOptional = pre ++ [(n, a)] := by
          rw [← c2, List.take_append, List.take_of_length_le (by omega)]; simp
        rw [this, total_append, total_cons]
        have : total ([] : List (Nat × ArgData)) = 0 := rfl
        simp only [this]
        simp only [c1, c2, decide_false, decide_true, Bool.false_or, Bool.true_and, beq_iff_eq,
          Option.some.injEq]
        omega
      · simp only [c1, c2, decide_false, Bool.false_or, Bool.false_and, Bool.false_eq_true, false_iff]
        have hlt : pre.length + 1 < firstOptional := by omega
        have hfl : firstOptional - 1 < (pre ++ (n, a) :: rest).length := by omega
        have hp := hpos hfl (by omega)
        -- the take contains pre, (n, a) and the element fo - 1
        have hsplit : (pre ++ (n, a) :: rest).take firstOptional =
            (pre ++ [(n, a)]) ++ (rest.take (firstOptional - (pre.length + 1))) := by
          have e : pre ++ (n, a) :: rest = (pre ++ [(n, a)]) ++ rest := by simp
          rw [e, List.take_append]
          have e2 : (pre ++ [(n, a)]).length = pre.length + 1 := by simp
          rw [e2, List.take_of_length_le (by simp; omega)]
        rw [hsplit, total_append, total_append, total_cons]
        have hrest : 0 < total (rest.take (firstOptional - (pre.length + 1))) := by
          have hmem : (pre ++ (n, a) :: rest)[firstOptional - 1] ∈ rest.take (firstOptional - (pre.length + 1)) := by
            have e5 : (pre ++ (n, a) :: rest)[firstOptional - 1] = rest[firstOptional - 1 - (pre.length + 1)]'(by
                simp at hfl; omega) := by
              rw [List.getElem_append_right (by omega)]
              rw [List.getElem_cons]
              have : firstOptional - 1 - pre.length ≠ 0 := by omega
              simp only [this, dif_neg, not_false_eq_true]
              congr 1
            rw [e5]
            apply List.mem_iff_getElem.mpr
            refine ⟨firstOptional - 1 - (pre.length + 1), by simp at hfl ⊢; omega, by simp⟩
          obtain ⟨s, t, e6⟩ := List.append_of_mem hmem
          rw [e6, total_append, total_cons]
          omega
        have : total ([] : List (Nat × ArgData)) = 0 := rfl
        simp only [this]
        omega

theorem Inv.incomplete {cs k c} (h : Inv cs cs.length k c) (hlen : 2 ≤ cs.length)
    (hlast : (cs[cs.length - 1]'(by omega)).1 = 0) : c.isComplete = false := by
  obtain ⟨h1, h2, hs⟩ := h
  obtain ⟨counters, index, firstOptional, counter⟩ := c
  simp only at h1 h2
  subst h1 h2
  rcases hs with ⟨rfl, hc, hi, _⟩ | ⟨pre, n, a, rest, pre', r, rfl, hi, hc, hl, hr, hk', hk0, hk1⟩
  · simp at hlen
  · simp only at hi hc
    subst hi hc
    have hget : (pre' ++ (r, a) :: rest)[pre.length]? = some (r, a) := by
      rw [← hl]; simp
    simp only [isComplete, hget, Option.map_some]
    have c1 : ¬ (pre.length ≥ (pre ++ (n, a) :: rest).length) := by simp
    simp only [c1, decide_false, Bool.false_or, Bool.and_eq_false_iff, decide_eq_false_iff_not]
    by_cases c2 : pre.length + 1 = (pre ++ (n, a) :: rest).length
    · exfalso
      have hr0 : rest = [] := by
        simp at c2
        first | exact c2 | exact List.eq_nil_of_length_eq_zero (by omega)
      subst hr0
      simp at hlast
      subst hlast
      by_cases hk : counter = 0
      · have := hk0 hk
        subst this
        simp at hlen
      · have := hk1 (by omega)
        omega
    · exact Or.inl c2

theorem Inv.hand {cs fo k c} (h : Inv cs fo k c) (n : Nat) (hn : k + n ≤ total cs) :
    (Counter.hand c n).1 = (((expand cs).drop k).take n).map some ∧ Inv cs fo (k + n) (Counter.hand c n).2 := by
  induction n generalizing k c with
  | zero => exact ⟨by simp [Counter.hand], by simpa [Counter.hand] using h⟩
  | succ n ih =>
    obtain ⟨a, c', e1, e2, e3⟩ := h.next_some (by omega)
    obtain ⟨i1, i2⟩ := ih e3 (by omega)
    simp only [Counter.hand, e1]
    constructor
    · have hkl : k < (expand cs).length := by rw [expand_length]; omega
      rw [List.drop_eq_getElem_cons hkl, List.take_succ_cons, List.map_cons, i1]
      rw [List.getElem?_eq_getElem hkl] at e2
      simp only [Option.some.injEq] at e2
      rw [e2]
    · have : k + (n + 1) = k + 1 + n := by omega
      rw [this]; exact i2

theorem Inv.skip {cs fo k c} (h : Inv cs fo k c) (n : Nat) (hn : k + n ≤ total cs) :
    Inv cs fo (k + n) (Counter.skip c n) := by
  induction n generalizing k c with
  | zero => simpa [Counter.skip] using h
  | succ n ih =>
    obtain ⟨a, c', e1, e2, e3⟩ := h.next_some (by omega)
    simp only [Counter.skip, e1]
    have : k + (n + 1) = k + 1 + n := by omega
    rw [this]
    exact ih e3 (by omega)

/-! ### The counters for a known number of values -/

theorem minMaxLoop_eq (args : List ArgData) (lo hi : Nat) (h : hi ≤ sizeMax) :
    minMaxLoop args lo hi = (lo + minTotal args, min sizeMax (hi + maxTotal args)) := by
  induction args generalizing lo hi with
  | nil => simp [minMaxLoop, minTotal, maxTotal]; omega
  | cons a as ih =>
    have e1 : minTotal (a :: as) = a.minCount + minTotal as := by simp [minTotal]
    have e2 : maxTotal (a :: as) = a.maxCount + maxTotal as := by simp [maxTotal]
    rw [minMaxLoop, e1, e2]
    split
    · split
      · rw [ih _ _ (Nat.le_refl _)]
        simp only [Prod.mk.injEq]; omega
      · rw [ih _ _ (by omega)]
        simp only [Prod.mk.injEq]; omega
    · rw [ih _ _ h]
      simp only [Prod.mk.injEq]; omega

theorem getMinMaxCount_eq (args : List ArgData) :
    getMinMaxCount args = (minTotal args, min sizeMax (maxTotal args)) := by
  rw [getMinMaxCount, minMaxLoop_eq args 0 0 (by unfold sizeMax; omega)]
  simp

theorem minTotal_cons (a : ArgData) (as : List ArgData) : minTotal (a :: as) = a.minCount + minTotal as := by
  simp [minTotal]

theorem maxTotal_cons (a : ArgData) (as : List ArgData) : maxTotal (a :: as) = a.maxCount + maxTotal as := by
  simp [maxTotal]

theorem minTotal_le_maxTotal (args : List ArgData) (h : ∀ a ∈ args, a.minCount ≤ a.maxCount) :
    minTotal args ≤ maxTotal args := by
  induction args with
  | nil => simp [minTotal]
  | cons a as ih =>
    rw [minTotal_cons, maxTotal_cons]
    have := h a (by simp)
    have := ih (fun b hb => h b (by simp [hb]))
    omega

theorem distribute_snd (args : List ArgData) (n : Nat) : (distribute args n).map (·.2) = args := by
  induction args generalizing n with
  | nil => rfl
  | cons a as ih =>
    unfold distribute
    split
    · simp [ih]
    · split <;> simp [ih]

theorem distribute_zero (args : List ArgData) : distribute args 0 = args.map fun a => (a.minCount, a) := by
  induction args with
  | nil => rfl
  | cons a as ih => simp [distribute, ih]

theorem distribute_allot (args : List ArgData) (hmm : ∀ a ∈ args, a.minCount ≤ a.maxCount) (m : Nat)
    (hm : minTotal args + m ≤ maxTotal args) :
    IsAllotment args (minTotal args + m) ((distribute args m).map (·.1)) := by
  induction args generalizing m with
  | nil =>
    simp [minTotal, maxTotal] at hm
    subst hm
    exact ⟨rfl, rfl, by simp, by simp⟩
  | cons a as ih =>
    have hmm' : ∀ b ∈ as, b.minCount ≤ b.maxCount := fun b hb => hmm b (by simp [hb])
    have ha := hmm a (by simp)
    rw [minTotal_cons, maxTotal_cons] at hm
    rw [minTotal_cons]
    have step : ∀ (k m' : Nat), distribute (a :: as) m = (k, a) :: distribute as m' →
        a.minCount ≤ k → k ≤ a.maxCount → k + m' = a.minCount + m → (0 < m' → k = a.maxCount) →
        IsAllotment (a :: as) (a.minCount + minTotal as + m) ((distribute (a :: as) m).map (·.1)) := by
      intro k m' e h1 h2 h3 h4
      by_cases hm' : minTotal as + m' ≤ maxTotal as
      · obtain ⟨i1, i2, i3, i4⟩ := ih hmm' m' hm'
        rw [e, List.map_cons]
        refine ⟨by simp [i1], by simp only [List.sum_cons, i2]; omega, ?_, ?_⟩
        · intro i hi hi'
          cases i with
          | zero => exact ⟨h1, h2⟩
          | succ i =>
            simp only [List.length_cons] at hi hi'
            exact i3 i (by omega) (by omega)
        · intro i j hj hj' hij hlt
          cases j with
          | zero => omega
          | succ j =>
            simp only [List.length_cons] at hj hj'
            cases i with
            | zero =>
              simp only [List.getElem_cons_zero]
              apply h4
              apply Classical.byContradiction
              intro hz
              have hz' : m' = 0 := by omega
              subst hz'
              have hd : ∀ (l : List (Nat × ArgData)) (h : j < (l.map (·.1)).length), l = as.map (fun a => (a.minCount, a)) →
                  ¬ as[j].minCount < (l.map (·.1))[j] := by
                intro l h e; subst e; simp
              exact hd _ (by simpa using hj') (distribute_zero as) hlt
            | succ i =>
              simp only [List.getElem_cons_succ] at hlt ⊢
              exact i4 i j (by omega) (by omega) (by omega) hlt
      · exfalso
        have := h4 (by
          apply Classical.byContradiction; intro hz
          have := minTotal_le_maxTotal as hmm'
          omega)
        omega
    have hd : distribute (a :: as) m =
        if m = 0 ∨ a.minCount = a.maxCount then (a.minCount, a) :: distribute as m
        else if a.minCount + m ≤ a.maxCount then (a.minCount + m, a) :: distribute as 0
        else (a.maxCount, a) :: distribute as (m - (a.maxCount - a.minCount)) := rfl
    by_cases hc : m = 0 ∨ a.minCount = a.maxCount
    · rw [if_pos hc] at hd
      exact step a.minCount m hd (Nat.le_refl _) ha rfl (by rcases hc with h | h <;> omega)
    · rw [if_neg hc] at hd
      by_cases hc2 : a.minCount + m ≤ a.maxCount
      · rw [if_pos hc2] at hd
        exact step (a.minCount + m) 0 hd (by omega) hc2 (by omega) (by omega)
      · rw [if_neg hc2] at hd
        exact step a.maxCount (m - (a.maxCount - a.minCount)) hd ha (Nat.le_refl _) (by omega) (fun _ => rfl)

theorem expand_zip (args : List ArgData) (cs : List (Nat × ArgData)) (h : cs.map (·.2) = args) :
    expand cs = handedOut args (cs.map (·.1)) := by
  subst h
  induction cs with
  | nil => rfl
  | cons p cs ih =>
    simp only [expand, handedOut, List.map_cons, List.zip_cons_cons, List.flatMap_cons] at *
    rw [ih]

theorem total_eq_sum (cs : List (Nat × ArgData)) : total cs = (cs.map (·.1)).sum := rfl

theorem distribute_total (args : List ArgData) (hmm : ∀ a ∈ args, a.minCount ≤ a.maxCount) (m : Nat)
    (hm : minTotal args + m ≤ maxTotal args) : total (distribute args m) = minTotal args + m :=
  (distribute_allot args hmm m hm).total

/-! ### The counters for an unknown number of values -/

theorem requires_false (args : List ArgData) (h : requiresArgumentCount args = false) :
    ∀ pre a b post, args = pre ++ a :: b :: post → a.minCount = a.maxCount := by
  have key : ∀ (args : List ArgData) (d : Bool), requiresArgumentCountLoop args d = false →
      ∀ pre a b post, args = pre ++ a :: b :: post → a.minCount = a.maxCount := by
    intro args
    induction args with
    | nil => intro d _ pre a b post e; simp at e
    | cons x xs ih =>
      intro d hd pre a b post e
      unfold requiresArgumentCountLoop at hd
      split at hd
      · simp at hd
      · cases pre with
        | nil =>
          simp only [List.nil_append, List.cons.injEq] at e
          obtain ⟨rfl, rfl⟩ := e
          unfold requiresArgumentCountLoop at hd
          split at hd
          · simp at hd
          · rename_i hx; simpa using hx
        | cons p pre =>
          simp only [List.cons_append, List.cons.injEq] at e
          exact ih _ hd pre a b post e.2
  exact key args true h

/-- All but the last argument have a fixed count. -/
theorem requires_false_split (args : List ArgData) (h : requiresArgumentCount args = false) :
    args = [] ∨ ∃ pre a, args = pre ++ [a] ∧ ∀ x ∈ pre, x.minCount = x.maxCount := by
  rcases List.eq_nil_or_concat args with rfl | ⟨pre, a, rfl⟩
  · exact Or.inl rfl
  · right
    refine ⟨pre, a, by simp, ?_⟩
    intro x hx
    obtain ⟨s, t, rfl⟩ := List.append_of_mem hx
    cases t with
    | nil => exact requires_false _ h s x a [] (by simp)
    | cons y t => exact requires_false _ h s x y (t ++ [a]) (by simp)

theorem findFirstOptionalLoop_append (pre : List ArgData) (a : ArgData) (i r : Nat) :
    findFirstOptionalLoop (pre ++ [a]) i r =
      if a.minCount > 0 then i + pre.length + 1 else findFirstOptionalLoop pre i r := by
  induction pre generalizing i r with
  | nil => simp [findFirstOptionalLoop]
  | cons x pre ih =>
    simp only [List.cons_append, findFirstOptionalLoop, ih]
    split
    · simp; omega
    · rfl

theorem findFirstOptionalLoop_le (args : List ArgData) (i r : Nat) :
    findFirstOptionalLoop args i r ≤ max r (i + args.length) := by
  induction args generalizing i r with
  | nil => simp only [findFirstOptionalLoop]; omega
  | cons a as ih =>
    unfold findFirstOptionalLoop
    by_cases h : a.minCount > 0
    · rw [if_pos h]
      have := ih (i + 1) (i + 1)
      simp only [List.length_cons]; omega
    · rw [if_neg h]
      have := ih (i + 1) r
      simp only [List.length_cons]; omega

theorem findFirstOptional_le (args : List ArgData) : findFirstOptional args ≤ args.length := by
  have := findFirstOptionalLoop_le args 0 0
  unfold findFirstOptional
  omega

/-- The argument before the first optional one is mandatory, the following ones are optional. -/
theorem findFirstOptional_spec (args : List ArgData) :
    (∀ (h : findFirstOptional args - 1 < args.length), 0 < findFirstOptional args →
      0 < args[findFirstOptional args - 1].minCount) ∧
    ∀ (i : Nat) (h : i < args.length), findFirstOptional args ≤ i → args[i].minCount = 0 := by
  have hcat : ∀ (pre : List ArgData) (a : ArgData), findFirstOptional (pre ++ [a]) =
      if a.minCount > 0 then pre.length + 1 else findFirstOptional pre := by
    intro pre a
    unfold findFirstOptional
    rw [findFirstOptionalLoop_append]
    simp
  rcases hrev : args.reverse with _ | ⟨_, _⟩
  · have : args = [] := by simpa using hrev
    subst this
    simp
  · clear hrev
    -- induction from the end
    suffices hh : ∀ (n : Nat) (args : List ArgData), args.length = n →
        (∀ (h : findFirstOptional args - 1 < args.length), 0 < findFirstOptional args →
          0 < args[findFirstOptional args - 1].minCount) ∧
        ∀ (i : Nat) (h : i < args.length), findFirstOptional args ≤ i → args[i].minCount = 0 from
      hh args.length args rfl
    intro n
    induction n with
    | zero =>
      intro args he
      have : args = [] := List.eq_nil_of_length_eq_zero he
      subst this
      simp
    | succ n ih =>
      intro args he
      rcases List.eq_nil_or_concat args with rfl | ⟨pre, a, rfl⟩
      · simp at he
      · have hp : pre.length = n := by simpa using he
        obtain ⟨i1, i2⟩ := ih pre hp
        rw [List.concat_eq_append] at *
        have hc := hcat pre a
        by_cases ha : a.minCount > 0
        · rw [if_pos ha] at hc
          simp only [hc]
          constructor
          · intro h _
            simp only [Nat.add_sub_cancel, List.getElem_concat_length]
            exact ha
          · intro i h hi
            simp at h
            omega
        · rw [if_neg ha] at hc
          simp only [hc]
          have hle := findFirstOptional_le pre
          constructor
          · intro h h0
            rw [List.getElem_append_left (by omega)]
            exact i1 (by omega) h0
          · intro i h hi
            by_cases hi2 : i < pre.length
            · rw [List.getElem_append_left hi2]
              exact i2 i hi2 hi
            · rw [List.getElem_append_right (by omega)]
              simp at h
              have : i - pre.length = 0 := by omega
              simp only [this, List.getElem_cons_zero]
              omega

theorem Inv.hand_none {cs fo k c} (h : Inv cs fo k c) (n : Nat) :
    none ∈ (Counter.hand c n).1 ↔ total cs < k + n := by
  induction n generalizing k c with
  | zero =>
    have := h.le
    simp [Counter.hand]; omega
  | succ n ih =>
    by_cases hk : k < total cs
    · obtain ⟨a, c', e1, _, e3⟩ := h.next_some hk
      simp only [Counter.hand, e1, List.mem_cons, reduceCtorEq, false_or]
      rw [ih e3]
      omega
    · have hk' : k = total cs := by have := h.le; omega
      obtain ⟨c', e1⟩ := h.next_none hk'
      simp only [Counter.hand, e1, List.mem_cons, true_or, true_iff]
      omega

theorem makeCountersLoop_total (fo : Nat) (args : List ArgData) (i : Nat)
    (hmm : ∀ a ∈ args, a.minCount ≤ a.maxCount) : total (makeCountersLoop fo args i) = maxTotal args := by
  induction args generalizing i with
  | nil => rfl
  | cons a as ih =>
    have h1 := hmm a (by simp)
    have h2 := ih (i + 1) (fun b hb => hmm b (by simp [hb]))
    unfold makeCountersLoop
    rw [maxTotal_cons]
    split
    · rw [total_cons, total_cons, h2]; simp only; omega
    · rw [total_cons, h2]

theorem makeCountersLoop_expand (fo : Nat) (args : List ArgData) (i : Nat)
    (hmm : ∀ a ∈ args, a.minCount ≤ a.maxCount) :
    expand (makeCountersLoop fo args i) = args.flatMap fun a => List.replicate a.maxCount a := by
  induction args generalizing i with
  | nil => rfl
  | cons a as ih =>
    have h1 := hmm a (by simp)
    have h2 := ih (i + 1) (fun b hb => hmm b (by simp [hb]))
    unfold makeCountersLoop
    have hcons : ∀ (p : Nat × ArgData) cs, expand (p :: cs) = List.replicate p.1 p.2 ++ expand cs := fun _ _ => rfl
    rw [List.flatMap_cons]
    split
    · rw [hcons, hcons, h2, ← List.append_assoc, List.replicate_append_replicate]
      congr 2
      simp only; omega
    · rw [hcons, h2]

theorem makeCountersLoop_append (fo : Nat) (as bs : List ArgData) (i : Nat) :
    makeCountersLoop fo (as ++ bs) i = makeCountersLoop fo as i ++ makeCountersLoop fo bs (i + as.length) := by
  induction as generalizing i with
  | nil => rfl
  | cons a as ih =>
    simp only [List.cons_append, makeCountersLoop]
    have : i + (a :: as).length = i + 1 + as.length := by simp; omega
    rw [this]
    split <;> simp [ih]

theorem makeCountersLoop_fixed (fo : Nat) (as : List ArgData) (i : Nat)
    (h : ∀ a ∈ as, a.minCount = a.maxCount) :
    makeCountersLoop fo as i = as.map fun a => (a.maxCount, a) := by
  induction as generalizing i with
  | nil => rfl
  | cons a as ih =>
    have h1 := h a (by simp)
    simp only [makeCountersLoop, h1, ne_eq, not_true_eq_false, and_false, if_false, List.map_cons]
    rw [ih _ (fun b hb => h b (by simp [hb]))]

theorem total_map_max (as : List ArgData) : total (as.map fun a => (a.maxCount, a)) = maxTotal as := by
  induction as with
  | nil => rfl
  | cons a as ih => rw [List.map_cons, total_cons, maxTotal_cons, ih]

theorem fixed_totals (as : List ArgData) (h : ∀ a ∈ as, a.minCount = a.maxCount) : minTotal as = maxTotal as := by
  induction as with
  | nil => rfl
  | cons a as ih => rw [minTotal_cons, maxTotal_cons, h a (by simp), ih (fun b hb => h b (by simp [hb]))]

theorem minTotal_append (a b : List ArgData) : minTotal (a ++ b) = minTotal a + minTotal b := by
  simp [minTotal]

theorem maxTotal_append (a b : List ArgData) : maxTotal (a ++ b) = maxTotal a + maxTotal b := by
  simp [maxTotal]

/-- The facts `Inv.complete` needs, for the counters of an unknown number of values. -/
theorem ofArgs_complete_facts (args : List ArgData) (hmm : ∀ a ∈ args, a.minCount ≤ a.maxCount)
    (hr : requiresArgumentCount args = false) :
    let fo := findFirstOptional args
    let cs := makeCountersLoop fo args 0
    fo ≤ cs.length ∧ (∀ (h : fo - 1 < cs.length), 0 < fo → 0 < cs[fo - 1].1) ∧
      total (cs.take fo) = minTotal args := by
  intro fo cs
  rcases requires_false_split args hr with rfl | ⟨pre, a, rfl, hpre⟩
  · refine ⟨Nat.le_refl _, ?_, rfl⟩
    intro h; exact absurd h (by simp [cs, makeCountersLoop])
  · have hcs : cs = pre.map (fun a => (a.maxCount, a)) ++ makeCountersLoop fo [a] pre.length := by
      simp only [cs]
      rw [makeCountersLoop_append, makeCountersLoop_fixed _ _ _ hpre]
      simp
    have hfoeq : fo = if a.minCount > 0 then pre.length + 1 else findFirstOptional pre := by
      simp only [fo, findFirstOptional]
      rw [findFirstOptionalLoop_append]; simp
    obtain ⟨s1, s2⟩ := findFirstOptional_spec (pre ++ [a])
    have hle := findFirstOptional_le (pre ++ [a])
    clear_value cs
    by_cases ha : a.minCount > 0
    · rw [if_pos ha] at hfoeq
      clear_value fo
      subst hfoeq
      by_cases hd : a.minCount = a.maxCount
      · have hlast : makeCountersLoop (pre.length + 1) [a] pre.length = [(a.maxCount, a)] := by
          simp [makeCountersLoop, hd]
        rw [hlast] at hcs
        subst hcs
        refine ⟨by simp, ?_, ?_⟩
        · intro h _
          simp only [Nat.add_sub_cancel]
          rw [List.getElem_append_right (by simp)]
          simp; omega
        · rw [List.take_of_length_le (by simp), total_append, total_map_max, total_cons, minTotal_append,
            fixed_totals pre hpre, minTotal_cons, hd]
          rfl
      · have hlast : makeCountersLoop (pre.length + 1) [a] pre.length =
            [(a.minCount, a), (a.maxCount - a.minCount, a)] := by
          simp [makeCountersLoop, hd]
        rw [hlast] at hcs
        subst hcs
        refine ⟨by simp, ?_, ?_⟩
        · intro h _
          simp only [Nat.add_sub_cancel]
          rw [List.getElem_append_right (by simp)]
          simp; omega
        · have : (pre.map (fun a => (a.maxCount, a)) ++ [(a.minCount, a), (a.maxCount - a.minCount, a)]).take (pre.length + 1) =
              pre.map (fun a => (a.maxCount, a)) ++ [(a.minCount, a)] := by
            rw [List.take_append, List.take_of_length_le (by simp)]
            simp
          rw [this, total_append, total_map_max, total_cons, minTotal_append,
            fixed_totals pre hpre, minTotal_cons]
          rfl
    · rw [if_neg ha] at hfoeq
      have hlp := findFirstOptional_le pre
      obtain ⟨p1, p2⟩ := findFirstOptional_spec pre
      have hfl : fo ≤ pre.length := by omega
      have hfo2 : findFirstOptional pre = fo := hfoeq.symm
      rw [hfo2] at p1 p2
      clear_value fo
      subst hcs
      refine ⟨by simp; omega, ?_, ?_⟩
      · intro h h0
        rw [List.getElem_append_left (by simp; omega)]
        simp only [List.getElem_map]
        have := p1 (by omega) h0
        rw [hpre _ (List.getElem_mem _)] at this
        exact this
      · rw [List.take_append_of_le_length (by simpa using hfl), ← List.map_take, total_map_max]
        rw [minTotal_append, minTotal_cons]
        have e1 : minTotal pre = minTotal (pre.take fo) + minTotal (pre.drop fo) := by
          rw [← minTotal_append, List.take_append_drop]
        have e2 : minTotal (pre.drop fo) = 0 := by
          have : ∀ l : List ArgData, (∀ x ∈ l, x.minCount = 0) → minTotal l = 0 := by
            intro l hl
            induction l with
            | nil => rfl
            | cons x l ih => rw [minTotal_cons, hl x (by simp), ih (fun y hy => hl y (by simp [hy]))]
          apply this
          intro x hx
          obtain ⟨i, hi, rfl⟩ := List.mem_iff_getElem.mp hx
          rw [List.getElem_drop]
          exact p2 _ _ (by omega)
        have e3 := fixed_totals (pre.take fo) (fun x hx => hpre x (List.mem_of_mem_take hx))
        have e4 : minTotal ([] : List ArgData) = 0 := rfl
        omega

/-- In the deterministic case the values handed out are an allotment. -/
theorem ofArgs_allot (args : List ArgData) (hmm : ∀ a ∈ args, a.minCount ≤ a.maxCount)
    (hr : requiresArgumentCount args = false) (n : Nat) (h1 : minTotal args ≤ n) (h2 : n ≤ maxTotal args) :
    ∃ ks, IsAllotment args n ks ∧
      (expand (makeCountersLoop (findFirstOptional args) args 0)).take n = handedOut args ks := by
  rw [makeCountersLoop_expand _ _ _ hmm]
  rcases requires_false_split args hr with rfl | ⟨pre, a, rfl, hpre⟩
  · have : n = 0 := by simpa [maxTotal] using h2
    subst this
    exact ⟨[], ⟨rfl, rfl, by simp, by simp⟩, rfl⟩
  · have hf := fixed_totals pre hpre
    have e0 : minTotal ([] : List ArgData) = 0 := rfl
    have e0' : maxTotal ([] : List ArgData) = 0 := rfl
    rw [minTotal_append, minTotal_cons] at h1
    rw [maxTotal_append, maxTotal_cons] at h2
    have hlen : ∀ l : List ArgData, (l.flatMap fun a => List.replicate a.maxCount a).length = maxTotal l := by
      intro l
      induction l with
      | nil => rfl
      | cons x l ih => rw [List.flatMap_cons, List.length_append, ih, maxTotal_cons]; simp
    have hhand : ∀ (l : List ArgData) (b : ArgData) (k : Nat),
        handedOut (l ++ [b]) (l.map (·.maxCount) ++ [k]) =
          (l.flatMap fun a => List.replicate a.maxCount a) ++ List.replicate k b := by
      intro l b k
      induction l with
      | nil => simp [handedOut]
      | cons x l ih =>
        simp only [handedOut, List.cons_append, List.map_cons, List.zip_cons_cons, List.flatMap_cons] at *
        rw [ih, List.append_assoc]
    refine ⟨pre.map (·.maxCount) ++ [n - maxTotal pre], ?_, ?_⟩
    · have hsum : (pre.map (·.maxCount)).sum = maxTotal pre := rfl
      refine ⟨by simp, ?_, ?_, ?_⟩
      · rw [List.sum_append, hsum]; simp; omega
      · intro i hi hi'
        by_cases c : i < pre.length
        · rw [List.getElem_append_left (by simpa using c), List.getElem_append_left (by simpa using c)]
          simp only [List.getElem_map]
          have := hpre pre[i] (List.getElem_mem _)
          omega
        · have : i = pre.length := by simp at hi; omega
          subst this
          rw [List.getElem_append_right (by simp), List.getElem_append_right (by simp)]
          simp; omega
      · intro i j hj hj' hij hlt
        simp at hj
        rw [List.getElem_append_left (by simp; omega), List.getElem_append_left (by omega)]
        simp
    · rw [hhand, List.flatMap_append, List.take_append, hlen, List.take_of_length_le (by rw [hlen]; omega)]
      congr 1
      simp
      omega

/-- The counters `forCount` starts with. -/
theorem forCount_inv (args : List ArgData) (hmm : ∀ a ∈ args, a.minCount ≤ a.maxCount) (n : Nat)
    (hn : n ≤ sizeMax) :
    ∃ cs fo, Inv cs fo 0 (forCount args n) ∧
      (requiresArgumentCount args = true → cs = makeCountersN args n ∧ fo = cs.length) ∧
      (requiresArgumentCount args = false →
        cs = makeCountersLoop (findFirstOptional args) args 0 ∧ fo = findFirstOptional args) ∧
      (n ≤ maxTotal args → n ≤ total cs) ∧ (maxTotal args < n → total cs = maxTotal args) := by
  cases hr : requiresArgumentCount args with
  | true =>
    refine ⟨makeCountersN args n, (makeCountersN args n).length, ?_, fun _ => ⟨rfl, rfl⟩, by simp, ?_⟩
    · simp only [forCount, hr, Bool.not_true, Bool.false_eq_true, if_false, ofArgsN, skip]
      exact Inv.start _ _
    · have hle := minTotal_le_maxTotal args hmm
      simp only [makeCountersN, getMinMaxCount_eq]
      constructor
      · intro h
        rw [distribute_total args hmm _ (by split <;> (try split) <;> omega)]
        split <;> (try split) <;> omega
      · intro h
        rw [distribute_total args hmm _ (by split <;> (try split) <;> omega)]
        split <;> (try split) <;> omega
  | false =>
    refine ⟨_, _, ?_, by simp, fun _ => ⟨rfl, rfl⟩, ?_⟩
    · simp only [forCount, hr, Bool.not_false, if_true, ofArgs]
      exact Inv.start _ _
    · rw [makeCountersLoop_total _ _ _ hmm]
      exact ⟨id, fun _ => rfl⟩

theorem makeCountersN_allot (args : List ArgData) (hmm : ∀ a ∈ args, a.minCount ≤ a.maxCount) (n : Nat)
    (hn : n ≤ sizeMax) (h1 : minTotal args ≤ n) (h2 : n ≤ maxTotal args) :
    IsAllotment args n ((makeCountersN args n).map (·.1)) ∧
      expand (makeCountersN args n) = handedOut args ((makeCountersN args n).map (·.1)) := by
  have e : makeCountersN args n = distribute args (n - minTotal args) := by
    simp only [makeCountersN, getMinMaxCount_eq]
    rw [if_neg (by omega), if_neg (by omega)]
  rw [e]
  constructor
  · have := distribute_allot args hmm (n - minTotal args) (by omega)
    rwa [show minTotal args + (n - minTotal args) = n by omega] at this
  · exact expand_zip args _ (distribute_snd args _)

end Counter
end Argos
