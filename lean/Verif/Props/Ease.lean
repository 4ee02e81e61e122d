import Verif.Proofs.EaseInit
import Verif.Props.Extend

/-!
# C92: a parser that demands less accepts what was accepted before, with the same values
-/

namespace Argos

open Spec Parser

/-- **C92**: declarations that were accepted are still accepted when they demand less. -/
theorem C92_init {d0 d : ParserData} {c' : Command} (he : Eased d0.command c') (h : finishInitialization d0 = .ok d) :
    ∃ d', finishInitialization { d0 with command := c' } = .ok d' := by
  obtain ⟨d', h', _⟩ := init_eased he h
  exact ⟨d', h'⟩

/-- **C92**, in terms of the grammar: a well-formed command line is still well-formed when less is demanded. This includes abbreviated options. -/
theorem C92_accepts {d0 d d' : ParserData} {c' : Command} (he : Eased d0.command c') (h : finishInitialization d0 = .ok d)
    (h' : finishInitialization { d0 with command := c' } = .ok d') {args : List Str} {rs : List IterResult} (ha : d.Accepts args rs) : ∃ rs', d'.Accepts args rs' := by
  obtain ⟨d1, h1, hs, hf⟩ := init_eased he h
  rw [h', Outcome.ok.injEq] at h1
  subst h1
  unfold ParserData.Accepts at ha ⊢
  rw [hs]
  obtain ⟨rs', hr, _⟩ := accepts_eased ha hf (initial_writes hf.options)
  exact ⟨rs', hr⟩

/-- **C92** (what holds): if `parse` succeeds on a command line, it still does when less is demanded, and all questions for values get the answers they had. Missing: counts that are changed
so that other arguments get the values, see `C92_maximum_violated` and `C92_minimum_violated`; counts that make the library count the arguments beforehand, see
`C92_counting_violated`; several sub-commands, callbacks that insert arguments or write values. -/
theorem C92_parse_partial {d0 d d' : ParserData} {c' : Command} (he : Eased d0.command c') (h : finishInitialization d0 = .ok d)
    (h' : finishInitialization { d0 with command := c' } = .ok d') (ho : Ordinary d) (hp : Predictable d) (hp' : Predictable d') {env : Env} (hsi : env.Silent)
    {args : List Str} (hne : d0.settings.optionStyle = .standard ∨ [] ∉ args) (hsz : args.length ≤ sizeMax) {rs : List IterResult} {n : PNode}
    (hr : Returns env d args rs .done n) (hns : NoStop rs) :
    ∃ rs' n', Returns env d' args rs' .done n' ∧ NoStop rs' ∧ n'.code = .success ∧ SameGiven n n' := by
  obtain ⟨d1, h1, hs, hf⟩ := init_eased he h
  rw [h', Outcome.ok.injEq] at h1
  subst h1
  have ho' : Ordinary d' := hf.ordinary hs ho
  have hacc := C57_sound_partial h ho hsi.passive hne hr hns
  have hacc0 := hacc
  unfold ParserData.Accepts at hacc
  obtain ⟨rs1, ha1, hre, hsv⟩ := accepts_eased hacc hf (initial_writes hf.options)
  have ha1 : d'.Accepts args rs1 := by
    unfold ParserData.Accepts
    rw [hs]
    exact ha1
  have hsv := hsv ((served_forget _ _).mpr (returns_served h ho hp hsi.passive hne hsz hr hns))
  obtain ⟨rs2, n2, hr2, hn2, hm2, hc2⟩ := complete_served h' ho' hp' hsi hne hsz ha1 hsv
  refine ⟨rs2, n2, hr2, hn2, hc2, ?_⟩
  obtain ⟨t, ht, hnt⟩ := C32_values h hsi.passive hr
  obtain ⟨t', ht', hnt'⟩ := C32_values h' hsi.passive hr2
  have f1 : ∀ (rs : List IterResult) (c : Command), Open.after c (rs.map forgetText) = Open.after c rs := by
    intro rs c
    unfold Open.after
    generalize Open.start c = st
    induction rs generalizing st with
    | nil => rfl
    | cons r rs ih =>
      rw [List.map_cons, List.foldl_cons, List.foldl_cons, ih]
      cases r <;> rfl
  have hopen : Each TreeEased (Open.after d.command rs) (Open.after d'.command rs2) := by
    rw [← f1 rs, ← f1 rs2, hm2]
    exact opens_eased hre (.cons (.node hf (initial_writes hf.options) .nil) .nil)
  exact sameGiven n n2 hnt hnt' (close_eased hopen ht ht') (hr.treeOk (ready_of_init h)) (hr2.treeOk (ready_of_init h'))

/-! ## Ways of demanding less -/

theorem easedOpt_refl (o : OptData) : EasedOpt o o := ⟨rfl, fun h => h⟩

theorem easedArg_refl (a : ArgData) : EasedArg a a := ⟨rfl, Nat.le_refl _, Nat.le_refl _⟩

theorem each_refl {α : Type} {R : α → α → Prop} (h : ∀ x, R x x) : ∀ xs : List α, Each R xs xs
  | [] => .nil
  | x :: xs => .cons (h x) (each_refl h xs)

/-- The last argument can always be given more often. -/
theorem C92_last (before : List ArgData) (a : ArgData) {k : Nat} (h : a.maxCount ≤ k) : EasedArgs (before ++ [a]) (before ++ [{ a with maxCount := k }]) := by
  refine ⟨Each.append (each_refl easedArg_refl _) (.cons ⟨rfl, Nat.le_refl _, h⟩ .nil), ?_, ?_⟩
  · intro i j x x' y y' hij h1 h2 h3 h4
    have hj : j < (before ++ [a]).length := by
      rcases Nat.lt_or_ge j (before ++ [a]).length with hl | hl
      · exact hl
      · rw [List.getElem?_eq_none hl] at h3; simp at h3
    simp only [List.length_append, List.length_cons, List.length_nil] at hj
    rw [List.getElem?_append_left (by omega)] at h1 h2
    rw [h1, Option.some.injEq] at h2
    subst h2
    left
    refine ⟨?_, rfl⟩
    rcases Nat.lt_or_ge j before.length with hl | hl
    · rw [List.getElem?_append_left hl] at h3 h4
      rw [h3, Option.some.injEq] at h4
      subst h4
      rfl
    · have e : j - before.length = 0 := by omega
      rw [List.getElem?_append_right hl, e] at h3 h4
      simp only [List.getElem?_cons_zero, Option.some.injEq] at h3 h4
      subst h3 h4
      rfl
  · rintro ⟨b, x, f, e, hf, hx⟩
    left
    have hd := congrArg List.dropLast e
    rw [List.dropLast_concat, List.dropLast_append_of_ne_nil (by simp), List.dropLast_cons_of_ne_nil hf] at hd
    exact ⟨b, x, f.dropLast ++ [a], by rw [hd]; simp, by simp, hx⟩

/-- A single argument can always be given less often. -/
theorem C92_single (a : ArgData) {m k : Nat} (hm : m ≤ a.minCount) (h : a.maxCount ≤ k) : EasedArgs [a] [{ a with minCount := m, maxCount := k }] := by
  refine ⟨.cons ⟨rfl, hm, h⟩ .nil, ?_, ?_⟩
  · intro i j x x' y y' hij h1 h2 h3 h4
    have : j ≠ 0 := by omega
    cases j with
    | zero => simp at this
    | succ j => simp at h3
  · rintro ⟨b, x, f, e, hf, hx⟩
    have := congrArg List.length e
    simp only [List.length_cons, List.length_nil, List.length_append] at this
    exact absurd (List.eq_nil_of_length_eq_zero (l := f) (by omega)) hf

/-- Two arguments. -/
theorem easedArgs_pair {a b a' b' : ArgData} (h1 : EasedArg a a') (h2 : EasedArg b b')
    (hp : (b'.minCount = b.minCount ∧ a'.maxCount = a.maxCount) ∨ b.maxCount ≤ b'.minCount ∨ a'.maxCount ≤ a.minCount)
    (hc : a'.minCount ≠ a'.maxCount → a.minCount ≠ a.maxCount ∨ 0 < b'.minCount) : EasedArgs [a, b] [a', b'] := by
  refine ⟨.cons h1 (.cons h2 .nil), ?_, ?_⟩
  · intro i j x x' y y' hij k1 k2 k3 k4
    match i, j with
    | 0, 1 =>
      simp only [List.getElem?_cons_zero, List.getElem?_cons_succ, Option.some.injEq] at k1 k2 k3 k4
      subst k1 k2 k3 k4
      exact hp
    | _, 0 => omega
    | i + 1, 1 => omega
    | _, j + 2 => simp at k3
  · rintro ⟨bf, x, f, e, hf, hx⟩
    cases bf with
    | nil =>
      simp only [List.nil_append, List.cons.injEq] at e
      obtain ⟨rfl, rfl⟩ := e
      rcases hc hx with k | k
      · exact .inl ⟨[], a, [b], rfl, by simp, k⟩
      · exact .inr ⟨b', rfl, k⟩
    | cons z bf =>
      have := congrArg List.length e
      simp only [List.length_cons, List.length_nil, List.length_append] at this
      exact absurd (List.eq_nil_of_length_eq_zero (l := f) (by omega)) hf

/-! ## An example -/

/-- A program with a sub-command, that demands something. -/
def strictCommand (r optional : Bool) (m k : Nat) : Command :=
  { name := b!"prog", options := [{ flags := [b!"-l", b!"--level"], argument := b!"N", initialValue := b!"3" }], requireSubcommand := some r
    commands := [{ name := b!"show", options := [{ flags := [b!"-m", b!"--mode"], argument := b!"M", optional := optional }]
                   arguments := [{ name := b!"FILE", minCount := m, maxCount := 1 }, { name := b!"REST", minCount := 1, maxCount := k }] }] }

/-- The same as data. -/
def strictData (r optional : Bool) (m k : Nat) : ParserData :=
  { command := strictCommand r optional m k, version := b!"1", settings := { autoExit := false } }

/-- What is asked of the results of the example. -/
def strictAnswers (n : PNode) : List Str × List (List Str) :=
  let strings (n : PNode) (name : Str) : List Str := match n.valuesOf name with
    | .ok l => l.map (·.1)
    | _ => []
  (strings n b!"-l", n.subs.flatMap fun (m : PNode) => [strings m b!"-m", strings m b!"FILE", strings m b!"REST"])

theorem strict_eased : Eased (strictCommand true false 1 2) (strictCommand false true 0 9) :=
  .intro (strictCommand true false 1 2) (as := []) (os := [{ flags := [b!"-l", b!"--level"], argument := b!"N", initialValue := b!"3" }]) (r := some false)
    ⟨.nil, by simp [strictCommand], by rintro ⟨b, x, f, e, _⟩; simp at e⟩ (each_refl easedOpt_refl _) (.inr rfl)
    (.cons (.intro _ (easedArgs_pair ⟨rfl, by decide, by decide⟩ ⟨rfl, by decide, by decide⟩ (.inl ⟨rfl, rfl⟩) (fun _ => .inr (by decide)))
      (.cons ⟨rfl, fun _ => rfl⟩ .nil) (.inl rfl) .nil) .nil)

set_option synthInstance.maxSize 1000 in
-- The conditions hold for a program that demands a sub-command, which demands an option and arguments; the later version demands less of all.
example : ∃ d, finishInitialization (strictData true false 1 2) = .ok d ∧ ∃ d', finishInitialization (strictData false true 0 9) = .ok d' ∧
    Eased (strictData true false 1 2).command (strictCommand false true 0 9) ∧ Ordinary d ∧ Predictable d ∧ Predictable d' ∧
    parseTo strictAnswers Env.inert d [b!"-l5", b!"show", b!"a", b!"-m", b!"2", b!"b", b!"c"] 99 = some ([b!"5"], [[b!"2"], [b!"a"], [b!"b", b!"c"]]) ∧
    parseTo strictAnswers Env.inert d' [b!"-l5", b!"show", b!"a", b!"-m", b!"2", b!"b", b!"c"] 99 = some ([b!"5"], [[b!"2"], [b!"a"], [b!"b", b!"c"]]) := by
  have key : ∀ r o m k, strictData r o m k = strictData true false 1 2 ∨ strictData r o m k = strictData false true 0 9 →
      ∃ d, finishInitialization (strictData r o m k) = .ok d ∧ (ordinaryCheck 2 d = true ∧ predictableCheck 2 d = true ∧
      parseTo strictAnswers Env.inert d [b!"-l5", b!"show", b!"a", b!"-m", b!"2", b!"b", b!"c"] 99 = some ([b!"5"], [[b!"2"], [b!"a"], [b!"b", b!"c"]])) := by
    rintro r o m k (e | e)
    all_goals
      rw [e]
      refine Outcome.exists_ok ?_
      decide +kernel
  obtain ⟨d, h, h2, h3, h4⟩ := key true false 1 2 (.inl rfl)
  obtain ⟨d', h', _, h3', h4'⟩ := key false true 0 9 (.inr rfl)
  exact ⟨d, h, d', h', strict_eased, ordinaryCheck_sound h2, predictableCheck_sound h3, predictableCheck_sound h3', h4, h4'⟩

/-! ## Where it fails -/

/-- A program with two arguments. -/
def pairData (m1 k1 m2 k2 : Nat) : ParserData :=
  { command := { name := b!"prog", arguments := [{ name := b!"A", minCount := m1, maxCount := k1 }, { name := b!"B", minCount := m2, maxCount := k2 }] }
    settings := { autoExit := false } }

/-- The values of the two arguments. -/
def pairAnswers (n : PNode) : ResultCode × List Str × List Str :=
  let strings (n : PNode) (name : Str) : List Str := match n.valuesOf name with
    | .ok l => l.map (·.1)
    | _ => []
  (n.code, strings n b!"A", strings n b!"B")

/-- **C92** is false when an earlier argument may be given more often: it takes values that belonged to a later one. -/
theorem C92_maximum_violated : ∃ (m k k' m2 k2 : Nat) (args : List Str), k ≤ k' ∧
    (∃ d, finishInitialization (pairData m k m2 k2) = .ok d ∧ parseTo pairAnswers Env.inert d args 9 = some (.success, [b!"a"], [b!"b", b!"c"])) ∧
    ∃ d', finishInitialization (pairData m k' m2 k2) = .ok d' ∧ parseTo pairAnswers Env.inert d' args 9 = some (.success, [b!"a", b!"b"], [b!"c"]) := by
  refine ⟨1, 1, 2, 1, 5, [b!"a", b!"b", b!"c"], by decide, ?_, ?_⟩
  all_goals
    refine Outcome.exists_ok ?_
    decide +kernel

/-- **C92** is false when a later argument may be given less often: an earlier one takes its values. -/
theorem C92_minimum_violated : ∃ (m k m2 m2' k2 : Nat) (args : List Str), m2' ≤ m2 ∧
    (∃ d, finishInitialization (pairData m k m2 k2) = .ok d ∧ parseTo pairAnswers Env.inert d args 9 = some (.success, [b!"a"], [b!"b", b!"c"])) ∧
    ∃ d', finishInitialization (pairData m k m2' k2) = .ok d' ∧ parseTo pairAnswers Env.inert d' args 9 = some (.success, [b!"a", b!"b"], [b!"c"]) := by
  refine ⟨1, 2, 2, 1, 2, [b!"a", b!"b", b!"c"], by decide, ?_, ?_⟩
  all_goals
    refine Outcome.exists_ok ?_
    decide +kernel

/-- **C92** is false when an argument before an optional one needn't be given any more: a command line is then rejected although the number of values is within the
counts and was accepted before. -/
theorem C92_counting_violated : ∃ (m m' k k2 : Nat) (args : List Str), m' ≤ m ∧
    (∃ d, finishInitialization (pairData m k 0 k2) = .ok d ∧ parseTo pairAnswers Env.inert d args 9 = some (.success, [b!"a"], [])) ∧
    ∃ d', finishInitialization (pairData m' k 0 k2) = .ok d' ∧ parseTo (fun n => n.code) Env.inert d' args 9 = some .failure := by
  refine ⟨1, 0, 1, 1, [b!"a"], by decide, ?_, ?_⟩
  all_goals
    refine Outcome.exists_ok ?_
    decide +kernel

end Argos
