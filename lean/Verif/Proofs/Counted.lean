import Verif.Proofs.Tree
import Verif.Proofs.Counter

/-!
# The argument counter while a command is read
-/

namespace Argos
open Spec

namespace Counter

theorem makeCountersN_shape (args : List ArgData) (hmm : ∀ a ∈ args, a.minCount ≤ a.maxCount) (n : Nat) :
    ∃ m, minTotal args + m ≤ maxTotal args ∧ makeCountersN args n = distribute args m := by
  have hle := minTotal_le_maxTotal args hmm
  unfold makeCountersN
  simp only [getMinMaxCount_eq]
  exact ⟨_, by split <;> (try split) <;> omega, rfl⟩

/-- The counter of a command with the arguments `args`, when `given` is what it has handed out. -/
def CountOk (args given : List ArgData) (c : Counter) : Prop :=
  ∃ cs fo k, (∃ n, requiresArgumentCount args = true ∧ cs = makeCountersN args n ∧ fo = cs.length ∨
      requiresArgumentCount args = false ∧ cs = makeCountersLoop (findFirstOptional args) args 0 ∧ fo = findFirstOptional args) ∧
    k ≤ total cs ∧ given = (expand cs).take k ∧ c.firstOptional ≤ c.counters.length ∧
    (Inv cs fo k c ∨ (k = total cs ∧ c.counters.length ≤ c.index))

theorem forCount_countOk (args : List ArgData) (n : Nat) : CountOk args [] (forCount args n) := by
  cases hr : requiresArgumentCount args with
  | true =>
    refine ⟨makeCountersN args n, (makeCountersN args n).length, 0, ⟨n, Or.inl ⟨hr, rfl, rfl⟩⟩, by omega, by simp, ?_, Or.inl ?_⟩
    · simp [forCount, hr, ofArgsN, skip]
    · simp only [forCount, hr, Bool.not_true, Bool.false_eq_true, if_false, ofArgsN, skip]
      exact Inv.start _ _
  | false =>
    refine ⟨_, _, 0, ⟨n, Or.inr ⟨hr, rfl, rfl⟩⟩, by omega, by simp, ?_, Or.inl ?_⟩
    · simp only [forCount, hr, Bool.not_false, if_true, ofArgs]
      have h1 := findFirstOptional_le args
      have h2 : ∀ (l : List ArgData) fo i, l.length ≤ (makeCountersLoop fo l i).length := by
        intro l fo
        induction l with
        | nil => simp
        | cons a l ih =>
          intro i
          unfold makeCountersLoop
          have := ih (i + 1)
          split <;> simp only [List.length_cons] <;> omega
      have := h2 args (findFirstOptional args) 0
      omega
    · simp only [forCount, hr, Bool.not_false, if_true, ofArgs]
      exact Inv.start _ _

theorem next_full {c : Counter} (h : c.counters.length ≤ c.index) : c.nextArgument = (none, c) := by
  obtain ⟨counters, index, fo, counter⟩ := c
  simp only at h
  unfold nextArgument
  simp only [List.drop_eq_nil_of_le h, leadingZeros, Nat.add_zero]
  rw [List.getElem?_eq_none h]

theorem next_none_full {c c' : Counter} (h : c.nextArgument = (none, c')) :
    c'.counters.length ≤ c'.index ∧ c'.counters = c.counters ∧ c'.firstOptional = c.firstOptional := by
  unfold nextArgument at h
  simp only at h
  split at h
  · rename_i hn
    simp only [Prod.mk.injEq, true_and] at h
    rw [← h]
    exact ⟨List.getElem?_eq_none_iff.mp hn, rfl, rfl⟩
  · simp at h

theorem next_some_bounds {c c' : Counter} {a : ArgData} (h : c.nextArgument = (some a, c')) :
    c'.counters.length = c.counters.length ∧ c'.firstOptional = c.firstOptional := by
  unfold nextArgument at h
  simp only at h
  split at h
  · simp at h
  · simp only [Prod.mk.injEq, Option.some.injEq] at h
    rw [← h.2]
    simp

theorem CountOk.next_some {args given : List ArgData} {c c' : Counter} {a : ArgData} (h : CountOk args given c)
    (hn : c.nextArgument = (some a, c')) : CountOk args (given ++ [a]) c' := by
  obtain ⟨cs, fo, k, hcs, hk, hg, hb, hi | ⟨_, hf⟩⟩ := h
  · by_cases hkt : k < total cs
    · obtain ⟨a', c'', e1, e2, e3⟩ := hi.next_some hkt
      rw [hn] at e1
      simp only [Prod.mk.injEq, Option.some.injEq] at e1
      obtain ⟨rfl, rfl⟩ := e1
      obtain ⟨b1, b2⟩ := next_some_bounds hn
      refine ⟨cs, fo, k + 1, hcs, hkt, ?_, by rw [b1, b2]; exact hb, Or.inl e3⟩
      rw [List.take_add_one, e2, hg]
      rfl
    · obtain ⟨c'', e⟩ := hi.next_none (by omega)
      rw [hn] at e
      simp at e
  · rw [next_full hf] at hn
    simp at hn

theorem CountOk.next_none {args given : List ArgData} {c c' : Counter} (h : CountOk args given c)
    (hn : c.nextArgument = (none, c')) : CountOk args given c' := by
  obtain ⟨cs, fo, k, hcs, hk, hg, hb, hi⟩ := h
  obtain ⟨f1, f2, f3⟩ := next_none_full hn
  refine ⟨cs, fo, k, hcs, hk, hg, by rw [f2, f3]; exact hb, Or.inr ⟨?_, f1⟩⟩
  rcases hi with hi | ⟨hi, _⟩
  · apply Classical.byContradiction
    intro hne
    obtain ⟨a', c'', e1, _⟩ := hi.next_some (by omega)
    rw [hn] at e1
    simp at e1
  · exact hi

theorem Inv.count_complete {cs : List (Nat × ArgData)} {k : Nat} {c : Counter} (h : Inv cs cs.length k c) (hc : c.isComplete = true) :
    k = total cs := by
  obtain ⟨h1, h2, hs⟩ := h
  rcases hs with ⟨rfl, _, _, rfl⟩ | ⟨pre, n, a, rest, pre', r, rfl, hi, hcs, hl, hr, hk, _, _⟩
  · rfl
  · unfold isComplete at hc
    rw [h1, hi, hcs] at hc
    simp only [List.length_append, List.length_cons, Bool.or_eq_true, decide_eq_true_eq, Bool.and_eq_true] at hc
    rcases hc with hc | ⟨hc, hc2⟩
    · omega
    · have : rest = [] := List.eq_nil_of_length_eq_zero (by omega)
      subst this
      rw [← hl, List.getElem?_append_right (by omega)] at hc2
      simp at hc2
      subst hc2
      rw [total_append, total_cons]
      simp only [total, List.map_nil, List.sum_nil] at *
      omega

/-- A complete counter: the arguments have been given within their counts. -/
theorem CountOk.complete {args given : List ArgData} (hmm : ∀ a ∈ args, a.minCount ≤ a.maxCount) {c : Counter}
    (h : CountOk args given c) (hc : c.isComplete = true) :
    ∃ ks, IsAllotment args given.length ks ∧ given = handedOut args ks := by
  obtain ⟨cs, fo, k, ⟨n, ⟨hr, rfl, rfl⟩ | ⟨hr, rfl, rfl⟩⟩, hk, rfl, hb, hi⟩ := h
  · have hkt : k = total (makeCountersN args n) := by
      rcases hi with hi | ⟨hi, _⟩
      · exact hi.count_complete hc
      · exact hi
    obtain ⟨m, hm, e⟩ := makeCountersN_shape args hmm n
    rw [List.take_of_length_le (by rw [expand_length]; omega), expand_length]
    refine ⟨(makeCountersN args n).map (·.1), ?_, ?_⟩
    · rw [e, distribute_total args hmm m hm]
      exact distribute_allot args hmm m hm
    · rw [e]
      exact expand_zip args _ (distribute_snd args _)
  · obtain ⟨f1, f2, f3⟩ := ofArgs_complete_facts args hmm hr
    have hlen : ((expand (makeCountersLoop (findFirstOptional args) args 0)).take k).length = k := by
      rw [List.length_take, expand_length]; omega
    have hmin : minTotal args ≤ k := by
      rcases hi with hi | ⟨hi, _⟩
      · have := (hi.complete f1 f2).mp hc
        rwa [f3] at this
      · rw [hi, makeCountersLoop_total _ _ _ hmm]
        exact minTotal_le_maxTotal args hmm
    have hmax : k ≤ maxTotal args := by rwa [makeCountersLoop_total _ _ _ hmm] at hk
    rw [hlen]
    exact ofArgs_allot args hmm hr k hmin hmax

/-- Nothing is handed out beyond the counts. -/
theorem CountOk.within {args given : List ArgData} (hmm : ∀ a ∈ args, a.minCount ≤ a.maxCount) {c : Counter}
    (h : CountOk args given c) : given.length ≤ maxTotal args ∧ ∀ a ∈ given, a ∈ args := by
  obtain ⟨cs, fo, k, ⟨n, ⟨hr, rfl, rfl⟩ | ⟨hr, rfl, rfl⟩⟩, hk, rfl, hb, hi⟩ := h
  · obtain ⟨m, hm, e⟩ := makeCountersN_shape args hmm n
    refine ⟨?_, ?_⟩
    · rw [e, distribute_total args hmm m hm] at hk
      rw [List.length_take]
      omega
    · intro a ha
      have ha := List.mem_of_mem_take ha
      unfold expand at ha
      obtain ⟨p, hp, ha⟩ := List.mem_flatMap.mp ha
      have := List.eq_of_mem_replicate ha
      subst this
      have : p.2 ∈ (makeCountersN args n).map (·.2) := List.mem_map_of_mem hp
      rwa [e, distribute_snd] at this
  · refine ⟨?_, ?_⟩
    · rw [makeCountersLoop_total _ _ _ hmm] at hk
      rw [List.length_take]
      omega
    · intro a ha
      have ha := List.mem_of_mem_take ha
      rw [makeCountersLoop_expand _ _ _ hmm] at ha
      obtain ⟨p, hp, ha⟩ := List.mem_flatMap.mp ha
      have := List.eq_of_mem_replicate ha
      subst this
      exact hp

end Counter

namespace Parser
open Counter

/-- The counter agrees with the arguments given to the active command, and no arguments have been given to
commands with sub-commands. -/
structure Counted (ct : Counter) (st : Open) : Prop where
  active : ∃ t rest, st = t :: rest ∧ CountOk t.command.arguments (argsGiven t.data) ct
  none : ∀ t ∈ st, t.command.commands ≠ [] → argsGiven t.data = []

theorem argsGiven_snoc_option (l : List Occ) (o : OptData) (v : Str) : argsGiven (l ++ [.option o v]) = argsGiven l := by
  simp [argsGiven]

theorem argsGiven_snoc_argument (l : List Occ) (a : ArgData) (v : Str) : argsGiven (l ++ [.argument a v]) = argsGiven l ++ [a] := by
  simp [argsGiven]

theorem Counted.add_option {ct : Counter} {st : Open} (h : Counted ct st) (o : OptData) (v : Str) :
    Counted ct (st.add (.option o v)) := by
  obtain ⟨⟨⟨c, l, ts⟩, rest, rfl, h1⟩, h2⟩ := h
  constructor
  · exact ⟨_, _, rfl, by simp only [Tree.command, Tree.data, argsGiven_snoc_option]; exact h1⟩
  · intro t ht hc
    rcases List.mem_cons.mp ht with rfl | ht
    · simp only [Tree.data, argsGiven_snoc_option]
      exact h2 (.node c l ts) (by simp) hc
    · exact h2 t (by simp [ht]) hc

theorem argsGiven_snoc_unknown (l : List Occ) (x : Str) : argsGiven (l ++ [.unknown x]) = argsGiven l := by
  simp [argsGiven]

theorem Counted.add_unknown {ct : Counter} {st : Open} (h : Counted ct st) (x : Str) :
    Counted ct (st.add (.unknown x)) := by
  obtain ⟨⟨⟨c, l, ts⟩, rest, rfl, h1⟩, h2⟩ := h
  constructor
  · exact ⟨_, _, rfl, by simp only [Tree.command, Tree.data, argsGiven_snoc_unknown]; exact h1⟩
  · intro t ht hc
    rcases List.mem_cons.mp ht with rfl | ht
    · simp only [Tree.data, argsGiven_snoc_unknown]
      exact h2 (.node c l ts) (by simp) hc
    · exact h2 t (by simp [ht]) hc

theorem Counted.add_argument {ct ct' : Counter} {st : Open} (h : Counted ct st) {a : ArgData} (v : Str)
    (hn : ct.nextArgument = (some a, ct')) (hl : st.isLeaf = true) : Counted ct' (st.add (.argument a v)) := by
  obtain ⟨⟨⟨c, l, ts⟩, rest, rfl, h1⟩, h2⟩ := h
  constructor
  · exact ⟨_, _, rfl, by simp only [Tree.command, Tree.data, argsGiven_snoc_argument]; exact h1.next_some hn⟩
  · intro t ht hc
    rcases List.mem_cons.mp ht with rfl | ht
    · exact absurd (by simpa [Open.isLeaf, Tree.command] using hl) hc
    · exact h2 t (by simp [ht]) hc

/-- The open commands after going back: the innermost one was there before, with the same data. -/
theorem back_spec {st st' : Open} (h : st.back = some st') :
    ∃ t0 pre c l ts x rest, st = t0 :: pre ++ .node c l ts :: rest ∧ st' = .node c l (ts ++ [x]) :: rest := by
  have go : ∀ (l : Open) (t : Tree (List Occ)) (st' : Open), Open.back.go t l = some st' →
      ∃ pre c d ts x rest, l = pre ++ .node c d ts :: rest ∧ st' = .node c d (ts ++ [x]) :: rest := by
    intro l
    induction l with
    | nil => intro t st' h; simp [Open.back.go] at h
    | cons q l ih =>
      obtain ⟨c, d, ts⟩ := q
      intro t st' h
      unfold Open.back.go at h
      split at h
      · simp only [Option.some.injEq] at h
        exact ⟨[], c, d, ts, t, l, rfl, h.symm⟩
      · obtain ⟨pre, c', d', ts', x, rest, e1, e2⟩ := ih _ _ h
        exact ⟨.node c d ts :: pre, c', d', ts', x, rest, by rw [e1]; rfl, e2⟩
  cases st with
  | nil => simp [Open.back] at h
  | cons t l =>
    obtain ⟨pre, c, d, ts, x, rest, e1, e2⟩ := go l t st' h
    exact ⟨t, pre, c, d, ts, x, rest, by rw [e1]; rfl, e2⟩

theorem back_none_data {st st' : Open} (h : st.back = some st')
    (h2 : ∀ t ∈ st, t.command.commands ≠ [] → argsGiven t.data = []) :
    ∀ t ∈ st', t.command.commands ≠ [] → argsGiven t.data = [] := by
  obtain ⟨t0, pre, c, l, ts, x, rest, rfl, rfl⟩ := back_spec h
  intro t ht hc
  rcases List.mem_cons.mp ht with rfl | ht
  · exact h2 (.node c l ts) (by simp) hc
  · exact h2 t (by simp [ht]) hc

theorem Counted.enter {ct : Counter} {st : Open} (h2 : ∀ t ∈ st, t.command.commands ≠ [] → argsGiven t.data = []) (c : Command) (n : Nat)
    (hct : ct = forCount c.arguments n) : Counted ct (.node c [] [] :: st) := by
  subst hct
  refine ⟨⟨_, _, rfl, forCount_countOk _ _⟩, ?_⟩
  intro t ht hc
  rcases List.mem_cons.mp ht with rfl | ht
  · rfl
  · exact h2 t ht hc

theorem option_passive_counter {env : Env} (hp : env.Passive) {d : ParserData} {s s2 s3 : PState} (hg : Good d s) {o : OptData} {flag : Str}
    {it : Iter} {v : Str} {stored : Bool} {w : Option Str} (ht : Taken s (some flag) it)
    (h1 : OpRun o flag { s with iter := it } (.ok (some (v, stored))) s2)
    (h2 : calls env o.callback ParserSettings.optionCallback (.opt o) o.valueId stored (some v) s2 = (.ok w, s3)) :
    s3.counter = s.counter := by
  have hg' := (hg.taken ht).2.2
  have hg2 := hg'.opRun h1
  have h3 := (h1.ok_facts hg'.ne hg'.iterOk).2.2.2.2.2.2.2.1
  obtain ⟨e1, k, rfl⟩ := calls_passive hp _ _ _ _ _ _ _ hg2.ne hg2.iterOk h2
  exact h3

theorem argument_passive_counter {env : Env} (hp : env.Passive) {d : ParserData} {s s3 : PState} (hg : Good d s) {a : ArgData} {arg : Str}
    {it : Iter} {ct : Counter} {w : Option Str} (ht : Taken s (some arg) it) (h1 : s.counter.nextArgument = (some a, ct))
    (h2 : calls env a.callback ParserSettings.argumentCallback (.arg a) a.valueId true (some arg) (argState a ct arg { s with iter := it }) =
      (.ok w, s3)) : s3.counter = ct := by
  have hg' := (hg.taken ht).2.2
  have hg2 := hg'.arg (v := arg) h1
  obtain ⟨e1, k, rfl⟩ := calls_passive hp _ _ _ _ _ _ _ hg2.ne hg2.iterOk h2
  rfl

theorem Step.counted {env : Env} (hp : env.Passive) {d : ParserData} (hx : Exclusive d.command) {s s' : PState} (hg : Good d s)
    {r : IterResult} {st : Open} (h : Step env s (.ok r) s') (hr : ¬ r.IsLast) (ha : Agrees s.stack st) (hc : Counted s.counter st) :
    Counted s'.counter (st.step r) := by
  have herr : ∀ {msg t}, ErrorRun msg t IterResult.error (.ok r) s' → False := by
    intro msg t he
    cases he with
    | error _ _ => exact hr trivial
  obtain ⟨n, ns, hs, hcmd⟩ := hg.head
  have hleaf : st.isLeaf = s.command.commands.isEmpty := by
    rw [hs] at ha
    obtain ⟨l, ts, rest, rfl, _⟩ := agrees_cons ha
    rw [← hcmd]
    rfl
  cases h with
  | afterDone _ => exact absurd trivial hr
  | finished _ _ => exact absurd trivial hr
  | unfinished _ _ he => exact (herr he).elim
  | unknownOption _ _ _ _ _ he => exact (herr he).elim
  | ignoredOption ht _ _ _ _ _ => exact hc.add_unknown _
  | option ht _ _ hrun =>
    cases hrun with
    | noValue _ _ he => exact (herr he).elim
    | normal h1 h2 hty =>
      obtain ⟨rfl, e⟩ := option_passive hp hg ht h1 h2
      rw [step_option _ _ _ (by rw [hty]; simp), option_passive_counter hp hg ht h1 h2]
      exact hc.add_option _ _
    | lastOption h1 h2 hty =>
      obtain ⟨rfl, e⟩ := option_passive hp hg ht h1 h2
      rw [step_option _ _ _ (by rw [hty]; simp)]
      simp only [option_passive_counter hp hg ht h1 h2]
      exact hc.add_option _ _
    | stopped h1 h2 ho _ hre =>
      obtain ⟨rfl, e⟩ := option_passive hp hg ht h1 h2
      rw [step_option _ _ _ (by rcases ho with ho | ho | ho <;> rw [ho] <;> simp)]
      show Counted (PState.counter _) _
      simp only [copyState, stopState, option_passive_counter hp hg ht h1 h2]
      exact hc.add_option _ _
    | lastFails _ _ _ _ he => exact (herr he).elim
    | lastDone h1 h2 hty hok hnm hre =>
      obtain ⟨rfl, e⟩ := option_passive hp hg ht h1 h2
      rw [findMultiParent_succ] at hnm
      simp only [Option.map_eq_none_iff] at hnm
      have h3 := agrees_occWrite ha ‹OptData› ‹Str›
      rw [← e] at h3
      have h4 := agrees_back_none h3 hnm
      simp only [Open.step, hty, if_true, Option.getD_some, h4, Option.getD_none, copyState, succState,
        option_passive_counter hp hg ht h1 h2]
      exact hc.add_option _ _
    | lastMulti h1 h2 hty hok hfm =>
      rename_i s3 v stored w sub
      obtain ⟨rfl, e⟩ := option_passive hp hg ht h1 h2
      have h3 := agrees_occWrite ha ‹OptData› v
      rw [← e] at h3
      have h3 := agrees_map raw_asSuccess h3
      obtain ⟨a, pre, p, ps, e1, rfl, e3, e4⟩ := findMultiParent_some hfm
      have e1' : s3.stack.map asSuccess = a :: pre ++ p :: ps := e1
      rw [e1'] at h3
      obtain ⟨st', h4, h5⟩ := agrees_back h3 e3 e4
      have hg3 : Good d (succState s3) := (near_option hg ht h1 h2).2.succ
      have hdata := back_none_data h4 (hc.add_option ‹OptData› v).none
      simp only [Open.step, hty, if_true, Option.getD_some, h4, reactState]
      refine ⟨?_, hdata⟩
      obtain ⟨l, ts, rest, rfl, h6, h7, h8⟩ := agrees_cons h5
      have hw : p.command.Within d.command := hg3.path.within p (by rw [e1]; simp)
      have hcm : p.command.commands ≠ [] := by
        have hpath := hg3.path
        rw [e1] at hpath
        exact hpath.below_commands
      refine ⟨_, _, rfl, ?_⟩
      have hda := hdata (.node p.command l ts) (by simp) hcm
      show CountOk p.command.arguments (argsGiven l) {}
      rw [hx _ hw hcm, show argsGiven l = [] from hda]
      exact forCount_countOk [] 0
  | command ht hno hcc hf hcur =>
    have : st.isLeaf = false := by rw [hleaf]; simpa using hcc
    simp only [Open.step, this]
    exact Counted.enter hc.none _ _ rfl
  | unknownCommand _ _ _ _ he => exact (herr he).elim
  | argument ht hno hce hrun =>
    have hl : st.isLeaf = true := by rw [hleaf, hce]; rfl
    cases hrun with
    | sibling hf hcur =>
      obtain ⟨e0, a, pre, p, ps, e1, rfl, e3, e4, e5⟩ := findSibling_some hf
      have e1' : s.stack = a :: pre ++ p :: ps := e1
      rw [e1'] at ha
      obtain ⟨st', h4, h5⟩ := agrees_back ha e3 e4
      simp only [Open.step, hl, if_true, h4, Option.getD_some]
      exact Counted.enter (back_none_data h4 hc.none) _ _ rfl
    | argument _ hn hcl =>
      obtain ⟨rfl, e⟩ := argument_passive hp hg ht hn hcl
      rw [argument_passive_counter hp hg ht hn hcl]
      exact hc.add_argument _ hn hl
    | ignored _ hn _ _ =>
      obtain ⟨⟨t, rest, rfl, h1⟩, h2⟩ := hc
      exact Counted.add_unknown ⟨⟨t, rest, rfl, h1.next_none hn⟩, h2⟩ _
    | tooMany _ _ _ he => exact (herr he).elim

theorem start_counted (d : ParserData) (args : List Str) : Counted (start d args).2.counter (Open.start d.command) := by
  rw [(start_good d args).1]
  refine ⟨⟨_, _, rfl, ?_⟩, ?_⟩
  · have : argsGiven (d.command.options.map Occ.initial) = [] := by
      induction d.command.options with
      | nil => rfl
      | cons o os ih => simpa [argsGiven] using ih
    simp only [Tree.command, Tree.data, this]
    exact forCount_countOk _ _
  · intro t ht _
    simp only [Open.start, List.mem_singleton] at ht
    subst ht
    simp only [Tree.data]
    induction d.command.options with
    | nil => rfl
    | cons o os ih => simpa [argsGiven] using ih

theorem _root_.Argos.Trace.counted {env : Env} (hp : env.Passive) {d : ParserData} (hr : Ready d) (hx : Exclusive d.command)
    {s s' : PState} {rs : List IterResult} (h : Trace env s rs s') (hg : Good d s) (hl : ∀ r ∈ rs, ¬ r.IsLast) {st : Open}
    (ha : Agrees s.stack st) (hc : Counted s.counter st) : Counted s'.counter (rs.foldl Open.step st) := by
  induction h generalizing st with
  | nil => exact hc
  | cons hn _ ih =>
    obtain ⟨hst, hg1⟩ := next_good hr hg hn
    have hr' := hl _ (List.mem_cons_self ..)
    exact ih hg1 (fun r hr => hl r (by simp [hr])) (hst.agrees hp hg hr' ha) (hst.counted hp hx hg hr' ha hc)

end Parser

end Argos
