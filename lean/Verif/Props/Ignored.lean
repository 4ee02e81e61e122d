import Verif.Proofs.Ignored
import Verif.Proofs.Several
import Verif.Props.Insert
import Verif.Props.Unprocessed

/-!
# C29, C83: ignored options and arguments have no other effect
-/

namespace Argos

open Spec Parser

/-- What parsing gives with the argument `x` between `pre` and `post`, compared with what it gives without: the same end (the same code, the same exception, the
same exit), the same values, sub-commands and options that ended parsing, the same messages and calls of callbacks. Only the active command `c` has the
unprocessed argument `x` in addition, after `u`. -/
structure NoOtherEffect (env : Env) (d : ParserData) (pre : List Str) (x : Str) (post : List Str) (fuel : Nat) (c : Command) (u : List Str) : Prop where
  results : SameEnd (AddedTo c u x) (parse env d (pre ++ post) fuel).1 (parse env d (pre ++ x :: post) (fuel + 1)).1
  log : (parse env d (pre ++ x :: post) (fuel + 1)).2.log = (parse env d (pre ++ post) fuel).2.log
  calls : (parse env d (pre ++ x :: post) (fuel + 1)).2.calls = (parse env d (pre ++ post) fuel).2.calls
  mode : (parse env d (pre ++ x :: post) (fuel + 1)).2.mode = (parse env d (pre ++ post) fuel).2.mode
  command : (parse env d (pre ++ x :: post) (fuel + 1)).2.command = (parse env d (pre ++ post) fuel).2.command

/-- **C83**, for whatever is ignored: if the iterator reports `b` as undefined when it is given `x` after `pre`, then `b` is `x`, and `x` has no effect on parsing
whatever follows, apart from being the next unprocessed argument of the active command. Missing: commands that need to know the number of arguments in advance
(`C83_count_violated`), an argument of which a part only is undefined (`hl'`, see `C29_violated`), and arguments after a LAST_OPTION option in the SLASH and
DASH styles (`hst`, see `C83_style_violated`). -/
theorem C83_reported_partial {d0 d : ParserData} (h : finishInitialization d0 = .ok d) (hm : CountsOk d.command) (hnc : ∀ c : Command, c.Within d.command → ¬ NeedsCount c)
    {env : Env} (he : env.Heedless) {pre : List Str} {rs : List IterResult} {s t : PState} {x b : Str}
    -- `pre` has been read when `rs` has been reported, and `x` is reported as undefined
    (ht : Trace env (start d pre).2 rs s) (hrs : ∀ r ∈ rs, ¬ r.IsLast) (hu : UsedUp s)
    (hx : Trace env (start d (pre ++ [x])).2 (rs ++ [.unknown b]) t) (hu' : UsedUp t) (hst : s.mode = .argumentsOnly → d0.settings.optionStyle = .standard)
    (post : List Str) {fuel : Nat} (hf : rs.length ≤ fuel) :
    b = x ∧ ∃ n ns, s.stack = n :: ns ∧ n.command = s.command ∧ NoOtherEffect env d pre x post fuel n.command n.unprocessed := by
  rw [← (finishInitialization_ok h).1] at hst
  obtain ⟨h1, n, ns, h2, h3, h4, t', ⟨_, i, l, e, hl⟩, h6⟩ := ignored_parse he (ready_of_init h) hm (notCounted hnc) ht hrs hu hx hu' hst post fuel hf
  refine ⟨h1, n, ns, h2, h3, h4, ?_, ?_, ?_, ?_⟩
  · rw [h6.same, e]
    exact hl trivial
  all_goals rw [h6.same, e]

/-- **C29** (what holds, the effect on the whole parse). With undefined options ignored, an option that isn't defined has no effect on parsing, whatever comes before
and after it and whatever callbacks there are, as long as they don't look at the unprocessed arguments: it is the next unprocessed argument of the active
command, as it was written. Missing: concatenated short flags (`C29_violated`) and commands that need to know the number of arguments in advance
(`C29_count_violated`). -/
theorem C29_parse_partial {d0 d : ParserData} (h : finishInitialization d0 = .ok d) (hm : CountsOk d.command) (hnc : ∀ c : Command, c.Within d.command → ¬ NeedsCount c)
    (hig : d0.settings.ignoreUndefinedOptions = true) {env : Env} (he : env.Heedless) {pre : List Str} {rs : List IterResult} {s : PState} {x : Str}
    -- `pre` has been read when `rs` has been reported, and options are still being read
    (ht : Trace env (start d pre).2 rs s) (hrs : ∀ r ∈ rs, ¬ r.IsLast) (hmo : s.mode = .argumentsAndOptions) (hl : NothingLeft s.iter)
    -- `x` is an option that the active command doesn't have
    (ha : Alone d0.settings.optionStyle x) {y : Reading} (hy : (Reader.mk [] [x]).readIn d0.settings.optionStyle = some y) (hf : IsFlag d0.settings.optionStyle y.flag)
    (hu : lookup d0.settings s.command y.flag = none) (post : List Str) {fuel : Nat} (hfu : rs.length ≤ fuel) :
    ∃ n ns, s.stack = n :: ns ∧ n.command = s.command ∧ NoOtherEffect env d pre x post fuel n.command n.unprocessed := by
  have hset := (finishInitialization_ok h).1
  have hus : UsedUp s := ⟨Or.inl hmo, hl, fun h => by rw [hmo] at h; simp at h⟩
  obtain ⟨k1, hg⟩ := trace_more (ready_of_init h) (notCounted hnc) ht hrs hus.unfinished [x]
  obtain ⟨t, h1, h2⟩ := option_reported (env := env) (d := d) (by rw [hset, hig]) hg hmo hl (by rw [hset]; exact ha) (by rw [hset]; exact hy) (by rw [hset]; exact hf) (by
    unfold Parser.lookup
    rw [hg.settings, hset]
    exact hu)
  exact (C83_reported_partial h hm hnc he ht hrs hus (k1.append (.cons h1 .nil)) h2 (fun h => by rw [hmo] at h; simp at h) post hfu).2

/-- **C83**: with undefined arguments ignored, an argument that comes when the command has got all the arguments it can have (and that doesn't name a further
sub-command) has no effect on parsing, whatever comes before and after it: it is the next unprocessed argument of the active command, as it was written. Missing: see
`C83_reported_partial`; callbacks that change the stored values or give arguments. -/
theorem C83_parse_partial {d0 d : ParserData} (h : finishInitialization d0 = .ok d) (hx : Exclusive d.command) (hm : CountsOk d.command)
    (hnc : ∀ c : Command, c.Within d.command → ¬ NeedsCount c)
    (hig : d0.settings.ignoreUndefinedArguments = true) {env : Env} (he : env.Heedless) (hp : env.Passive) {pre : List Str} {rs : List IterResult} {s : PState} {x : Str}
    -- `pre` has been read when `rs` has been reported
    (ht : Trace env (start d pre).2 rs s) (hrs : ∀ r ∈ rs, ¬ r.IsLast) (hu : UsedUp s) (hst : s.mode = .argumentsOnly → d0.settings.optionStyle = .standard)
    -- the active command `c` has no sub-commands and has got all the arguments it can have
    {c : Command} {occs : List Occ} {ts : List (Tree (List Occ))} {rest : Open} (hop : rs.foldl Open.step (Open.start d.command) = .node c occs ts :: rest)
    (hc : c.commands = []) (hfull : maxTotal c.arguments ≤ (argsGiven occs).length)
    -- `x` is neither an option nor the name of a further sub-command
    (hfl : s.mode = .argumentsAndOptions → ¬ IsFlag d0.settings.optionStyle x)
    (hns : ∀ p ∈ rest, p.command.multiCommand = true → ∀ c', ¬ NamesCommand d0.settings.caseInsensitive p.command x c')
    (post : List Str) {fuel : Nat} (hf : rs.length ≤ fuel) :
    ∃ n ns, s.stack = n :: ns ∧ n.command = c ∧ NoOtherEffect env d pre x post fuel c n.unprocessed := by
  have hset := (finishInitialization_ok h).1
  have hrd := ready_of_init h
  obtain ⟨k1, hg⟩ := trace_more hrd (notCounted hnc) ht hrs hu.unfinished [x]
  have hag := ht.agrees hp hrd (start_good d pre).2 hrs (agrees_start d pre)
  have hco := ht.counted hp hrd hx (start_good d pre).2 hrs (agrees_start d pre) (start_counted d pre)
  rw [hop] at hag hco
  obtain ⟨n, ns, hs, hcm⟩ := hg.head
  rw [hs] at hag
  obtain ⟨l, ts', rst, e, _, _, hrst⟩ := agrees_cons hag
  simp only [List.cons.injEq, Tree.node.injEq] at e
  obtain ⟨⟨rfl, rfl, rfl⟩, rfl⟩ := e
  obtain ⟨k, hk⟩ : ∃ k, s.counter.nextArgument = (none, k) := by
    obtain ⟨⟨t, r, e, cs, fo, m, ⟨z, ⟨hr, _⟩ | ⟨hr, rfl, rfl⟩⟩, hk, hgi, hb, hi⟩, _⟩ := hco
    · simp only [List.cons.injEq] at e
      rw [← e.1] at hr
      rw [notCounted hnc _ (hcm ▸ hg.within)] at hr
      simp at hr
    · simp only [List.cons.injEq] at e
      rw [← e.1] at hk hgi hi
      simp only [Tree.command, Tree.data] at hk hgi hi
      have hlen := congrArg List.length hgi
      rw [List.length_take, Counter.expand_length] at hlen
      rw [Counter.makeCountersLoop_total _ _ _ (hm _ (hcm ▸ hg.within))] at hk hlen hi
      rcases hi with hi | ⟨_, hi⟩
      · exact hi.next_none (by rw [Counter.makeCountersLoop_total _ _ _ (hm _ (hcm ▸ hg.within))]; omega)
      · exact ⟨_, Counter.next_full hi⟩
  have hsib : findSibling s x = none := by
    cases hfs : findSibling s x with
    | none => rfl
    | some y =>
      obtain ⟨c', size⟩ := y
      obtain ⟨_, a, pre', p, ps, e1, _, e2, _, e3⟩ := findSibling_some hfs
      rw [hs] at e1
      simp only [List.cons_append, List.cons.injEq] at e1
      have hmem : p.command ∈ ns.map (·.command) := by
        rw [e1.2]
        simp
      rw [agrees_commands hrst] at hmem
      obtain ⟨q, hq, e4⟩ := List.mem_map.mp hmem
      refine absurd ?_ (hns q hq (by rw [e4]; exact e2) c')
      rw [e4]
      rw [hg.settings, hset] at e3
      exact (subs_of _ _ _ _).mp e3
  obtain ⟨t, h1, h2⟩ := argument_reported (env := env) (d := d) (by rw [hset, hig]) hg hu (by rw [hset]; exact hst) (by rw [← hcm]; exact hc) hk (by rw [hset]; exact hfl) hsib
  obtain ⟨n', ns', g1, g2, g3⟩ := (C83_reported_partial h hm hnc he ht hrs hu (k1.append (.cons h1 .nil)) h2 hst post hf).2
  rw [hs] at g1
  simp only [List.cons.injEq] at g1
  rw [← g1.1] at g3
  exact ⟨n, ns, hs, rfl, g3⟩

theorem inert_heedless : Env.inert.Heedless := fun _ _ _ _ _ _ _ => rfl

/-- The conditions for `pre` decided by evaluation: `n` results, then everything has been read and `p` holds. -/
def usedUpCheck (env : Env) (d : ParserData) (pre : List Str) (n : Nat) (p : List IterResult → PState → Bool) : Bool :=
  match firstResults env n (start d pre).2 with
  | none => false
  | some (rs, s) => decide (s.mode = .argumentsAndOptions ∨ s.mode = .argumentsOnly) &&
    (match s.iter.remainingArguments with
      | .ok (l, _) => l.isEmpty
      | _ => false) &&
    (decide (s.mode ≠ .argumentsOnly) || (match s.iter.nextValue with
      | .ok (v, _) => v.isNone
      | _ => false)) && p rs s

theorem usedUpCheck_sound {env : Env} {d : ParserData} {pre : List Str} {n : Nat} {p : List IterResult → PState → Bool} (h : usedUpCheck env d pre n p = true) :
    ∃ rs s, Trace env (start d pre).2 rs s ∧ (∀ x ∈ rs, ¬ x.IsLast) ∧ rs.length = n ∧ UsedUp s ∧ p rs s = true := by
  unfold usedUpCheck at h
  split at h
  · simp at h
  · rename_i rs s h1
    obtain ⟨a1, a2, a3⟩ := firstResults_sound n h1
    simp only [Bool.and_eq_true, decide_eq_true_eq, Bool.or_eq_true] at h
    obtain ⟨⟨⟨b1, b2⟩, b3⟩, b4⟩ := h
    refine ⟨rs, s, a1, a2, a3, ⟨b1, ?_, ?_⟩, b4⟩
    · split at b2
      · rename_i l it hr
        have : l = [] := by simpa using b2
        subst this
        exact ⟨it, hr⟩
      · simp at b2
    · intro hm
      rcases b3 with b3 | b3
      · exact absurd hm b3
      · split at b3
        · rename_i v it hr
          have : v = none := by simpa using b3
          subst this
          exact ⟨it, hr⟩
        · simp at b3

theorem notCounted_of {d : ParserData} {depth : Nat} (h : d.command.checkAll (fun c => !Counter.requiresArgumentCount c.arguments) depth = true) :
    ∀ c : Command, c.Within d.command → ¬ NeedsCount c := by
  intro c hc hn
  have := Command.checkAll_sound h hc
  rw [(requires_iff _).mpr hn] at this
  simp at this

-- The hypotheses of `C29_parse_partial`: `--foo=1` after `a -v`, whatever follows.
example : ∃ d, finishInitialization ignoreData = .ok d ∧ ∀ post fuel, 2 ≤ fuel →
    ∃ n : PNode, NoOtherEffect Env.inert d [b!"a", b!"-v"] b!"--foo=1" post fuel n.command n.unprocessed := by
  have key : ∃ d, finishInitialization ignoreData = .ok d ∧ (d.command.checkAll (fun c => !Counter.requiresArgumentCount c.arguments) 2 = true ∧
      d.command.checkAll countsCheck 2 = true ∧
      usedUpCheck Env.inert d [b!"a", b!"-v"] 2 (fun _ s => decide (s.mode = .argumentsAndOptions) && (lookup ignoreData.settings s.command b!"--foo=").isNone) = true) := by
    refine Outcome.exists_ok ?_
    decide +kernel
  obtain ⟨d, hd, h1, h2, h3⟩ := key
  refine ⟨d, hd, fun post fuel hf => ?_⟩
  obtain ⟨rs, s, c1, c2, c3, c4, c5⟩ := usedUpCheck_sound h3
  simp only [Bool.and_eq_true, decide_eq_true_eq, Option.isNone_iff_eq_none] at c5
  obtain ⟨n, _, _, _, h⟩ := C29_parse_partial hd (countsCheck_sound h2).2 (notCounted_of h1) rfl inert_heedless c1 c2 c5.1 c4.left (x := b!"--foo=1") (by decide)
    (y := equalFlag b!"--foo=" b!"1" []) (by decide) (by decide) c5.2 post (fuel := fuel) (by rw [c3]; exact hf)
  exact ⟨n, h⟩

/-- A parser that ignores what it has no argument for. -/
def surplusData : ParserData :=
  { command :=
      { name := b!"cli"
        options := [{ flags := [b!"-o"], argument := b!"FILE" }, { flags := [b!"--"], type := .lastOption, operation := .none }]
        arguments := [{ name := b!"IN" }] }
    settings := { autoExit := false, ignoreUndefinedArguments := true } }

/-- The active command has got all the arguments it can have, and there can be no further sub-command. -/
def surplusCheck (d : ParserData) (m : Mode) (rs : List IterResult) (s : PState) : Bool :=
  decide (s.mode = m) && match rs.foldl Open.step (Open.start d.command) with
    | .node c occs _ :: rest => c.commands.isEmpty && decide (maxTotal c.arguments ≤ (argsGiven occs).length) && rest.isEmpty
    | [] => false

theorem surplus_example {d : ParserData} (hd : finishInitialization surplusData = .ok d)
    (h1 : d.command.checkAll (fun c => !Counter.requiresArgumentCount c.arguments) 2 = true) (h2 : d.command.checkAll countsCheck 2 = true) {pre : List Str} {m : Mode} {x : Str}
    (hx : m = .argumentsAndOptions → ¬ IsFlag .standard x) (h : usedUpCheck Env.inert d pre 2 (surplusCheck d m) = true) (post : List Str) {fuel : Nat} (hf : 2 ≤ fuel) :
    ∃ (c : Command) (n : PNode), NoOtherEffect Env.inert d pre x post fuel c n.unprocessed := by
  obtain ⟨rs, s, c1, c2, c3, c4, c5⟩ := usedUpCheck_sound h
  unfold surplusCheck at c5
  simp only [Bool.and_eq_true, decide_eq_true_eq] at c5
  obtain ⟨c5, c6⟩ := c5
  split at c6
  · rename_i c occs ts rest hop
    simp only [Bool.and_eq_true, decide_eq_true_eq, List.isEmpty_iff] at c6
    obtain ⟨⟨c6, c7⟩, rfl⟩ := c6
    obtain ⟨n, _, _, _, h⟩ := C83_parse_partial hd (countsCheck_sound h2).1 (countsCheck_sound h2).2 (notCounted_of h1) rfl inert_heedless Env.inert_passive c1 c2 c4
      (fun _ => rfl) hop c6 c7 (fun e => hx (c5.symm.trans e)) (by simp) post (fuel := fuel) (by rw [c3]; exact hf)
    exact ⟨c, n, h⟩
  · simp at c6

-- The hypotheses of `C83_parse_partial`: `b` after `a -o c`, whatever follows; the same after `--`, where even `-b` is an argument.
example : ∃ d, finishInitialization surplusData = .ok d ∧ ∀ post fuel, 2 ≤ fuel →
    (∃ (c : Command) (n : PNode), NoOtherEffect Env.inert d [b!"a", b!"-o", b!"c"] b!"b" post fuel c n.unprocessed) ∧
    (∃ (c : Command) (n : PNode), NoOtherEffect Env.inert d [b!"--", b!"a"] b!"-b" post fuel c n.unprocessed) := by
  have key : ∃ d, finishInitialization surplusData = .ok d ∧ (d.command.checkAll (fun c => !Counter.requiresArgumentCount c.arguments) 2 = true ∧
      d.command.checkAll countsCheck 2 = true ∧
      usedUpCheck Env.inert d [b!"a", b!"-o", b!"c"] 2 (surplusCheck d .argumentsAndOptions) = true ∧
      usedUpCheck Env.inert d [b!"--", b!"a"] 2 (surplusCheck d .argumentsOnly) = true) := by
    refine Outcome.exists_ok ?_
    decide +kernel
  obtain ⟨d, hd, h1, h2, h3, h4⟩ := key
  exact ⟨d, hd, fun post fuel hf => ⟨surplus_example hd h1 h2 (fun _ => by decide) h3 post hf, surplus_example hd h1 h2 (fun e => by cases e) h4 post hf⟩⟩

-- The same seen on two lines.
set_option synthInstance.maxSize 1000 in
example : ∃ d, finishInitialization surplusData = .ok d ∧
    parseTo (fun n => (n.code, n.values, n.unprocessed)) Env.inert d [b!"a", b!"-o", b!"c"] 9 = some (.success, [(1, b!"a", 2), (2, b!"c", 3)], []) ∧
    parseTo (fun n => (n.code, n.values, n.unprocessed)) Env.inert d [b!"a", b!"b", b!"-o", b!"c"] 9 = some (.success, [(1, b!"a", 2), (2, b!"c", 3)], [b!"b"]) := by
  refine Outcome.exists_ok ?_
  decide +kernel

/-- The parser of `C55_violated`, with undefined options and arguments ignored. -/
def oddIgnoringData : ParserData := { aheadData with settings := { aheadData.settings with
    ignoreUndefinedOptions := true
    ignoreUndefinedArguments := true } }

set_option synthInstance.maxSize 1000 in
/-- **C29** is violated for commands that need to know the number of arguments in advance: the undefined option `--foo` is taken for the value of `--odd` when the
arguments are counted (see `C55_violated`), and then the arguments are understood in another way. -/
theorem C29_count_violated : ∃ d, finishInitialization oddIgnoringData = .ok d ∧
    (parseTo (fun n => (n.code, n.values.map (·.2.1), n.unprocessed)) Env.inert d [b!"--odd", b!"a", b!"b"] 9 = some (.success, [b!"a"], [b!"b"]) ∧
     parseTo (fun n => (n.code, n.values.map (·.2.1), n.unprocessed)) Env.inert d [b!"--odd", b!"--foo", b!"a", b!"b"] 9 = some (.success, [b!"a", b!"b"], [b!"--foo"])) := by
  refine Outcome.exists_ok ?_
  decide +kernel

set_option synthInstance.maxSize 1000 in
/-- **C83** is violated for commands that need to know the number of arguments in advance: `b` is reported as undefined after `--odd a`, but when it is followed by `c`
it is counted, and then the arguments are understood in another way than without it. -/
theorem C83_count_violated : ∃ d, finishInitialization oddIgnoringData = .ok d ∧
    (parseTo (fun n => (n.code, n.values.map (·.2.1), n.unprocessed)) Env.inert d [b!"--odd", b!"a", b!"b"] 9 = some (.success, [b!"a"], [b!"b"]) ∧
     parseTo (fun n => (n.code, n.values.map (·.2.1), n.unprocessed)) Env.inert d [b!"--odd", b!"a", b!"b", b!"c"] 9 = some (.success, [b!"a", b!"b"], [b!"c"]) ∧
     parseTo (fun n => (n.code, n.values.map (·.2.1), n.unprocessed)) Env.inert d [b!"--odd", b!"a", b!"c"] 9 = some (.success, [b!"a"], [b!"c"])) := by
  refine Outcome.exists_ok ?_
  decide +kernel

/-- A parser in the SLASH style. -/
def surplusStyleData : ParserData :=
  { command :=
      { name := b!"cli"
        options := [{ flags := [b!"/-"], type := .lastOption, operation := .none }] }
    settings := { autoExit := false, ignoreUndefinedArguments := true, optionStyle := .slash } }

/-- **C83** is violated in the SLASH (and DASH) style after a LAST_OPTION option: an empty argument that nobody has written is reported together with each of the
ignored ones, because every argument is read again as its own (empty) value. -/
theorem C83_style_violated : ∃ d, finishInitialization surplusStyleData = .ok d ∧
    parseTo (fun n => (n.code, n.unprocessed)) Env.inert d [b!"/-", b!"a", b!"b"] 9 = some (.success, [b!"a", b!"", b!"b", b!""]) := by
  refine Outcome.exists_ok ?_
  decide +kernel

end Argos
