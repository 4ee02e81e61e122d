import Verif.Proofs.LineFacts
import Verif.Props.Outcome
import Verif.Props.Lookup

/-! # What is left unprocessed: C54, C29, and C04 and C05 for the parser -/

set_option synthInstance.maxSize 1000

namespace Argos
open Spec Parser

/-! ## C54 -/

/-- **C54** (what holds). After a parse without an error, no command has unprocessed arguments unless ignoring
them is turned on or an option ended parsing early. This holds for every option style and whatever
callbacks do. Missing: the documentation allows the last case only when `auto_exit` is off, see
`C54_violated`. -/
theorem C54_empty_partial {d0 d : ParserData} (h : finishInitialization d0 = .ok d) {env : Env} {args : List Str} {rs : List IterResult}
    {n : PNode} (hr : Returns env d args rs .done n) (ho : d0.settings.ignoreUndefinedOptions = false)
    (ha : d0.settings.ignoreUndefinedArguments = false) (hs : NoStop rs) (hl : ∀ o v, .option o v ∈ rs → o.type ≠ .lastArgument) {m : PNode}
    (hm : m.Within n) : m.unprocessed = [] := by
  have hrd := ready_of_init h
  have hset := (finishInitialization_ok h).1
  rw [← hset] at ho ha
  obtain ⟨l, _, h1, t, h2, h3⟩ := hr.unprocessed hrd (Or.inl ha)
  rw [leave_nil (h1 hs hl)] at h2
  obtain ⟨s', hp, _⟩ := hr
  obtain ⟨s, ht, _⟩ := hp.good hrd
  have h4 := after_clean d.command rs (ht.no_unknown hrd (start_good d args).2 ho ha) h2
  have h5 := PNode.within_unprocessedTree hm
  rw [h3] at h5
  obtain ⟨x, h6, h7⟩ := Tree.within_map h5
  have h8 := h4 x h6
  obtain ⟨c, occs, ts⟩ := x
  rw [Tree.map_node, PNode.unprocessedTree_eq, PNode.rawBy_eq] at h7
  simp only [Tree.node.injEq] at h7
  rw [h7.2.1]
  exact h8

/-- The parser of the examples, with `auto_exit` on. -/
def stopData : ParserData :=
  { command :=
      { name := b!"cli"
        options := [{ flags := [b!"--stop"], type := .stop, operation := .none },
          { flags := [b!"--end"], type := .lastArgument, operation := .none },
          { flags := [b!"--"], type := .lastOption, operation := .none },
          { flags := [b!"-v"], constant := b!"1" }]
        arguments := [{ name := b!"IN", minCount := 0, maxCount := 3 }] }
    settings := { autoExit := true } }

example : ∃ d, finishInitialization stopData = .ok d ∧
    parseTo (·.unprocessed) Env.inert d [b!"-v", b!"x", b!"--", b!"-v"] 9 = some [] := by
  refine Outcome.exists_ok ?_
  decide +kernel

/-- **C54** is violated: with `auto_exit` on, and nothing ignored, a STOP and a LAST_ARGUMENT option leave
unprocessed arguments. With `auto_exit` off an error does, which no option caused. -/
theorem C54_violated :
    (∃ d, finishInitialization stopData = .ok d ∧
      parseTo (·.unprocessed) Env.inert d [b!"--stop", b!"x"] 9 = some [b!"x"] ∧
      parseTo (·.unprocessed) Env.inert d [b!"--end", b!"x"] 9 = some [b!"x"]) ∧
    ∃ d, finishInitialization { stopData with settings := { autoExit := false } } = .ok d ∧
      parseTo (·.unprocessed) Env.inert d [b!"1", b!"2", b!"3", b!"4", b!"5"] 9 = some [b!"5"] ∧
      parseCode Env.inert d [b!"1", b!"2", b!"3", b!"4", b!"5"] 9 = some .failure := by
  refine ⟨Outcome.exists_ok ?_, Outcome.exists_ok ?_⟩ <;> decide +kernel

/-! ## C29 -/

/-- **C29** (what holds, one argument). When options are being read, the next argument is `a` and the flag read
from it selects no option, then the result is `a` as a whole: it is added to the unprocessed
arguments of the active command, and nothing else changes. No error is reported. Reading goes on after
the flag: with the next argument, unless `a` consists of concatenated short flags. Missing:
concatenated short flags, see `C29_violated`. -/
theorem C29_step_partial {d0 d : ParserData} (h : finishInitialization d0 = .ok d)
    (hig : d0.settings.ignoreUndefinedOptions = true) {env : Env} {args : List Str} {s : PState} (hs : Reach env d args s)
    (hm : s.mode = .argumentsAndOptions) {a : Str} {rest : List Str} (hr : s.iter.reader = ⟨[], a :: rest⟩) {x : Reading}
    (hx : (Reader.mk [] (a :: rest)).readIn d0.settings.optionStyle = some x) (hf : IsFlag d0.settings.optionStyle x.flag)
    (hu : lookup d0.settings s.command x.flag = none) :
    ∃ it : Iter, next env s = (.ok (.unknown a),
        { s with iter := it, stack := headMap (fun n => { n with unprocessed := n.unprocessed ++ [a] }) s.stack }) ∧
      it.reader = x.afterFlag ∧ (Alone d0.settings.optionStyle a → x.afterFlag = ⟨[], rest⟩) := by
  have hrd := ready_of_init h
  have hg := hs.good hrd
  have hset := (finishInitialization_ok h).1
  have hpfx : s.iter.pfx = stylePrefix d0.settings.optionStyle := by rw [hg.pfx, hset]
  obtain ⟨y, it, h1, h2, _⟩ := s.iter.next_ok hg.iterOk
  have h3 := s.iter.next_spec hg.iterOk
  rw [hpfx, hr] at h3
  rw [show (Reader.mk [] (a :: rest)).read (stylePrefix d0.settings.optionStyle) = some x from hx] at h3
  obtain ⟨it', h4, h5, h6, h7, h8⟩ := h3
  rw [h1] at h4
  simp only [Outcome.ok.injEq, Prod.mk.injEq] at h4
  obtain ⟨rfl, rfl⟩ := h4
  have ht : Taken s (some x.flag) it := Or.inl ⟨hm, h1⟩
  obtain ⟨cur, hcur⟩ := it.current_ok ((s.iter.next_weight h1).2 _ rfl).2
  have hc := Iter.next_current hg.iterOk h1 hcur (by rw [hr])
  rw [hr] at hc
  simp only [List.head?_cons, Option.some.injEq] at hc
  subst hc
  have hol : s.mode = .argumentsAndOptions ∧ isOption x.flag s.settings.optionStyle = true := by
    refine ⟨hm, ?_⟩
    rw [hg.settings, hset]
    exact (isOption_iff _ _).mpr hf
  have hpre : startsWithCs a x.flag = true := by
    rw [startsWithCs_iff]
    exact read_prefix hx
  refine ⟨it, ?_, h6, ?_⟩
  · rw [next_taken env s _ it ht]
    unfold nextTail
    simp only
    rw [if_pos hol]
    exact (processOption_unknown env x.flag a { s with iter := it } hg.ne h2 (by
      unfold Parser.lookup
      show findOption s.command.optionIndex x.flag s.settings.allowAbbreviatedOptions s.settings.caseInsensitive = none
      rw [hg.settings, hset]
      exact hu) hcur).2 (by show s.settings.ignoreUndefinedOptions = true; rw [hg.settings, hset, hig]) hpre
  · intro hal
    exact read_alone_head hal hx

/-- **C29** (what holds, a whole parse). With undefined options ignored, the unprocessed arguments of all commands
are those reported as undefined while the command was active, in that order, and finally what was
not read after an option that ended parsing (`Open.leave`). Missing: ignored arguments after a
LAST_OPTION or LAST_ARGUMENT option. -/
theorem C29_unprocessed_partial {d0 d : ParserData} (h : finishInitialization d0 = .ok d) {env : Env} {args : List Str} {rs : List IterResult}
    {n : PNode} (hr : Returns env d args rs .done n)
    (hplain : d0.settings.ignoreUndefinedArguments = false ∨ NoLast rs) :
    ∃ (l : Line) (t : Tree (List Occ)), ((Open.after d.command rs).leave l).close = some t ∧ n.unprocessedTree = t.map unknownsOf ∧
      (NoStop rs → (∀ o v, .option o v ∈ rs → o.type ≠ .lastArgument) → l.notRead = []) := by
  have hset := (finishInitialization_ok h).1
  obtain ⟨l, _, h1, t, h2, h3⟩ := hr.unprocessed (ready_of_init h) (by rw [hset]; exact hplain)
  exact ⟨l, t, h2, h3, h1⟩

/-- **C29**, a whole parse without concatenated short flags, LAST_OPTION or LAST_ARGUMENT options and sub-commands:
the unprocessed arguments are exactly what was reported as undefined (and what was not read), each
once, and they occur on the command line in this order (so that `filter_parsed_arguments` keeps
exactly them, C30). -/
theorem C29_in_order_partial {d0 d : ParserData} (h : finishInitialization d0 = .ok d)
    {env : Env} (hp : env.Passive) {args : List Str} {rs : List IterResult} {n : PNode} (hr : Returns env d args rs .done n)
    (hl : NoLast rs) (hne : d0.settings.optionStyle = .standard ∨ [] ∉ args) (hal : ∀ a ∈ args, Alone d0.settings.optionStyle a) (hc : ∀ c x, .command c x ∉ rs) :
    ∃ unread, n.unprocessed = unknownsIn rs ++ unread ∧ n.unprocessed.Sublist args ∧ (NoStop rs → unread = []) := by
  have hset := (finishInitialization_ok h).1
  have hf : Faithful d args rs := by
    unfold Faithful
    rw [hset]
    exact hne.imp id fun hne => ⟨hne, fun o v hm => ⟨(hl o v hm).1, fun e => absurd e (hl o v hm).2⟩⟩
  obtain ⟨l, h0, h1, t, h2, h3⟩ := hr.unprocessed (ready_of_init h) (Or.inr hl)
  have key : n.unprocessed = unknownsIn rs ++ l.notRead := by
    rw [after_flat _ _ hc] at h2
    have hlv : ∀ (xs : List Str) (c : Command) (o : List Occ) (ts : List (Tree (List Occ))),
        xs.foldl (fun (st : Open) x => st.add (.unknown x)) [.node c o ts] = [.node c (o ++ xs.map .unknown) ts] := by
      intro xs
      induction xs with
      | nil => intro c o ts; simp
      | cons x xs ih => intro c o ts; rw [List.foldl_cons, Open.add, ih]; simp
    unfold Open.leave at h2
    rw [hlv] at h2
    simp only [Open.close, Open.close.go, Option.some.injEq] at h2
    rw [← h2, Tree.map_node, PNode.unprocessedTree_eq, PNode.rawBy_eq] at h3
    simp only [Tree.node.injEq] at h3
    rw [h3.2.1, unknownsOf_append, unknownsOf_append]
    congr 1
    · have e1 : unknownsOf (d.command.options.map .initial) = [] := by simp [unknownsOf]
      rw [e1, List.nil_append]
      unfold unknownsOf unknownsIn
      rw [List.filterMap_filterMap]
      congr 1
      funext r
      cases r <;> rfl
    · simp [unknownsOf, List.filterMap_map, Function.comp_def]
  refine ⟨l.notRead, key, ?_, fun hs => h1 hs (fun o v hm => (hl o v hm).2)⟩
  rw [key]
  exact (h0 hp hf).1.unknowns hl args rfl (by rw [hset]; exact hal)

/-- The parser of the examples. -/
def ignoreData : ParserData :=
  { command :=
      { name := b!"cli"
        options := [{ flags := [b!"-o"], argument := b!"FILE" }, { flags := [b!"-v"], constant := b!"1" }]
        arguments := [{ name := b!"IN", minCount := 0, maxCount := 3 }] }
    settings := { autoExit := false, ignoreUndefinedOptions := true } }

-- The hypotheses of `C29_step_partial`.
example : ∃ d, finishInitialization ignoreData = .ok d ∧ Reach Env.inert d [b!"--foo=1", b!"a"] (start d [b!"--foo=1", b!"a"]).2 ∧
    (start d [b!"--foo=1", b!"a"]).2.mode = .argumentsAndOptions ∧
    (start d [b!"--foo=1", b!"a"]).2.iter.reader = ⟨[], [b!"--foo=1", b!"a"]⟩ ∧
    lookup ignoreData.settings (start d [b!"--foo=1", b!"a"]).2.command b!"--foo=" = none ∧ IsFlag .standard b!"--foo=" := by
  obtain ⟨d, h1, h2⟩ := Outcome.exists_ok (x := finishInitialization ignoreData)
    (P := fun d => (start d [b!"--foo=1", b!"a"]).2.mode = .argumentsAndOptions ∧
      (start d [b!"--foo=1", b!"a"]).2.iter.reader = ⟨[], [b!"--foo=1", b!"a"]⟩ ∧
      (lookup ignoreData.settings (start d [b!"--foo=1", b!"a"]).2.command b!"--foo=").isNone = true ∧ IsFlag .standard b!"--foo=") (by decide +kernel)
  exact ⟨d, h1, .start, h2.1, h2.2.1, by simpa using h2.2.2.1, h2.2.2.2⟩

-- "-q" is also the value of "-o" here, where it is not an option.
example : ∃ d, finishInitialization ignoreData = .ok d ∧
    parseTo (·.unprocessed) Env.inert d [b!"--foo=1", b!"a", b!"-o", b!"-q", b!"-q", b!"--foo=1", b!"-v"] 9 =
      some [b!"--foo=1", b!"-q", b!"--foo=1"] ∧
    parseCode Env.inert d [b!"--foo=1", b!"a", b!"-o", b!"-q", b!"-q", b!"--foo=1", b!"-v"] 9 = some .success ∧
    ∀ a ∈ ([b!"--foo=1", b!"a", b!"-o", b!"-q", b!"-q", b!"--foo=1", b!"-v"] : List Str), Alone .standard a := by
  refine Outcome.exists_ok ?_
  decide +kernel

-- The SLASH style.
example : ∃ d, finishInitialization { ignoreData with
        command := { ignoreData.command with options := [{ flags := [b!"/o"], argument := b!"FILE" }, { flags := [b!"/v"], constant := b!"1" }] }
        settings := { ignoreData.settings with optionStyle := .slash } } = .ok d ∧
    parseTo (·.unprocessed) Env.inert d [b!"/foo=1", b!"a", b!"/o", b!"/q", b!"/qqq", b!"/foo=1", b!"/v", b!"-v"] 9 =
      some [b!"/foo=1", b!"/qqq", b!"/foo=1"] ∧
    parseCode Env.inert d [b!"/foo=1", b!"a", b!"/o", b!"/q", b!"/qqq", b!"/foo=1", b!"/v", b!"-v"] 9 = some .success ∧
    ∀ a ∈ ([b!"/foo=1", b!"a", b!"/o", b!"/q", b!"/qqq", b!"/foo=1", b!"/v", b!"-v"] : List Str), Alone .slash a ∧ a ≠ [] := by
  refine Outcome.exists_ok ?_
  decide +kernel

/-- **C29** is violated by concatenated short flags: with x and y undefined, "-xy" is an error, and "-xx" is
unprocessed twice. -/
theorem C29_violated : ∃ d, finishInitialization ignoreData = .ok d ∧
    parseCode Env.inert d [b!"-xy"] 9 = some .failure ∧
    parseCode Env.inert d [b!"-xx"] 9 = some .success ∧
    parseTo (·.unprocessed) Env.inert d [b!"-xx"] 9 = some [b!"-xx", b!"-xx"] := by
  refine Outcome.exists_ok ?_
  decide +kernel

/-! ## C05 -/

/-- **C05** for a parse that ends early (callbacks that only watch; `Faithful`: not an empty argument or a LAST_OPTION option in the
SLASH and DASH styles): the unread arguments
`unread` are the end of the command line; if the option that ended parsing was one of several
concatenated short flags, the flags not yet read come first. They are the last unprocessed arguments of
the active command (`Open.leave`). -/
theorem C05_parse {d0 d : ParserData} (h : finishInitialization d0 = .ok d)
    {env : Env} (hp : env.Passive) {args : List Str} {rs : List IterResult} {n : PNode} (hr : Returns env d args rs .done n)
    (hf : Faithful d args rs) (hplain : d0.settings.ignoreUndefinedArguments = false ∨ NoLast rs) :
    ∃ (l : Line) (t : Tree (List Occ)), Line.Steps d.settings.optionStyle (Open.start d.command) (.mixed ⟨[], args⟩) rs l ∧
      l.AtEnd d.settings.optionStyle ∧
      ((Open.after d.command rs).leave l).close = some t ∧ n.unprocessedTree = t.map unknownsOf ∧
      (l.notRead <:+ args ∨ ∃ p cs rest, cs ≠ [] ∧ l.notRead = (c!"-" :: cs) :: rest ∧ (c!"-" :: p ++ cs) :: rest <:+ args) := by
  have hset := (finishInitialization_ok h).1
  obtain ⟨l, h0, _, t, h2, h3⟩ := hr.unprocessed (ready_of_init h) (by rw [hset]; exact hplain)
  obtain ⟨h4, h5⟩ := h0 hp hf
  refine ⟨l, t, h4, h5, h2, h3, ?_⟩
  have h6 := h4.partOf (args := args) (Or.inl ⟨rfl, List.suffix_refl _⟩)
  cases l with
  | mixed r => exact Or.inl (List.nil_suffix)
  | plain r => exact Or.inl (List.nil_suffix)
  | closed r => exact h6

example : ∃ d, finishInitialization { stopData with command := { stopData.command with
      options := [{ flags := [b!"-s"], type := .stop, operation := .none }, { flags := [b!"-v"], constant := b!"1" }] } } = .ok d ∧
    parseTo (·.unprocessed) Env.inert d [b!"-vsab", b!"x"] 9 = some [b!"-ab", b!"x"] ∧
    parseTo (·.unprocessed) Env.inert d [b!"-vs", b!"x", b!"-y"] 9 = some [b!"x", b!"-y"] := by
  refine Outcome.exists_ok ?_
  decide +kernel

/-! ## C04 -/

/-- **C04** for a whole parse in the STANDARD style: everything after a LAST_OPTION option is delivered, in
order and unchanged, as positional arguments. (If the option is followed by something in the same
argument, that comes first, see `C04_violated`; and a sub-command turns options on again.) -/
theorem C04_parse {d0 d : ParserData} (h : finishInitialization d0 = .ok d) (hstd : d0.settings.optionStyle = .standard)
    {env : Env} (hp : env.Passive) {args : List Str} {rs1 rs2 : List IterResult} {o : OptData} {v : Option Str} {n : PNode}
    (hr : Returns env d args (rs1 ++ .option o v :: rs2) .done n) (ho : o.type = .lastOption)
    (hc : ∀ c x, .command c x ∉ rs2) (hu : ∀ x, .unknown x ∉ rs2) :
    ∃ (r : Reader) (x : Reading), Line.Steps .standard (Open.start d.command) (.mixed ⟨[], args⟩) rs1 (.mixed r) ∧
      r.readStandard = some x ∧
      rs2.map textOf = (x.plainBy o).map some ∧
      (r.pending = [] → ∀ f rest, r.rest = f :: rest → Alone .standard f → c!"=" ∉ f → ¬ NeedsValue o → x.plainBy o = rest) := by
  have hset := (finishInitialization_ok h).1
  have hstd' : d.settings.optionStyle = .standard := by rw [hset, hstd]
  obtain ⟨s', hps, _⟩ := hr
  have hrd := ready_of_init h
  obtain ⟨s, ht, hg, hn, hst, _⟩ := hps.good hrd
  obtain ⟨h1, h2⟩ := ht.start_line hp hrd (Or.inl hstd') hps.before
  have h2 := (hst.line_done hg h2).1
  rw [hstd'] at h1 h2
  obtain ⟨l1, h3, h4⟩ := h1.split
  cases h4 with
  | cons h5 h6 =>
    cases h5 with
    | option _ _ _ hty => rw [ho] at hty; cases hty
    | stop _ _ _ he => rcases he with he | he | he <;> rw [ho] at he <;> cases he
    | lastArgument _ _ _ hty _ => rw [ho] at hty; cases hty
    | lastOfMany _ _ _ hty _ => rw [ho] at hty; cases hty
    | @lastOption r x _ w hx hf hv _ =>
      refine ⟨r, x, h3, hx, ?_, ?_⟩
      · obtain ⟨done, left, e1, e2, e3⟩ := h6.plain hc hu
        rw [e2] at h2
        have h2 : left = [] := h2
        rw [e3, e1, h2, List.append_nil]
      · intro hp f rest hrest hal heq hnv
        obtain ⟨pending, rrest⟩ := r
        simp only at hp hrest
        subst hp hrest
        unfold Reading.plainBy
        rw [if_neg hnv]
        exact read_whole hal heq hx

example : ∃ d, finishInitialization stopData = .ok d ∧
    parseTo (fun n => n.values.map fun x => x.2.1) Env.inert d [b!"-v", b!"--", b!"--stop", b!"-v", b!"--"] 9 =
      some [b!"--stop", b!"-v", b!"--", b!"1"] := by
  refine Outcome.exists_ok ?_
  decide +kernel

end Argos
