import Verif.Proofs.Given
import Verif.Props.Outcome
import Verif.Props.Store

/-! # C25, C31, C32, C35: values and sub-commands follow the results of the iterator -/

set_option synthInstance.maxSize 1000

namespace Argos
open Spec Parser

/-! ## C32 -/

/-- **C32**: when parsing ends without an error, the values of the program and of every sub-command are exactly
what the reported occurrences lead to, applied in order to the initial values (`given` tells which
occurrences belong to which command). -/
theorem C32_values {d0 d : ParserData} (h : finishInitialization d0 = .ok d) {env : Env} (hp : env.Passive) {args : List Str}
    {rs : List IterResult} {n : PNode} (hr : Returns env d args rs .done n) :
    ∃ t, given d.command rs = some t ∧ n.tree = t.map valuesOf :=
  hr.tree hp (ready_of_init h)

/-- **C32**: when no sub-commands are given, every value is the result of the occurrences in order. -/
theorem C32_flat {d0 d : ParserData} (h : finishInitialization d0 = .ok d) {env : Env} (hp : env.Passive) {args : List Str}
    {rs : List IterResult} {n : PNode} (hr : Returns env d args rs .done n) (hc : ∀ c x, .command c x ∉ rs) (id : Nat) :
    n.values.getValues id = valuesOf (d.command.options.map .initial ++ rs.filterMap occOf) id := by
  obtain ⟨t, h1, h2⟩ := C32_values h hp hr
  unfold given at h1
  rw [after_flat _ _ hc] at h1
  simp only [Open.close, Open.close.go, Option.some.injEq] at h1
  rw [← h1, Tree.map_node] at h2
  cases n
  simp only [PNode.tree, Tree.node.injEq] at h2
  exact congrFun h2.2.1 id

/-- **C32**: occurrences that do not concern a value leave it alone. -/
theorem C32_other (occs : List Occ) (x : Occ) (id : Nat) (hx : x.adds id = some []) : valuesOf (occs ++ [x]) id = valuesOf occs id := by
  rw [valuesOf_snoc]
  cases x with
  | initial o =>
    simp only [Occ.adds] at hx
    split at hx
    · simp at hx
    · rename_i hn
      simp only [Occ.writes]
      split
      · rfl
      · rename_i h1
        have : ¬ id = o.valueId := fun e => hn ⟨e.symm, h1⟩
        simp [Write.run, this]
  | option o v =>
    simp only [Occ.adds] at hx
    split at hx
    · split at hx <;> simp at hx
    · rename_i hn
      cases ho : o.operation with
      | none => simp [Occ.writes, ho]
      | _ =>
        have : ¬ id = o.valueId := fun e => hn ⟨by rw [ho]; simp, e.symm⟩
        simp [Occ.writes, ho, Write.run, this]
  | argument a v =>
    simp only [Occ.adds] at hx
    split at hx
    · simp at hx
    · rename_i hn
      have : ¬ id = a.valueId := fun e => hn e.symm
      simp [Occ.writes, Write.run, this]
  | unknown s => simp [Occ.writes]

/-- The results of the iterator and the returned values, for examples. -/
def resultsOf (env : Env) : (fuel : Nat) → PState → List IterResult
  | 0, _ => []
  | fuel + 1, s =>
    match Parser.next env s with
    | (.ok r, s') => r :: resultsOf env fuel s'
    | _ => []

-- The last of several assignments is the value; constants are used; other values are not affected.
example : ∃ d, finishInitialization cliData = .ok d ∧
    parseTo (fun n => n.values) Env.inert d [b!"-o", b!"x", b!"a", b!"-ob", b!"-v", b!"b"] 9 =
      some [(1, b!"a", 2), (2, b!"b", 3), (3, b!"b", 4), (4, b!"1", 5)] := by
  refine Outcome.exists_ok ?_
  decide +kernel

/-! ## C31 -/

theorem valuesOf_adds (occs pre : List Occ) (id : Nat) (h : ∀ x ∈ occs, (x.adds id).isSome) :
    valuesOf (pre ++ occs) id = valuesOf pre id ++ occs.flatMap fun x => (x.adds id).getD [] := by
  revert h
  refine list_reverse_ind (P := fun occs => (∀ x ∈ occs, (x.adds id).isSome) →
    valuesOf (pre ++ occs) id = valuesOf pre id ++ occs.flatMap fun x => (x.adds id).getD []) ?_ ?_ occs
  · intro _; simp
  · intro l x ih h
    have ih := ih (fun y hy => h y (by simp [hy]))
    have hx := h x (by simp)
    rw [← List.append_assoc, valuesOf_snoc, List.flatMap_append, ← List.append_assoc, ← ih]
    cases x with
    | initial o =>
      simp only [Occ.adds, Occ.writes, List.flatMap_cons, List.flatMap_nil, List.append_nil]
      by_cases h1 : o.initialValue = []
      · simp [h1]
      · by_cases h2 : o.valueId = id
        · simp [h1, h2, Write.run]
        · have : ¬ id = o.valueId := fun e => h2 e.symm
          simp [h1, h2, Write.run, this]
    | option o v =>
      simp only [Occ.adds] at hx
      by_cases h2 : o.valueId = id
      · subst h2
        cases ho : o.operation with
        | none => simp [Occ.adds, Occ.writes, ho]
        | append => simp [Occ.adds, Occ.writes, ho, Write.run]
        | _ => rw [ho] at hx; simp at hx
      · have : ¬ id = o.valueId := fun e => h2 e.symm
        cases ho : o.operation <;> simp [Occ.adds, Occ.writes, ho, Write.run, this, h2]
    | argument a v =>
      by_cases h2 : a.valueId = id
      · simp [Occ.adds, Occ.writes, Write.run, h2]
      · have : ¬ id = a.valueId := fun e => h2 e.symm
        simp [Occ.adds, Occ.writes, Write.run, this, h2]
    | unknown s => simp [Occ.adds, Occ.writes]

theorem valuesOf_initials (options : List OptData) (id : Nat) : valuesOf (options.map .initial) id = initialsOf options id := by
  have h := valuesOf_adds (options.map Occ.initial) [] id (by
    intro x hx
    obtain ⟨o, _, rfl⟩ := List.mem_map.mp hx
    simp only [Occ.adds]
    split <;> rfl)
  rw [List.nil_append] at h
  rw [h]
  unfold initialsOf
  show [] ++ _ = _
  rw [List.nil_append]
  induction options with
  | nil => rfl
  | cons o os ih =>
    rw [List.map_cons, List.flatMap_cons, List.filter_cons, ih (by
      have h := valuesOf_adds (os.map Occ.initial) [] id (by
        intro x hx
        obtain ⟨o, _, rfl⟩ := List.mem_map.mp hx
        simp only [Occ.adds]
        split <;> rfl)
      rwa [List.nil_append] at h)]
    simp only [Occ.adds, decide_eq_true_eq]
    split <;> simp

/-- **C31** (what holds): for the options of the program, the initial values are there first: they are the value
until it is assigned or cleared, and appended values come after them. Missing: the options of
sub-commands, see `C31_violated`. -/
theorem C31_initial_partial {d0 d : ParserData} (h : finishInitialization d0 = .ok d) {env : Env} (hp : env.Passive) {args : List Str}
    {rs : List IterResult} {n : PNode} (hr : Returns env d args rs .done n) :
    ∃ t occs, given d.command rs = some t ∧ t.data = d.command.options.map .initial ++ occs ∧ (∀ x ∈ occs, ∀ o, x ≠ .initial o) ∧
      ∀ id, ((∀ x ∈ occs, (x.adds id).isSome) →
        n.values.getValues id = initialsOf d.command.options id ++ occs.flatMap fun x => (x.adds id).getD []) := by
  obtain ⟨t, h1, h2⟩ := C32_values h hp hr
  obtain ⟨e1, occs, e2, e3⟩ := (Open.Root.after d.command rs).close h1
  refine ⟨t, occs, h1, e2, e3, ?_⟩
  intro id hadd
  obtain ⟨c, l, ts⟩ := t
  simp only [Tree.data] at e2
  subst e2
  rw [Tree.map_node] at h2
  cases n
  simp only [PNode.tree, Tree.node.injEq] at h2
  show Values.getValues _ id = _
  rw [congrFun h2.2.1 id, valuesOf_adds _ _ _ hadd, valuesOf_initials]

/-- **C31**: an assignment replaces the initial values: the values are the assigned one and what was appended
after it. -/
theorem C31_assigned (pre post : List Occ) (o : OptData) (v : Str) (ho : o.operation = .assign)
    (hpost : ∀ x ∈ post, (x.adds o.valueId).isSome) :
    valuesOf (pre ++ .option o v :: post) o.valueId =
      (if o.constant = [] then v else o.constant, o.argumentId) :: post.flatMap fun x => (x.adds o.valueId).getD [] := by
  have : pre ++ .option o v :: post = (pre ++ [.option o v]) ++ post := by simp
  rw [this, valuesOf_adds _ _ _ hpost, valuesOf_snoc]
  simp [Occ.writes, ho, Write.run]

/-- Options with initial values, in the program and in a sub-command. -/
def initData : ParserData :=
  { command :=
      { name := b!"i"
        options := [{ flags := [b!"-a"], argument := b!"A", initialValue := b!"0" },
          { flags := [b!"-l"], argument := b!"L", initialValue := b!"x", operation := .append }]
        commands := [{ name := b!"sub", options := [{ flags := [b!"-s"], argument := b!"S", initialValue := b!"5" }] }] }
    settings := { autoExit := false } }

-- Initial, assigned and appended values.
example : ∃ d, finishInitialization initData = .ok d ∧
    parseTo (fun n => n.values.map (·.2.1)) Env.inert d [b!"sub"] 9 = some [b!"0", b!"x"] ∧
    parseTo (fun n => n.values.map (·.2.1)) Env.inert d [b!"-a1", b!"-ly", b!"-lz", b!"sub"] 9 = some [b!"1", b!"x", b!"y", b!"z"] := by
  refine Outcome.exists_ok ?_
  decide +kernel

/-- **C31** is violated by options of sub-commands: their initial values are never stored. -/
theorem C31_violated : ∃ d, finishInitialization initData = .ok d ∧
    parseTo (fun n => n.subs.map fun m => (m.command.options.map fun o => (o.initialValue, m.values.getValues o.valueId))) Env.inert d [b!"sub"] 9 =
      some [[(b!"5", []), ([], [])]] := by
  refine Outcome.exists_ok ?_
  decide +kernel

/-! ## C35 -/

/-- **C35**: the tree of the returned sub-commands is the one that the reported commands describe, in order,
whatever callbacks do and however parsing ends. -/
theorem C35_mirror {d0 d : ParserData} (h : finishInitialization d0 = .ok d) {env : Env} {args : List Str}
    {rs : List IterResult} {last : IterResult} {n : PNode} (hr : Returns env d args rs last n) :
    ∃ t, given d.command rs = some t ∧ n.shape = t.shape :=
  hr.shape (ready_of_init h)

/-- **C35**: every sub-command is one that was declared, and a command that does not allow multiple
sub-commands never gets more than one. -/
theorem C35_single {d0 d : ParserData} (h : finishInitialization d0 = .ok d) {env : Env} {args : List Str}
    {rs : List IterResult} {last : IterResult} {n : PNode} (hr : Returns env d args rs last n) (m : PNode) (hm : m.Within n) :
    (∀ k ∈ m.subs, k.command ∈ m.command.commands) ∧ (m.command.multiCommand = false → m.subs.length ≤ 1) :=
  have := hr.treeOk (ready_of_init h) m hm
  ⟨this.subs, this.single⟩

/-- **C35**: reading the tree from the outside in, each command before its sub-commands, gives the commands in the
order in which they were reported. -/
theorem C35_order {d0 d : ParserData} (h : finishInitialization d0 = .ok d) {env : Env} {args : List Str}
    {rs : List IterResult} {last : IterResult} {n : PNode} (hr : Returns env d args rs last n) :
    n.tree.commands = d.command :: commandsGiven rs := by
  obtain ⟨t, h1, h2⟩ := C35_mirror h hr
  rw [← given_commands h1, ← Tree.commands_map (fun _ => ()) t, ← Tree.commands_map (fun _ => ()) n.tree]
  exact congrArg Tree.commands h2

-- Several sub-commands, with sub-commands of their own.
example : ∃ d, finishInitialization mandData = .ok d ∧
    parseTo (fun n => n.subs.map fun m => (m.command.name, m.values.map (·.2.1))) Env.inert d
      [b!"run", b!"-k1", b!"two", b!"run", b!"-k", b!"2"] 9 = some [(b!"run", [b!"1"]), (b!"two", []), (b!"run", [b!"2"])] := by
  refine Outcome.exists_ok ?_
  decide +kernel

/-! ## C25 -/

/-- **C25**: when parsing ends without an error and without a stop option, every command that was given, not only
the last one, received its arguments within the declared counts. -/
theorem C25_counts {d0 d : ParserData} (h : finishInitialization d0 = .ok d) (hx : Exclusive d.command) (hm : CountsOk d.command)
    {env : Env} (hp : env.Passive) {args : List Str} {rs : List IterResult} {n : PNode} (hr : Returns env d args rs .done n)
    (hs : NoStop rs) : ∃ t, given d.command rs = some t ∧ ∀ x : Tree (List Occ), x.Within t → ArgsWithin x.command x.data := by
  obtain ⟨s', h1, _⟩ := hr
  exact h1.within hp (ready_of_init h) hx hm hs

/-- **C25**: the number of values that can be retrieved for a declared argument, of any given command, is within
its counts, if it shares its value with no other argument and with no option. -/
theorem C25_values {d0 d : ParserData} (h : finishInitialization d0 = .ok d) (hx : Exclusive d.command) (hm : CountsOk d.command)
    {env : Env} (hp : env.Passive) {args : List Str} {rs : List IterResult} {n : PNode} (hr : Returns env d args rs .done n)
    (hs : NoStop rs) {m : PNode} (hw : m.Within n) {a : ArgData} (ha : a ∈ m.command.arguments)
    (ho : ∀ o ∈ m.command.options, o.valueId ≠ a.valueId) (hb : ∀ b ∈ m.command.arguments, b.valueId = a.valueId → b = a) :
    a.minCount ≤ (m.values.getValues a.valueId).length ∧ (m.values.getValues a.valueId).length ≤ a.maxCount := by
  obtain ⟨t, h1, h2⟩ := C25_counts h hx hm hp hr hs
  obtain ⟨t', h3, h4⟩ := C32_values h hp hr
  have hrd := ready_of_init h
  have hwc := hr.within hrd hw
  obtain ⟨s', hps, htop⟩ := hr
  obtain ⟨t'', h5, h6⟩ := hps.own hp hrd hx
  rw [h1, Option.some.injEq] at h3 h5
  subst h3
  subst h5
  have hwt := PNode.within_tree hw
  rw [h4] at hwt
  obtain ⟨⟨c, l, ts⟩, hx1, hx2⟩ := Tree.within_map hwt
  rw [Tree.map_node] at hx2
  obtain ⟨mc, mi, mv, mu, mcode, mstop, msubs⟩ := m
  simp only [PNode.tree, Tree.node.injEq] at hx2
  obtain ⟨e1, e2, _⟩ := hx2
  subst e1
  have hown := h6 _ hx1
  simp only at ha ho hb
  obtain ⟨ks, hal, hgv⟩ := h2 _ hx1
  simp only [Tree.command, Tree.data] at hal hgv hown
  have hnd : mc.arguments.Nodup := by
    have hcw : mc.Within d.command := hwc
    have := (C20_unique h hcw).1
    unfold idsOf at this
    rw [List.nodup_cons, List.nodup_append] at this
    exact List.Pairwise.of_map (·.argumentId) (fun _ _ hne e => hne (by rw [e])) this.2.1
  have e3 : mv.getValues a.valueId = valuesOf l a.valueId := congrFun e2 a.valueId
  show a.minCount ≤ (mv.getValues a.valueId).length ∧ (mv.getValues a.valueId).length ≤ a.maxCount
  rw [e3, valuesOf_argument ho hb l hown, count_argsGiven, hgv]
  obtain ⟨i, hi, rfl⟩ := List.mem_iff_getElem.mp ha
  rw [count_handedOut hal.length hnd i hi]
  exact hal.within i hi (by rw [hal.length]; exact hi)

/-- A condition on all commands of a tree, decided by evaluation (`depth` bounds the depth of the tree). -/
def Command.checkAll (p : Command → Bool) : (depth : Nat) → Command → Bool
  | 0, _ => false
  | depth + 1, c => p c && c.commands.all (Command.checkAll p depth)

theorem Command.checkAll_sound {p : Command → Bool} {depth : Nat} {root : Command} (h : root.checkAll p depth = true) {c : Command}
    (hc : c.Within root) : p c = true := by
  induction hc generalizing depth with
  | self =>
    cases depth with
    | zero => simp [Command.checkAll] at h
    | succ k => simp only [Command.checkAll, Bool.and_eq_true] at h; exact h.1
  | @sub s root hs _ ih =>
    cases depth with
    | zero => simp [Command.checkAll] at h
    | succ k =>
      simp only [Command.checkAll, Bool.and_eq_true, List.all_eq_true] at h
      exact ih (h.2 _ hs)

/-- The conditions of `C25_values`, decided by evaluation. -/
def countsCheck (c : Command) : Bool :=
  (c.commands.isEmpty || c.arguments.isEmpty) && c.arguments.all fun a => decide (a.minCount ≤ a.maxCount)

theorem countsCheck_sound {root : Command} {depth : Nat} (h : root.checkAll countsCheck depth = true) : Exclusive root ∧ CountsOk root := by
  constructor
  · intro c hc h1
    have := Command.checkAll_sound h hc
    simp only [countsCheck, Bool.and_eq_true, Bool.or_eq_true, List.isEmpty_iff] at this
    exact this.1.resolve_left h1
  · intro c hc a ha
    have := Command.checkAll_sound h hc
    simp only [countsCheck, Bool.and_eq_true, List.all_eq_true, decide_eq_true_eq] at this
    exact this.2 a ha

/-- Arguments whose number must be known in advance, in a sub-command. -/
def copyData : ParserData :=
  { command :=
      { name := b!"fs"
        multiCommand := true
        commands := [
          { name := b!"cp", arguments := [{ name := b!"FROM", minCount := 1, maxCount := 3 }, { name := b!"TO" }] },
          { name := b!"ls", arguments := [{ name := b!"DIR", minCount := 0, maxCount := 2 }] }] }
    settings := { autoExit := false } }

-- The conditions hold, and the counts are those declared, for two sub-commands.
example : ∃ d, finishInitialization copyData = .ok d ∧ (Exclusive d.command ∧ CountsOk d.command) ∧
    parseTo (fun n => (n.code, n.subs.map fun m => m.command.arguments.map fun a => ((m.values.getValues a.valueId).map (·.1)))) Env.inert d
      [b!"cp", b!"a", b!"b", b!"c", b!"ls", b!"x"] 9 = some (.success, [[[b!"a", b!"b"], [b!"c"]], [[b!"x"]]]) := by
  have : ∃ d, finishInitialization copyData = .ok d ∧ d.command.checkAll countsCheck 3 = true ∧
      parseTo (fun n => (n.code, n.subs.map fun m => m.command.arguments.map fun a => ((m.values.getValues a.valueId).map (·.1)))) Env.inert d
        [b!"cp", b!"a", b!"b", b!"c", b!"ls", b!"x"] 9 = some (.success, [[[b!"a", b!"b"], [b!"c"]], [[b!"x"]]]) := by
    refine Outcome.exists_ok ?_
    decide +kernel
  obtain ⟨d, h1, h2, h3⟩ := this
  exact ⟨d, h1, countsCheck_sound h2, h3⟩

end Argos
