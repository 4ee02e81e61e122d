import Verif.Proofs.Nested
import Verif.Props.Reorder
import Verif.Props.Insert

/-!
# C84: a sub-command is a parser of its own
-/

namespace Argos

open Spec Parser

/-- **C84**, in terms of initialised parsers: when a command has been entered in `prefix name rest`, what happens with `rest` is exactly what happens when the command
is the top level of a parser that is given `rest`: the results are those of that parser, put in the results of the enclosing commands, in which nothing but the
result code is different. The log is the log so far followed by that of the other parser. Enclosing commands for which several sub-commands can be given are excluded, because a
name of a sibling in `rest` leaves the command. Missing: initial values, see `C84_initial_violated`. -/
theorem C84_nested_partial {d0 d : ParserData} (h : finishInitialization d0 = .ok d) {env : Env} {line post : List Str} {rs : List IterResult} {c : Command} {v : Str}
    {t : PState} (ht : Trace env (start d line).2 (rs ++ [.command c v]) t) (hl : ∀ r ∈ rs, ¬ r.IsLast) (hrest : ∃ it, t.iter.remainingArguments = .ok (post, it))
    (hm : ∀ n ∈ t.stack.tail, n.command.multiCommand = false) (hi : ∀ o ∈ c.options, o.initialValue = []) (fuel : Nat) :
    SameEnd (fun a b => ∃ m up, a = some (inside m up) ∧ b = some m ∧ Recoded t.stack.tail up) (parse env d line (rs.length + 1 + fuel)).1
      (parse (env.later t.calls) { d with command := c } post fuel).1 ∧
    (parse env d line (rs.length + 1 + fuel)).2.log = t.log ++ (parse (env.later t.calls) { d with command := c } post fuel).2.log := by
  obtain ⟨it, hrest⟩ := hrest
  exact parse_nested (ready_of_init h) ht hl hrest hm (initialValues_none hi []) fuel

/-- **C84**: a sub-command of a parser that is accepted is accepted as a parser of its own. -/
theorem C84_accepted {d0 d : ParserData} (h : finishInitialization d0 = .ok d) {i : Nat} {p : List Nat} {c0 c : Command} (hc0 : d0.command.at (i :: p) = some c0)
    (hc : d.command.at (i :: p) = some c) (hreg : ∀ x : Command, x.Within c0 → RegularFlags d0.settings.caseInsensitive x.options) :
    ∃ d', finishInitialization (alone d0 c0 c.fullName) = .ok d' := by
  obtain ⟨_, _, _, fn, cv, h1, rfl⟩ := finishInitialization_ok h
  obtain ⟨a, b, h2⟩ := finishCommand_place h1 (by rw [at_version]; exact hc0) hc
  obtain ⟨c', h3⟩ := reordered_accepted c0 (reordered_refl c0) h2 hreg c.fullName 0 0
  refine ⟨{ alone d0 c0 c.fullName with command := c' }, ?_⟩
  rw [alone_init d0 c0 (sub_fullName h1 hc), h3]
  rfl

/-- **C84**, in terms of declarations: the other parser is declared with the sub-command as its command. The two parsers give out other numbers, therefore the answers to
questions by name are compared. Missing: as in `C84_nested_partial`, and links that are mentioned before their declaration and callbacks that use numbers of values rather than names
(as in `C79_parse_partial`). -/
theorem C84_parse_partial {d0 d d' : ParserData} (h : finishInitialization d0 = .ok d) {i : Nat} {p : List Nat} {c0 c : Command} (hc0 : d0.command.at (i :: p) = some c0)
    (hc : d.command.at (i :: p) = some c) (h' : finishInitialization (alone d0 c0 c.fullName) = .ok d')
    (hz : ∀ x : Command, x.Within c0 → ∀ o ∈ x.options, o.valueId = 0) (hreg : ∀ x : Command, x.Within d0.command → RegularFlags d0.settings.caseInsensitive x.options)
    (hb : ∀ x : Command, x.Within c → BackwardLinks (items x)) (hb' : ∀ x : Command, x.Within d'.command → BackwardLinks (items x)) {env : Env} (he : UsesNames env)
    {line post : List Str} {rs : List IterResult} {v : Str}
    {t : PState} (ht : Trace env (start d line).2 (rs ++ [.command c v]) t) (hl : ∀ r ∈ rs, ¬ r.IsLast) (hrest : ∃ it, t.iter.remainingArguments = .ok (post, it))
    (hm : ∀ n ∈ t.stack.tail, n.command.multiCommand = false) (hi : ∀ o ∈ c.options, o.initialValue = []) (fuel : Nat) :
    SameEnd (fun a b => ∃ m m' up, a = some (inside m up) ∧ b = some m' ∧ SameValues m m' ∧ Recoded t.stack.tail up) (parse env d line (rs.length + 1 + fuel)).1
      (parse (env.later t.calls) d' post fuel).1 ∧
    ∃ log, (parse env d line (rs.length + 1 + fuel)).2.log = t.log ++ log ∧ Each SameEvent log (parse (env.later t.calls) d' post fuel).2.log := by
  obtain ⟨k1, k2⟩ := C84_nested_partial h ht hl hrest hm hi fuel
  obtain ⟨hset, _, _, fn, cv, h1, hcv⟩ := finishInitialization_ok h
  subst hcv
  obtain ⟨a, b, h2⟩ := finishCommand_place h1 (by rw [at_version]; exact hc0) hc
  obtain ⟨hset', h3⟩ := alone_ok (sub_fullName h1 hc) h'
  have hwc := at_within hc
  have hw0 := at_within hc0
  have hf : ∀ x : Command, x.Within c → Fine d0.settings x := fun x hx => fine_of_init h (hx.trans hwc) (hb x hx) (regular_init h hreg x (hx.trans hwc))
  have hreg' : ∀ x : Command, x.Within (alone d0 c0 c.fullName).command → RegularFlags d0.settings.caseInsensitive x.options := by
    intro x hx
    cases hx with
    | self => exact hreg c0 hw0
    | sub ht hx => exact hreg x ((Command.Within.sub (root := c0) ht hx).trans hw0)
  have hf' : ∀ x : Command, x.Within d'.command → Fine d0.settings x := fun x hx => fine_of_init h' hx (hb' x hx) (regular_init h' hreg' x hx)
  obtain ⟨ha, hs⟩ := reordered_alike c0 (reordered_refl c0) h2 h3 hz hf hf'
  have hio : ∀ v, (initialsOf c.options v).length ≤ 1 := by
    intro v
    have : initialsOf c.options v = [] := by
      simp only [initialsOf, List.map_eq_nil_iff, List.filter_eq_nil_iff]
      intro o ho
      simp [hi o ho]
    rw [this]
    simp
  obtain ⟨j1, j2⟩ := parse_alike (env := env.later t.calls) (fun cb n v1 v2 value n1 n2 hv hn => he cb _ v1 v2 value n1 n2 hv hn) (d := { d with command := c }) (d' := d') ha
    (hset.trans hset'.symm) (initial_same hs (hf _ .self) (hf' _ .self) hio) post fuel
  refine ⟨?_, _, k2, j2⟩
  revert k1 j1
  cases (parse env d line (rs.length + 1 + fuel)).1 <;> cases (parse (env.later t.calls) { d with command := c } post fuel).1 <;>
    cases (parse (env.later t.calls) d' post fuel).1 <;> intro k1 j1 <;> first | exact absurd k1 id | exact absurd j1 id | skip
  · obtain ⟨m, up, rfl, rfl, hu⟩ := k1
    cases j1 with
    | some j => exact ⟨m, _, up, rfl, rfl, SameNode.sameValues _ _ j, hu⟩
  all_goals first | exact Eq.trans k1 j1 | trivial

/-! ## Example -/

/-- Whether two commands are equal, for the examples. -/
def Command.equalCheck : Nat → Command → Command → Bool
  | 0, _, _ => false
  | n + 1, c, c' => decide (c.arguments = c'.arguments) && decide (c.options = c'.options) && decide (c.currentSection = c'.currentSection) && decide (c.name = c'.name) &&
      decide (c.fullName = c'.fullName) && decide (c.texts = c'.texts) && decide (c.visibility = c'.visibility) && decide (c.requireSubcommand = c'.requireSubcommand) &&
      decide (c.multiCommand = c'.multiCommand) && decide (c.section_ = c'.section_) && decide (c.id = c'.id) && decide (c.argumentId = c'.argumentId) &&
      decide (c.optionIndex = c'.optionIndex) && decide (c.commands.length = c'.commands.length) && (c.commands.zip c'.commands).all fun q => q.1.equalCheck n q.2

theorem Command.equalCheck_sound (n : Nat) : ∀ {c c' : Command}, c.equalCheck n c' = true → c = c' := by
  induction n with
  | zero => intro c c' h; simp [Command.equalCheck] at h
  | succ n ih =>
    intro c c' h
    simp only [Command.equalCheck, Bool.and_eq_true, decide_eq_true_eq, List.all_eq_true] at h
    obtain ⟨⟨⟨⟨⟨⟨⟨⟨⟨⟨⟨⟨⟨⟨h1, h2⟩, h3⟩, h4⟩, h5⟩, h6⟩, h7⟩, h8⟩, h9⟩, h10⟩, h11⟩, h12⟩, h13⟩, h14⟩, h15⟩ := h
    have hl : ∀ (cs cs' : List Command), cs.length = cs'.length → (∀ q ∈ cs.zip cs', q.1.equalCheck n q.2 = true) → cs = cs' := by
      intro cs
      induction cs with
      | nil => intro cs' hl _; cases cs' with
        | nil => rfl
        | cons _ _ => simp at hl
      | cons x xs ihx =>
        intro cs' hl hq
        cases cs' with
        | nil => simp at hl
        | cons y ys =>
          have e : x = y := ih (hq (x, y) (by simp))
          rw [e, ihx ys (by simpa using hl) fun q hq' => hq q (by simp [hq'])]
    have h16 := hl _ _ h14 h15
    cases c
    cases c'
    simp only at *
    subst h1 h2 h3 h4 h5 h6 h7 h8 h9 h10 h11 h12 h13 h16
    rfl

/-- Whether the hypotheses about the entered command hold, for the examples: after `n` results the command at `path` is reported, and `post` is left. -/
def entersCheck (env : Env) (d : ParserData) (line post : List Str) (n : Nat) (path : List Nat) : Bool :=
  match firstResults env n (start d line).2 with
  | none => false
  | some (_, s) =>
    match next env s with
    | (.ok (.command c _), t) =>
      (match d.command.at path with
        | some c' => c.equalCheck 5 c'
        | none => false) && (match t.iter.remainingArguments with
        | .ok (l, _) => decide (l = post)
        | _ => false) && (t.stack.tail.all fun n => !n.command.multiCommand)
    | _ => false

theorem entersCheck_sound {env : Env} {d : ParserData} {line post : List Str} {n : Nat} {path : List Nat} (h : entersCheck env d line post n path = true) :
    ∃ rs c v t, Trace env (start d line).2 (rs ++ [.command c v]) t ∧ (∀ r ∈ rs, ¬ r.IsLast) ∧ (∃ it, t.iter.remainingArguments = .ok (post, it)) ∧
      (∀ n ∈ t.stack.tail, n.command.multiCommand = false) ∧ d.command.at path = some c ∧ rs.length = n := by
  unfold entersCheck at h
  split at h
  · simp at h
  · rename_i rs s h1
    obtain ⟨a1, a2, a3⟩ := firstResults_sound n h1
    split at h
    · rename_i c v t hn
      simp only [Bool.and_eq_true, List.all_eq_true, Bool.not_eq_true'] at h
      obtain ⟨⟨b1, b2⟩, b3⟩ := h
      refine ⟨rs, c, v, t, Parser.Trace.snoc a1 hn, a2, ?_, b3, ?_, a3⟩
      · split at b2
        · rename_i l it hr
          simp only [decide_eq_true_eq] at b2
          subst b2
          exact ⟨it, hr⟩
        · simp at b2
      · split at b1
        · rename_i c' hc
          rw [hc, Command.equalCheck_sound 5 b1]
        · simp at b1
    · simp at h

/-- The sub-command of the example: it has options, arguments, one with a callback, and a sub-command. -/
def ownCommand : Command :=
  { name := b!"remote"
    options := [{ flags := [b!"-n", b!"--number"], argument := b!"N", callback := some 3 }, { flags := [b!"-q"], constant := b!"1", optional := false }]
    commands := [{ name := b!"add", arguments := [{ name := b!"URL", minCount := 1, maxCount := 2 }] }] }

/-- A parser with that sub-command. -/
def ownData : ParserData :=
  { command :=
      { name := b!"git"
        options := [{ flags := [b!"-C"], argument := b!"DIR", operation := .append, callback := some 3, initialValue := b!"." }]
        commands := [{ name := b!"gc" }, ownCommand] }
    settings := { autoExit := false }
    version := b!"1.2" }

/-- A callback that gives an error at its third call. -/
def thirdEnv : Env := ⟨fun cb n _ _ _ => if cb = 3 ∧ n = 2 then { fin := .error b!"no more" } else {}⟩

theorem thirdEnv_names : UsesNames thirdEnv := by
  intro cb n v1 v2 value n1 n2 _ _
  refine ⟨rfl, fun op hop => ?_⟩
  simp only [thirdEnv] at hop
  split at hop <;> simp at hop

/-- What the results of `add` are. -/
def ownAnswers (n : PNode) : List (Str × ResultCode × List Str) :=
  n.subs.map fun (m : PNode) => (m.name, m.code, match m.valuesOf b!"URL" with
    | .ok l => l.map (·.1)
    | _ => [])

set_option synthInstance.maxSize 1000 in
-- The conditions hold: `git -C x remote -q -n5 add u` gives for `remote` what `remote` alone gives for `-q -n5 add u`. With another `-Cy` in front of the command the callback
-- of `-n` is called for the third time, which is an error in both.
example : ∃ d, finishInitialization ownData = .ok d ∧ ∃ d', finishInitialization (alone ownData ownCommand b!"git remote") = .ok d' ∧
    (∃ rs c v t, Trace thirdEnv (start d [b!"-C", b!"x", b!"remote", b!"-q", b!"-n5", b!"add", b!"u"]).2 (rs ++ [.command c v]) t ∧ (∀ r ∈ rs, ¬ r.IsLast) ∧
      (∃ it, t.iter.remainingArguments = .ok ([b!"-q", b!"-n5", b!"add", b!"u"], it)) ∧ (∀ n ∈ t.stack.tail, n.command.multiCommand = false) ∧
      d.command.at [1] = some c ∧ rs.length = 1 ∧ c.fullName = b!"git remote" ∧ (∀ o ∈ c.options, o.initialValue = []) ∧
      ∀ x : Command, x.Within c → BackwardLinks (items x)) ∧
    ownData.command.at [1] = some ownCommand ∧ (∀ x : Command, x.Within ownCommand → ∀ o ∈ x.options, o.valueId = 0) ∧
    (∀ x : Command, x.Within ownData.command → RegularFlags false x.options) ∧ (∀ x : Command, x.Within d'.command → BackwardLinks (items x)) ∧
    parseTo (fun n => n.subs.map ownAnswers) thirdEnv d [b!"-C", b!"x", b!"remote", b!"-q", b!"-n5", b!"add", b!"u"] 99 = some [[(b!"add", .success, [b!"u"])]] ∧
    parseTo ownAnswers (thirdEnv.later 1) d' [b!"-q", b!"-n5", b!"add", b!"u"] 99 = some [(b!"add", .success, [b!"u"])] ∧
    (parse thirdEnv d [b!"-C", b!"x", b!"-Cy", b!"remote", b!"-q", b!"-n5", b!"add", b!"u"] 99).2.log.filterMap Event.shown = [(b!"git remote", b!"no more")] ∧
    (parse (thirdEnv.later 2) d' [b!"-q", b!"-n5", b!"add", b!"u"] 99).2.log.filterMap Event.shown = [(b!"git remote", b!"no more")] := by
  have key : ∃ d, finishInitialization ownData = .ok d ∧ ((entersCheck thirdEnv d [b!"-C", b!"x", b!"remote", b!"-q", b!"-n5", b!"add", b!"u"]
      [b!"-q", b!"-n5", b!"add", b!"u"] 1 [1] = true ∧ (∀ c ∈ d.command.at [1], (c.fullName = b!"git remote" ∧ (∀ o ∈ c.options, o.initialValue = [])) ∧
        c.checkAll (fun x => backwardCheck [] (items x)) 2 = true)) ∧
      parseTo (fun n => n.subs.map ownAnswers) thirdEnv d [b!"-C", b!"x", b!"remote", b!"-q", b!"-n5", b!"add", b!"u"] 99 = some [[(b!"add", .success, [b!"u"])]] ∧
      (parse thirdEnv d [b!"-C", b!"x", b!"-Cy", b!"remote", b!"-q", b!"-n5", b!"add", b!"u"] 99).2.log.filterMap Event.shown = [(b!"git remote", b!"no more")]) := by
    refine Outcome.exists_ok ?_
    decide +kernel
  have key' : ∃ d', finishInitialization (alone ownData ownCommand b!"git remote") = .ok d' ∧ (d'.command.checkAll (fun x => backwardCheck [] (items x)) 2 = true ∧
      parseTo ownAnswers (thirdEnv.later 1) d' [b!"-q", b!"-n5", b!"add", b!"u"] 99 = some [(b!"add", .success, [b!"u"])] ∧
      (parse (thirdEnv.later 2) d' [b!"-q", b!"-n5", b!"add", b!"u"] 99).2.log.filterMap Event.shown = [(b!"git remote", b!"no more")]) := by
    refine Outcome.exists_ok ?_
    decide +kernel
  obtain ⟨d, h, ⟨h1, h2⟩, h3, h4⟩ := key
  obtain ⟨d', h', k1, k2, k3⟩ := key'
  obtain ⟨rs, c, v, t, e1, e2, e3, e4, e5, e6⟩ := entersCheck_sound h1
  obtain ⟨⟨f1, f2⟩, f3⟩ := h2 c e5
  have hz : ownData.command.checkAll (fun x => (x.options.all fun o => o.valueId == 0) && decide (RegularFlags false x.options)) 3 = true := by
    decide +kernel
  refine ⟨d, h, d', h', ⟨rs, c, v, t, e1, e2, e3, e4, e5, e6, f1, f2, fun x hx => backwardCheck_sound _ (Command.checkAll_sound f3 hx)⟩, rfl, ?_, ?_,
    fun x hx => backwardCheck_sound _ (Command.checkAll_sound k1 hx), h3, k2, h4, k3⟩
  · intro x hx o ho
    have := Command.checkAll_sound hz (hx.trans (.sub (List.mem_cons_of_mem _ (List.mem_singleton.mpr rfl)) .self))
    simp only [Bool.and_eq_true, List.all_eq_true, beq_iff_eq] at this
    exact this.1 o ho
  · intro x hx
    have := Command.checkAll_sound hz hx
    simp only [Bool.and_eq_true, decide_eq_true_eq] at this
    exact this.2

/-- A parser with a sub-command with an initial value. -/
def ownInitialData : ParserData :=
  { command := { name := b!"make", commands := [{ name := b!"build", options := [{ flags := [b!"-j"], argument := b!"N", initialValue := b!"4" }] }] }
    settings := { autoExit := false } }

/-- The values of `-j`. -/
def jobsOf (n : PNode) : List Str := match n.valuesOf b!"-j" with
  | .ok l => l.map (·.1)
  | _ => []

/-- **C84** is violated for initial values: `build` alone has got the value 4 for `-j`, as a sub-command it hasn't got a value. -/
theorem C84_initial_violated : ∃ d, finishInitialization ownInitialData = .ok d ∧ ∃ c0, ownInitialData.command.at [0] = some c0 ∧
    ∃ d', finishInitialization (alone ownInitialData c0 b!"make build") = .ok d' ∧ parseTo (fun n => n.subs.map jobsOf) Env.inert d [b!"build"] 9 = some [[]] ∧
      parseTo jobsOf Env.inert d' [] 9 = some [b!"4"] := by
  have key : ∃ d, finishInitialization ownInitialData = .ok d ∧ parseTo (fun n => n.subs.map jobsOf) Env.inert d [b!"build"] 9 = some [[]] := by
    refine Outcome.exists_ok ?_
    decide +kernel
  have key' : ∃ d', finishInitialization (alone ownInitialData { name := b!"build", options := [{ flags := [b!"-j"], argument := b!"N", initialValue := b!"4" }] } b!"make build") = .ok d' ∧
      parseTo jobsOf Env.inert d' [] 9 = some [b!"4"] := by
    refine Outcome.exists_ok ?_
    decide +kernel
  obtain ⟨d, h, h1⟩ := key
  obtain ⟨d', h', h2⟩ := key'
  exact ⟨d, h, _, rfl, d', h', h1, h2⟩

end Argos
