import Verif.Proofs.ReorderInit
import Verif.Props.Bare
import Verif.Props.Grammar

/-!
# C79: the order in which options are declared doesn't matter
-/

namespace Argos

open Spec Parser

/-- **C79**: the declarations are accepted in one order if and only if they are accepted in the other (if case matters, or no flag has one of the
characters for which `compare_ci` is no order, see C09). -/
theorem C79_accepted {d0 : ParserData} {c' : Command} (hr : Reordered d0.command c')
    (hreg : ∀ x : Command, x.Within d0.command → RegularFlags d0.settings.caseInsensitive x.options) :
    (∃ d, finishInitialization d0 = .ok d) ↔ ∃ d', finishInitialization { d0 with command := c' } = .ok d' := by
  constructor
  · rintro ⟨d, h⟩
    exact init_accepted hr h hreg
  · rintro ⟨d', h⟩
    have := init_accepted (d0 := { d0 with command := c' }) (Reordered.symm _ hr) h (reordered_regular hr hreg)
    cases d0
    exact this

/-- **C79**: if both orders are accepted, every command line gives the same with both of them: the same end (returning, exception, exit), the same answers to all
questions by name, the same calls of callbacks, the same messages and help texts for the same commands, except that another one of several missing options
may be named. Missing: options with links that are mentioned before their declaration, where it is false, see `C79_links_violated`; several options with
initial values for the same value, where it is false too, see `C79_initial_violated`; callbacks that use numbers of values rather than names. -/
theorem C79_parse_partial {d0 d d' : ParserData} {c' : Command} (hr : Reordered d0.command c') (h : finishInitialization d0 = .ok d)
    (h' : finishInitialization { d0 with command := c' } = .ok d') (hz : ∀ x : Command, x.Within d0.command → ∀ o ∈ x.options, o.valueId = 0)
    (hreg : ∀ x : Command, x.Within d0.command → RegularFlags d0.settings.caseInsensitive x.options)
    (hb : ∀ x : Command, x.Within d.command → BackwardLinks (items x)) (hb' : ∀ x : Command, x.Within d'.command → BackwardLinks (items x))
    (hi : ∀ v, (initialsOf d.command.options v).length ≤ 1) {env : Env} (he : UsesNames env) (args : List Str) (fuel : Nat) :
    SameEnd (fun a b => ∃ n1 n2, a = some n1 ∧ b = some n2 ∧ SameValues n1 n2) (parse env d args fuel).1 (parse env d' args fuel).1 ∧
    Each SameEvent (parse env d args fuel).2.log (parse env d' args fuel).2.log := by
  obtain ⟨ha, hs, hf, hf'⟩ := init_alike hr h h' hz hreg hb hb'
  have hset : d.settings = d'.settings := by
    rw [(finishInitialization_ok h).1, (finishInitialization_ok h').1]
  obtain ⟨k1, k2⟩ := parse_alike he ha hset (initial_same hs hf hf' hi) args fuel
  refine ⟨?_, k2⟩
  revert k1
  cases hp1 : (parse env d args fuel).1 with
  | ok o1 =>
    cases hp2 : (parse env d' args fuel).1 with
    | ok o2 =>
      intro c
      obtain ⟨n1, rfl⟩ := parse_gives h hp1
      obtain ⟨n2, rfl⟩ := parse_gives h' hp2
      cases c with
      | some c => exact ⟨n1, n2, rfl, rfl, SameNode.sameValues n1 n2 c⟩
    | _ => exact fun c => c
  | _ => cases hp2 : (parse env d' args fuel).1 <;> exact fun c => c

/-- The options of the example. -/
def shuffleOptions : List OptData :=
  [{ flags := [b!"-f", b!"--file"], argument := b!"FILE", operation := .append, callback := some 5 }, { flags := [b!"-v"], initialValue := b!"0" },
    { flags := [b!"--input"], alias_ := b!"-f", argument := b!"FILE", operation := .append, optional := false },
    { flags := [b!"--no-input"], alias_ := b!"-f", operation := .clear }]

/-- The same options in another order. -/
def otherOptions : List OptData := ((shuffleOptions.drop 1).take 1 ++ shuffleOptions.take 1) ++ (shuffleOptions.drop 2).reverse

/-- The options of its sub-command. -/
def shuffleSubOptions : List OptData := [{ flags := [b!"-a"], optional := false }, { flags := [b!"-b", b!"--both"], argument := b!"N", optional := false }]

/-- A parser with linked options and a sub-command, with some order of the options. -/
def shuffleCommand (os os' : List OptData) : Command :=
  { name := b!"prog", options := os, requireSubcommand := some false
    commands := [{ name := b!"open", options := os', arguments := [{ name := b!"x" }] }] }

/-- The same parser as data. -/
def shuffleData (os os' : List OptData) : ParserData := { command := shuffleCommand os os', settings := { autoExit := false } }

/-- A callback that stores the value another time. -/
def againEnv : Env := ⟨fun cb _ _ value _ => if cb = 5 then { ops := [.append b!"-f" (value.getD [])] } else {}⟩

theorem againEnv_names : UsesNames againEnv := by
  intro cb callNo v1 v2 value n1 n2 _ _
  refine ⟨rfl, fun op hop => ?_⟩
  simp only [againEnv] at hop
  split at hop
  · simp only [List.mem_singleton] at hop
    subst hop
    trivial
  · simp at hop

theorem initialsOf_le (os : List OptData) (v : Nat) : (initialsOf os v).length ≤ (os.filter fun o => decide (o.initialValue ≠ [])).length := by
  simp only [initialsOf, List.length_map]
  induction os with
  | nil => simp
  | cons o os ih =>
    simp only [List.filter_cons]
    repeat' split
    all_goals simp_all
    all_goals omega

theorem shuffle_reordered : Reordered (shuffleCommand shuffleOptions shuffleSubOptions) (shuffleCommand otherOptions shuffleSubOptions.reverse) := by
  refine .intro (shuffleCommand shuffleOptions shuffleSubOptions) (os := otherOptions) ?_ (.cons (.intro _ (os := shuffleSubOptions.reverse) (List.reverse_perm _) .nil) .nil)
  have := List.Perm.append (List.perm_append_comm (l₁ := (shuffleOptions.drop 1).take 1) (l₂ := shuffleOptions.take 1)) (List.reverse_perm (shuffleOptions.drop 2))
  exact this

/-- What is asked of the results of the example. -/
def shuffleAnswers (n : PNode) : List (List Str) × Outcome Bool × List (List Str) :=
  let strings (n : PNode) (name : Str) : List Str := match n.valuesOf name with
    | .ok l => l.map (·.1)
    | _ => []
  ([strings n b!"--input", strings n b!"-v"], n.has b!"--no-input", n.subs.map fun (m : PNode) => strings m b!"--both")

set_option synthInstance.maxSize 1000 in
-- The conditions hold for the example with links, an initial value, a callback and a sub-command. The values are the same, another missing option is reported.
example : ∃ d, finishInitialization (shuffleData shuffleOptions shuffleSubOptions) = .ok d ∧ ∃ d', finishInitialization (shuffleData otherOptions shuffleSubOptions.reverse) = .ok d' ∧
    (∀ x : Command, x.Within (shuffleCommand shuffleOptions shuffleSubOptions) → ∀ o ∈ x.options, o.valueId = 0) ∧
    (∀ x : Command, x.Within (shuffleCommand shuffleOptions shuffleSubOptions) → RegularFlags false x.options) ∧
    (∀ x : Command, x.Within d.command → BackwardLinks (items x)) ∧ (∀ x : Command, x.Within d'.command → BackwardLinks (items x)) ∧
    (∀ v, (initialsOf d.command.options v).length ≤ 1) ∧
    parseTo shuffleAnswers againEnv d [b!"-f5", b!"--input", b!"7", b!"open", b!"-ab3", b!"y"] 99 =
      some ([[b!"5", b!"5", b!"7"], [b!"0"]], .ok true, [[b!"3"]]) ∧
    parseTo shuffleAnswers againEnv d' [b!"-f5", b!"--input", b!"7", b!"open", b!"-ab3", b!"y"] 99 =
      some ([[b!"5", b!"5", b!"7"], [b!"0"]], .ok true, [[b!"3"]]) ∧
    (parse againEnv d [b!"open", b!"y"] 99).2.log.filterMap Event.shown = [(b!"prog open", b!"Mandatory option is missing: -a")] ∧
    (parse againEnv d' [b!"open", b!"y"] 99).2.log.filterMap Event.shown = [(b!"prog open", b!"Mandatory option is missing: -b, --both")] := by
  have key : ∃ d, finishInitialization (shuffleData shuffleOptions shuffleSubOptions) = .ok d ∧ ((d.command.checkAll (fun x => backwardCheck [] (items x)) 2 = true ∧
      (d.command.options.filter fun o => decide (o.initialValue ≠ [])).length ≤ 1) ∧
      parseTo shuffleAnswers againEnv d [b!"-f5", b!"--input", b!"7", b!"open", b!"-ab3", b!"y"] 99 =
        some ([[b!"5", b!"5", b!"7"], [b!"0"]], .ok true, [[b!"3"]]) ∧
      (parse againEnv d [b!"open", b!"y"] 99).2.log.filterMap Event.shown = [(b!"prog open", b!"Mandatory option is missing: -a")]) := by
    refine Outcome.exists_ok ?_
    decide +kernel
  have key' : ∃ d, finishInitialization (shuffleData otherOptions shuffleSubOptions.reverse) = .ok d ∧ (d.command.checkAll (fun x => backwardCheck [] (items x)) 2 = true ∧
      parseTo shuffleAnswers againEnv d [b!"-f5", b!"--input", b!"7", b!"open", b!"-ab3", b!"y"] 99 =
        some ([[b!"5", b!"5", b!"7"], [b!"0"]], .ok true, [[b!"3"]]) ∧
      (parse againEnv d [b!"open", b!"y"] 99).2.log.filterMap Event.shown = [(b!"prog open", b!"Mandatory option is missing: -b, --both")]) := by
    refine Outcome.exists_ok ?_
    decide +kernel
  obtain ⟨d, h, ⟨h1, h2⟩, h3, h4⟩ := key
  obtain ⟨d', h', h1', h3', h4'⟩ := key'
  have hz : (shuffleCommand shuffleOptions shuffleSubOptions).checkAll (fun x => (x.options.all fun o => o.valueId == 0) && decide (RegularFlags false x.options)) 2 = true := by
    decide +kernel
  refine ⟨d, h, d', h', ?_, ?_, fun x hx => backwardCheck_sound _ (Command.checkAll_sound h1 hx), fun x hx => backwardCheck_sound _ (Command.checkAll_sound h1' hx),
    fun v => Nat.le_trans (initialsOf_le _ v) h2, h3, h3', h4, h4'⟩
  · intro x hx o ho
    have := Command.checkAll_sound hz hx
    simp only [Bool.and_eq_true, List.all_eq_true, beq_iff_eq] at this
    exact this.1 o ho
  · intro x hx
    have := Command.checkAll_sound hz hx
    simp only [Bool.and_eq_true, decide_eq_true_eq] at this
    exact this.2

/-- The options of `forwardData`, the linked ones after their declaration. -/
def forwardOther : List OptData :=
  ((forwardData.command.options.drop 1).take 1 ++ forwardData.command.options.take 1) ++ forwardData.command.options.drop 2

/-- **C79** is false without its condition about links: `-x` gives a value to `-v` in one order but not in the other. -/
theorem C79_links_violated : ∃ (d0 : ParserData) (c' : Command) (args : List Str) (name : Str), Reordered d0.command c' ∧
    (∃ d, finishInitialization d0 = .ok d ∧ parseTo (fun n => n.has name) Env.inert d args 9 = some (.ok false)) ∧
    ∃ d', finishInitialization { d0 with command := c' } = .ok d' ∧ parseTo (fun n => n.has name) Env.inert d' args 9 = some (.ok true) := by
  refine ⟨forwardData, { forwardData.command with options := forwardOther }, [b!"-x"], b!"-v", ?_, ?_, ?_⟩
  · refine .intro forwardData.command (os := forwardOther) ?_ .nil
    have := List.Perm.append_right (forwardData.command.options.drop 2)
      (List.perm_append_comm (l₁ := (forwardData.command.options.drop 1).take 1) (l₂ := forwardData.command.options.take 1))
    exact this
  all_goals
    refine Outcome.exists_ok ?_
    decide +kernel

/-- Two linked options with initial values. -/
def initialOptions : List OptData :=
  [{ flags := [b!"-a"], argument := b!"A", initialValue := b!"1" }, { flags := [b!"-b"], alias_ := b!"-a", argument := b!"B", initialValue := b!"2" }]

/-- **C79** is false without its condition about initial values: they have the order of the options. -/
theorem C79_initial_violated : ∃ (d0 : ParserData) (c' : Command) (name : Str), Reordered d0.command c' ∧
    (∃ d, finishInitialization d0 = .ok d ∧ parseTo (fun n => n.valuesOf name) Env.inert d [] 9 = some (.ok [(b!"1", 2), (b!"2", 3)])) ∧
    ∃ d', finishInitialization { d0 with command := c' } = .ok d' ∧
      parseTo (fun n => n.valuesOf name) Env.inert d' [] 9 = some (.ok [(b!"2", 2), (b!"1", 3)]) := by
  refine ⟨{ command := { name := b!"prog", options := initialOptions } }, { name := b!"prog", options := initialOptions.reverse }, b!"-a", ?_, ?_, ?_⟩
  · exact .intro { name := b!"prog", options := initialOptions } (os := initialOptions.reverse) (List.reverse_perm _) .nil
  all_goals
    refine Outcome.exists_ok ?_
    decide +kernel

end Argos
