import Verif.Proofs.RegroupInit
import Verif.Props.Bare
import Verif.Props.Reorder

/-!
# C87: the order in which sub-commands are declared doesn't matter, C88: additional sub-commands leave other command lines alone
-/

namespace Argos

open Spec Parser

/-- **C87**: the sub-commands are accepted in one order if and only if they are accepted in the other. -/
theorem C87_accepted {d0 : ParserData} {c' : Command} (hr : Regrouped (fun _ => False) d0.command c') :
    (∃ d, finishInitialization d0 = .ok d) ↔ ∃ d', finishInitialization { d0 with command := c' } = .ok d' := by
  obtain ⟨fn, o, k1, k2, k3⟩ := regrouped_version hr
  constructor
  · rintro ⟨d, h⟩
    rw [init_data h] at h
    obtain ⟨f, hf⟩ := regroup_order (fun _ h => h) d0.settings _ k3 ((k1 _).mpr h)
    exact ⟨_, (k2 f).mp hf⟩
  · rintro ⟨d, h⟩
    rw [init_data h] at h
    obtain ⟨f, hf⟩ := regroup_fewer d0.settings _ k3 ((k2 _).mpr h)
    exact ⟨_, (k1 f).mp hf⟩

/-- The conclusion of the simulation in the terms of the specification. -/
theorem sameCourse_of {d0 d d' : ParserData} {c' : Command} (h : finishInitialization d0 = .ok d) (h' : finishInitialization { d0 with command := c' } = .ok d')
    {env : Env} {args : List Str} {fuel : Nat}
    (k : SameEnd (OptRel SameTree) (parse env d args fuel).1 (parse env d' args fuel).1 ∧
      Each SameMoment (parse env d args fuel).2.log (parse env d' args fuel).2.log ∧ (parse env d args fuel).2.calls = (parse env d' args fuel).2.calls) :
    SameCourse (parse env d args fuel) (parse env d' args fuel) := by
  obtain ⟨k1, k2, k3⟩ := k
  refine ⟨?_, k2, k3⟩
  revert k1
  cases hp1 : (parse env d args fuel).1 with
  | ok o1 =>
    cases hp2 : (parse env d' args fuel).1 with
    | ok o2 =>
      intro c
      obtain ⟨n1, rfl⟩ := parse_gives h hp1
      obtain ⟨n2, rfl⟩ := parse_gives h' hp2
      cases c with
      | some c => exact ⟨n1, n2, rfl, rfl, c⟩
    | _ => exact fun c => c
  | _ => cases hp2 : (parse env d' args fuel).1 <;> exact fun c => c

/-- **C87**: every command line has the same outcome, results (values and their numbers included), messages and calls of callbacks in both orders. Missing:
sub-commands of the same command with the same name, where it is false, see `C87_names_violated`. -/
theorem C87_parse_partial {d0 d d' : ParserData} {c' : Command} (hr : Regrouped (fun _ => False) d0.command c') (h : finishInitialization d0 = .ok d)
    (h' : finishInitialization { d0 with command := c' } = .ok d') (hd : ∀ x : Command, x.Within c' → DifferentNames d0.settings.caseInsensitive x)
    {env : Env} (he : Overlooks env) (args : List Str) (fuel : Nat) : SameCourse (parse env d args fuel) (parse env d' args fuel) := by
  have hk := init_kin (p := False) (W := fun _ => True) hr (fun _ _ _ hn => hn.elim) h h' hd (fun q => q.elim)
  have hset : d.settings = d'.settings := by rw [(finishInitialization_ok h).1, (finishInitialization_ok h').1]
  rw [← (finishInitialization_ok h).1] at hk
  rcases parse_kin (env := env) ⟨he, .inr fun _ _ _ _ _ _ _ _ => trivial⟩ hset hk (args := args) (.inr ⟨⟨trivial, fun _ => trivial, fun _ => trivial⟩, fun _ _ _ => trivial⟩) fuel
    with k | ⟨q, _⟩
  · exact sameCourse_of h h' k
  · exact q.elim

/-- **C88**: if the declarations are accepted with the additional sub-commands, they are accepted without them. -/
theorem C88_accepted {new : Str → Prop} {d0 d' : ParserData} {c' : Command} (hr : Regrouped new d0.command c')
    (h' : finishInitialization { d0 with command := c' } = .ok d') : ∃ d, finishInitialization d0 = .ok d := by
  obtain ⟨fn, o, k1, k2, k3⟩ := regrouped_version hr
  rw [init_data h'] at h'
  obtain ⟨f, hf⟩ := regroup_fewer d0.settings _ k3 ((k2 _).mpr h')
  exact ⟨_, (k1 f).mp hf⟩

/-- **C88**: a command line on which no word is or ends with the name of an additional sub-command has the same outcome, results, messages and calls of
callbacks with the additional sub-commands as without them, also if some commands accept several sub-commands. Missing: sub-commands of the same command with
the same name, and the command lines of `C88_parse_partial`. -/
theorem C88_absent_partial {new : Str → Prop} {d0 d d' : ParserData} {c' : Command} (hr : Regrouped new d0.command c') (h : finishInitialization d0 = .ok d)
    (h' : finishInitialization { d0 with command := c' } = .ok d') (hd : ∀ x : Command, x.Within c' → DifferentNames d0.settings.caseInsensitive x)
    (hnew : ∀ n, new n → n ≠ [] ∧ n.head? ≠ some c!"-" ∧ n.head? ≠ some c!"/") {env : Env} (he : Overlooks env) {args : List Str}
    (ha : ∀ w ∈ args, NotNew d0.settings.caseInsensitive new w)
    (hw : ∀ cb callNo view value n, ∀ w ∈ (env.callback cb callNo view value n).newArguments, NotNew d0.settings.caseInsensitive new w) (fuel : Nat) :
    SameCourse (parse env d args fuel) (parse env d' args fuel) := by
  have hk := init_kin (p := False) (W := fun w => ∀ n, new n → areEqual n w d0.settings.caseInsensitive = false) hr (fun _ h => h) h h' hd (fun q => q.elim)
  have hset : d.settings = d'.settings := by rw [(finishInitialization_ok h).1, (finishInitialization_ok h').1]
  have hdrop : ∀ w, NotNew d0.settings.caseInsensitive new w → ∀ q n, new n → areEqual n (w.drop q) d0.settings.caseInsensitive = false := by
    intro w hw q n hn
    cases hb : areEqual n (w.drop q) d0.settings.caseInsensitive with
    | false => rfl
    | true => exact absurd ((sameFlag_key _ _ _).mpr ((areEqual_key _ _ _).mp hb)) (hw n hn q)
  have hbyte : ∀ (b : UInt8), (∀ c, foldByte c = foldByte b → c = b) → ∀ s n, new n → n.head? ≠ some b → areEqual n (b :: s) d0.settings.caseInsensitive = false := by
    intro b hb s n hn hne
    cases hq : areEqual n (b :: s) d0.settings.caseInsensitive with
    | false => rfl
    | true =>
      exfalso
      have hkey := (areEqual_key _ _ _).mp hq
      cases n with
      | nil => exact (hnew [] hn).1 rfl
      | cons c t =>
        apply hne
        simp only [flagKey] at hkey
        split at hkey
        · simp only [foldCase, List.map_cons, List.cons.injEq] at hkey
          rw [hb c hkey.1]; rfl
        · simp only [List.map_cons, List.cons.injEq] at hkey
          rw [UInt8.toNat_inj.mp hkey.1]; rfl
  have hlen : Lenient fun w => ∀ n, new n → areEqual n w d0.settings.caseInsensitive = false := by
    refine ⟨fun n hn => ?_, fun s n hn => hbyte _ (forall_byte (by decide +kernel)) s n hn (hnew n hn).2.1,
      fun s n hn => hbyte _ (forall_byte (by decide +kernel)) s n hn (hnew n hn).2.2⟩
    cases hq : areEqual n [] d0.settings.caseInsensitive with
    | false => rfl
    | true =>
      have hkey := (areEqual_key _ _ _).mp hq
      cases n with
      | nil => exact absurd rfl (hnew [] hn).1
      | cons c t =>
        simp only [flagKey] at hkey
        split at hkey <;> simp [foldCase] at hkey
  rw [← (finishInitialization_ok h).1] at hk
  rw [← (finishInitialization_ok h).1] at hlen
  rcases parse_kin (env := env) ⟨he, .inr fun cb callNo view value n w hm q => by
      rw [(finishInitialization_ok h).1]; exact hdrop w (hw cb callNo view value n w hm) q⟩ hset hk (args := args)
      (.inr ⟨hlen, fun w hm q => by rw [(finishInitialization_ok h).1]; exact hdrop w (ha w hm) q⟩) fuel
    with k | ⟨q, _⟩
  · exact sameCourse_of h h' k
  · exact q.elim

/-- **C88**: a command line that does not lead to "Unknown command" has the same outcome, results, messages and calls of callbacks with additional
sub-commands as without them, also if a word is the name of one of them. Missing: commands that accept several sub-commands, where it is false, see
`C88_several_violated`; sub-commands of the same command with the same name. -/
theorem C88_parse_partial {new : Str → Prop} {d0 d d' : ParserData} {c' : Command} (hr : Regrouped new d0.command c') (h : finishInitialization d0 = .ok d)
    (h' : finishInitialization { d0 with command := c' } = .ok d') (hd : ∀ x : Command, x.Within c' → DifferentNames d0.settings.caseInsensitive x)
    (hx : Exclusive d0.command) (hm : ∀ x : Command, x.Within d0.command → x.multiCommand = false) {env : Env} (he : Overlooks env) {args : List Str} {fuel : Nat}
    (hu : ∀ c t, Event.error c (b!"Unknown command: " ++ t) ∉ (parse env d args fuel).2.log) :
    SameCourse (parse env d args fuel) (parse env d' args fuel) := by
  have hk := init_kin (p := True) (W := fun _ => False) hr (fun _ q => q.elim) h h' hd (fun _ x hxw => ⟨hm x hxw, hx x hxw⟩)
  have hset : d.settings = d'.settings := by rw [(finishInitialization_ok h).1, (finishInitialization_ok h').1]
  rw [← (finishInitialization_ok h).1] at hk
  rcases parse_kin (env := env) ⟨he, .inl trivial⟩ hset hk (args := args) (.inl trivial) fuel with k | ⟨_, c, t, hl⟩
  · exact sameCourse_of h h' k
  · exact absurd hl (hu c t)

/-- A command of the example. -/
def groupAdd : Command := { name := b!"add", arguments := [{ name := b!"x", minCount := 0, maxCount := 3 }, { name := b!"y" }], options := [{ flags := [b!"-f"], argument := b!"F", callback := some 5 }] }

/-- Another command of the example. -/
def groupList : Command := { name := b!"list", options := [{ flags := [b!"-l", b!"--long"] }] }

/-- A command with sub-commands. -/
def groupRemote (cs : List Command) (multi : Bool) : Command := { name := b!"remote", options := [{ flags := [b!"-v"] }], commands := cs, multiCommand := multi }

/-- The root. -/
def groupRoot (cs : List Command) (multi : Bool) : Command := { name := b!"prog", options := [{ flags := [b!"-q"] }], commands := cs, multiCommand := multi }

/-- The parser of the example. -/
def groupData (cs : List Command) (multi : Bool) : ParserData := { command := groupRoot cs multi, settings := { autoExit := false } }

theorem overlooks_again : Overlooks againEnv := fun _ _ _ _ _ _ _ => rfl

/-- The strings in all results and whether parsing succeeded. -/
def groupAnswers (n : PNode) : ResultCode × List (Str × List Str) × List (Str × List Str) :=
  (n.code, n.subs.map fun (m : PNode) => (m.command.name, m.values.map fun v => v.2.1),
    n.subs.flatMap fun (m : PNode) => m.subs.map fun (k : PNode) => (k.command.name, k.values.map fun v => v.2.1))

theorem group_swapped (multi : Bool) : Regrouped (fun _ => False) (groupRoot [groupAdd, groupRemote [groupAdd, groupList] multi] multi)
    (groupRoot [groupRemote [groupList, groupAdd] multi, groupAdd] multi) := by
  have h0 : ∀ c : Command, c.commands = [] → Regrouped (fun _ => False) c { c with commands := [] } := by
    intro c hc
    refine .intro c (same := []) (more := []) (by rw [hc]; exact .nil) (by simp) (fun _ => rfl) (by simp)
  have h1 : Regrouped (fun _ => False) (groupRemote [groupAdd, groupList] multi) (groupRemote [groupList, groupAdd] multi) :=
    .intro (groupRemote [groupAdd, groupList] multi) (same := [groupAdd, groupList]) (more := []) (.cons (h0 groupAdd rfl) (.cons (h0 groupList rfl) .nil)) (by simp)
      (fun _ => rfl) (List.Perm.swap _ _ _)
  exact .intro (groupRoot [groupAdd, groupRemote [groupAdd, groupList] multi] multi) (same := [groupAdd, groupRemote [groupList, groupAdd] multi]) (more := [])
    (.cons (h0 groupAdd rfl) (.cons h1 .nil)) (by simp) (fun _ => rfl) (List.Perm.swap _ _ _)

theorem group_enlarged (multi : Bool) : Regrouped (· = b!"list") (groupRoot [groupAdd, groupRemote [groupAdd] multi] multi)
    (groupRoot [groupList, groupRemote [groupList, groupAdd] multi, groupAdd] multi) := by
  have h0 : ∀ c : Command, c.commands = [] → Regrouped (· = b!"list") c { c with commands := [] } := by
    intro c hc
    refine .intro c (same := []) (more := []) (by rw [hc]; exact .nil) (by simp) (fun _ => rfl) (by simp)
  have h1 : Regrouped (· = b!"list") (groupRemote [groupAdd] multi) (groupRemote [groupList, groupAdd] multi) :=
    .intro (groupRemote [groupAdd] multi) (same := [groupAdd]) (more := [groupList]) (.cons (h0 groupAdd rfl) .nil) (by simp [groupList])
      (fun h => absurd h (by simp [groupRemote])) (List.Perm.swap _ _ _)
  exact .intro (groupRoot [groupAdd, groupRemote [groupAdd] multi] multi) (same := [groupAdd, groupRemote [groupList, groupAdd] multi]) (more := [groupList])
    (.cons (h0 groupAdd rfl) (.cons h1 .nil)) (by simp [groupList]) (fun h => absurd h (by simp [groupRoot])) (by
      refine (List.Perm.cons _ (List.Perm.swap _ _ _)).trans ?_
      exact (List.perm_append_comm (l₁ := [groupList]) (l₂ := [groupAdd, groupRemote [groupList, groupAdd] multi])))

instance (ci : Bool) (c : Command) : Decidable (DifferentNames ci c) := by unfold DifferentNames; infer_instance

theorem group_different {c : Command} (h : c.checkAll (fun x => decide (DifferentNames false x)) 3 = true) (x : Command) (hx : x.Within c) : DifferentNames false x :=
  of_decide_eq_true (Command.checkAll_sound h hx)

set_option synthInstance.maxSize 1000 in
-- C87: The conditions hold for the example, and the values are the same.
example : ∃ d, finishInitialization (groupData [groupAdd, groupRemote [groupAdd, groupList] true] true) = .ok d ∧
    ∃ d', finishInitialization (groupData [groupRemote [groupList, groupAdd] true, groupAdd] true) = .ok d' ∧
    (∀ x : Command, x.Within (groupRoot [groupRemote [groupList, groupAdd] true, groupAdd] true) → DifferentNames false x) ∧ Overlooks againEnv ∧
    parseTo groupAnswers againEnv d [b!"remote", b!"add", b!"1", b!"-f2", b!"3", b!"list", b!"--long"] 99 =
      some (.success, [(b!"remote", [])], [(b!"add", [b!"1", b!"3", b!"2", b!"2"]), (b!"list", [b!"1"])]) ∧
    parseTo groupAnswers againEnv d' [b!"remote", b!"add", b!"1", b!"-f2", b!"3", b!"list", b!"--long"] 99 =
      some (.success, [(b!"remote", [])], [(b!"add", [b!"1", b!"3", b!"2", b!"2"]), (b!"list", [b!"1"])]) := by
  obtain ⟨d, h, h1⟩ : ∃ d, finishInitialization (groupData [groupAdd, groupRemote [groupAdd, groupList] true] true) = .ok d ∧
      parseTo groupAnswers againEnv d [b!"remote", b!"add", b!"1", b!"-f2", b!"3", b!"list", b!"--long"] 99 =
        some (.success, [(b!"remote", [])], [(b!"add", [b!"1", b!"3", b!"2", b!"2"]), (b!"list", [b!"1"])]) := by
    refine Outcome.exists_ok ?_
    decide +kernel
  obtain ⟨d', h', h1'⟩ : ∃ d, finishInitialization (groupData [groupRemote [groupList, groupAdd] true, groupAdd] true) = .ok d ∧
      parseTo groupAnswers againEnv d [b!"remote", b!"add", b!"1", b!"-f2", b!"3", b!"list", b!"--long"] 99 =
        some (.success, [(b!"remote", [])], [(b!"add", [b!"1", b!"3", b!"2", b!"2"]), (b!"list", [b!"1"])]) := by
    refine Outcome.exists_ok ?_
    decide +kernel
  exact ⟨d, h, d', h', group_different (by decide +kernel), overlooks_again, h1, h1'⟩

/-- Another command of the same name. -/
def groupOther : Command := { groupList with name := b!"add" }

/-- **C87** is false for two sub-commands with the same name, which are accepted: the first one is used, so that the same command line is accepted in one order
and refused in the other. -/
theorem C87_names_violated : ∃ (d0 : ParserData) (c' : Command) (args : List Str), Regrouped (fun _ => False) d0.command c' ∧
    (∃ d, finishInitialization d0 = .ok d ∧ parseTo (·.code) Env.inert d args 9 = some .success) ∧
    ∃ d', finishInitialization { d0 with command := c' } = .ok d' ∧ parseTo (·.code) Env.inert d' args 9 = some .failure := by
  have h0 : ∀ c : Command, c.commands = [] → Regrouped (fun _ => False) c { c with commands := [] } := by
    intro c hc
    refine .intro c (same := []) (more := []) (by rw [hc]; exact .nil) (by simp) (fun _ => rfl) (by simp)
  refine ⟨groupData [groupAdd, groupOther] false, groupRoot [groupOther, groupAdd] false, [b!"add", b!"-f", b!"1", b!"2"], ?_, ?_, ?_⟩
  · exact .intro (groupRoot [groupAdd, groupOther] false) (same := [groupAdd, groupOther]) (more := []) (.cons (h0 groupAdd rfl) (.cons (h0 groupOther rfl) .nil)) (by simp)
      (fun _ => rfl) (List.Perm.swap _ _ _)
  · refine Outcome.exists_ok ?_
    decide +kernel
  · refine Outcome.exists_ok ?_
    decide +kernel

set_option synthInstance.maxSize 1000 in
-- C88: The conditions hold for the example with several sub-commands and a command line without the new name.
example : ∃ d, finishInitialization (groupData [groupAdd, groupRemote [groupAdd] true] true) = .ok d ∧
    ∃ d', finishInitialization (groupData [groupList, groupRemote [groupList, groupAdd] true, groupAdd] true) = .ok d' ∧
    (∀ x : Command, x.Within (groupRoot [groupList, groupRemote [groupList, groupAdd] true, groupAdd] true) → DifferentNames false x) ∧ Overlooks againEnv ∧
    (∀ n, n = b!"list" → n ≠ [] ∧ n.head? ≠ some c!"-" ∧ n.head? ≠ some c!"/") ∧
    (∀ w ∈ [b!"remote", b!"add", b!"1", b!"2", b!"add", b!"5"], NotNew false (· = b!"list") w) ∧
    parseTo groupAnswers againEnv d [b!"remote", b!"add", b!"1", b!"2", b!"add", b!"5"] 99 =
      some (.success, [(b!"remote", [])], [(b!"add", [b!"1", b!"2"]), (b!"add", [b!"5"])]) ∧
    parseTo groupAnswers againEnv d' [b!"remote", b!"add", b!"1", b!"2", b!"add", b!"5"] 99 =
      some (.success, [(b!"remote", [])], [(b!"add", [b!"1", b!"2"]), (b!"add", [b!"5"])]) := by
  obtain ⟨d, h, h1⟩ : ∃ d, finishInitialization (groupData [groupAdd, groupRemote [groupAdd] true] true) = .ok d ∧
      parseTo groupAnswers againEnv d [b!"remote", b!"add", b!"1", b!"2", b!"add", b!"5"] 99 =
        some (.success, [(b!"remote", [])], [(b!"add", [b!"1", b!"2"]), (b!"add", [b!"5"])]) := by
    refine Outcome.exists_ok ?_
    decide +kernel
  obtain ⟨d', h', h1'⟩ : ∃ d, finishInitialization (groupData [groupList, groupRemote [groupList, groupAdd] true, groupAdd] true) = .ok d ∧
      parseTo groupAnswers againEnv d [b!"remote", b!"add", b!"1", b!"2", b!"add", b!"5"] 99 =
        some (.success, [(b!"remote", [])], [(b!"add", [b!"1", b!"2"]), (b!"add", [b!"5"])]) := by
    refine Outcome.exists_ok ?_
    decide +kernel
  refine ⟨d, h, d', h', group_different (by decide +kernel), overlooks_again, ?_, ?_, h1, h1'⟩
  · rintro n rfl
    decide
  · intro w hw n hn k
    have hw' := List.length_drop (i := k) (l := w)
    subst hn
    simp only [SameFlag, Bool.false_eq_true, if_false]
    intro e
    have : ∀ w ∈ [b!"remote", b!"add", b!"1", b!"2", b!"add", b!"5"], ∀ k, k ≤ 6 → b!"list" ≠ w.drop k := by decide
    by_cases hk : k ≤ 6
    · exact this w hw k hk e
    · have hl : w.length ≤ 6 := (by decide : ∀ w ∈ [b!"remote", b!"add", b!"1", b!"2", b!"add", b!"5"], w.length ≤ 6) w hw
      rw [← e] at hw'
      simp at hw'
      omega

set_option synthInstance.maxSize 1000 in
-- C88: The conditions hold for the example without several sub-commands and a command line with the new name as an argument.
example : ∃ d, finishInitialization (groupData [groupAdd, groupRemote [groupAdd] false] false) = .ok d ∧
    ∃ d', finishInitialization (groupData [groupList, groupRemote [groupList, groupAdd] false, groupAdd] false) = .ok d' ∧
    (∀ x : Command, x.Within (groupRoot [groupList, groupRemote [groupList, groupAdd] false, groupAdd] false) → DifferentNames false x) ∧
    Exclusive (groupRoot [groupAdd, groupRemote [groupAdd] false] false) ∧
    (∀ x : Command, x.Within (groupRoot [groupAdd, groupRemote [groupAdd] false] false) → x.multiCommand = false) ∧
    (∀ c t, Event.error c (b!"Unknown command: " ++ t) ∉ (parse againEnv d [b!"remote", b!"add", b!"1", b!"list"] 99).2.log) ∧
    parseTo groupAnswers againEnv d [b!"remote", b!"add", b!"1", b!"list"] 99 = some (.success, [(b!"remote", [])], [(b!"add", [b!"1", b!"list"])]) ∧
    parseTo groupAnswers againEnv d' [b!"remote", b!"add", b!"1", b!"list"] 99 = some (.success, [(b!"remote", [])], [(b!"add", [b!"1", b!"list"])]) := by
  obtain ⟨d, h, h1, h2⟩ : ∃ d, finishInitialization (groupData [groupAdd, groupRemote [groupAdd] false] false) = .ok d ∧
      parseTo groupAnswers againEnv d [b!"remote", b!"add", b!"1", b!"list"] 99 = some (.success, [(b!"remote", [])], [(b!"add", [b!"1", b!"list"])]) ∧
      (parse againEnv d [b!"remote", b!"add", b!"1", b!"list"] 99).2.log.filterMap Event.shown = [] := by
    refine Outcome.exists_ok ?_
    decide +kernel
  obtain ⟨d', h', h1'⟩ : ∃ d, finishInitialization (groupData [groupList, groupRemote [groupList, groupAdd] false, groupAdd] false) = .ok d ∧
      parseTo groupAnswers againEnv d [b!"remote", b!"add", b!"1", b!"list"] 99 = some (.success, [(b!"remote", [])], [(b!"add", [b!"1", b!"list"])]) := by
    refine Outcome.exists_ok ?_
    decide +kernel
  have hx : (groupRoot [groupAdd, groupRemote [groupAdd] false] false).checkAll (fun x => !x.multiCommand && (x.commands.isEmpty || decide (x.arguments = []))) 3 = true := by
    decide +kernel
  refine ⟨d, h, d', h', group_different (by decide +kernel), ?_, ?_, ?_, h1, h1'⟩
  · intro x hxw hne
    have := Command.checkAll_sound hx hxw
    simp only [Bool.and_eq_true, Bool.or_eq_true, decide_eq_true_eq, List.isEmpty_iff] at this
    exact this.2.resolve_left hne
  · intro x hxw
    have := Command.checkAll_sound hx hxw
    simp only [Bool.and_eq_true, Bool.not_eq_true'] at this
    exact this.1
  · intro c t hm
    have : (c.fullName, b!"Unknown command: " ++ t) ∈ (parse againEnv d [b!"remote", b!"add", b!"1", b!"list"] 99).2.log.filterMap Event.shown :=
      List.mem_filterMap.mpr ⟨_, hm, rfl⟩
    rw [h2] at this
    simp at this

set_option synthInstance.maxSize 1000 in
/-- **C88** is false for commands that accept several sub-commands: an argument of a sub-command turns into the name of a new sub-command. -/
theorem C88_several_violated : ∃ (new : Str → Prop) (d0 : ParserData) (c' : Command) (args : List Str), Regrouped new d0.command c' ∧
    (∀ x : Command, x.Within c' → DifferentNames d0.settings.caseInsensitive x) ∧
    (∃ d, finishInitialization d0 = .ok d ∧ parseTo groupAnswers Env.inert d args 99 = some (.success, [(b!"remote", [])], [(b!"add", [b!"1", b!"list"])])) ∧
    ∃ d', finishInitialization { d0 with command := c' } = .ok d' ∧
      parseTo groupAnswers Env.inert d' args 99 = some (.success, [(b!"remote", [])], [(b!"add", [b!"1"]), (b!"list", [])]) := by
  refine ⟨(· = b!"list"), groupData [groupAdd, groupRemote [groupAdd] true] true, _, [b!"remote", b!"add", b!"1", b!"list"], group_enlarged true,
    group_different (by decide +kernel), ?_, ?_⟩
  · refine Outcome.exists_ok ?_
    decide +kernel
  · refine Outcome.exists_ok ?_
    decide +kernel

end Argos
