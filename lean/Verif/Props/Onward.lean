import Verif.Proofs.Onward
import Verif.Props.Insert
import Verif.Props.Ignored

/-!
# C86: what is reported does not depend on what comes later on the command line
-/

namespace Argos

open Spec Parser

/-- **C86** for `ArgumentIterator`: everything that is reported for a command line `pre` before its end is reported in the same way, with the same
output and calls of callbacks, for every command line that begins with `pre`; afterwards only `post` is left to read in addition. Missing: commands that
need to know the number of arguments in advance, where it is false, see `C86_counting_violated`. -/
theorem C86_next_partial {d0 d : ParserData} (h : finishInitialization d0 = .ok d) (hnc : ∀ c : Command, c.Within d.command → ¬ NeedsCount c)
    {env : Env} {pre : List Str} {rs : List IterResult} {s : PState} (ht : Trace env (start d pre).2 rs s) (hrs : ∀ r ∈ rs, ¬ r.IsLast)
    (hu : Unfinished s) (post : List Str) :
    ∃ s', Trace env (start d (pre ++ post)).2 rs s' ∧ s'.stack = s.stack ∧ s'.log = s.log ∧ s'.calls = s.calls ∧ s'.command = s.command ∧
      s'.counter = s.counter ∧ s'.mode = s.mode ∧ ∀ left it, s.iter.remainingArguments = .ok (left, it) →
        ∃ it', s'.iter.remainingArguments = .ok (left ++ post, it') := by
  refine ⟨_, (trace_onward (ready_of_init h) (notCounted hnc) post ht hrs hu).1, rfl, rfl, rfl, rfl, rfl, rfl, ?_⟩
  intro left it hl
  exact ⟨_, Iter.remaining_more post hl⟩

/-- **C86** for `parse`: if `pre` is enough to end parsing, with an error, with an option like `--help` or in a callback, and the end of the command line plays
no part in it, then every command line that begins with `pre` ends in the same way, with the same output and calls of callbacks, the same exit code or
exception. If `parse` returns, the results are the same too, except that the other arguments are among the unprocessed ones: an error cannot be repaired
by what comes later. Missing: see `C86_next_partial`. -/
theorem C86_parse_partial {d0 d : ParserData} (h : finishInitialization d0 = .ok d) (hnc : ∀ c : Command, c.Within d.command → ¬ NeedsCount c)
    {env : Env} {pre : List Str} {rs : List IterResult} {s : PState} (ht : Trace env (start d pre).2 rs s) (hrs : ∀ r ∈ rs, ¬ r.IsLast)
    (he : EndUntouched s) (ho : Over (next env s).1 (next env s).2) (post : List Str) {fuel : Nat} (hf : rs.length + 2 ≤ fuel) :
    EndsAlike post (parse env d pre fuel) (parse env d (pre ++ post) fuel) :=
  parse_onward (ready_of_init h) (notCounted hnc) post ht hrs he ho hf

/-- The conditions of `C86_parse_partial` after `n` results, decided by evaluation. -/
def overCheck (env : Env) (d : ParserData) (pre : List Str) (n : Nat) : Bool :=
  match firstResults env n (start d pre).2 with
  | none => false
  | some (_, s) =>
    (match if s.mode = .argumentsAndOptions then s.iter.next else if s.mode = .argumentsOnly then s.iter.nextValue else .ub with
      | .ok (some a, it) =>
        (match findOption s.command.optionIndex a s.settings.allowAbbreviatedOptions s.settings.caseInsensitive with
          | none => true
          | some o => !decide (NeedsValue o) || (match it.nextValue with | .ok (some _, _) => true | _ => false))
      | _ => false) &&
    (match next env s with
      | (.ok .done, _) | (.ok .error, _) => true
      | (.ok _, s') => decide (s'.mode = .done)
      | _ => true)

theorem overCheck_sound {env : Env} {d : ParserData} {pre : List Str} {n : Nat} (h : overCheck env d pre n = true) :
    ∃ rs s, Trace env (start d pre).2 rs s ∧ (∀ r ∈ rs, ¬ r.IsLast) ∧ rs.length = n ∧ EndUntouched s ∧ Over (next env s).1 (next env s).2 := by
  unfold overCheck at h
  split at h
  · simp at h
  · rename_i rs s h1
    obtain ⟨a1, a2, a3⟩ := firstResults_sound n h1
    rw [Bool.and_eq_true] at h
    obtain ⟨h2, h3⟩ := h
    refine ⟨rs, s, a1, a2, a3, ?_, ?_⟩
    · split at h2
      · rename_i a it hr
        refine ⟨a, it, ?_, ?_⟩
        · split at hr
          · rename_i hm; exact Or.inl ⟨hm, hr⟩
          · split at hr
            · rename_i hm; exact Or.inr ⟨hm, hr⟩
            · simp at hr
        · intro o _ hfo hnv
          rw [hfo] at h2
          simp only [Bool.or_eq_true, Bool.not_eq_true', decide_eq_false_iff_not] at h2
          rcases h2 with h2 | h2
          · exact absurd hnv h2
          · split at h2
            · rename_i v it' hv; exact ⟨v, it', hv⟩
            · simp at h2
      · simp at h2
    · generalize next env s = q at h3 ⊢
      obtain ⟨o, s'⟩ := q
      cases o with
      | ok r => cases r <;> first | exact Or.inl trivial | exact Or.inr (by simpa using h3)
      | _ => trivial

/-- A parser with a stop option and options with values. -/
def onwardData (exits : Bool) : ParserData :=
  { command :=
      { name := b!"fetch"
        options := [{ flags := [b!"-v"], operation := .append, constant := b!"1" }, { flags := [b!"--from"], argument := b!"URL", callback := some 0 },
          { flags := [b!"--version"], type := .stop, operation := .none }]
        arguments := [{ name := b!"FILE", minCount := 1, maxCount := 2 }] }
    settings := { autoExit := exits } }

-- The hypotheses of `C86_parse_partial`: an unknown option, an argument too many, a stop option (after other options and arguments), whatever follows; the same
-- when an error ends the program.
example : ∀ exits, ∃ d, finishInitialization (onwardData exits) = .ok d ∧ ∀ pre, pre ∈ [[b!"-v", b!"--form", b!"x"], [b!"a", b!"-vq"], [b!"a", b!"--from=u", b!"b", b!"c"],
      [b!"--from", b!"u", b!"a", b!"--version"]] → ∀ post fuel, 5 ≤ fuel →
    EndsAlike post (parse Env.inert d pre fuel) (parse Env.inert d (pre ++ post) fuel) := by
  intro exits
  have key : ∃ d, finishInitialization (onwardData exits) = .ok d ∧ (d.command.checkAll (fun c => !Counter.requiresArgumentCount c.arguments) 2 = true ∧
      overCheck Env.inert d [b!"-v", b!"--form", b!"x"] 1 = true ∧ overCheck Env.inert d [b!"a", b!"-vq"] 2 = true ∧
      overCheck Env.inert d [b!"a", b!"--from=u", b!"b", b!"c"] 3 = true ∧ overCheck Env.inert d [b!"--from", b!"u", b!"a", b!"--version"] 2 = true) := by
    refine Outcome.exists_ok ?_
    cases exits <;> decide +kernel
  obtain ⟨d, hd, h0, h1, h2, h3, h4⟩ := key
  refine ⟨d, hd, ?_⟩
  intro pre hpre post fuel hf
  have : ∀ n, n ≤ 3 → overCheck Env.inert d pre n = true → EndsAlike post (parse Env.inert d pre fuel) (parse Env.inert d (pre ++ post) fuel) := by
    intro n hn ho
    obtain ⟨rs, s, c1, c2, c3, c4, c5⟩ := overCheck_sound ho
    exact C86_parse_partial hd (notCounted_of h0) c1 c2 c4 c5 post (by omega)
  simp only [List.mem_cons, List.not_mem_nil, or_false] at hpre
  rcases hpre with rfl | rfl | rfl | rfl
  · exact this 1 (by omega) h1
  · exact this 2 (by omega) h2
  · exact this 3 (by omega) h3
  · exact this 2 (by omega) h4

/-- The first `n` results for `pre` are not the last ones, and everything was read for them. -/
def readCheck (env : Env) (d : ParserData) (pre : List Str) (n : Nat) : Bool :=
  match firstResults env n (start d pre).2 with
  | none => false
  | some (_, s) => decide (s.mode = .argumentsAndOptions ∨ s.mode = .argumentsOnly) &&
    (match s.iter.remainingArguments with
      | .ok (l, _) => l.isEmpty
      | _ => false)

-- The hypotheses of `C86_next_partial`: what is reported for `-v a` is reported whatever follows.
example : ∃ d, finishInitialization (onwardData true) = .ok d ∧ ∃ rs : List IterResult, rs.length = 2 ∧ ∀ post, ∃ s',
    Trace Env.inert (start d ([b!"-v", b!"a"] ++ post)).2 rs s' ∧ ∃ it', s'.iter.remainingArguments = .ok (post, it') := by
  have key : ∃ d, finishInitialization (onwardData true) = .ok d ∧ (d.command.checkAll (fun c => !Counter.requiresArgumentCount c.arguments) 2 = true ∧
      readCheck Env.inert d [b!"-v", b!"a"] 2 = true) := by
    refine Outcome.exists_ok ?_
    decide +kernel
  obtain ⟨d, hd, h0, h1⟩ := key
  refine ⟨d, hd, ?_⟩
  unfold readCheck at h1
  split at h1
  · simp at h1
  · rename_i rs s hr
    obtain ⟨a1, a2, a3⟩ := firstResults_sound 2 hr
    rw [Bool.and_eq_true, decide_eq_true_eq] at h1
    obtain ⟨h2, h3⟩ := h1
    split at h3
    · rename_i l it hl
      have : l = [] := by simpa using h3
      subst this
      refine ⟨rs, a3, fun post => ?_⟩
      obtain ⟨s', b1, -, -, -, -, -, -, b2⟩ := C86_next_partial hd (notCounted_of h0) a1 a2 h2 post
      exact ⟨s', b1, b2 _ _ hl⟩
    · simp at h3

set_option synthInstance.maxSize 1000 in
-- A concrete case: the results differ in the unprocessed arguments only.
example : ∃ d, finishInitialization (onwardData false) = .ok d ∧
    (parseTo (fun n => (n.code, n.values.map (·.2.1), n.unprocessed)) Env.inert d [b!"-v", b!"a", b!"--version"] 9 = some (.stop, [b!"a", b!"1"], []) ∧
     parseTo (fun n => (n.code, n.values.map (·.2.1), n.unprocessed)) Env.inert d [b!"-v", b!"a", b!"--version", b!"b", b!"--form"] 9 =
       some (.stop, [b!"a", b!"1"], [b!"b", b!"--form"])) := by
  refine Outcome.exists_ok ?_
  decide +kernel

/-- A command that needs the number of arguments. -/
def lastFirstData : ParserData :=
  { command :=
      { name := b!"move"
        arguments := [{ name := b!"FROM", minCount := 0, maxCount := 1 }, { name := b!"TO" }] }
    settings := { autoExit := false, generateHelpOption := false } }

/-- The name of the argument that is reported first. -/
def firstArgument (env : Env) (d : ParserData) (args : List Str) : Option (Str × Option Str) :=
  match next env (start d args).2 with
  | (.ok (.argument a v), _) => some (a.name, v)
  | _ => none

/-- **C86** is violated if the arguments are counted: `a` is the argument `TO` when it stands alone, and `FROM` if something follows. -/
theorem C86_counting_violated : ∃ d, finishInitialization lastFirstData = .ok d ∧
    (firstArgument Env.inert d [b!"a"] = some (b!"TO", some b!"a") ∧ firstArgument Env.inert d ([b!"a"] ++ [b!"b"]) = some (b!"FROM", some b!"a")) := by
  refine Outcome.exists_ok ?_
  decide +kernel

end Argos
