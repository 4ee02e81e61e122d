import Verif.Proofs.Insert
import Verif.Props.Bare
import Verif.Props.Grammar

/-!
# C81: arguments inserted by a callback are as if written on the command line
-/

namespace Argos

open Spec Parser

theorem notCounted {d : ParserData} (h : ∀ c : Command, c.Within d.command → ¬ NeedsCount c) :
    ∀ c : Command, c.Within d.command → Counter.requiresArgumentCount c.arguments = false := by
  intro c hc
  cases hr : Counter.requiresArgumentCount c.arguments with
  | false => rfl
  | true => exact absurd ((requires_iff _).mp hr) (h c hc)

/-- **C81**: `parse` is given `pre` and `post`, and a callback called while the last piece of `pre` is processed inserts `new`. Then everything (the
outcome, the parsed arguments, the output, the calls of callbacks) is as if the command line had been `pre`, `new` and `post`, whatever the callbacks
do otherwise. Missing: commands that need to know the number of arguments in advance, where it is false, see `C81_count_violated`;
insertions while an argument with several flags is read, see `C81_flags_violated`. -/
theorem C81_parse_partial {d0 d : ParserData} (h : finishInitialization d0 = .ok d) (hnc : ∀ c : Command, c.Within d.command → ¬ NeedsCount c)
    {env : Env} {pre : List Str} (new post : List Str) {rs : List IterResult} {r : IterResult} {s1 s2 : PState} {k : Nat}
    -- what happens with `pre`: nothing of it is left when `r` has been reported, and parsing goes on
    (ht : Trace env (start d pre).2 rs s1) (hrs : ∀ x ∈ rs, ¬ x.IsLast) (hn : next env s1 = (.ok r, s2)) (hr : ¬ r.IsLast)
    (hu : Unfinished s2) (hl : NothingLeft s2.iter)
    -- the callback that inserts is called before `r` is reported
    (hk1 : s1.calls ≤ k) (hk2 : k < s2.calls) {fuel : Nat} (hf : rs.length < fuel) :
    parse (env.inserting k new) d (pre ++ post) fuel = parse env d (pre ++ new ++ post) fuel :=
  inserted_parse (ready_of_init h) (notCounted hnc) new post ht hrs hn hr hu hk1 hk2 hl fuel hf

/-- **C81** for `ArgumentIterator`: both iterators report the same until the insertion, and are in the same state afterwards. Missing: see
`C81_parse_partial`. -/
theorem C81_next_partial {d0 d : ParserData} (h : finishInitialization d0 = .ok d) (hnc : ∀ c : Command, c.Within d.command → ¬ NeedsCount c)
    {env : Env} {pre : List Str} (new post : List Str) {rs : List IterResult} {r : IterResult} {s1 s2 : PState} {k : Nat}
    (ht : Trace env (start d pre).2 rs s1) (hrs : ∀ x ∈ rs, ¬ x.IsLast) (hn : next env s1 = (.ok r, s2)) (hr : ¬ r.IsLast)
    (hu : Unfinished s2) (hl : NothingLeft s2.iter) (hk1 : s1.calls ≤ k) (hk2 : k < s2.calls) :
    ∃ s, Trace (env.inserting k new) (start d (pre ++ post)).2 (rs ++ [r]) s ∧ Trace env (start d (pre ++ new ++ post)).2 (rs ++ [r]) s :=
  ⟨_, inserted_trace (ready_of_init h) (notCounted hnc) new post ht hrs hn hr hu hk1 hk2 hl⟩

/-- The first results and the state after them. -/
def firstResults (env : Env) : Nat → PState → Option (List IterResult × PState)
  | 0, s => some ([], s)
  | n + 1, s =>
    match next env s with
    | (.ok .done, _) | (.ok .error, _) => none
    | (.ok r, s') => (firstResults env n s').map fun (rs, t) => (r :: rs, t)
    | _ => none

theorem firstResults_sound {env : Env} (n : Nat) : ∀ {s t : PState} {rs : List IterResult}, firstResults env n s = some (rs, t) →
    Trace env s rs t ∧ (∀ x ∈ rs, ¬ x.IsLast) ∧ rs.length = n := by
  induction n with
  | zero =>
    intro s t rs h
    simp only [firstResults, Option.some.injEq, Prod.mk.injEq] at h
    obtain ⟨rfl, rfl⟩ := h
    exact ⟨.nil, by simp, rfl⟩
  | succ n ih =>
    intro s t rs h
    unfold firstResults at h
    split at h
    · simp at h
    · simp at h
    · rename_i r s' hd he hn
      simp only [Option.map_eq_some_iff, Prod.mk.injEq] at h
      obtain ⟨⟨rs', t'⟩, h1, rfl, rfl⟩ := h
      obtain ⟨i1, i2, i3⟩ := ih h1
      refine ⟨.cons hn i1, ?_, by simp [i3]⟩
      intro x hx
      rcases List.mem_cons.mp hx with hx | hx
      · rw [hx]
        cases r with
        | done => exact absurd rfl (hd · )
        | error => exact absurd rfl (he · )
        | _ => exact id
      · exact i2 x hx
    · simp at h

/-- The conditions of the theorems for `pre`, decided by evaluation; `n` results come before the one with the callback. -/
def insertCheck (env : Env) (d : ParserData) (pre : List Str) (n k : Nat) : Bool :=
  match firstResults env n (start d pre).2 with
  | none => false
  | some (_, s1) =>
    match next env s1 with
    | (.ok .done, _) | (.ok .error, _) => false
    | (.ok _, s2) => decide (s2.mode = .argumentsAndOptions ∨ s2.mode = .argumentsOnly) && decide (s1.calls ≤ k) && decide (k < s2.calls) &&
      (match s2.iter.remainingArguments with
        | .ok (l, _) => l.isEmpty
        | _ => false)
    | _ => false

theorem insertCheck_sound {env : Env} {d : ParserData} {pre : List Str} {n k : Nat} (h : insertCheck env d pre n k = true) :
    ∃ rs r s1 s2, Trace env (start d pre).2 rs s1 ∧ (∀ x ∈ rs, ¬ x.IsLast) ∧ next env s1 = (.ok r, s2) ∧ ¬ r.IsLast ∧ Unfinished s2 ∧
      NothingLeft s2.iter ∧ s1.calls ≤ k ∧ k < s2.calls ∧ rs.length = n := by
  unfold insertCheck at h
  split at h
  · simp at h
  · rename_i rs s1 h1
    obtain ⟨a1, a2, a3⟩ := firstResults_sound n h1
    split at h
    · simp at h
    · simp at h
    · rename_i r s2 hd he hn
      simp only [Bool.and_eq_true, decide_eq_true_eq] at h
      obtain ⟨⟨⟨b1, b2⟩, b3⟩, b4⟩ := h
      refine ⟨rs, r, s1, s2, a1, a2, hn, ?_, b1, ?_, b2, b3, a3⟩
      · cases r with
        | done => exact absurd rfl (hd ·)
        | error => exact absurd rfl (he ·)
        | _ => exact id
      · split at b4
        · rename_i l it hr
          have : l = [] := by simpa using b4
          subst this
          exact ⟨it, hr⟩
        · simp at b4
    · simp at h

/-- A parser with an option for a file with more arguments. -/
def responseData : ParserData :=
  { command :=
      { name := b!"build"
        options := [{ flags := [b!"-v"], operation := .append, constant := b!"1" }, { flags := [b!"--args"], argument := b!"FILE", callback := some 0 },
          { flags := [b!"--"], type := .lastOption, operation := .none }]
        arguments := [{ name := b!"TARGET", minCount := 1, maxCount := 9, callback := some 1 }] }
    settings := { autoExit := false, generateHelpOption := false } }

-- The hypotheses hold for `responseData`: whatever the callback of `--args` (the second one called) reads from the file takes the place of the option.
example : ∃ d, finishInitialization responseData = .ok d ∧ ∀ new post fuel, 2 < fuel →
    parse (Env.inert.inserting 1 new) d ([b!"-v", b!"all", b!"--args", b!"f"] ++ post) fuel =
      parse Env.inert d ([b!"-v", b!"all", b!"--args", b!"f"] ++ new ++ post) fuel := by
  have key : ∃ d, finishInitialization responseData = .ok d ∧ (d.command.checkAll (fun c => !Counter.requiresArgumentCount c.arguments) 2 = true ∧
      insertCheck Env.inert d [b!"-v", b!"all", b!"--args", b!"f"] 2 1 = true) := by
    refine Outcome.exists_ok ?_
    decide +kernel
  obtain ⟨d, hd, h1, h2⟩ := key
  refine ⟨d, hd, ?_⟩
  intro new post fuel hf
  obtain ⟨rs, r, s1, s2, c1, c2, c3, c4, c5, c6, c7, c8, c9⟩ := insertCheck_sound h2
  refine C81_parse_partial hd ?_ new post c1 c2 c3 c4 c5 c6 c7 c8 (by omega)
  intro c hc hn
  have := Command.checkAll_sound h1 hc
  rw [(requires_iff _).mpr hn] at this
  simp at this

-- A concrete case: the file has `-v` and `test`.
example : ∃ d, finishInitialization responseData = .ok d ∧
    parseTo (fun n => (n.code, n.values.map (·.2.1))) (Env.inert.inserting 1 [b!"-v", b!"test"]) d
      [b!"-v", b!"all", b!"--args", b!"f", b!"--", b!"-x"] 19 =
    some (.success, [b!"all", b!"test", b!"-x", b!"1", b!"1", b!"f"]) := by
  refine Outcome.exists_ok ?_
  decide +kernel

/-- A command that needs the number of arguments. -/
def recountData : ParserData :=
  { command :=
      { name := b!"copy"
        options := [{ flags := [b!"--"], type := .lastOption, operation := .none }]
        arguments := [{ name := b!"FROM", minCount := 1, maxCount := 2, callback := some 0 }, { name := b!"TO" }] }
    settings := { autoExit := false, generateHelpOption := false } }

/-- **C81** is violated if the arguments are counted: after an insertion the rest is counted as if options were allowed, even after `--`. -/
theorem C81_count_violated : ∃ d, finishInitialization recountData = .ok d ∧
    (insertCheck Env.inert d [b!"--", b!"a"] 1 0 = true ∧
     parseCode (Env.inert.inserting 0 [b!"b"]) d ([b!"--", b!"a"] ++ [b!"-x"]) 9 = some .failure ∧
     parseCode Env.inert d ([b!"--", b!"a"] ++ [b!"b"] ++ [b!"-x"]) 9 = some .success) := by
  refine Outcome.exists_ok ?_
  decide +kernel

/-- Flags that can be written together. -/
def togetherData : ParserData :=
  { command :=
      { name := b!"p"
        options := [{ flags := [b!"-a"], operation := .none, callback := some 0 }, { flags := [b!"-b"], operation := .none }, { flags := [b!"--"], operation := .none }]
        arguments := [{ name := b!"X", minCount := 0, maxCount := 9 }] }
    settings := { autoExit := false, generateHelpOption := false } }

/-- **C81** is violated if an argument is inserted between flags in the same argument and the next flag is a dash: `-a-b` means `-a`, `--` and `-b`,
but after an insertion it goes on with `--b`. -/
theorem C81_flags_violated : ∃ d, finishInitialization togetherData = .ok d ∧
    (parseCode Env.inert d [b!"-a-b"] 9 = some .success ∧
     parseCode (Env.inert.inserting 0 [b!"x"]) d [b!"-a-b"] 9 = some .failure ∧
     parseCode Env.inert d [b!"-a", b!"x", b!"--", b!"-b"] 9 = some .success) := by
  refine Outcome.exists_ok ?_
  decide +kernel

end Argos
