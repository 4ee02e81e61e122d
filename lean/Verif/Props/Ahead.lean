import Verif.Proofs.Ahead
import Verif.Props.Outcome

/-! # Looking ahead: C55 -/

set_option synthInstance.maxSize 1000

namespace Argos
open Spec Parser

/-- The number of positional arguments among the results. -/
def argumentsRead (rs : List IterResult) : Nat :=
  (rs.filter fun r => match r with
    | .argument _ _ => true
    | _ => false).length

theorem argumentsRead_eq (rs : List IterResult) : argumentsRead rs = (rs.map IterResult.argCount).sum := by
  induction rs with
  | nil => rfl
  | cons r rs ih =>
    unfold argumentsRead at ih ⊢
    cases r <;> simp [IterResult.argCount, ih] <;> omega

/-- **C55** (what holds). At every point where options are still recognised (in particular at the start and when a
command has been entered) `count_arguments` returns the number of positional arguments that are read from
there to the end, for every option style, if the callbacks insert nothing, no further command follows, no enclosing command
allows several sub-commands, abbreviations are off, arguments are not ignored, and each option of the
command takes a value exactly if it has an argument name and isn't an EXIT option. Missing: the other cases, in
which it fails (`C55_violated`). -/
theorem C55_partial {d0 d : ParserData} (h : finishInitialization d0 = .ok d) {env : Env} (hp : env.Passive) {args : List Str}
    {before rs : List IterResult} {s s1 s' : PState} (hs : Trace env (start d args).2 before s)
    (ht : Trace env s rs s1) (hl : ∀ r ∈ rs, ¬ r.IsLast) (hd : next env s1 = (.ok .done, s'))
    (hm : s.mode = .argumentsAndOptions) (hc : ∀ c t, .command c t ∉ rs) (hmp : ∀ n ∈ s.stack.tail, n.command.multiCommand = false)
    (hab : d0.settings.allowAbbreviatedOptions = false) (hia : d0.settings.ignoreUndefinedArguments = false)
    (ho : ∀ o ∈ s.command.options, (NeedsValue o ↔ o.argument ≠ []) ∧ o.type ≠ .exit) :
    countArguments s = .ok (argumentsRead rs) := by
  have hrd := ready_of_init h
  have hset := (finishInitialization_ok h).1
  rw [← hset] at hab hia
  have hg : Good d s := hs.good hrd (start_good d args).2
  obtain ⟨n, hn⟩ := countArguments_ok s hg.iterOk
  have hor := hrd _ hg.within
  rw [← hg.settings] at hab hia hor
  have hpl : Plain s := by
    refine ⟨⟨?_, ?_⟩, ?_⟩
    rotate_left 2
    · rw [findMultiParent_none_iff]
      intro c hcm
      rw [← List.map_tail] at hcm
      obtain ⟨m, hm1, rfl⟩ := List.mem_map.mp hcm
      exact hmp m hm1
    · intro flag o hlk
      exact ho o (lookup_mem hrd hg hlk)
    · intro arg ha
      cases hlk : Parser.lookup s arg with
      | none => rfl
      | some o =>
        exfalso
        unfold Parser.lookup at hlk
        rw [hab] at hlk
        have := findOption_isOption (style := s.settings.optionStyle) ?_ hlk
        · rw [ha] at this; simp at this
        · intro p hpm
          obtain ⟨e1, e2⟩ := buildOptionIndex_mem hor.index (f := p.1) (o := p.2) hpm
          exact checkFlagStyle_isOption (hor.flags_ok _ e1 _ e2)
  have := Trace.count hp hrd hpl ⟨rfl, rfl, rfl⟩ hg hia ht hl hc hd (lo := (Counter.getMinMaxCount s.command.arguments).1) (k := 0) (n := n)
    (by rw [hm]; exact ⟨_, hn⟩)
  rw [argumentsRead_eq, hn, this, Nat.zero_add]

/-- The results of calling `next` until the end, an error or an exception. -/
def results (env : Env) : Nat → PState → List IterResult
  | 0, _ => []
  | fuel + 1, s =>
    match next env s with
    | (.ok .done, _) => []
    | (.ok .error, _) => []
    | (.ok r, s') => r :: results env fuel s'
    | _ => []

/-- The parser of the examples: an optional and a mandatory argument. -/
def aheadData : ParserData :=
  { command :=
      { name := b!"cli"
        options := [{ flags := [b!"--file"], argument := b!"FILE" },
          { flags := [b!"--odd"], argument := b!"X", operation := .clear, alias_ := b!"--file" },
          { flags := [b!"-v"], constant := b!"1" }]
        arguments := [{ name := b!"A", minCount := 0, maxCount := 1 }, { name := b!"B" }] }
    settings := { autoExit := false, generateHelpOption := false } }

-- The count is 2: both arguments get a value.
example : ∃ d, finishInitialization aheadData = .ok d ∧
    (countArguments (start d [b!"a", b!"-v", b!"--file", b!"x", b!"b"]).2 = .ok 2 ∧
    argumentsRead (results Env.inert 9 (start d [b!"a", b!"-v", b!"--file", b!"x", b!"b"]).2) = 2) ∧
    parseCode Env.inert d [b!"a", b!"-v", b!"--file", b!"x", b!"b"] 9 = some .success := by
  refine Outcome.exists_ok ?_
  decide +kernel

/-- `aheadData` with abbreviated options. -/
def aheadAbbrevData : ParserData :=
  { aheadData with
    command := { aheadData.command with options := [{ flags := [b!"--file"], argument := b!"FILE" }] }
    settings := { aheadData.settings with allowAbbreviatedOptions := true } }

/-- **C55** is violated, and valid command lines are rejected because of it:
1. an option with an argument name and the operation CLEAR (or NONE) reads no value but is counted as if it did;
2. with abbreviations the argument `-` is counted as an option. -/
theorem C55_violated :
    (∃ d, finishInitialization aheadData = .ok d ∧
      (countArguments (start d [b!"--odd", b!"a", b!"b"]).2 = .ok 1 ∧
      parseCode Env.inert d [b!"--odd", b!"a", b!"b"] 9 = some .failure) ∧
      parseCode Env.inert d [b!"-v", b!"a", b!"b"] 9 = some .success) ∧
    (∃ d, finishInitialization aheadAbbrevData = .ok d ∧
      (countArguments (start d [b!"-", b!"b"]).2 = .ok 0 ∧
      parseCode Env.inert d [b!"-", b!"b"] 9 = some .failure) ∧
      parseCode Env.inert d [b!"a", b!"b"] 9 = some .success) := by
  refine ⟨Outcome.exists_ok ?_, Outcome.exists_ok ?_⟩ <;> decide +kernel

end Argos
