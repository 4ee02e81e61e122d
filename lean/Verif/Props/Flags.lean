import Verif.Proofs.FlagsParser
import Verif.Props.Insert

/-!
# C01, parse level: flags in one argument are parsed like flags in separate arguments
-/

namespace Argos

open Spec Parser

/-- **C01**: after `pre` has been read, `-pq...` comes, and the parser finds an option for `-p` that doesn't take a value and doesn't change how the
rest is read. If all flags in the argument exist, up to one that takes the rest as its value or changes how the rest is read, then everything (the outcome,
the parsed arguments, the output, the calls of callbacks) is as with `-p` and `-q...`, whatever the callbacks do.
Missing: commands that need the number of arguments in advance; it's false if `q` is a dash, see `C01_dash_violated`. -/
theorem C01_parse_partial {d0 d : ParserData} (h : finishInitialization d0 = .ok d) (hnc : ∀ c : Command, c.Within d.command → ¬ NeedsCount c)
    (hst : d.settings.optionStyle = .standard) {env : Env} {pre : List Str} {rs : List IterResult} {s : PState}
    -- `pre` has been read and options are allowed
    (ht : Trace env (start d pre).2 rs s) (hrs : ∀ x ∈ rs, ¬ x.IsLast) (hm : s.mode = .argumentsAndOptions) (hl : NothingLeft s.iter)
    {p q : UInt8} {qs : Str} (hp : p ≠ c!"-") (hq : q ≠ c!"-") {o : OptData} (hlook : Parser.lookup s [c!"-", p] = some o) (ho : ¬ NeedsValue o)
    (hty : o.type = .normal) (hk : FlagsKnown (Parser.lookup s) (q :: qs)) (post : List Str) {fuel : Nat} (hf : rs.length ≤ fuel) :
    (parse env d (pre ++ (c!"-" :: p :: q :: qs) :: post) fuel).1 = (parse env d (pre ++ [c!"-", p] :: (c!"-" :: q :: qs) :: post) fuel).1 ∧
    ∃ it, (parse env d (pre ++ [c!"-", p] :: (c!"-" :: q :: qs) :: post) fuel).2 =
      { (parse env d (pre ++ (c!"-" :: p :: q :: qs) :: post) fuel).2 with iter := it } := by
  obtain ⟨h1, _, i, l, h2, h3⟩ := flags_parse (K := True) (ready_of_init h) (notCounted hnc) hst (Or.inl trivial) hp hq ht hrs hm hl hlook ho hty
    (fun _ => hk) post fuel hf
  refine ⟨h1.eq, i, h2.trans ?_⟩
  rw [h3 trivial]

/-- **C01** if some of the flags don't exist and unknown options are errors: the outcome, the parsed arguments and the calls of callbacks are the same; only
the argument shown in the message may differ. Missing: see `C01_parse_partial`; it's false if unknown options are ignored, see `C01_ignore_violated`. -/
theorem C01_unknown_partial {d0 d : ParserData} (h : finishInitialization d0 = .ok d) (hnc : ∀ c : Command, c.Within d.command → ¬ NeedsCount c)
    (hst : d.settings.optionStyle = .standard) (hi : d.settings.ignoreUndefinedOptions = false) {env : Env} {pre : List Str} {rs : List IterResult} {s : PState}
    (ht : Trace env (start d pre).2 rs s) (hrs : ∀ x ∈ rs, ¬ x.IsLast) (hm : s.mode = .argumentsAndOptions) (hl : NothingLeft s.iter)
    {p q : UInt8} {qs : Str} (hp : p ≠ c!"-") (hq : q ≠ c!"-") {o : OptData} (hlook : Parser.lookup s [c!"-", p] = some o) (ho : ¬ NeedsValue o)
    (hty : o.type = .normal) (post : List Str) {fuel : Nat} (hf : rs.length ≤ fuel) :
    (parse env d (pre ++ (c!"-" :: p :: q :: qs) :: post) fuel).1 = (parse env d (pre ++ [c!"-", p] :: (c!"-" :: q :: qs) :: post) fuel).1 ∧
    ∃ it log, (parse env d (pre ++ [c!"-", p] :: (c!"-" :: q :: qs) :: post) fuel).2 =
      { (parse env d (pre ++ (c!"-" :: p :: q :: qs) :: post) fuel).2 with iter := it, log := log } := by
  obtain ⟨h1, _, i, l, h2, _⟩ := flags_parse (K := False) (ready_of_init h) (notCounted hnc) hst (Or.inr hi) hp hq ht hrs hm hl hlook ho hty
    (fun h => h.elim) post fuel hf
  exact ⟨h1.eq, i, l, h2⟩

instance flagsKnownDecidable (look : Str → Option OptData) : (w : Str) → Decidable (FlagsKnown look w)
  | [] => .isTrue trivial
  | c :: w =>
    have := flagsKnownDecidable look w
    match hl : look [c!"-", c] with
    | none => .isFalse fun ⟨o, ho, _⟩ => by rw [hl] at ho; simp at ho
    | some o =>
      if h : NeedsValue o ∨ o.type ≠ .normal ∨ FlagsKnown look w then .isTrue ⟨o, hl, h⟩
      else .isFalse fun ⟨o', ho', h'⟩ => by rw [hl] at ho'; injection ho' with ho'; subst ho'; exact h h'

/-- The conditions for `pre`, decided by evaluation; there are `n` results for it. -/
def flagsCheck (env : Env) (d : ParserData) (pre : List Str) (n : Nat) (p q : UInt8) (qs : Str) (known : Bool) : Bool :=
  match firstResults env n (start d pre).2 with
  | none => false
  | some (_, s) => decide (s.mode = .argumentsAndOptions) && (match s.iter.remainingArguments with
      | .ok (l, _) => l.isEmpty
      | _ => false) &&
    (match Parser.lookup s [c!"-", p] with
      | none => false
      | some o => decide (¬ NeedsValue o) && decide (o.type = .normal)) && (!known || decide (FlagsKnown (Parser.lookup s) (q :: qs)))

theorem flagsCheck_sound {env : Env} {d : ParserData} {pre : List Str} {n : Nat} {p q : UInt8} {qs : Str} {known : Bool}
    (h : flagsCheck env d pre n p q qs known = true) :
    ∃ rs s o, Trace env (start d pre).2 rs s ∧ (∀ x ∈ rs, ¬ x.IsLast) ∧ s.mode = .argumentsAndOptions ∧ NothingLeft s.iter ∧
      Parser.lookup s [c!"-", p] = some o ∧ ¬ NeedsValue o ∧ o.type = .normal ∧ (known = true → FlagsKnown (Parser.lookup s) (q :: qs)) ∧ rs.length = n := by
  unfold flagsCheck at h
  split at h
  · simp at h
  · rename_i rs s h1
    obtain ⟨a1, a2, a3⟩ := firstResults_sound n h1
    simp only [Bool.and_eq_true, decide_eq_true_eq] at h
    obtain ⟨⟨⟨b1, b2⟩, b3⟩, b4⟩ := h
    cases hlk : Parser.lookup s [c!"-", p] with
    | none => rw [hlk] at b3; simp at b3
    | some o =>
      rw [hlk] at b3
      simp only [Bool.and_eq_true, decide_eq_true_eq] at b3
      refine ⟨rs, s, o, a1, a2, b1, ?_, hlk, b3.1, b3.2, ?_, a3⟩
      · split at b2
        · rename_i l it hr
          have : l = [] := by simpa using b2
          subst this
          exact ⟨it, hr⟩
        · simp at b2
      · intro hk
        subst hk
        simpa using b4

/-- Flags with and without values, and a sub-command. -/
def bunchData : ParserData :=
  { command :=
      { name := b!"tar"
        options := [{ flags := [b!"-v"], operation := .append, constant := b!"1", callback := some 0 }, { flags := [b!"-f"], argument := b!"FILE" },
          { flags := [b!"-q"], operation := .none }]
        commands := [
          { name := b!"add"
            options := [{ flags := [b!"-x"], operation := .assign, constant := b!"yes" }, { flags := [b!"-z"], argument := b!"N" }]
            arguments := [{ name := b!"F", minCount := 0, maxCount := 9 }] }] }
    settings := { autoExit := false, generateHelpOption := false } }

-- A concrete case: the callback of `-v` inserts a flag while `-vqfa.tar` is read.
example : ∃ d, finishInitialization bunchData = .ok d ∧
    (Command.checkAll (fun c => !Counter.requiresArgumentCount c.arguments) 5 d.command = true ∧
     flagsCheck (Env.inert.inserting 0 [b!"-q"]) d [b!"-q"] 1 c!"v" c!"q" b!"fa.tar" true = true ∧
     flagsCheck Env.inert d [b!"-q", b!"add", b!"f"] 3 c!"x" c!"z" b!"9" true = true ∧ flagsCheck Env.inert d [b!"-q"] 1 c!"v" c!"y" b!"f" false = true ∧
     parseTo (fun n => (n.code, n.values.map (·.2.1))) (Env.inert.inserting 0 [b!"-q"]) d [b!"-q", b!"-vqfa.tar", b!"add"] 9 = some (.success, [b!"1", b!"a.tar"]) ∧
     parseTo (fun n => (n.code, n.values.map (·.2.1))) (Env.inert.inserting 0 [b!"-q"]) d [b!"-q", b!"-v", b!"-qfa.tar", b!"add"] 9 = some (.success, [b!"1", b!"a.tar"])) := by
  refine Outcome.exists_ok ?_
  decide +kernel

example {d : ParserData} (hd : finishInitialization bunchData = .ok d)
    (h1 : Command.checkAll (fun c => !Counter.requiresArgumentCount c.arguments) 5 d.command = true) (hst : d.settings.optionStyle = .standard)
    (h2 : flagsCheck Env.inert d [b!"-q", b!"add", b!"f"] 3 c!"x" c!"z" b!"9" true = true) (post : List Str) :
    (parse Env.inert d ([b!"-q", b!"add", b!"f"] ++ b!"-xz9" :: post) 99).1 = (parse Env.inert d ([b!"-q", b!"add", b!"f"] ++ b!"-x" :: b!"-z9" :: post) 99).1 := by
  obtain ⟨rs, s, o, c1, c2, c3, c4, c5, c6, c7, c8, c9⟩ := flagsCheck_sound h2
  refine (C01_parse_partial hd ?_ hst c1 c2 c3 c4 (by decide) (by decide) c5 c6 c7 (c8 rfl) post (by omega)).1
  intro c hc hn
  have := Command.checkAll_sound h1 hc
  rw [(requires_iff _).mpr hn] at this
  simp at this

/-- Flags of which one is a dash. -/
def dashFlagData : ParserData :=
  { command :=
      { name := b!"p"
        options := [{ flags := [b!"-a"], operation := .none }, { flags := [b!"-b"], operation := .none }, { flags := [b!"--"], operation := .none }] }
    settings := { autoExit := false, generateHelpOption := false } }

/-- **C01** is violated if the flag that follows is a dash: `-a-b` means `-a`, `--` and `-b`, but `--b` is one flag. -/
theorem C01_dash_violated : ∃ d, finishInitialization dashFlagData = .ok d ∧
    (flagsCheck Env.inert d [] 0 c!"a" c!"-" b!"b" true = true ∧ parseCode Env.inert d [b!"-a-b"] 9 = some .success ∧
     parseCode Env.inert d [b!"-a", b!"--b"] 9 = some .failure) := by
  refine Outcome.exists_ok ?_
  decide +kernel

/-- **C01** is violated if unknown options are ignored: an unknown flag is ignored when it's the first one in its argument, and an error otherwise. -/
theorem C01_ignore_violated : ∃ d, finishInitialization { bunchData with settings := { bunchData.settings with ignoreUndefinedOptions := true } } = .ok d ∧
    (flagsCheck Env.inert d [] 0 c!"v" c!"y" [] false = true ∧ parseCode Env.inert d [b!"-vy", b!"add"] 9 = some .failure ∧
     parseCode Env.inert d [b!"-v", b!"-y", b!"add"] 9 = some .success) := by
  refine Outcome.exists_ok ?_
  decide +kernel

end Argos
