import Verif.Props.Held
import Verif.Props.Occurrences
import Verif.Proofs.Left

/-! # C97: an error leaves what had been read before it -/

namespace Argos
open Spec Parser

set_option synthInstance.maxSize 1000

/-- **C97**: if parsing ends with an error, the values of all commands are those of the options and arguments that were reported before it, and
at most one option more: one that ends the command line (`LAST_ARGUMENT`), and that was refused because something was missing. -/
theorem C97_values {d0 d : ParserData} (h : finishInitialization d0 = .ok d) {env : Env} (hp : env.Passive) {args : List Str}
    {rs : List IterResult} {n : PNode} (hr : Returns env d args rs .error n) :
    ∃ rs', (rs' = rs ∨ ∃ (c : Command) (o : OptData) (v : Str), c.Within d.command ∧ o ∈ c.options ∧ o.type = .lastArgument ∧
        rs' = rs ++ [.option o (some v)]) ∧
      ∃ t, given d.command rs' = some t ∧ n.tree = t.map valuesOf :=
  hr.left hp (ready_of_init h)

/-- **C97** (what holds): without options of type `LAST_ARGUMENT` the values are exactly those that were reported. Missing: these options, see
`C97_violated`, and callbacks that change values. -/
theorem C97_exact_partial {d0 d : ParserData} (h : finishInitialization d0 = .ok d) {env : Env} (hp : env.Passive)
    (hno : ∀ c : Command, c.Within d.command → ∀ o ∈ c.options, o.type ≠ .lastArgument) {args : List Str} {rs : List IterResult} {n : PNode}
    (hr : Returns env d args rs .error n) : ∃ t, given d.command rs = some t ∧ n.tree = t.map valuesOf := by
  obtain ⟨rs', h1, h2⟩ := C97_values h hp hr
  rcases h1 with rfl | ⟨c, o, v, hc, ho, hty, _⟩
  · exact h2
  · exact absurd hty (hno c hc o ho)

/-- **C97** (what holds): after an error the values are the same as after a command line that succeeds with the same reports. Missing: see
`C97_exact_partial`. -/
theorem C97_same_partial {d0 d : ParserData} (h : finishInitialization d0 = .ok d) {env : Env} (hp : env.Passive)
    (hno : ∀ c : Command, c.Within d.command → ∀ o ∈ c.options, o.type ≠ .lastArgument) {args args' : List Str} {rs : List IterResult} {n n' : PNode}
    (hr : Returns env d args rs .error n) (hr' : Returns env d args' rs .done n') : n.tree = n'.tree := by
  obtain ⟨t, h1, h2⟩ := C97_exact_partial h hp hno hr
  obtain ⟨t', h3, h4⟩ := C32_values h hp hr'
  rw [h1, Option.some.injEq] at h3
  rw [h2, h4, h3]

/-- For the examples: the values of the top-level command and of its sub-commands, if parsing ends with this code. -/
def leftBy (code : ResultCode) (d : ParserData) (args : List Str) : Option (List (List (Nat × Str × Nat))) :=
  parseTo (fun n => if n.code = code then n.values :: n.subs.map (·.values) else []) Env.inert d args 9

-- The values of the command and of its sub-command after `-v add x --wrong` are those after `-v add x`.
example : ∃ d, finishInitialization treeData = .ok d ∧ (∀ c : Command, c.Within d.command → ∀ o ∈ c.options, o.type ≠ .lastArgument) ∧
    leftBy .failure d [b!"-v", b!"add", b!"x", b!"--wrong"] = some [[(1, b!"1", 2)], [(3, b!"x", 5)]] ∧
    leftBy .success d [b!"-v", b!"add", b!"x"] = some [[(1, b!"1", 2)], [(3, b!"x", 5)]] := by
  have key : ∃ d, finishInitialization treeData = .ok d ∧ d.command.checkAll (fun c => c.options.all fun o => decide (o.type ≠ .lastArgument)) 3 = true ∧
      leftBy .failure d [b!"-v", b!"add", b!"x", b!"--wrong"] = some [[(1, b!"1", 2)], [(3, b!"x", 5)]] ∧
      leftBy .success d [b!"-v", b!"add", b!"x"] = some [[(1, b!"1", 2)], [(3, b!"x", 5)]] := by
    refine Outcome.exists_ok ?_
    decide +kernel
  obtain ⟨d, h1, h2, h3⟩ := key
  refine ⟨d, h1, ?_, h3⟩
  intro c hc o ho
  have := List.all_eq_true.mp (Command.checkAll_sound h2 hc) o ho
  simpa using this

/-- **C97** is violated by options of type `LAST_ARGUMENT`: nothing but `-o a` is reported before the error, and the value is `b`. -/
theorem C97_violated : ∃ d, finishInitialization finalData = .ok d ∧
    (resultsOf Env.inert 9 (start d [b!"-o", b!"a", b!"--final=b"]).2).map (fun r => match r with
      | .option o v => (o.flags, v)
      | _ => ([], none)) = [([b!"-o"], some b!"a"), ([], none)] ∧
    leftBy .failure d [b!"-o", b!"a", b!"--final=b"] = some [[(2, b!"b", 4)]] := by
  refine Outcome.exists_ok ?_
  decide +kernel

end Argos
