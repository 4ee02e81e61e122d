import Verif.Spec.Bare
import Verif.Spec.Insert
import Verif.Spec.Line

/-!
# Command lines that go on

Results that differ in the arguments that were not read.
-/

namespace Argos.Spec

/-- The second results are the first ones, except that the command given last has the additional unprocessed arguments `p`. -/
inductive Trailing (p : List Str) : PNode → PNode → Prop
  | here {n : PNode} : Trailing p n { n with unprocessed := n.unprocessed ++ p }
  | sub {n m m' : PNode} {ms : List PNode} : n.subs = ms ++ [m] → Trailing p m m' → Trailing p n { n with subs := ms ++ [m'] }

/-- Two calls of `parse` end in the same way, with the same output and the same calls of callbacks. If they return, the results differ only in that the
second has the additional unprocessed arguments `p`. -/
structure EndsAlike (p : List Str) (x y : Outcome (Option PNode) × PState) : Prop where
  outcome : SameEnd (fun a b => ∃ n n', a = some n ∧ b = some n' ∧ Trailing p n n') x.1 y.1
  log : y.2.log = x.2.log
  calls : y.2.calls = x.2.calls

/-- There is something to read on the command line, and if that is the flag of an option with a value then there is a value too. -/
def EndUntouched (s : PState) : Prop := ∃ a it,
  (s.mode = .argumentsAndOptions ∧ s.iter.next = .ok (some a, it) ∨ s.mode = .argumentsOnly ∧ s.iter.nextValue = .ok (some a, it)) ∧
  ∀ o, s.mode = .argumentsAndOptions ∧ isOption a s.settings.optionStyle = true →
    findOption s.command.optionIndex a s.settings.allowAbbreviatedOptions s.settings.caseInsensitive = some o → NeedsValue o →
    ∃ v it', it.nextValue = .ok (some v, it')

/-- Parsing is over after the call of `next()`: it returned an error, an option like `--help` was reported, or the program was left by an exception or
by a call of `exit`. -/
def Over : Outcome IterResult → PState → Prop
  | .ok r, s => r.IsLast ∨ s.mode = .done
  | _, _ => True

end Argos.Spec
