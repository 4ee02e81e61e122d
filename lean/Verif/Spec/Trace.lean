import Verif.Model.Parser

/-!
# What a client of `ArgumentIterator` sees

A trace is the list of the results of successive calls of `next()`.
-/

namespace Argos

/-- The result ends the iteration. -/
def IterResult.IsLast : IterResult → Prop
  | .done | .error => True
  | _ => False

/-- `next()` called repeatedly from `s` returns the results `rs` and leaves the state `s'`. -/
inductive Trace (env : Env) : PState → List IterResult → PState → Prop
  | nil {s : PState} : Trace env s [] s
  | cons {s s1 s' : PState} {r : IterResult} {rs : List IterResult} : Parser.next env s = (.ok r, s1) →
      Trace env s1 rs s' → Trace env s (r :: rs) s'

/-- `parse` calls `next()` until the result is the end or an error: it has got the results `rs` before it,
then `last`, and `s'` is the final state. -/
structure Parses (env : Env) (d : ParserData) (args : List Str) (rs : List IterResult) (last : IterResult)
    (s' : PState) : Prop where
  trace : ∃ s, Trace env (Parser.start d args).2 rs s ∧ Parser.next env s = (.ok last, s')
  before : ∀ r ∈ rs, ¬ r.IsLast
  last : last.IsLast

/-- The types of option that end parsing at once. -/
def EndsParsing (o : OptData) : Prop := o.type = .help ∨ o.type = .exit ∨ o.type = .stop

end Argos

namespace Argos

/-- No option that ends parsing was reported. -/
def NoStop (rs : List IterResult) : Prop := ∀ o v, .option o v ∈ rs → ¬ EndsParsing o

/-- `parse` gets the results `rs`, then `last`, and returns the parsed arguments `n`. -/
def Returns (env : Env) (d : ParserData) (args : List Str) (rs : List IterResult) (last : IterResult) (n : PNode) : Prop :=
  ∃ s', Parses env d args rs last s' ∧ Parser.topLevel s' = some n

end Argos
