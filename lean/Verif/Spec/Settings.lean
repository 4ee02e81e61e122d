import Verif.Model.Parser

/-!
# Settings under which more command lines are accepted
-/

namespace Argos.Spec

/-- The second settings differ from the first ones only in that more is allowed: abbreviations of flags, undefined options or
undefined arguments. -/
structure Looser (σ σ' : ParserSettings) : Prop where
  same : σ' = { σ with
    allowAbbreviatedOptions := σ'.allowAbbreviatedOptions
    ignoreUndefinedOptions := σ'.ignoreUndefinedOptions
    ignoreUndefinedArguments := σ'.ignoreUndefinedArguments }
  abbreviations : σ.allowAbbreviatedOptions = true → σ'.allowAbbreviatedOptions = true
  options : σ.ignoreUndefinedOptions = true → σ'.ignoreUndefinedOptions = true
  arguments : σ.ignoreUndefinedArguments = true → σ'.ignoreUndefinedArguments = true

/-- An error message has been written. -/
def Complained (log : List Event) : Prop := ∃ c m, Event.error c m ∈ log

end Argos.Spec
