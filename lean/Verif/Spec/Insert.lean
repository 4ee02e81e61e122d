import Verif.Spec.Trace

/-!
# Arguments that callbacks insert

A callback receives the list `new_arguments`; what it puts there is read next.
-/

namespace Argos

/-- The callbacks of `env`, except that the one called when `k` calls have been made also gives the arguments `new`. -/
def Env.inserting (env : Env) (k : Nat) (new : List Str) : Env :=
  ⟨fun cb callNo view value seen =>
    let r := env.callback cb callNo view value seen
    if callNo = k then { r with newArguments := r.newArguments ++ new } else r⟩

/-- Everything on the command line has been read. -/
def NothingLeft (it : Iter) : Prop := ∃ it', it.remainingArguments = .ok ([], it')

/-- The next call of `next()` will read the command line. -/
def Unfinished (s : PState) : Prop := s.mode = .argumentsAndOptions ∨ s.mode = .argumentsOnly

end Argos
