import Verif.Base

/-!
# Specification of the stored values: a map from values to lists
-/

namespace Argos.Spec

/-- A write to the value `id`, made on behalf of the definition `arg`. -/
inductive Write where
  | assign (id : Nat) (value : Str) (arg : Nat)
  | append (id : Nat) (value : Str) (arg : Nat)
  | clear (id : Nat)
  deriving Repr, DecidableEq

/-- The stored values as a map from value to list. -/
abbrev ValueMap := Nat → List (Str × Nat)

/-- What a write does to the map. -/
def Write.run (m : ValueMap) : Write → ValueMap
  | .assign id v a => fun i => if i = id then [(v, a)] else m i
  | .append id v a => fun i => if i = id then m i ++ [(v, a)] else m i
  | .clear id => fun i => if i = id then [] else m i

/-- A sequence of writes, starting from nothing. -/
def runWrites (ws : List Write) : ValueMap := ws.foldl Write.run (fun _ => [])

end Argos.Spec
