import Verif.Spec.Tree

/-!
# Which callbacks must run for the results of the iterator
-/

namespace Argos

/-- The callbacks of a result, in the order in which they must run: first the one of the option or
argument itself, then the one of the parser. -/
def callsOf (st : ParserSettings) : IterResult → List (Nat × ViewRef)
  | .option o _ => (o.callback.toList ++ st.optionCallback.toList).map fun cb => (cb, .opt o)
  | .argument a _ => (a.callback.toList ++ st.argumentCallback.toList).map fun cb => (cb, .arg a)
  | _ => []

/-- The callback that an event is a call of. -/
def Event.call : Event → Option (Nat × ViewRef)
  | .callback cb view _ _ => some (cb, view)
  | _ => none

/-- All calls of callbacks, in order. -/
def callsIn (log : List Event) : List (Nat × ViewRef) := log.filterMap Event.call

/-- A call of a callback with what it was given and the values that it could read. -/
structure Called where
  cb : Nat
  view : ViewRef
  value : Option Str
  values : Spec.ValueMap

/-- The calls in a log with what the callbacks could see. -/
def Event.called : Event → Option Called
  | .callback cb view value seen => some ⟨cb, view, value, fun id => seen.getValues id⟩
  | _ => none

namespace Spec

/-- What has been given to the active command. -/
def Open.active : Open → List Occ
  | t :: _ => t.data
  | [] => []

/-- The value of a result. -/
def valueOf : IterResult → Option Str
  | .option _ v => v
  | .argument _ v => v
  | _ => none

/-- The calls for a result while `st` is being read: the callbacks get the value of the result, and see
the values of the active command after the result's own value has been stored. -/
def calledFor (settings : ParserSettings) (st : Open) (r : IterResult) : List Called :=
  (callsOf settings r).map fun c => ⟨c.1, c.2, valueOf r, valuesOf (st.active ++ (occOf r).toList)⟩

/-- The calls for successive results. -/
def calledAll (settings : ParserSettings) : Open → List IterResult → List Called
  | _, [] => []
  | st, r :: rs => calledFor settings st r ++ calledAll settings (st.step r) rs

end Spec
end Argos
