import Verif.Spec.Tree
import Verif.Spec.Links

/-!
# What callbacks that change values lead to

A callback gets a `ParsedArgumentsBuilder`, with which it can add, replace and remove values of the
active command. This is a description of the values in terms of the occurrences of options and
arguments and of what the callbacks do, one after the other.
-/

namespace Argos.Spec

/-- A builder call with this name is for this value: the first one if the name stands for several. -/
def NameFor (c : Command) (name : Str) (id : Nat) : Prop := Declares c name id ∧ ∀ j, Declares c name j → id ≤ j

/-- The write that a builder call stands for, in a command where names are declared. -/
inductive WriteOf (c : Command) : BuilderOp → Write → Prop
  | append {name v id} : NameFor c name id → WriteOf c (.append name v) (.append id v 0)
  | appendTo {id a v} : WriteOf c (.appendTo id a v) (.append id v a)
  | assign {name v id} : NameFor c name id → WriteOf c (.assign name v) (.assign id v 0)
  | assignTo {id a v} : WriteOf c (.assignTo id a v) (.assign id v a)
  | clear {name id} : NameFor c name id → WriteOf c (.clear name) (.clear id)
  | clearOf {id} : WriteOf c (.clearOf id) (.clear id)

/-- The writes that a sequence of builder calls stands for. -/
inductive WritesOf (c : Command) : List BuilderOp → List Write → Prop
  | nil : WritesOf c [] []
  | cons {op w ops ws} : WriteOf c op w → WritesOf c ops ws → WritesOf c (op :: ops) (w :: ws)

/-- The write replaces or removes what is stored under `id`. -/
def Write.Replaces (id : Nat) : Write → Prop
  | .assign j _ _ => j = id
  | .append _ _ _ => False
  | .clear j => j = id

instance (id : Nat) (w : Write) : Decidable (w.Replaces id) := by
  cases w <;> simp only [Write.Replaces] <;> infer_instance

/-- A callback returns normally, having made the writes `ws`. When it was called, the active command
was `c` and its values were `vm`. -/
def Acts (env : Env) (c : Command) (cb : Nat) (view : ViewRef) (value : Option Str) (vm : ValueMap) (ws : List Write) : Prop :=
  ∃ (callNo : Nat) (n : PNode), n.command = c ∧ (fun id => n.values.getValues id) = vm ∧
    (env.callback cb callNo view value n).fin = .returns ∧ WritesOf c (env.callback cb callNo view value n).ops ws

/-- Callbacks are called one after the other, each with the values that the one before it left. `own`
is the value that the callbacks' argument is stored under, if it is stored: the argument is lost as
soon as a callback replaces or removes what is stored there. -/
inductive Acted (env : Env) (c : Command) (view : ViewRef) (own : Option Nat) :
    List Nat → Option Str → ValueMap → Option Str → ValueMap → Prop
  | nil {v vm} : Acted env c view own [] v vm v vm
  | cons {cb cbs v vm ws v' vm'} : Acts env c cb view v vm ws →
      Acted env c view own cbs (if ∃ id ∈ own, ∃ w ∈ ws, w.Replaces id then none else v) (ws.foldl Write.run vm) v' vm' →
      Acted env c view own (cb :: cbs) v vm v' vm'

/-- An occurrence, and the value that is left for the client after the callbacks. -/
structure Happening where
  occ : Occ
  left : Option Str

/-- The occurrence as the iterator reports it. -/
def Happening.reported : Happening → Occ
  | ⟨.option o _, left⟩ => .option o (left.getD [])
  | ⟨.argument a _, left⟩ => .argument a (left.getD [])
  | ⟨x, _⟩ => x

/-- Where the value given to the callbacks of an option is stored, if it is. -/
def ownOf (o : OptData) : Option Nat :=
  if (o.operation = .assign ∨ o.operation = .append) ∧ o.constant = [] then some o.valueId else none

/-- The values of the command `c` are `vm` after all this. -/
inductive Told (env : Env) (st : ParserSettings) (c : Command) : List Happening → ValueMap → Prop
  | start (os : List OptData) : Told env st c (os.map fun o => ⟨.initial o, none⟩) (valuesOf (os.map .initial))
  | unknown {hs vm x left} : Told env st c hs vm → Told env st c (hs ++ [⟨.unknown x, left⟩]) vm
  | option {hs vm o v left vm'} : Told env st c hs vm →
      Acted env c (.opt o) (ownOf o) (o.callback.toList ++ st.optionCallback.toList) (some v)
        ((Occ.option o v).writes.foldl Write.run vm) left vm' →
      Told env st c (hs ++ [⟨.option o v, left⟩]) vm'
  | argument {hs vm a v left vm'} : Told env st c hs vm →
      Acted env c (.arg a) (some a.valueId) (a.callback.toList ++ st.argumentCallback.toList) (some v)
        ((Occ.argument a v).writes.foldl Write.run vm) left vm' →
      Told env st c (hs ++ [⟨.argument a v, left⟩]) vm'

mutual
/-- The trees consist of the same commands, and what they say about each command is related. -/
def Tree.Both {α β : Type} (R : Command → α → β → Prop) : Tree α → Tree β → Prop
  | .node c a ts, .node c' b us => c = c' ∧ R c a b ∧ Tree.BothList R ts us

/-- The same for lists of trees. -/
def Tree.BothList {α β : Type} (R : Command → α → β → Prop) : List (Tree α) → List (Tree β) → Prop
  | [], [] => True
  | t :: ts, u :: us => Tree.Both R t u ∧ Tree.BothList R ts us
  | _, _ => False
end

end Argos.Spec
