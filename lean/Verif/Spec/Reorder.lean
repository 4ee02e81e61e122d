import Verif.Spec.Bare

/-!
# Declarations in another order

Two parsers that declare the same options in different orders, and what has to be the same about their results.
-/

namespace Argos.Spec

mutual
/-- The second command is the first one with its options, and those of its sub-commands, in another order. -/
inductive Reordered : Command → Command → Prop
  | intro (c : Command) {os : List OptData} {cs : List Command} : os.Perm c.options → ReorderedAll c.commands cs →
      Reordered c { c with options := os, commands := cs }
/-- See `Reordered`. -/
inductive ReorderedAll : List Command → List Command → Prop
  | nil : ReorderedAll [] []
  | cons {c c' : Command} {cs cs' : List Command} : Reordered c c' → ReorderedAll cs cs' → ReorderedAll (c :: cs) (c' :: cs')
end

/-- An option without the numbers it is given at the end of the initialisation. -/
def plainOpt (o : OptData) : OptData := { o with argumentId := 0, valueId := 0 }

/-- An argument without the numbers it is given at the end of the initialisation. -/
def plainArg (a : ArgData) : ArgData := { a with argumentId := 0, valueId := 0 }

/-- A view without such numbers. -/
def plainView : ViewRef → ViewRef
  | .arg a => .arg (plainArg a)
  | .opt o => .opt (plainOpt o)

/-- Two results that have the same values by name, for all commands that were given. -/
inductive SameValues : PNode → PNode → Prop
  | intro {n1 n2 : PNode} (name : n1.name = n2.name) (code : n1.code = n2.code) (unprocessed : n1.unprocessed = n2.unprocessed)
      (has : ∀ s, n1.has s = n2.has s) (value : ∀ s, SameEnd (fun a b => a.value = b.value) (n1.value s) (n2.value s))
      (values : ∀ s, SameEnd (fun a b => a.map (·.1) = b.map (·.1)) (n1.valuesOf s) (n2.valuesOf s))
      (stop : n1.stopOption.map plainOpt = n2.stopOption.map plainOpt) (subs : Each SameValues n1.subs n2.subs) : SameValues n1 n2

/-- A call that refers to the value by a name. -/
def ByName : BuilderOp → Prop
  | .append _ _ => True
  | .assign _ _ => True
  | .clear _ => True
  | _ => False

/-- Callbacks that know values by their names only. -/
def UsesNames (env : Env) : Prop :=
  ∀ cb callNo v1 v2 value n1 n2, plainView v1 = plainView v2 → SameValues n1 n2 →
    env.callback cb callNo v1 value n1 = env.callback cb callNo v2 value n2 ∧ ∀ op ∈ (env.callback cb callNo v1 value n1).ops, ByName op

/-- The same happened, except that another one of the missing options may be reported. -/
def SameEvent : Event → Event → Prop
  | .help c, .help c' => c.fullName = c'.fullName
  | .error c msg, .error c' msg' =>
    c.fullName = c'.fullName ∧ (msg = msg' ∨ (∃ t, msg = b!"Mandatory option is missing: " ++ t) ∧ ∃ t, msg' = b!"Mandatory option is missing: " ++ t)
  | .callback cb v value _, .callback cb' v' value' _ => cb = cb' ∧ plainView v = plainView v' ∧ value = value'
  | _, _ => False

end Argos.Spec
