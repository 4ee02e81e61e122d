import Verif.Spec.Bare
import Verif.Spec.Lookup

/-!
# Sub-commands in another order, and more of them

Two parsers that declare the same sub-commands in different orders, or one of which declares further ones, and what has to be the same about their results.
-/

namespace Argos.Spec

mutual
/-- The second command has the same sub-commands as the first one, in any order, and further ones with new names. The same holds for the
sub-commands. A command without sub-commands does not get any. -/
inductive Regrouped (new : Str → Prop) : Command → Command → Prop
  | intro (c : Command) {same more all : List Command} : RegroupedAll new c.commands same → (∀ x ∈ more, new x.name) → (c.commands = [] → more = []) →
      all.Perm (same ++ more) → Regrouped new c { c with commands := all }
/-- See `Regrouped`. -/
inductive RegroupedAll (new : Str → Prop) : List Command → List Command → Prop
  | nil : RegroupedAll new [] []
  | cons {c c' : Command} {cs cs' : List Command} : Regrouped new c c' → RegroupedAll new cs cs' → RegroupedAll new (c :: cs) (c' :: cs')
end

/-- No two sub-commands have the same name. -/
def DifferentNames (ci : Bool) (c : Command) : Prop := c.commands.Pairwise fun x y => ¬ SameFlag ci x.name y.name

/-- The commands are the same, their sub-commands aside. -/
def SameAside (c c' : Command) : Prop := { c with commands := [] } = { c' with commands := [] }

/-- The results are the same, the sub-commands that have not been given aside. -/
inductive SameTree : PNode → PNode → Prop
  | intro {n n' : PNode} (command : SameAside n.command n'.command) (ids : n.ids = n'.ids) (values : n.values = n'.values)
      (unprocessed : n.unprocessed = n'.unprocessed) (code : n.code = n'.code) (stop : n.stopOption = n'.stopOption) (subs : Each SameTree n.subs n'.subs) :
      SameTree n n'

/-- The same happened in the same command. -/
def SameMoment : Event → Event → Prop
  | .help c, .help c' => SameAside c c'
  | .error c msg, .error c' msg' => SameAside c c' ∧ msg = msg'
  | .callback cb view value values, .callback cb' view' value' values' => cb = cb' ∧ view = view' ∧ value = value' ∧ values = values'
  | _, _ => False

/-- Callbacks that do not look at the declared sub-commands. -/
def Overlooks (env : Env) : Prop := ∀ cb callNo view value n n', SameTree n n' → env.callback cb callNo view value n = env.callback cb callNo view value n'

/-- The word does not end with one of the new names. -/
def NotNew (ci : Bool) (new : Str → Prop) (w : Str) : Prop := ∀ n, new n → ∀ k, ¬ SameFlag ci n (w.drop k)

/-- The same outcome, results, output and calls of callbacks. -/
structure SameCourse (x y : Outcome (Option PNode) × PState) : Prop where
  outcome : SameEnd (fun a b => ∃ n n', a = some n ∧ b = some n' ∧ SameTree n n') x.1 y.1
  log : Each SameMoment x.2.log y.2.log
  calls : x.2.calls = y.2.calls

end Argos.Spec
