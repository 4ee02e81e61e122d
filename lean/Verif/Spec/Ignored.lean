import Verif.Spec.Insert

/-!
# Ignored options and arguments

Results that differ in one unprocessed argument.
-/

namespace Argos

mutual
/-- Results without the unprocessed arguments. -/
def PNode.forgetUnprocessed : PNode → PNode
  | ⟨command, ids, values, _, code, stopOption, subs⟩ => ⟨command, ids, values, [], code, stopOption, PNode.forgetAllUnprocessed subs⟩
/-- See `PNode.forgetUnprocessed`. -/
def PNode.forgetAllUnprocessed : List PNode → List PNode
  | [] => []
  | n :: ns => n.forgetUnprocessed :: PNode.forgetAllUnprocessed ns
end

/-- The callbacks don't look at the unprocessed arguments. -/
def Env.Heedless (env : Env) : Prop :=
  ∀ cb callNo view value (n n' : PNode), n.forgetUnprocessed = n'.forgetUnprocessed → env.callback cb callNo view value n = env.callback cb callNo view value n'

/-- All of the command line given so far has been read, and parsing goes on. -/
structure UsedUp (s : PState) : Prop where
  unfinished : Unfinished s
  left : NothingLeft s.iter
  value : s.mode = .argumentsOnly → ∃ it, s.iter.nextValue = .ok (none, it)

namespace Spec

/-- The second results are the first ones, except that one command (`c`, somewhere on the command line) has the additional unprocessed argument `a`, right after the
unprocessed arguments `u`. -/
inductive Added (c : Command) (u : List Str) (a : Str) : PNode → PNode → Prop
  | here {n : PNode} {v : List Str} : n.command = c → n.unprocessed = u ++ v → Added c u a n { n with unprocessed := u ++ a :: v }
  | sub {n m m' : PNode} {before after : List PNode} : n.subs = before ++ m :: after → Added c u a m m' → Added c u a n { n with subs := before ++ m' :: after }

/-- The same for results that may be missing. -/
def AddedTo (c : Command) (u : List Str) (a : Str) : Option PNode → Option PNode → Prop
  | some n, some n' => Added c u a n n'
  | _, _ => False

end Spec
end Argos
