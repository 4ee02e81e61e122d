import Verif.Spec.Nested

/-!
# Results with earlier sub-commands in front
-/

namespace Argos.Spec

/-- The results of enclosing commands, the innermost of them first, in two runs: in the second one there are `earlier` results of sub-commands in front, a list for every command. If
nothing has been said about how parsing ended in the first one, there may be something in the second one (an option of type `LAST_ARGUMENT` says it). -/
inductive Before : (earlier : List (List PNode)) → List PNode → List PNode → Prop
  | nil : Before [] [] []
  | cons {n : PNode} {e : List PNode} {es : List (List PNode)} {ns ns' : List PNode} {code : ResultCode} : code = n.code ∨ n.code = .none → Before es ns ns' →
      Before (e :: es) (n :: ns) ({ n with subs := e ++ n.subs, code := code } :: ns')

/-- The second results are the first ones with `earlier` results in front of the sub-commands: those of the first list in front of the sub-commands of the top level, those of the
second list in front of the sub-commands of one of its sub-commands, and so on. -/
inductive Preceded : (earlier : List (List PNode)) → PNode → PNode → Prop
  | last {n : PNode} {e : List PNode} {code : ResultCode} : code = n.code ∨ n.code = .none → Preceded [e] n { n with subs := e ++ n.subs, code := code }
  | inner {n m m' : PNode} {e : List PNode} {es : List (List PNode)} {xs ys : List PNode} {code : ResultCode} : Preceded es m m' → n.subs = xs ++ m :: ys →
      code = n.code ∨ n.code = .none → Preceded (e :: es) n { n with subs := e ++ (xs ++ m' :: ys), code := code }

end Argos.Spec
