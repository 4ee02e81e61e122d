import Verif.Spec.Reorder
import Verif.Spec.Trace

/-!
# A sub-command on its own
-/

namespace Argos

/-- The callbacks as they are after `k` calls. -/
def Env.later (env : Env) (k : Nat) : Env := ⟨fun cb n view value node => env.callback cb (n + k) view value node⟩

namespace Spec

/-- The results of a command put in those of the commands around it, the innermost of them first. -/
def inside (m : PNode) : List PNode → PNode
  | [] => m
  | p :: ps => inside { p with subs := p.subs ++ [m] } ps

/-- Nothing has happened to the results of these commands except that they may have been told how parsing ended. -/
def Recoded (ps ps' : List PNode) : Prop := ps' = ps ∨ ∃ code, ps' = ps.map fun p => { p with code := code }

/-- The declaration of a sub-command as a parser of its own: it is called what it is called on the first parser's command line, and has the same settings. -/
def alone (d0 : ParserData) (c0 : Command) (fullName : Str) : ParserData := { d0 with
    command := { c0 with fullName := fullName }
    version := [] }

end Spec

end Argos
