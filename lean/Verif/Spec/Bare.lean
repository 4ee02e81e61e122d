import Verif.Model.Parser
import Verif.Model.Results
import Verif.Model.Iteration
import Verif.Spec.Results

/-!
# Declarations without what is only shown to users

The texts, sections, visibility and numbers given to arguments, options and commands, the name of an option's argument,
the text of the version, the width of lines and the rules for splitting words are for help texts and for the client. This
file says what is left of declarations and results without them.
-/

namespace Argos.Spec

/-- An argument without what is only shown. -/
def bareArg (a : ArgData) : ArgData := { a with help := .text [], section_ := [], visibility := .normal, id := 0 }

/-- An option without what is only shown: of the name of its argument there remains whether it has one. -/
def bareOpt (o : OptData) : OptData :=
  { o with help := .text [], section_ := [], visibility := .normal, id := 0, argument := if o.argument.isEmpty then [] else b!"x" }

mutual
/-- A command without what is only shown. -/
def bareCommand : Command → Command
  | ⟨arguments, options, commands, _, name, fullName, _, _, requireSubcommand, multiCommand, _, _, argumentId, optionIndex⟩ =>
    ⟨arguments.map bareArg, options.map bareOpt, bareCommands commands, [], name, fullName, [], .normal, requireSubcommand, multiCommand, [], 0,
      argumentId, optionIndex.map fun (f, o) => (f, bareOpt o)⟩
/-- Commands without what is only shown. -/
def bareCommands : List Command → List Command
  | [] => []
  | c :: cs => bareCommand c :: bareCommands cs
end

/-- A parser without what is only shown: of the version there remains whether there is one. -/
def bareData (d : ParserData) : ParserData :=
  { d with command := bareCommand d.command, helpSettings := {}, version := if d.version.isEmpty then [] else b!"x" }

/-- Two parsers that differ in what is shown only. -/
def SameSyntax (d1 d2 : ParserData) : Prop := bareData d1 = bareData d2

/-- A view without what is only shown. -/
def bareView : ViewRef → ViewRef
  | .arg a => .arg (bareArg a)
  | .opt o => .opt (bareOpt o)

mutual
/-- Results without what is only shown. -/
def bareNode : PNode → PNode
  | ⟨command, ids, values, unprocessed, code, stopOption, subs⟩ =>
    ⟨bareCommand command, ids, values, unprocessed, code, stopOption.map bareOpt, bareNodes subs⟩
/-- See `bareNode`. -/
def bareNodes : List PNode → List PNode
  | [] => []
  | n :: ns => bareNode n :: bareNodes ns
end

/-- What happened, without what is only shown. -/
def bareEvent : Event → Event
  | .help c => .help (bareCommand c)
  | .error c msg => .error (bareCommand c) msg
  | .callback cb v value seen => .callback cb (bareView v) value seen

/-- A result of `next` without what is only shown. -/
def bareResult : IterResult → IterResult
  | .argument a v => .argument (bareArg a) v
  | .option o v => .option (bareOpt o) v
  | .command c v => .command (bareCommand c) v
  | .done => .done
  | .unknown v => .unknown v
  | .error => .error

/-- Callbacks that don't look at what is only shown. -/
def Unseeing (env : Env) : Prop :=
  ∀ cb callNo v1 v2 value n1 n2, bareView v1 = bareView v2 → bareNode n1 = bareNode n2 → env.callback cb callNo v1 value n1 = env.callback cb callNo v2 value n2

/-- Two calls end in the same way, and if they return they give related results. -/
def SameEnd {α β : Type} (R : α → β → Prop) : Outcome α → Outcome β → Prop
  | .ok a, .ok b => R a b
  | .throw m, .throw m' => m = m'
  | .outOfRange, .outOfRange => True
  | .exit c, .exit c' => c = c'
  | .ub, .ub => True
  | .diverges, .diverges => True
  | _, _ => False

/-- Two results that give the same answers to all questions about values, for all commands that were given. -/
inductive SameAnswers : PNode → PNode → Prop
  | intro {n1 n2 : PNode} (name : n1.name = n2.name) (code : n1.code = n2.code) (unprocessed : n1.unprocessed = n2.unprocessed)
      (has : ∀ s, n1.has s = n2.has s) (value : ∀ s, n1.value s = n2.value s) (values : ∀ s, n1.argValues s = n2.argValues s)
      (stop : n1.stopOption.map (·.flags) = n2.stopOption.map (·.flags)) (length : n1.subs.length = n2.subs.length)
      (subs : ∀ p ∈ n1.subs.zip n2.subs, SameAnswers p.1 p.2) : SameAnswers n1 n2

/-- What a call of `ArgumentIterator::next` gives, without what is only shown. -/
def bareReport (r : IterReport) : IterReport :=
  { r with arg := r.arg.map fun
      | .argument a => .argument (bareArg a)
      | .option o => .option (bareOpt o)
      | .command c => .command (bareCommand c) }

/-- What the first calls of `ArgumentIterator::next` give. -/
def firstReports (env : Env) : Nat → IterHandle → List (Outcome IterReport)
  | 0, _ => []
  | k + 1, h => (h.next env).1 :: firstReports env k (h.next env).2

end Argos.Spec
