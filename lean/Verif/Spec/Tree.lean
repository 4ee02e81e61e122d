import Verif.Spec.Trace
import Verif.Spec.Store
import Verif.Spec.Counts
import Verif.Spec.Lookup

/-!
# What the results of the iterator mean for the parsed arguments

A client that only sees the results of `next()` can tell which command each option and argument
belongs to, and which sub-commands were given to which command. This is a direct description of
that, in terms of the results only. Nothing of the parser's state is used.
-/

namespace Argos.Spec

/-- Something that happens to the values of a command. -/
inductive Occ where
  /-- The initial value of an option. -/
  | initial (o : OptData)
  /-- An option that was given, with the value that was read for it. -/
  | option (o : OptData) (value : Str)
  /-- A positional argument. -/
  | argument (a : ArgData) (value : Str)
  /-- Something that was ignored. -/
  | unknown (s : Str)
  deriving Repr

/-- What the occurrence does to the values. -/
def Occ.writes : Occ → List Write
  | .initial o => if o.initialValue = [] then [] else [.append o.valueId o.initialValue o.argumentId]
  | .option o v =>
    let v' := if o.constant = [] then v else o.constant
    match o.operation with
    | .assign => [.assign o.valueId v' o.argumentId]
    | .append => [.append o.valueId v' o.argumentId]
    | .clear => [.clear o.valueId]
    | .none => []
  | .argument a v => [.append a.valueId v a.argumentId]
  | .unknown _ => []

/-- The values that occurrences lead to. -/
def valuesOf (occs : List Occ) : ValueMap := runWrites (occs.flatMap Occ.writes)

/-- Commands with data and the sub-commands given to each. -/
inductive Tree (α : Type) where
  | node (command : Command) (data : α) (subs : List (Tree α))

namespace Tree
variable {α β : Type}

def command : Tree α → Command
  | node c _ _ => c

def data : Tree α → α
  | node _ a _ => a

def subs : Tree α → List (Tree α)
  | node _ _ ts => ts

mutual
/-- The data changed everywhere. -/
def map (f : α → β) : Tree α → Tree β
  | node c a ts => node c (f a) (mapList f ts)

/-- The data changed everywhere in a list of trees. -/
def mapList (f : α → β) : List (Tree α) → List (Tree β)
  | [] => []
  | t :: ts => t.map f :: mapList f ts
end

end Tree

/-- The commands that are being read, innermost first, each with what has been given to it and its
finished sub-commands. -/
abbrev Open := List (Tree (List Occ))

/-- Something happens to the innermost command. -/
def Open.add (x : Occ) : Open → Open
  | .node c l ts :: rest => .node c (l ++ [x]) ts :: rest
  | [] => []

/-- The innermost command that encloses the active one and allows several sub-commands becomes the
active one: everything inside it is finished. `none` if there is no such command. -/
def Open.back : Open → Option Open
  | [] => none
  | t :: rest => go t rest
where
  /-- The commands around the finished command `t`, from the inside out. -/
  go (t : Tree (List Occ)) : Open → Option Open
    | [] => none
    | .node c l ts :: rest =>
      if c.multiCommand then some (.node c l (ts ++ [t]) :: rest) else go (.node c l (ts ++ [t])) rest

/-- The active command has no sub-commands. -/
def Open.isLeaf : Open → Bool
  | t :: _ => t.command.commands.isEmpty
  | [] => true

/-- The meaning of one result. -/
def Open.step (st : Open) : IterResult → Open
  | .option o v =>
    let st' := st.add (.option o (v.getD []))
    if o.type = .lastArgument then (back st').getD st' else st'
  | .argument a v => st.add (.argument a (v.getD []))
  | .command c _ => .node c [] [] :: (if st.isLeaf then st.back.getD st else st)
  | .unknown s => st.add (.unknown s)
  | _ => st

/-- All commands are finished. -/
def Open.close : Open → Option (Tree (List Occ))
  | [] => none
  | t :: rest => some (go t rest)
where
  /-- The commands around the finished command `t`, from the inside out. -/
  go (t : Tree (List Occ)) : Open → Tree (List Occ)
    | [] => t
    | .node c l ts :: rest => go (.node c l (ts ++ [t])) rest

/-- At first only the program itself is being read, with its initial values. -/
def Open.start (root : Command) : Open := [.node root (root.options.map .initial) []]

/-- The commands being read after the results `rs`. -/
def Open.after (root : Command) (rs : List IterResult) : Open := rs.foldl step (start root)

/-- The commands given, and what was given to them. -/
def given (root : Command) (rs : List IterResult) : Option (Tree (List Occ)) := (Open.after root rs).close

end Argos.Spec

namespace Argos
open Spec

mutual
/-- The values that a client can get from a `ParsedArguments` and its sub-commands. -/
def PNode.tree : PNode → Tree ValueMap
  | ⟨c, _, vs, _, _, _, subs⟩ => .node c (fun id => vs.getValues id) (PNode.treeList subs)

/-- The same for a list. -/
def PNode.treeList : List PNode → List (Tree ValueMap)
  | [] => []
  | n :: ns => n.tree :: PNode.treeList ns
end

end Argos

namespace Argos.Spec

/-- The arguments among the occurrences, in order. -/
def argsGiven (occs : List Occ) : List ArgData :=
  occs.filterMap fun x => match x with
    | .argument a _ => some a
    | _ => none

end Argos.Spec

namespace Argos.Spec

/-- `t` is the tree itself or a part of it. -/
inductive Tree.Within {α : Type} : Tree α → Tree α → Prop
  | refl (t : Tree α) : Within t t
  | sub {t s r : Tree α} : s ∈ r.subs → Within t s → Within t r

/-- The command got as many arguments as it may get: each of its declared arguments got between
its minimum and its maximum, in order of declaration. -/
def ArgsWithin (c : Command) (occs : List Occ) : Prop :=
  ∃ ks, IsAllotment c.arguments (argsGiven occs).length ks ∧ argsGiven occs = handedOut c.arguments ks

end Argos.Spec

namespace Argos.Spec

/-- The occurrence concerns an option or an argument of the command. -/
def Occ.Of (c : Command) : Occ → Prop
  | .initial o => o ∈ c.options
  | .option o _ => o ∈ c.options
  | .argument a _ => a ∈ c.arguments
  | .unknown _ => True

end Argos.Spec

namespace Argos.Spec

/-- What a result means for the values of the active command. -/
def occOf : IterResult → Option Occ
  | .option o v => some (.option o (v.getD []))
  | .argument a v => some (.argument a (v.getD []))
  | .unknown s => some (.unknown s)
  | _ => none

/-- The initial values that are stored under a value id. -/
def initialsOf (options : List OptData) (id : Nat) : List (Str × Nat) :=
  (options.filter fun o => decide (o.valueId = id ∧ o.initialValue ≠ [])).map fun o => (o.initialValue, o.argumentId)

/-- What the occurrence adds to the end of the values stored under `id`, if that is all it does to them;
`none` if it replaces or removes them. -/
def Occ.adds (id : Nat) : Occ → Option (List (Str × Nat))
  | .initial o => if o.valueId = id ∧ o.initialValue ≠ [] then some [(o.initialValue, o.argumentId)] else some []
  | .option o v =>
    if o.operation ≠ .none ∧ o.valueId = id then
      if o.operation = .append then some [(if o.constant = [] then v else o.constant, o.argumentId)] else none
    else some []
  | .argument a v => if a.valueId = id then some [(v, a.argumentId)] else some []
  | .unknown _ => some []

end Argos.Spec

namespace Argos.Spec

mutual
/-- The commands of a tree: each one before its sub-commands. -/
def Tree.commands {α : Type} : Tree α → List Command
  | .node c _ ts => c :: Tree.commandsList ts

/-- The same for a list of trees. -/
def Tree.commandsList {α : Type} : List (Tree α) → List Command
  | [] => []
  | t :: ts => t.commands ++ Tree.commandsList ts
end

end Argos.Spec

namespace Argos.Spec

/-- Only the commands of a tree. -/
def Tree.shape {α : Type} (t : Tree α) : Tree Unit := t.map fun _ => ()

/-- The commands among the results. -/
def commandsGiven (rs : List IterResult) : List Command :=
  rs.filterMap fun r => match r with
    | .command c _ => some c
    | _ => none

end Argos.Spec

namespace Argos
open Spec

/-- Only the commands of the results. -/
def PNode.shape (n : PNode) : Tree Unit := n.tree.shape

/-- `m` is a node of the tree of results with the root `n`. -/
inductive PNode.Within (m : PNode) : PNode → Prop
  | self : Within m m
  | sub {k n : PNode} : k ∈ n.subs → Within m k → Within m n

/-- No command has both arguments and sub-commands (the public functions ensure it, except
`copy_from`). -/
def Exclusive (root : Command) : Prop := ∀ c : Command, c.Within root → c.commands ≠ [] → c.arguments = []

/-- The declared counts make sense in all commands. -/
def CountsOk (root : Command) : Prop := ∀ c : Command, c.Within root → ∀ a ∈ c.arguments, a.minCount ≤ a.maxCount

end Argos
