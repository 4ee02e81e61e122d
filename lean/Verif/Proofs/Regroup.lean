import Verif.Proofs.ReorderParser
import Verif.Proofs.RegroupIter
import Verif.Spec.Regroup

/-!
# Parsers with other sub-commands: the methods of the parser

`p` stands for parsers in which sub-commands are only looked up where one has to be given.
-/

namespace Argos

open Spec

/-- What is found in one place is found in the other. -/
inductive Finds {α β : Type} (R : α → β → Prop) : Option α → Option β → Prop
  | none {b : Option β} : Finds R none b
  | some {a : α} {b : β} : R a b → Finds R (some a) (some b)

/-- The commands are the same except for their sub-commands, of which the second one has more, and none that is found under a name in `W`. -/
inductive Kin (p : Prop) (ci : Bool) (W : Str → Prop) : Command → Command → Prop
  | intro {c c' : Command} (aside : SameAside c c') (empty : c.commands.isEmpty = c'.commands.isEmpty)
      (found : ∀ name, Finds (Kin p ci W) (findCommand c.commands name ci) (findCommand c'.commands name ci))
      (missing : ∀ name, W name → findCommand c.commands name ci = none → findCommand c'.commands name ci = none)
      (plain : p → c.multiCommand = false ∧ (c.commands ≠ [] → c.arguments = [])) : Kin p ci W c c'

namespace Kin

variable {p : Prop} {ci : Bool} {W : Str → Prop} {c c' : Command}

theorem aside (h : Kin p ci W c c') : SameAside c c' := by cases h; assumption
theorem empty (h : Kin p ci W c c') : c.commands.isEmpty = c'.commands.isEmpty := by cases h; assumption
theorem found (h : Kin p ci W c c') : ∀ name, Finds (Kin p ci W) (findCommand c.commands name ci) (findCommand c'.commands name ci) := by cases h; assumption
theorem missing (h : Kin p ci W c c') : ∀ name, W name → findCommand c.commands name ci = none → findCommand c'.commands name ci = none := by cases h; assumption
theorem plain (h : Kin p ci W c c') : p → c.multiCommand = false ∧ (c.commands ≠ [] → c.arguments = []) := by cases h; assumption
theorem arguments (h : Kin p ci W c c') : c.arguments = c'.arguments := by have := congrArg Command.arguments h.aside; exact this
theorem options (h : Kin p ci W c c') : c.options = c'.options := by have := congrArg Command.options h.aside; exact this
theorem index (h : Kin p ci W c c') : c.optionIndex = c'.optionIndex := by have := congrArg Command.optionIndex h.aside; exact this
theorem require (h : Kin p ci W c c') : c.requireSubcommand = c'.requireSubcommand := by have := congrArg Command.requireSubcommand h.aside; exact this
theorem multi (h : Kin p ci W c c') : c.multiCommand = c'.multiCommand := by have := congrArg Command.multiCommand h.aside; exact this

/-- The same sub-command is found. -/
theorem same (h : Kin p ci W c c') {name : Str} (hw : W name) : OptRel (Kin p ci W) (findCommand c.commands name ci) (findCommand c'.commands name ci) := by
  have h1 := h.found name
  have h2 := h.missing name hw
  revert h1 h2
  generalize findCommand c.commands name ci = a
  generalize findCommand c'.commands name ci = b
  intro h1 h2
  cases h1 with
  | none => rw [h2 rfl]; exact .none
  | some h1 => exact .some h1

end Kin

/-- The results are the same except for the sub-commands of the commands. -/
inductive KinNode (p : Prop) (ci : Bool) (W : Str → Prop) : PNode → PNode → Prop
  | intro {n n' : PNode} (command : Kin p ci W n.command n'.command) (ids : n.ids = n'.ids) (values : n.values = n'.values)
      (unprocessed : n.unprocessed = n'.unprocessed) (code : n.code = n'.code) (stop : n.stopOption = n'.stopOption)
      (subs : Each (KinNode p ci W) n.subs n'.subs) : KinNode p ci W n n'

namespace KinNode

variable {p : Prop} {ci : Bool} {W : Str → Prop} {n n' : PNode}

theorem command (h : KinNode p ci W n n') : Kin p ci W n.command n'.command := by cases h; assumption
theorem ids (h : KinNode p ci W n n') : n.ids = n'.ids := by cases h; assumption
theorem values (h : KinNode p ci W n n') : n.values = n'.values := by cases h; assumption
theorem unprocessed (h : KinNode p ci W n n') : n.unprocessed = n'.unprocessed := by cases h; assumption
theorem code (h : KinNode p ci W n n') : n.code = n'.code := by cases h; assumption
theorem stop (h : KinNode p ci W n n') : n.stopOption = n'.stopOption := by cases h; assumption
theorem subs (h : KinNode p ci W n n') : Each (KinNode p ci W) n.subs n'.subs := by cases h; assumption

end KinNode

mutual
theorem KinNode.tree {p : Prop} {ci : Bool} {W : Str → Prop} : (n n' : PNode) → KinNode p ci W n n' → SameTree n n'
  | ⟨c, i, v, u, k, st, subs⟩, n', h =>
    .intro h.command.aside h.ids h.values h.unprocessed h.code h.stop (KinNode.treeAll subs n'.subs h.subs)
theorem KinNode.treeAll {p : Prop} {ci : Bool} {W : Str → Prop} : (ns ns' : List PNode) → Each (KinNode p ci W) ns ns' → Each SameTree ns ns'
  | [], _, h => by cases h; exact .nil
  | n :: ns, _, h => by
    cases h with
    | cons h1 h2 => exact .cons (KinNode.tree n _ h1) (KinNode.treeAll ns _ h2)
end

theorem make_kin {p : Prop} {ci : Bool} {W : Str → Prop} {c c' : Command} (h : Kin p ci W c c') : KinNode p ci W (PNode.make c) (PNode.make c') := by
  refine .intro h ?_ rfl rfl rfl rfl .nil
  show makeIds c = makeIds c'
  simp only [makeIds, collectIds, h.arguments, h.options]

/-- The parsers are in the same state. -/
structure KinState (p : Prop) (ci : Bool) (W : Str → Prop) (s s' : PState) : Prop where
  command : Kin p ci W s.command s'.command
  settings : s.settings = s'.settings
  case : s.settings.caseInsensitive = ci
  iter : s.iter = s'.iter
  clean : p ∨ Lenient W ∧ Clean W s.iter
  mode : s.mode = s'.mode
  calls : s.calls = s'.calls
  counter : s.counter = s'.counter
  log : Each SameMoment s.log s'.log
  stack : Each (KinNode p ci W) s.stack s'.stack

namespace Parser

variable {p : Prop} {ci : Bool} {W : Str → Prop}

/-- Abbreviation. -/
abbrev SimK (p : Prop) (ci : Bool) (W : Str → Prop) {α β : Type} (R : α → β → Prop) (m : ParserM α) (m' : ParserM β) : Prop :=
  Sim (KinState p ci W) (KinState p ci W) R m m'

theorem back_kin : SimK p ci W (KinNode p ci W) back back := by
  intro s s' hs
  have h := hs.stack
  unfold back
  revert h
  generalize s.stack = a
  generalize s'.stack = b
  intro h
  cases h with
  | nil => exact ⟨trivial, hs⟩
  | cons h _ => exact ⟨h, hs⟩

theorem modifyBack_kin {f f' : PNode → PNode} (hf : ∀ n n', KinNode p ci W n n' → KinNode p ci W (f n) (f' n')) :
    SimK p ci W Eq (modifyBack f) (modifyBack f') := by
  intro s s' hs
  have h := hs.stack
  unfold modifyBack
  revert h
  generalize s.stack = a
  generalize s'.stack = b
  intro h
  cases h with
  | nil => exact ⟨trivial, hs⟩
  | cons h ht => exact ⟨rfl, hs.command, hs.settings, hs.case, hs.iter, hs.clean, hs.mode, hs.calls, hs.counter, hs.log, .cons (hf _ _ h) ht⟩

theorem setIter_kin {s s' : PState} (hs : KinState p ci W s s') {it : Iter} (h : p ∨ Lenient W ∧ Argos.Clean W it) :
    KinState p ci W { s with iter := it } { s' with iter := it } :=
  ⟨hs.command, hs.settings, hs.case, rfl, h, hs.mode, hs.calls, hs.counter, hs.log, hs.stack⟩

/-- What was read. -/
def ReadSame (p : Prop) (W : Str → Prop) (a b : Option Str) : Prop := a = b ∧ ∀ x, a = some x → p ∨ W x

theorem iterNext_kin : SimK p ci W (ReadSame p W) iterNext iterNext := by
  intro s s' hs
  simp only [iterNext, ← hs.iter]
  cases hn : s.iter.next with
  | ok r =>
    obtain ⟨a, it⟩ := r
    have hc : (p ∨ Lenient W ∧ Argos.Clean W it) ∧ ∀ x, a = some x → p ∨ W x := by
      rcases hs.clean with h | ⟨h, k⟩
      · exact ⟨.inl h, fun _ _ => .inl h⟩
      · have := Iter.next_clean h k hn
        exact ⟨.inr ⟨h, this.1⟩, fun x hx => .inr (this.2 x hx)⟩
    exact ⟨⟨rfl, hc.2⟩, setIter_kin hs hc.1⟩
  | _ => first | exact ⟨rfl, hs⟩ | exact ⟨trivial, hs⟩

theorem iterNextValue_kin : SimK p ci W (ReadSame p W) iterNextValue iterNextValue := by
  intro s s' hs
  simp only [iterNextValue, ← hs.iter]
  cases hn : s.iter.nextValue with
  | ok r =>
    obtain ⟨a, it⟩ := r
    have hc : (p ∨ Lenient W ∧ Argos.Clean W it) ∧ ∀ x, a = some x → p ∨ W x := by
      rcases hs.clean with h | ⟨h, k⟩
      · exact ⟨.inl h, fun _ _ => .inl h⟩
      · have := Iter.nextValue_clean h k hn
        exact ⟨.inr ⟨h, this.1⟩, fun x hx => .inr (this.2 x hx)⟩
    exact ⟨⟨rfl, hc.2⟩, setIter_kin hs hc.1⟩
  | _ => first | exact ⟨rfl, hs⟩ | exact ⟨trivial, hs⟩

theorem iterRemaining_kin : SimK p ci W Eq iterRemaining iterRemaining := by
  intro s s' hs
  simp only [iterRemaining, ← hs.iter]
  cases hn : s.iter.remainingArguments with
  | ok r =>
    obtain ⟨a, it⟩ := r
    refine ⟨rfl, setIter_kin hs ?_⟩
    rcases hs.clean with h | ⟨h, k⟩
    · exact .inl h
    · exact .inr ⟨h, Iter.remaining_clean h k hn⟩
  | _ => first | exact ⟨rfl, hs⟩ | exact ⟨trivial, hs⟩

theorem iterInsert_kin {args : List Str} (ha : p ∨ ∀ a ∈ args, ∀ q, W (a.drop q)) : SimK p ci W Eq (iterInsert args) (iterInsert args) := by
  intro s s' hs
  simp only [iterInsert, ← hs.iter]
  cases hn : s.iter.insert args with
  | ok it =>
    refine ⟨rfl, setIter_kin hs ?_⟩
    rcases hs.clean with h | ⟨h, k⟩
    · exact .inl h
    · rcases ha with ha | ha
      · exact .inl ha
      · exact .inr ⟨h, Iter.insert_clean h k ha hn⟩
  | _ => first | exact ⟨rfl, hs⟩ | exact ⟨trivial, hs⟩

theorem iterCurrent_kin : SimK p ci W Eq iterCurrent iterCurrent := by
  intro s s' hs
  simp only [iterCurrent, ← hs.iter]
  exact ⟨SameEnd.refl _, hs⟩

theorem emit_kin {e e' : Event} (h : SameMoment e e') : SimK p ci W Eq (emit e) (emit e') :=
  Sim.modify fun _ _ hs => ⟨hs.command, hs.settings, hs.case, hs.iter, hs.clean, hs.mode, hs.calls, hs.counter, Each.append hs.log (.cons h .nil), hs.stack⟩

theorem setMode_kin (m : Mode) : SimK p ci W Eq (ParserM.modify fun s => { s with mode := m }) (ParserM.modify fun s => { s with mode := m }) :=
  Sim.modify fun _ _ hs => ⟨hs.command, hs.settings, hs.case, hs.iter, hs.clean, rfl, hs.calls, hs.counter, hs.log, hs.stack⟩

theorem setCodes_kin {s s' : PState} (hs : KinState p ci W s s') (k : ResultCode) (m : Mode) :
    KinState p ci W { s with stack := s.stack.map fun n => { n with code := k }, mode := m } { s' with stack := s'.stack.map fun n => { n with code := k }, mode := m } :=
  ⟨hs.command, hs.settings, hs.case, hs.iter, hs.clean, rfl, hs.calls, hs.counter, hs.log,
    hs.stack.map fun _ _ h => .intro h.command h.ids h.values h.unprocessed rfl h.stop h.subs⟩

theorem findMultiParent_kin {st st' : List PNode} (h : Each (KinNode p ci W) st st') : OptRel (Each (KinNode p ci W)) (findMultiParent st) (findMultiParent st') := by
  cases h with
  | nil => exact .none
  | cons _ h =>
    simp only [findMultiParent]
    induction h with
    | nil => exact .none
    | cons hn h ih =>
      simp only [findMultiParent.go, hn.command.multi]
      split
      · exact .some (.cons hn h)
      · exact ih

theorem findMultiParent_plain (hp : p) {st st' : List PNode} (h : Each (KinNode p ci W) st st') : findMultiParent st = none := by
  cases h with
  | nil => rfl
  | cons _ h =>
    simp only [findMultiParent]
    induction h with
    | nil => rfl
    | cons hn h ih =>
      simp only [findMultiParent.go, (hn.command.plain hp).1]
      exact ih

theorem findSibling_kin {s s' : PState} (hs : KinState p ci W s s') {name : Str} (hw : p ∨ W name) :
    OptRel (fun x x' => Kin p ci W x.1 x'.1 ∧ x.2 = x'.2) (findSibling s name) (findSibling s' name) := by
  simp only [findSibling, ← hs.counter, ← hs.settings, hs.case]
  split
  · exact .none
  · have h := findMultiParent_kin hs.stack
    have hpl := fun hp : p => findMultiParent_plain hp hs.stack
    revert h hpl
    generalize findMultiParent s.stack = a
    generalize findMultiParent s'.stack = b
    intro h hpl
    cases h with
    | none => exact .none
    | some h =>
      cases h with
      | nil => exact .none
      | cons hn h =>
        simp only [h.length_eq]
        rcases hw with hp | hw
        · exact absurd (hpl hp) (by simp)
        · exact (hn.command.same hw).map fun x y hxy => ⟨hxy, rfl⟩

/-- Counting does not meet new names. -/
def Meets (p : Prop) (W : Str → Prop) (s : PState) (it : Iter) : Prop := p ∧ s.command.arguments ≠ [] ∨ Lenient W ∧ Argos.Clean W it

theorem countStops_kin {s s' : PState} (hs : KinState p ci W s s') (k r : Nat) {arg : Str} (hw : p ∧ s.command.arguments ≠ [] ∨ W arg) :
    countStops s k r arg = countStops s' k r arg := by
  have h1 := (findSibling_kin hs (hw.imp And.left id)).isSome
  simp only [countStops, h1, ← hs.settings, hs.case]
  congr 1
  rcases hw with ⟨hp, ha⟩ | hw
  · have h2 : s.command.commands = [] := by
      have := (hs.command.plain hp).2
      cases hc : s.command.commands with
      | nil => rfl
      | cons x l => exact absurd (this (by rw [hc]; simp)) ha
    have h3 := hs.command.empty
    rw [h2] at h3
    have h4 : s'.command.commands = [] := by simpa using h3.symm
    rw [h2, h4]
  · exact (hs.command.same hw).isSome

theorem countArgsOnly_kin {s s' : PState} (hs : KinState p ci W s s') (k fuel : Nat) (it : Iter) (r : Nat) (hm : Meets p W s it) :
    countArgsOnly s k fuel it r = countArgsOnly s' k fuel it r := by
  induction fuel generalizing it r with
  | zero => rfl
  | succ fuel ih =>
    simp only [countArgsOnly]
    cases hn : it.nextValue with
    | ok q =>
      obtain ⟨a, it'⟩ := q
      cases a with
      | none => rfl
      | some arg =>
        have hm' : (p ∧ s.command.arguments ≠ [] ∨ W arg) ∧ Meets p W s it' := by
          rcases hm with h | ⟨h, hc⟩
          · exact ⟨.inl h, .inl h⟩
          · have := Iter.nextValue_clean h hc hn
            exact ⟨.inr (this.2 _ rfl), .inr ⟨h, this.1⟩⟩
        simp only [countStops_kin hs k r hm'.1, ih it' _ hm'.2]
    | _ => rfl

theorem countLoop_kin {s s' : PState} (hs : KinState p ci W s s') (k fuel : Nat) (it : Iter) (r : Nat) (hm : Meets p W s it) :
    countLoop s k fuel it r = countLoop s' k fuel it r := by
  induction fuel generalizing it r with
  | zero => rfl
  | succ fuel ih =>
    simp only [countLoop, ← hs.settings, ← hs.command.index]
    cases hn : it.next with
    | ok q =>
      obtain ⟨a, it'⟩ := q
      have hm' : (∀ x, a = some x → p ∧ s.command.arguments ≠ [] ∨ W x) ∧ Meets p W s it' := by
        rcases hm with h | ⟨h, hc⟩
        · exact ⟨fun _ _ => .inl h, .inl h⟩
        · have := Iter.next_clean h hc hn
          exact ⟨fun x hx => .inr (this.2 x hx), .inr ⟨h, this.1⟩⟩
      cases a with
      | none => exact countArgsOnly_kin hs k _ _ _ hm'.2
      | some arg =>
        simp only [countStops_kin hs k r (hm'.1 arg rfl), ih it' _ hm'.2]
        cases findOption s.command.optionIndex arg s.settings.allowAbbreviatedOptions s.settings.caseInsensitive with
        | none => rfl
        | some o =>
          by_cases ho : List.isEmpty o.argument = true
          · simp only [ho, if_true, ih it' _ hm'.2, countArgsOnly_kin hs k _ _ _ hm'.2]
          · simp only [if_neg ho]
            cases hv : it'.nextValue with
            | ok q =>
              obtain ⟨v, it2⟩ := q
              have hm2 : Meets p W s it2 := by
                rcases hm'.2 with h | ⟨h, hc⟩
                · exact .inl h
                · exact .inr ⟨h, (Iter.nextValue_clean h hc hv).1⟩
              simp only [ih it2 _ hm2, countArgsOnly_kin hs k _ _ _ hm2]
            | _ => rfl
    | _ => rfl

theorem countArguments_kin {s s' : PState} (hs : KinState p ci W s s') (ha : s.command.arguments ≠ []) : countArguments s = countArguments s' := by
  simp only [countArguments, ← hs.iter, ← hs.command.arguments]
  refine countLoop_kin hs _ _ _ _ ?_
  rcases hs.clean with h | h
  · exact .inl ⟨h, ha⟩
  · exact .inr h

theorem arguments_of_count {l : List ArgData} (h : Counter.requiresArgumentCount l = true) : l ≠ [] := by
  rintro rfl
  revert h
  decide

theorem copyRemaining_kin : SimK p ci W Eq copyRemaining copyRemaining := by
  refine iterRemaining_kin.bind fun rest _ e => ?_
  subst e
  refine modifyBack_kin fun n n' h => .intro h.command h.ids h.values ?_ h.code h.stop h.subs
  show n.unprocessed ++ rest = n'.unprocessed ++ rest
  rw [h.unprocessed]

theorem error_kin (msg : Str) : SimK p ci W Eq (error msg) (error msg) := by
  refine Sim.get.bind fun s s' hs => ?_
  refine (emit_kin (e := .error s.command msg) (e' := .error s'.command msg) ⟨hs.command.aside, rfl⟩).bind fun _ _ _ => ?_
  rw [hs.settings]
  refine Sim.ite Iff.rfl (fun _ => Sim.lift rfl) fun _ => ?_
  exact copyRemaining_kin.bind fun _ _ _ => Sim.modify fun t t' ht => setCodes_kin ht _ _

theorem hasAllMandatory_kin (vs : Values) (os : List OptData) : SimK p ci W Eq (hasAllMandatory vs os) (hasAllMandatory vs os) := by
  induction os with
  | nil => exact Sim.pure rfl
  | cons o os ih =>
    refine Sim.ite Iff.rfl (fun _ => ?_) fun _ => ih
    exact Sim.ite Iff.rfl (fun _ => Sim.lift trivial) fun _ => (error_kin _).bind fun _ _ _ => Sim.pure rfl

theorem checkCounts_kin : SimK p ci W Eq checkCounts checkCounts := by
  refine back_kin.bind fun n n' hn => Sim.get.bind fun s s' hs => ?_
  rw [hn.subs.isEmpty, ← hs.command.require, ← hs.command.arguments, ← hs.counter, ← hs.command.options, ← hn.values]
  refine (hasAllMandatory_kin _ _).bind fun ok ok' e => ?_
  subst e
  refine Sim.ite Iff.rfl (fun _ => Sim.pure rfl) fun _ => ?_
  cases s.command.requireSubcommand with
  | none => exact Sim.lift trivial
  | some req =>
    refine Sim.ite Iff.rfl (fun _ => (error_kin _).bind fun _ _ _ => Sim.pure rfl) fun _ => ?_
    refine Sim.ite Iff.rfl (fun _ => ?_) fun _ => (error_kin _).bind fun _ _ _ => Sim.pure rfl
    exact Sim.bind (Sim.modify (P := KinState p ci W) (Q := KinState p ci W) fun t t' ht => setCodes_kin ht .success .done) fun _ _ _ => Sim.pure rfl

theorem setCounter_kin {s s' : PState} (hs : KinState p ci W s s') (k : Counter) : KinState p ci W { s with counter := k } { s' with counter := k } :=
  ⟨hs.command, hs.settings, hs.case, hs.iter, hs.clean, hs.mode, hs.calls, rfl, hs.log, hs.stack⟩

theorem initCounter_kin : SimK p ci W Eq initCounter initCounter := by
  intro s s' hs
  simp only [initCounter, ← hs.command.arguments]
  split
  · exact ⟨rfl, setCounter_kin hs _⟩
  · rename_i hr
    have ha : s.command.arguments ≠ [] := arguments_of_count (by simpa using hr)
    rw [← countArguments_kin hs ha]
    cases countArguments s with
    | ok n => exact ⟨rfl, setCounter_kin hs _⟩
    | _ => first | exact ⟨rfl, hs⟩ | exact ⟨trivial, hs⟩

theorem updateArguments_kin {args : List Str} (ha : p ∨ ∀ a ∈ args, ∀ q, W (a.drop q)) : SimK p ci W Eq (updateArguments args) (updateArguments args) := by
  refine Sim.ite Iff.rfl (fun _ => Sim.pure rfl) fun _ => ?_
  refine (iterInsert_kin ha).bind fun _ _ _ => Sim.get.bind fun s s' hs => ?_
  rw [← hs.command.arguments, ← hs.counter]
  refine Sim.ite Iff.rfl (fun _ => Sim.pure rfl) fun hr => ?_
  have ha : s.command.arguments ≠ [] := arguments_of_count (by simpa using hr)
  rw [← countArguments_kin hs ha]
  refine (Sim.lift (SameEnd.refl _)).bind fun more _ e => ?_
  subst e
  refine Sim.modify fun t t' ht => ?_
  rw [← ht.command.arguments]
  exact setCounter_kin ht _

theorem apply_kin (op : BuilderOp) {n n' : PNode} (h : KinNode p ci W n n') :
    SameEnd (fun r r' => KinNode p ci W r.1 r'.1 ∧ r.2 = r'.2) (op.apply n) (op.apply n') := by
  have hid : ∀ s, SameEnd Eq (getValueId n.ids s) (getValueId n'.ids s) := fun s => by rw [h.ids]; exact SameEnd.refl _
  cases op <;> simp only [BuilderOp.apply] <;>
    first
    | (refine (hid _).bind fun a b hab => ⟨.intro h.command h.ids ?_ h.unprocessed h.code h.stop h.subs, by rw [hab]⟩
       subst hab
       simp only [h.values])
    | (refine ⟨.intro h.command h.ids ?_ h.unprocessed h.code h.stop h.subs, rfl⟩
       simp only [h.values])

theorem applyOps_kin (vid : Nat) (ops : List BuilderOp) (b : Bool) : SimK p ci W Eq (applyOps vid ops b) (applyOps vid ops b) := by
  induction ops generalizing b with
  | nil => exact Sim.pure rfl
  | cons op ops ih =>
    intro s s' hs
    have h := hs.stack
    unfold applyOps
    revert h
    generalize s.stack = st
    generalize s'.stack = st'
    intro h
    cases h with
    | nil => exact ⟨trivial, hs⟩
    | cons h1 h2 =>
      simp only []
      have k := apply_kin op h1
      revert k
      generalize op.apply _ = x
      generalize op.apply _ = y
      intro k
      cases x <;> cases y <;> first | exact absurd k id | skip
      · rename_i r r'
        obtain ⟨m, t⟩ := r
        obtain ⟨m', t'⟩ := r'
        obtain ⟨k1, k2⟩ := k
        simp only at k1 k2
        subst k2
        exact ih _ _ _ ⟨hs.command, hs.settings, hs.case, hs.iter, hs.clean, hs.mode, hs.calls, hs.counter, hs.log, .cons k1 h2⟩
      all_goals exact ⟨k, hs⟩

theorem builderError_kin (msg : Str) : SimK p ci W Eq (builderError msg) (builderError msg) := by
  refine back_kin.bind fun n n' hn => ?_
  refine (emit_kin (e := .error n.command msg) (e' := .error n'.command msg) ⟨hn.command.aside, rfl⟩).bind fun _ _ _ => Sim.get.bind fun s s' hs => ?_
  rw [hs.settings]
  exact Sim.ite Iff.rfl (fun _ => Sim.lift rfl) fun _ => Sim.lift rfl

/-- Callbacks for which the sub-commands do not matter. -/
structure KinEnv (p : Prop) (W : Str → Prop) (env : Env) : Prop where
  overlooks : Overlooks env
  words : p ∨ ∀ cb callNo view value n, ∀ w ∈ (env.callback cb callNo view value n).newArguments, ∀ q, W (w.drop q)

theorem runCallback_kin {env : Env} (he : KinEnv p W env) (cb : Nat) (view : ViewRef) (vid : Nat) (stored : Bool) (value : Option Str) :
    SimK p ci W Eq (runCallback env cb view vid stored value) (runCallback env cb view vid stored value) := by
  refine back_kin.bind fun n n' hn => Sim.get.bind fun s s' hs => ?_
  have e1 := he.overlooks cb s.calls view value n n' (KinNode.tree n n' hn)
  rw [← hs.calls, ← e1, ← hn.values]
  refine (Sim.modify (Q := KinState p ci W) fun t t' ht => ?_).bind fun _ _ _ => ?_
  · exact ⟨ht.command, ht.settings, ht.case, ht.iter, ht.clean, ht.mode, by rw [ht.calls], ht.counter,
      Each.append ht.log (.cons ⟨rfl, rfl, rfl, rfl⟩ .nil), ht.stack⟩
  · refine (applyOps_kin vid _ _).bind fun touched _ e => ?_
    subst e
    cases (env.callback cb s.calls view value n).fin with
    | returns => exact (updateArguments_kin (he.words.imp id fun h => h _ _ _ _ _)).bind fun _ _ _ => Sim.pure rfl
    | throws m => exact Sim.lift rfl
    | error m => exact (builderError_kin m).bind fun _ _ _ => Sim.pure rfl

theorem runCallbackOpt_kin {env : Env} (he : KinEnv p W env) (cb : Option Nat) (view : ViewRef) (vid : Nat) (stored : Bool) (value : Option Str) :
    SimK p ci W Eq (runCallbackOpt env cb view vid stored value) (runCallbackOpt env cb view vid stored value) := by
  cases cb with
  | none => exact Sim.pure rfl
  | some cb => exact runCallback_kin he cb view vid stored value

theorem setValues_kin (f : Values → Values) : SimK p ci W Eq (modifyBack fun n => { n with values := f n.values }) (modifyBack fun n => { n with values := f n.values }) :=
  modifyBack_kin fun _ _ h => .intro h.command h.ids (congrArg f h.values) h.unprocessed h.code h.stop h.subs

theorem applyOperation_kin (o : OptData) (flag : Str) : SimK p ci W Eq (applyOperation o flag) (applyOperation o flag) := by
  unfold applyOperation
  cases o.operation with
  | none => exact Sim.pure rfl
  | clear => exact (setValues_kin fun v => v.clear o.valueId).bind fun _ _ _ => Sim.pure rfl
  | assign =>
    refine Sim.ite Iff.rfl (fun _ => (setValues_kin fun v => v.assign o.valueId o.constant o.argumentId).bind fun _ _ _ => Sim.pure rfl) fun _ =>
      iterNextValue_kin.bind fun v _ e => ?_
    obtain ⟨rfl, -⟩ := e
    cases v with
    | none => exact (error_kin _).bind fun _ _ _ => Sim.pure rfl
    | some v => exact (setValues_kin fun vs => vs.assign o.valueId v o.argumentId).bind fun _ _ _ => Sim.pure rfl
  | append =>
    refine Sim.ite Iff.rfl (fun _ => (setValues_kin fun v => v.append o.valueId o.constant o.argumentId).bind fun _ _ _ => Sim.pure rfl) fun _ =>
      iterNextValue_kin.bind fun v _ e => ?_
    obtain ⟨rfl, -⟩ := e
    cases v with
    | none => exact (error_kin _).bind fun _ _ _ => Sim.pure rfl
    | some v => exact (setValues_kin fun vs => vs.append o.valueId v o.argumentId).bind fun _ _ _ => Sim.pure rfl

theorem applyType_kin (o : OptData) : SimK p ci W Eq (applyType o) (applyType o) := by
  have hb : SimK p ci W Eq (modifyBack fun n => { n with code := .stop, stopOption := some o }) (modifyBack fun n => { n with code := .stop, stopOption := some o }) :=
    modifyBack_kin fun n n' h => .intro h.command h.ids h.values h.unprocessed rfl rfl h.subs
  unfold applyType
  cases o.type with
  | normal => exact Sim.pure rfl
  | help =>
    refine Sim.get.bind fun s s' hs => ?_
    refine (emit_kin (e := .help s.command) (e' := .help s'.command) hs.command.aside).bind fun _ _ _ => ?_
    exact (setMode_kin _).bind fun _ _ _ => hb.bind fun _ _ _ => Sim.pure rfl
  | exit => exact (setMode_kin _).bind fun _ _ _ => hb.bind fun _ _ _ => Sim.pure rfl
  | stop => exact (setMode_kin _).bind fun _ _ _ => hb.bind fun _ _ _ => Sim.pure rfl
  | lastArgument => exact (setMode_kin _).bind fun _ _ _ => Sim.pure rfl
  | lastOption => exact (setMode_kin _).bind fun _ _ _ => Sim.pure rfl

theorem processOptionData_kin {env : Env} (he : KinEnv p W env) (o : OptData) (flag : Str) :
    SimK p ci W Eq (processOptionData env o flag) (processOptionData env o flag) := by
  refine (applyOperation_kin o flag).bind fun r _ e => ?_
  subst e
  cases r with
  | none => exact Sim.pure rfl
  | some q =>
    obtain ⟨value, stored⟩ := q
    refine (runCallbackOpt_kin he o.callback _ _ stored (some value)).bind fun v _ e => ?_
    subst e
    refine Sim.get.bind fun s s' hs => ?_
    rw [hs.settings]
    refine (runCallbackOpt_kin he s'.settings.optionCallback _ _ stored v).bind fun v _ e => ?_
    subst e
    refine (applyType_kin o).bind fun r _ e => ?_
    subst e
    exact Sim.pure rfl

theorem closeFrames_kin (k : Nat) {st st' : List PNode} (h : Each (KinNode p ci W) st st') : Each (KinNode p ci W) (closeFrames k st) (closeFrames k st') := by
  induction k generalizing st st' with
  | zero => exact h
  | succ k ih =>
    match st, st', h with
    | _, _, .nil => exact .nil
    | _, _, .cons h .nil => exact .cons h .nil
    | _, _, .cons h (.cons hp ht) =>
      simp only [closeFrames]
      exact ih (.cons (.intro hp.command hp.ids hp.values hp.unprocessed hp.code hp.stop (Each.append hp.subs (.cons h .nil))) ht)

theorem reactivate_kin (size : Nat) : SimK p ci W Eq (reactivate size) (reactivate size) := by
  intro s s' hs
  have h := closeFrames_kin (s.stack.length - size) hs.stack
  simp only [reactivate, ← hs.stack.length_eq]
  revert h
  generalize closeFrames (s.stack.length - size) s.stack = a
  generalize closeFrames (s.stack.length - size) s'.stack = b
  intro h
  cases h with
  | nil => exact ⟨trivial, hs⟩
  | cons hn ht => exact ⟨rfl, hn.command, hs.settings, hs.case, hs.iter, hs.clean, rfl, hs.calls, rfl, hs.log, .cons hn ht⟩

/-- Results of `next` that are the same except for sub-commands. -/
inductive KinResult (p : Prop) (ci : Bool) (W : Str → Prop) : IterResult → IterResult → Prop
  | same (r : IterResult) : KinResult p ci W r r
  | command {c c' : Command} {v : Str} : Kin p ci W c c' → KinResult p ci W (.command c v) (.command c' v)

theorem processOption_kin {env : Env} (he : KinEnv p W env) (flag : Str) : SimK p ci W (KinResult p ci W) (processOption env flag) (processOption env flag) := by
  refine Sim.get.bind fun s s' hs => ?_
  rw [← hs.command.index, ← hs.settings]
  have hc : ∀ o v, SimK p ci W (KinResult p ci W) (copyRemaining >>= fun _ => pure (.option o v)) (copyRemaining >>= fun _ => pure (.option o v)) :=
    fun o v => copyRemaining_kin.bind fun _ _ _ => Sim.pure (.same _)
  cases findOption s.command.optionIndex flag s.settings.allowAbbreviatedOptions s.settings.caseInsensitive with
  | some o =>
    refine (processOptionData_kin he o flag).bind fun q _ e => ?_
    subst e
    obtain ⟨res, v⟩ := q
    cases res with
    | normal => exact Sim.pure (.same _)
    | error => exact Sim.pure (.same _)
    | stop => exact hc _ _
    | exit => exact Sim.ite Iff.rfl (fun _ => Sim.lift (by exact rfl)) fun _ => hc _ _
    | lastArgument =>
      refine checkCounts_kin.bind fun ok _ e => ?_
      subst e
      refine Sim.ite Iff.rfl (fun _ => Sim.pure (.same _)) fun _ => Sim.get.bind fun t t' ht => ?_
      have k := findMultiParent_kin ht.stack
      revert k
      generalize findMultiParent t.stack = x
      generalize findMultiParent t'.stack = y
      intro k
      cases k with
      | none => exact hc _ _
      | some k =>
        simp only [k.length_eq]
        exact (reactivate_kin _).bind fun _ _ _ => Sim.pure (.same _)
  | none =>
    refine iterCurrent_kin.bind fun cur _ e => ?_
    subst e
    refine Sim.ite Iff.rfl (fun _ => (error_kin _).bind fun _ _ _ => Sim.pure (.same _)) fun _ => ?_
    refine Sim.bind (modifyBack_kin fun n n' h => .intro h.command h.ids h.values ?_ h.code h.stop h.subs) fun _ _ _ => Sim.pure (.same _)
    show n.unprocessed ++ [cur] = n'.unprocessed ++ [cur]
    rw [h.unprocessed]

theorem processCommand_kin {d d' : Command} (hd : Kin p ci W d d') : SimK p ci W (KinResult p ci W) (processCommand d) (processCommand d') := by
  refine (Sim.modify (Q := KinState p ci W) fun s s' hs => ?_).bind fun _ _ _ => initCounter_kin.bind fun _ _ _ => (setMode_kin _).bind fun _ _ _ =>
    iterCurrent_kin.bind fun cur _ e => ?_
  · exact ⟨hd, hs.settings, hs.case, hs.iter, hs.clean, hs.mode, hs.calls, hs.counter, hs.log, .cons (make_kin hd) hs.stack⟩
  · subst e
    exact Sim.pure (.command hd)

theorem processArgument_kin {env : Env} (he : KinEnv p W env) {value : Str} (hw : p ∨ W value) :
    SimK p ci W (KinResult p ci W) (processArgument env value) (processArgument env value) := by
  refine Sim.get.bind fun s s' hs => ?_
  have h := findSibling_kin hs hw
  revert h
  generalize findSibling s value = a
  generalize findSibling s' value = b
  intro h
  cases h with
  | @some q q' h =>
    obtain ⟨d, size⟩ := q
    obtain ⟨d', size'⟩ := q'
    obtain ⟨hd, e⟩ := h
    simp only at e hd
    subst e
    exact (reactivate_kin _).bind fun _ _ _ => processCommand_kin hd
  | none =>
    rw [← hs.counter]
    simp only []
    generalize s.counter.nextArgument = a
    obtain ⟨a, k⟩ := a
    have hset : SimK p ci W Eq (ParserM.modify fun s => { s with counter := k }) (ParserM.modify fun s => { s with counter := k }) :=
      Sim.modify fun _ _ ht => setCounter_kin ht k
    cases a with
    | some a =>
      refine hset.bind fun _ _ _ => (setValues_kin fun vs => vs.append a.valueId value a.argumentId).bind fun _ _ _ => ?_
      refine (runCallbackOpt_kin he a.callback _ _ true (some value)).bind fun v _ e => ?_
      subst e
      refine Sim.get.bind fun t t' ht => ?_
      rw [ht.settings]
      refine (runCallbackOpt_kin he t'.settings.argumentCallback _ _ true v).bind fun v _ e => ?_
      subst e
      exact Sim.pure (.same _)
    | none =>
      refine hset.bind fun _ _ _ => ?_
      rw [hs.settings]
      refine Sim.ite Iff.rfl (fun _ => ?_) fun _ => (error_kin _).bind fun _ _ _ => Sim.pure (.same _)
      refine Sim.bind (Q := KinState p ci W) (R := Eq) (modifyBack_kin fun n n' h => .intro h.command h.ids h.values ?_ h.code h.stop h.subs)
        fun _ _ _ => iterCurrent_kin.bind fun cur _ e => ?_
      · show n.unprocessed ++ [value] = n'.unprocessed ++ [value]
        rw [h.unprocessed]
      · subst e
        exact Sim.pure (.same _)

/-! ## An unknown command -/

/-- A word was no sub-command. -/
def Lost (s : PState) : Prop := ∃ c t, Event.error c (b!"Unknown command: " ++ t) ∈ s.log

theorem error_log (msg : Str) (s : PState) : (error msg s).2.log = s.log ++ [.error s.command msg] := by
  have h1 : ∀ t : PState, (copyRemaining t).2.log = t.log := by
    intro t
    show (ParserM.bind iterRemaining _ t).2.log = t.log
    simp only [ParserM.bind, iterRemaining]
    cases t.iter.remainingArguments with
    | ok q =>
      simp only [modifyBack]
      cases t.stack <;> rfl
    | _ => rfl
  have he : error msg s = (if s.settings.autoExit then ParserM.lift (.exit s.settings.errorExitCode) else copyRemaining >>= fun _ => ParserM.modify fun s => { s with
      stack := s.stack.map fun n => { n with code := .failure }
      mode := .error } : ParserM Unit) { s with log := s.log ++ [.error s.command msg] } := rfl
  rw [he]
  split
  · rfl
  · show (ParserM.bind copyRemaining _ _).2.log = _
    have := h1 { s with log := s.log ++ [.error s.command msg] }
    simp only [ParserM.bind]
    revert this
    generalize copyRemaining _ = r
    obtain ⟨r, t⟩ := r
    intro this
    cases r <;> exact this

/-- The methods do the same, or there is an unknown command. -/
def Either (p : Prop) (ci : Bool) (W : Str → Prop) {α β : Type} (R : α → β → Prop) (m : ParserM α) (m' : ParserM β) (fin : α → Prop) : Prop :=
  ∀ s s', KinState p ci W s s' → (SameEnd R (m s).1 (m' s').1 ∧ KinState p ci W (m s).2 (m' s').2) ∨
    (p ∧ Lost (m s).2 ∧ ∀ a, (m s).1 = .ok a → fin a)

theorem next_kin {env : Env} (he : KinEnv p W env) : Either p ci W (KinResult p ci W) (next env) (next env) (· = .error) := by
  intro s0 s0' hs0
  have hbind : ∀ {α β : Type} {R : α → α → Prop} {S : β → β → Prop} {m : ParserM α} {f f' : α → ParserM β} {fin : β → Prop}, SimK p ci W R m m →
      (∀ a b, R a b → Either p ci W S (f a) (f' b) fin) → Either p ci W S (m >>= f) (m >>= f') fin := by
    intro α β R S m f f' fin hm hf s s' hs
    have h := hm s s' hs
    show (SameEnd S (ParserM.bind m f s).1 (ParserM.bind m f' s').1 ∧ KinState p ci W (ParserM.bind m f s).2 (ParserM.bind m f' s').2) ∨
      (p ∧ Lost (ParserM.bind m f s).2 ∧ ∀ a, (ParserM.bind m f s).1 = .ok a → fin a)
    simp only [ParserM.bind]
    revert h
    generalize m s = r
    generalize m s' = r'
    obtain ⟨r, t⟩ := r
    obtain ⟨r', t'⟩ := r'
    rintro ⟨h1, h2⟩
    cases r <;> cases r' <;> first | exact absurd h1 id | exact hf _ _ h1 t t' h2 | exact .inl ⟨h1, h2⟩
  have hof : ∀ {m m' : ParserM IterResult}, SimK p ci W (KinResult p ci W) m m' → Either p ci W (KinResult p ci W) m m' (· = .error) :=
    fun h s s' hs => .inl (h s s' hs)
  refine (hbind (R := KinState p ci W) (fun t t' ht => Sim.get t t' ht) fun s s' hs => ?_ : Either p ci W (KinResult p ci W) (next env) (next env) (· = .error)) s0 s0' hs0
  rw [← hs.mode, ← hs.settings]
  have key : ∀ (read : ParserM (Option Str)) (q : Prop) [Decidable q], SimK p ci W (ReadSame p W) read read →
      Either p ci W (KinResult p ci W) (do
        let arg ← read
        match arg with
        | none => do
          if (← checkCounts) then pure .done else pure .error
        | some arg =>
          if q ∧ isOption arg s.settings.optionStyle then processOption env arg
          else if s.command.commands.isEmpty then processArgument env arg
          else match findCommand s.command.commands arg s.settings.caseInsensitive with
            | some c => processCommand c
            | none => do
              error (b!"Unknown command: " ++ arg)
              pure .error) (do
        let arg ← read
        match arg with
        | none => do
          if (← checkCounts) then pure .done else pure .error
        | some arg =>
          if q ∧ isOption arg s.settings.optionStyle then processOption env arg
          else if s'.command.commands.isEmpty then processArgument env arg
          else match findCommand s'.command.commands arg s.settings.caseInsensitive with
            | some c => processCommand c
            | none => do
              error (b!"Unknown command: " ++ arg)
              pure .error) (· = .error) := by
    intro read q _ hr
    refine hbind hr fun arg _ e => ?_
    obtain ⟨rfl, hw⟩ := e
    cases arg with
    | none =>
      refine hof ?_
      refine checkCounts_kin.bind fun ok _ e => ?_
      subst e
      exact Sim.ite Iff.rfl (fun _ => Sim.pure (.same _)) fun _ => Sim.pure (.same _)
    | some arg =>
      have hw := hw arg rfl
      simp only []
      by_cases h1 : q ∧ isOption arg s.settings.optionStyle
      · rw [if_pos h1, if_pos h1]
        exact hof (processOption_kin he arg)
      rw [if_neg h1, if_neg h1, ← hs.command.empty]
      by_cases h2 : s.command.commands.isEmpty
      · rw [if_pos h2, if_pos h2]
        exact hof (processArgument_kin he hw)
      rw [if_neg h2, if_neg h2, hs.case]
      have hf := hs.command.found arg
      have hm := hs.command.missing arg
      revert hf hm
      generalize findCommand s.command.commands arg ci = a
      generalize findCommand s'.command.commands arg ci = b
      intro hf hm
      cases hf with
      | some h => exact hof (processCommand_kin h)
      | none =>
        rcases hw with hp | hw
        · intro t t' ht
          refine .inr ⟨hp, ?_⟩
          have hl := error_log (b!"Unknown command: " ++ arg) t
          show Lost (ParserM.bind (error (b!"Unknown command: " ++ arg)) _ t).2 ∧ _
          have hfin : ∀ a, (ParserM.bind (error (b!"Unknown command: " ++ arg)) (fun _ => pure IterResult.error) t).1 = .ok a → a = .error := by
            intro a ha
            simp only [ParserM.bind] at ha
            split at ha
            · exact (Outcome.ok.inj ha).symm
            all_goals cases ha
          refine ⟨⟨t.command, arg, ?_⟩, hfin⟩
          simp only [ParserM.bind]
          revert hl
          generalize error (b!"Unknown command: " ++ arg) t = r
          obtain ⟨r, u⟩ := r
          intro hl
          have hmem : Event.error t.command (b!"Unknown command: " ++ arg) ∈ u.log := by
            simp only at hl
            rw [hl]
            simp
          cases r <;> exact hmem
        · rw [hm hw rfl]
          exact hof ((error_kin _).bind fun _ _ _ => Sim.pure (.same _))
  cases s.mode with
  | error => exact hof (Sim.lift (by exact rfl))
  | done => exact hof (Sim.pure (.same _))
  | argumentsAndOptions => exact key iterNext _ iterNext_kin
  | argumentsOnly => exact key iterNextValue _ iterNextValue_kin

theorem run_kin {env : Env} (he : KinEnv p W env) (fuel : Nat) : Either p ci W Eq (run env fuel) (run env fuel) (fun _ => True) := by
  induction fuel with
  | zero => exact fun s s' hs => .inl ⟨trivial, hs⟩
  | succ fuel ih =>
    intro s s' hs
    have h := next_kin he s s' hs
    show (SameEnd _ (ParserM.bind (next env) _ s).1 (ParserM.bind (next env) _ s').1 ∧
      KinState p ci W (ParserM.bind (next env) _ s).2 (ParserM.bind (next env) _ s').2) ∨
      (p ∧ Lost (ParserM.bind (next env) _ s).2 ∧ ∀ a, (ParserM.bind (next env) _ s).1 = .ok a → True)
    simp only [ParserM.bind]
    revert h
    generalize next env s = r
    generalize next env s' = r'
    obtain ⟨r, t⟩ := r
    obtain ⟨r', t'⟩ := r'
    rintro (⟨h1, h2⟩ | ⟨hp, h1, h2⟩)
    · simp only at h1 h2
      cases r <;> cases r' <;> first | exact absurd h1 id | skip
      · cases h1 with
        | same => cases ‹IterResult› <;> first | exact .inl ⟨rfl, h2⟩ | exact ih t t' h2
        | command h => exact ih t t' h2
      all_goals exact .inl ⟨h1, h2⟩
    · simp only at h1 h2
      right
      cases r with
      | ok r =>
        have := h2 r rfl
        subst this
        exact ⟨hp, h1, fun _ _ => trivial⟩
      | _ => exact ⟨hp, h1, fun _ _ => trivial⟩

theorem parse_kin {env : Env} (he : KinEnv p W env) {d d' : ParserData} (hset : d.settings = d'.settings) (hc : Kin p d.settings.caseInsensitive W d.command d'.command)
    {args : List Str} (ha : p ∨ Lenient W ∧ ∀ a ∈ args, ∀ q, W (a.drop q)) (fuel : Nat) :
    (SameEnd (OptRel SameTree) (parse env d args fuel).1 (parse env d' args fuel).1 ∧
      Each SameMoment (parse env d args fuel).2.log (parse env d' args fuel).2.log ∧ (parse env d args fuel).2.calls = (parse env d' args fuel).2.calls) ∨
    (p ∧ Lost (parse env d args fuel).2) := by
  have hs : KinState p d.settings.caseInsensitive W (startState d args) (startState d' args) := by
    refine ⟨hc, hset, rfl, by simp only [startState, hset], ha.imp id fun h => ⟨h.1, Iter.make_clean h.2⟩, rfl, rfl, rfl, .nil, .cons ?_ .nil⟩
    have hn := make_kin hc
    exact .intro hc hn.ids (by simp only [hc.options]) rfl rfl rfl .nil
  have h := initCounter_kin _ _ hs
  simp only [parse, start]
  revert h
  generalize initCounter (startState d args) = r
  generalize initCounter (startState d' args) = r'
  obtain ⟨r, t⟩ := r
  obtain ⟨r', t'⟩ := r'
  rintro ⟨h1, h2⟩
  simp only at h1 h2
  cases r <;> cases r' <;> first | exact absurd h1 id | skip
  · have h := run_kin he fuel t t' h2
    simp only []
    revert h
    generalize run env fuel t = r
    generalize run env fuel t' = r'
    obtain ⟨r, u⟩ := r
    obtain ⟨r', u'⟩ := r'
    rintro (⟨k1, k2⟩ | ⟨hp, k1, _⟩)
    · simp only at k1 k2
      left
      cases r <;> cases r' <;> first | exact absurd k1 id | skip
      · refine ⟨?_, k2.log, k2.calls⟩
        have := (closeFrames_kin (u.stack.length - 1) k2.stack).getLast?
        simp only [topLevel, closeAll, ← k2.stack.length_eq]
        revert this
        generalize (closeFrames (u.stack.length - 1) u.stack).getLast? = x
        generalize (closeFrames (u.stack.length - 1) u'.stack).getLast? = y
        intro this
        cases this with
        | none => exact OptRel.none
        | some h => exact OptRel.some (KinNode.tree _ _ h)
      all_goals exact ⟨k1, k2.log, k2.calls⟩
    · right
      refine ⟨hp, ?_⟩
      cases r <;> exact k1
  all_goals exact .inl ⟨h1, h2.log, h2.calls⟩

end Parser

end Argos
