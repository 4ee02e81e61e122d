import Verif.Proofs.Reorder

/-!
# Parsers that give their arguments and options different numbers: the methods of the parser
-/

namespace Argos

open Spec

namespace Alike

variable {c c' : Command}

theorem name (h : Alike c c') : c.name = c'.name := by cases h; assumption
theorem fullName (h : Alike c c') : c.fullName = c'.fullName := by cases h; assumption
theorem require (h : Alike c c') : c.requireSubcommand = c'.requireSubcommand := by cases h; assumption
theorem multi (h : Alike c c') : c.multiCommand = c'.multiCommand := by cases h; assumption
theorem arguments (h : Alike c c') : Each (SameArg c c') c.arguments c'.arguments := by cases h; assumption
theorem index (h : Alike c c') : Each (fun p p' => p.1 = p'.1 ∧ SameOpt c c' p.2 p'.2) c.optionIndex c'.optionIndex := by cases h; assumption
theorem options (h : Alike c c') : ∀ o ∈ c.options, ∃ o' ∈ c'.options, SameOpt c c' o o' := by cases h; assumption
theorem options' (h : Alike c c') : ∀ o' ∈ c'.options, ∃ o ∈ c.options, SameOpt c c' o o' := by cases h; assumption
theorem flags (h : Alike c c') : ∀ o ∈ c.options, o.flags ≠ [] := by cases h; assumption
theorem left (h : Alike c c') : ∀ v w w', Corr c c' v w → Corr c c' v w' → w = w' := by cases h; assumption
theorem right (h : Alike c c') : ∀ v v' w, Corr c c' v w → Corr c c' v' w → v = v' := by cases h; assumption
theorem names (h : Alike c c') : ∀ name, SameEnd (Corr c c') (getValueId (makeIds c) name) (getValueId (makeIds c') name) := by cases h; assumption
theorem commands (h : Alike c c') : Each Alike c.commands c'.commands := by cases h; assumption

theorem flags' (h : Alike c c') : ∀ o ∈ c'.options, o.flags ≠ [] := by
  intro o' ho'
  obtain ⟨o, ho, hs⟩ := h.options' o' ho'
  rw [← hs.flags]
  exact h.flags o ho

/-- Numbers correspond to at most one number. -/
theorem iff (h : Alike c c') {v w v' w' : Nat} (h1 : Corr c c' v v') (h2 : Corr c c' w w') : v = w ↔ v' = w' := by
  constructor
  · rintro rfl; exact h.left _ _ _ h1 h2
  · rintro rfl; exact h.right _ _ _ h1 h2

end Alike

/-! ## Values -/

/-- The stores have the same strings under corresponding numbers. -/
structure SameStore (c c' : Command) (vs vs' : Values) : Prop where
  sorted : vs.Sorted
  sorted' : vs'.Sorted
  same : ∀ v v', Corr c c' v v' → (vs.entries v).map (·.1) = (vs'.entries v').map (·.1)

namespace SameStore

variable {c c' : Command} {vs vs' : Values}

theorem empty (c c' : Command) : SameStore c c' [] [] := ⟨List.Pairwise.nil, List.Pairwise.nil, fun _ _ _ => rfl⟩

theorem append (ha : Alike c c') (h : SameStore c c' vs vs') {v v' : Nat} (hv : Corr c c' v v') (x : Str) (i i' : Nat) :
    SameStore c c' (vs.append v x i) (vs'.append v' x i') := by
  refine ⟨Values.append_sorted h.sorted _ _ _, Values.append_sorted h.sorted' _ _ _, fun w w' hw => ?_⟩
  rw [Values.append_entries h.sorted, Values.append_entries h.sorted']
  have e := ha.iff hw hv
  by_cases hc : w = v
  · rw [if_pos hc, if_pos (e.mp hc), List.map_append, List.map_append, h.same _ _ hw]; rfl
  · rw [if_neg hc, if_neg (fun h' => hc (e.mpr h')), h.same _ _ hw]

theorem assign (ha : Alike c c') (h : SameStore c c' vs vs') {v v' : Nat} (hv : Corr c c' v v') (x : Str) (i i' : Nat) :
    SameStore c c' (vs.assign v x i) (vs'.assign v' x i') := by
  refine ⟨Values.assign_sorted h.sorted _ _ _, Values.assign_sorted h.sorted' _ _ _, fun w w' hw => ?_⟩
  rw [Values.assign_entries h.sorted, Values.assign_entries h.sorted']
  have e := ha.iff hw hv
  by_cases hc : w = v
  · rw [if_pos hc, if_pos (e.mp hc)]; rfl
  · rw [if_neg hc, if_neg (fun h' => hc (e.mpr h')), h.same _ _ hw]

theorem clear (ha : Alike c c') (h : SameStore c c' vs vs') {v v' : Nat} (hv : Corr c c' v v') : SameStore c c' (vs.clear v) (vs'.clear v') := by
  refine ⟨Values.clear_sorted h.sorted _, Values.clear_sorted h.sorted' _, fun w w' hw => ?_⟩
  rw [Values.clear_entries, Values.clear_entries]
  have e := ha.iff hw hv
  by_cases hc : w = v
  · rw [if_pos hc, if_pos (e.mp hc)]
  · rw [if_neg hc, if_neg (fun h' => hc (e.mpr h')), h.same _ _ hw]

theorem has (h : SameStore c c' vs vs') {v v' : Nat} (hv : Corr c c' v v') : vs.has v = vs'.has v' := by
  rw [Bool.eq_iff_iff, Values.has_eq, Values.has_eq]
  have e := h.same _ _ hv
  have : vs.entries v = [] ↔ vs'.entries v' = [] := by
    rw [← List.map_eq_nil_iff (f := fun x : Str × Nat => x.1), e, List.map_eq_nil_iff]
  exact not_congr this

end SameStore

/-! ## Results -/

/-- The results are the same except for numbers. -/
inductive SameNode : PNode → PNode → Prop
  | intro {n n' : PNode} (command : Alike n.command n'.command) (ids : n.ids = makeIds n.command) (ids' : n'.ids = makeIds n'.command)
      (values : SameStore n.command n'.command n.values n'.values) (unprocessed : n.unprocessed = n'.unprocessed) (code : n.code = n'.code)
      (stop : n.stopOption.map plainOpt = n'.stopOption.map plainOpt) (subs : Each SameNode n.subs n'.subs) : SameNode n n'

namespace SameNode

variable {n n' : PNode}

theorem command (h : SameNode n n') : Alike n.command n'.command := by cases h; assumption
theorem ids (h : SameNode n n') : n.ids = makeIds n.command := by cases h; assumption
theorem ids' (h : SameNode n n') : n'.ids = makeIds n'.command := by cases h; assumption
theorem values (h : SameNode n n') : SameStore n.command n'.command n.values n'.values := by cases h; assumption
theorem unprocessed (h : SameNode n n') : n.unprocessed = n'.unprocessed := by cases h; assumption
theorem code (h : SameNode n n') : n.code = n'.code := by cases h; assumption
theorem stop (h : SameNode n n') : n.stopOption.map plainOpt = n'.stopOption.map plainOpt := by cases h; assumption
theorem subs (h : SameNode n n') : Each SameNode n.subs n'.subs := by cases h; assumption

end SameNode

theorem make_alike {c c' : Command} (h : Alike c c') : SameNode (PNode.make c) (PNode.make c') :=
  .intro h rfl rfl (SameStore.empty _ _) rfl rfl rfl .nil

theorem _root_.Argos.Spec.SameEnd.imp {α β : Type} {R S : α → β → Prop} {x : Outcome α} {y : Outcome β} (h : SameEnd R x y) (hf : ∀ a b, R a b → S a b) : SameEnd S x y := by
  cases x <;> cases y <;> first | exact absurd h id | exact hf _ _ h | exact h

theorem _root_.Argos.Spec.SameEnd.bind {α β γ δ : Type} {R : α → β → Prop} {S : γ → δ → Prop} {x : Outcome α} {y : Outcome β} {f : α → Outcome γ} {g : β → Outcome δ}
    (h : SameEnd R x y) (hf : ∀ a b, R a b → SameEnd S (f a) (g b)) : SameEnd S (x >>= f) (y >>= g) := by
  cases x <;> cases y <;> first | exact absurd h id | exact hf _ _ h | exact h

theorem _root_.Argos.Spec.SameEnd.refl {α : Type} (x : Outcome α) : SameEnd Eq x x := by cases x <;> first | rfl | trivial

theorem _root_.Argos.Spec.SameEnd.eq {α : Type} {x y : Outcome α} (h : SameEnd Eq x y) : x = y := by
  cases x <;> cases y <;> first | exact absurd h id | (cases h; rfl)

theorem getValueId_node {n n' : PNode} (h : SameNode n n') (s : Str) :
    SameEnd (Corr n.command n'.command) (getValueId n.ids s) (getValueId n'.ids s) := by
  rw [h.ids, h.ids']
  exact h.command.names s

mutual
theorem SameNode.sameValues : (n n' : PNode) → SameNode n n' → SameValues n n'
  | ⟨c, i, v, u, k, st, subs⟩, n', h => by
    refine .intro h.command.name h.code h.unprocessed ?_ ?_ ?_ h.stop (SameNode.sameValuesAll subs n'.subs h.subs)
    · intro s
      exact SameEnd.eq ((getValueId_node h s).bind fun a b hab => h.values.has hab)
    · intro s
      refine (getValueId_node h s).bind fun a b hab => ?_
      have e := h.values.same _ _ hab
      rw [Values.getValue_eq h.values.sorted, Values.getValue_eq h.values.sorted']
      revert e
      generalize Values.entries _ a = x
      generalize Values.entries _ b = y
      intro e
      match x, y, e with
      | [], [], _ => exact rfl
      | [p], [q], e => exact congrArg List.head? e
      | _ :: _ :: _, _ :: _ :: _, _ => exact rfl
      | [_], _ :: _ :: _, e => exact absurd (congrArg List.length e) (by simp)
      | _ :: _ :: _, [_], e => exact absurd (congrArg List.length e) (by simp)
    · intro s
      refine (getValueId_node h s).bind fun a b hab => ?_
      have e := h.values.same _ _ hab
      rw [← Values.getValues_eq h.values.sorted, ← Values.getValues_eq h.values.sorted'] at e
      exact e
theorem SameNode.sameValuesAll : (ns ns' : List PNode) → Each SameNode ns ns' → Each SameValues ns ns'
  | [], _, h => by cases h; exact .nil
  | n :: ns, _, h => by
    cases h with
    | cons h1 h2 => exact .cons (SameNode.sameValues n _ h1) (SameNode.sameValuesAll ns _ h2)
end

/-! ## Methods -/

/-- The parsers are in the same state, in the commands given. -/
structure SameState (c c' : Command) (s s' : PState) : Prop where
  command : s.command = c
  command' : s'.command = c'
  alike : Alike c c'
  settings : s.settings = s'.settings
  iter : s.iter = s'.iter
  mode : s.mode = s'.mode
  calls : s.calls = s'.calls
  counter : SameCounter c c' s.counter s'.counter
  log : Each SameEvent s.log s'.log
  stack : ∃ n n' ns ns', s.stack = n :: ns ∧ s'.stack = n' :: ns' ∧ SameNode n n' ∧ Each SameNode ns ns' ∧ n.command = c ∧ n'.command = c'

/-- The parsers are in the same state, in some commands. -/
def Similar (s s' : PState) : Prop := ∃ c c', SameState c c' s s'

/-- The methods do the same. -/
def Sim (P Q : PState → PState → Prop) {α β : Type} (R : α → β → Prop) (m : ParserM α) (m' : ParserM β) : Prop :=
  ∀ s s', P s s' → SameEnd R (m s).1 (m' s').1 ∧ Q (m s).2 (m' s').2

namespace Sim

variable {α β γ δ : Type} {P Q T : PState → PState → Prop}

theorem bind {R : α → β → Prop} {S : γ → δ → Prop} {m : ParserM α} {m' : ParserM β} {f : α → ParserM γ} {f' : β → ParserM δ} (hm : Sim P Q R m m')
    (hf : ∀ a b, R a b → Sim Q T S (f a) (f' b)) (hT : ∀ s s', Q s s' → T s s' := by exact fun _ _ h => h) : Sim P T S (m >>= f) (m' >>= f') := by
  intro s s' hs
  show SameEnd S (ParserM.bind m f s).1 (ParserM.bind m' f' s').1 ∧ T (ParserM.bind m f s).2 (ParserM.bind m' f' s').2
  have h := hm s s' hs
  simp only [ParserM.bind]
  revert h
  generalize m s = r
  generalize m' s' = r'
  obtain ⟨r, t⟩ := r
  obtain ⟨r', t'⟩ := r'
  rintro ⟨h1, h2⟩
  cases r <;> cases r' <;> first | exact absurd h1 id | exact hf _ _ h1 t t' h2 | exact ⟨h1, hT _ _ h2⟩

theorem pure {R : α → β → Prop} {a : α} {b : β} (h : R a b) : Sim P P R (Pure.pure a) (Pure.pure b) := fun _ _ hs => ⟨h, hs⟩

theorem lift {R : α → β → Prop} {x : Outcome α} {y : Outcome β} (h : SameEnd R x y) : Sim P P R (ParserM.lift x) (ParserM.lift y) := fun _ _ hs => ⟨h, hs⟩

theorem get : Sim P P P ParserM.get ParserM.get := fun _ _ hs => ⟨hs, hs⟩

theorem modify {f f' : PState → PState} (h : ∀ s s', P s s' → Q (f s) (f' s')) : Sim P Q Eq (ParserM.modify f) (ParserM.modify f') :=
  fun _ _ hs => ⟨rfl, h _ _ hs⟩

theorem ite {p p' : Prop} [Decidable p] [Decidable p'] {R : α → β → Prop} {m n : ParserM α} {m' n' : ParserM β} (hp : p ↔ p') (hm : p → Sim P Q R m m')
    (hn : ¬ p → Sim P Q R n n') : Sim P Q R (if p then m else n) (if p' then m' else n') := by
  by_cases h : p
  · rw [if_pos h, if_pos (hp.mp h)]; exact hm h
  · rw [if_neg h, if_neg (fun h' => h (hp.mpr h'))]; exact hn h

theorem weaken {R : α → β → Prop} {m : ParserM α} {m' : ParserM β} (h : Sim P Q R m m') (hT : ∀ s s', Q s s' → T s s') : Sim P T R m m' :=
  fun s s' hs => ⟨(h s s' hs).1, hT _ _ (h s s' hs).2⟩

end Sim

namespace Parser

variable {c c' : Command}

theorem back_alike : Sim (SameState c c') (SameState c c') (fun n n' => SameNode n n' ∧ n.command = c ∧ n'.command = c') back back := by
  intro s s' hs
  obtain ⟨n, n', ns, ns', e1, e2, h1, h2, h3, h4⟩ := hs.stack
  simp only [back, e1, e2]
  exact ⟨⟨h1, h3, h4⟩, hs⟩

theorem modifyBack_alike {f f' : PNode → PNode}
    (hf : ∀ n n', SameNode n n' → n.command = c → n'.command = c' → SameNode (f n) (f' n') ∧ (f n).command = c ∧ (f' n').command = c') :
    Sim (SameState c c') (SameState c c') Eq (modifyBack f) (modifyBack f') := by
  intro s s' hs
  obtain ⟨n, n', ns, ns', e1, e2, h1, h2, h3, h4⟩ := hs.stack
  simp only [modifyBack, e1, e2]
  obtain ⟨g1, g2, g3⟩ := hf n n' h1 h3 h4
  exact ⟨rfl, hs.command, hs.command', hs.alike, hs.settings, hs.iter, hs.mode, hs.calls, hs.counter, hs.log, ⟨_, _, _, _, rfl, rfl, g1, h2, g2, g3⟩⟩

theorem setIter {s s' : PState} (hs : SameState c c' s s') (it : Iter) : SameState c c' { s with iter := it } { s' with iter := it } :=
  ⟨hs.command, hs.command', hs.alike, hs.settings, rfl, hs.mode, hs.calls, hs.counter, hs.log, hs.stack⟩

theorem iterNext_alike : Sim (SameState c c') (SameState c c') Eq iterNext iterNext := by
  intro s s' hs
  simp only [iterNext, ← hs.iter]
  cases s.iter.next <;> first | exact ⟨rfl, setIter hs _⟩ | exact ⟨rfl, hs⟩ | exact ⟨trivial, hs⟩

theorem iterNextValue_alike : Sim (SameState c c') (SameState c c') Eq iterNextValue iterNextValue := by
  intro s s' hs
  simp only [iterNextValue, ← hs.iter]
  cases s.iter.nextValue <;> first | exact ⟨rfl, setIter hs _⟩ | exact ⟨rfl, hs⟩ | exact ⟨trivial, hs⟩

theorem iterRemaining_alike : Sim (SameState c c') (SameState c c') Eq iterRemaining iterRemaining := by
  intro s s' hs
  simp only [iterRemaining, ← hs.iter]
  cases s.iter.remainingArguments <;> first | exact ⟨rfl, setIter hs _⟩ | exact ⟨rfl, hs⟩ | exact ⟨trivial, hs⟩

theorem iterInsert_alike (args : List Str) : Sim (SameState c c') (SameState c c') Eq (iterInsert args) (iterInsert args) := by
  intro s s' hs
  simp only [iterInsert, ← hs.iter]
  cases s.iter.insert args <;> first | exact ⟨rfl, setIter hs _⟩ | exact ⟨rfl, hs⟩ | exact ⟨trivial, hs⟩

theorem iterCurrent_alike : Sim (SameState c c') (SameState c c') Eq iterCurrent iterCurrent := by
  intro s s' hs
  simp only [iterCurrent, ← hs.iter]
  exact ⟨SameEnd.refl _, hs⟩

theorem emit_alike {e e' : Event} (h : SameEvent e e') : Sim (SameState c c') (SameState c c') Eq (emit e) (emit e') :=
  Sim.modify fun _ _ hs =>
    ⟨hs.command, hs.command', hs.alike, hs.settings, hs.iter, hs.mode, hs.calls, hs.counter, Each.append hs.log (.cons h .nil), hs.stack⟩

theorem setMode (m : Mode) : Sim (SameState c c') (SameState c c') Eq (ParserM.modify fun s => { s with mode := m }) (ParserM.modify fun s => { s with mode := m }) :=
  Sim.modify fun _ _ hs => ⟨hs.command, hs.command', hs.alike, hs.settings, hs.iter, rfl, hs.calls, hs.counter, hs.log, hs.stack⟩

theorem setCode_node {n n' : PNode} (h : SameNode n n') (k : ResultCode) : SameNode { n with code := k } { n' with code := k } :=
  .intro h.command h.ids h.ids' h.values h.unprocessed rfl h.stop h.subs

theorem setCodes {s s' : PState} (hs : SameState c c' s s') (k : ResultCode) (m : Mode) :
    SameState c c' { s with stack := s.stack.map fun n => { n with code := k }, mode := m } { s' with stack := s'.stack.map fun n => { n with code := k }, mode := m } := by
  refine ⟨hs.command, hs.command', hs.alike, hs.settings, hs.iter, rfl, hs.calls, hs.counter, hs.log, ?_⟩
  obtain ⟨n, n', ns, ns', e1, e2, h1, h2, h3, h4⟩ := hs.stack
  refine ⟨_, _, _, _, by simp only [e1]; rfl, by simp only [e2]; rfl, setCode_node h1 k, h2.map fun _ _ h => setCode_node h k, h3, h4⟩

theorem findMultiParent_alike {st st' : List PNode} (h : Each SameNode st st') : OptRel (Each SameNode) (findMultiParent st) (findMultiParent st') := by
  cases h with
  | nil => exact .none
  | cons _ h =>
    simp only [findMultiParent]
    induction h with
    | nil => exact .none
    | cons hn h ih =>
      simp only [findMultiParent.go, hn.command.multi]
      split
      · exact .some (.cons hn h)
      · exact ih

/-- The parts of the state that matter for counting arguments. -/
structure CountSame (s s' : PState) : Prop where
  alike : Alike s.command s'.command
  settings : s.settings = s'.settings
  iter : s.iter = s'.iter
  complete : s.counter.isComplete = s'.counter.isComplete
  stack : Each SameNode s.stack s'.stack

theorem stack_each {s s' : PState} (hs : SameState c c' s s') : Each SameNode s.stack s'.stack := by
  obtain ⟨n, n', ns, ns', e1, e2, h1, h2, _⟩ := hs.stack
  rw [e1, e2]
  exact .cons h1 h2

theorem countSame {s s' : PState} (hs : SameState c c' s s') : CountSame s s' :=
  ⟨by rw [hs.command, hs.command']; exact hs.alike, hs.settings, hs.iter, Counter.isComplete_alike hs.counter, stack_each hs⟩

theorem findSibling_alike {s s' : PState} (hs : CountSame s s') (name : Str) :
    OptRel (fun p p' => Alike p.1 p'.1 ∧ p.2 = p'.2) (findSibling s name) (findSibling s' name) := by
  simp only [findSibling, hs.complete, ← hs.settings]
  split
  · exact .none
  · have h := findMultiParent_alike hs.stack
    revert h
    generalize findMultiParent s.stack = a
    generalize findMultiParent s'.stack = b
    intro h
    cases h with
    | none => exact .none
    | some h =>
      cases h with
      | nil => exact .none
      | cons hn h =>
        simp only [h.length_eq]
        exact (findCommand_alike hn.command.commands _ _).map fun x y hxy => ⟨hxy, rfl⟩

theorem countStops_alike {s s' : PState} (hs : CountSame s s') (k r : Nat) (arg : Str) : countStops s k r arg = countStops s' k r arg := by
  simp only [countStops, (findSibling_alike hs arg).isSome, ← hs.settings, (findCommand_alike hs.alike.commands arg _).isSome]

theorem countArgsOnly_alike {s s' : PState} (hs : CountSame s s') (k fuel : Nat) (it : Iter) (r : Nat) :
    countArgsOnly s k fuel it r = countArgsOnly s' k fuel it r := by
  induction fuel generalizing it r with
  | zero => rfl
  | succ fuel ih => simp only [countArgsOnly, countStops_alike hs, ih]

theorem countLoop_alike {s s' : PState} (hs : CountSame s s') (k fuel : Nat) (it : Iter) (r : Nat) : countLoop s k fuel it r = countLoop s' k fuel it r := by
  induction fuel generalizing it r with
  | zero => rfl
  | succ fuel ih =>
    simp only [countLoop, countStops_alike hs, ih, countArgsOnly_alike hs, ← hs.settings]
    cases it.next with
    | ok p =>
      obtain ⟨a, it'⟩ := p
      cases a with
      | none => rfl
      | some arg =>
        simp only []
        have h := findOption_alike (fun _ _ h => h.argument) hs.alike.index arg s.settings.allowAbbreviatedOptions s.settings.caseInsensitive
        revert h
        generalize findOption s.command.optionIndex arg s.settings.allowAbbreviatedOptions s.settings.caseInsensitive = a
        generalize findOption s'.command.optionIndex arg s.settings.allowAbbreviatedOptions s.settings.caseInsensitive = b
        intro h
        cases h with
        | none => rfl
        | some h => simp only [h.argument, h.type]
    | _ => rfl

theorem countArguments_alike {s s' : PState} (hs : CountSame s s') : countArguments s = countArguments s' := by
  simp only [countArguments, countLoop_alike hs, ← hs.iter, Counter.getMinMaxCount_alike hs.alike.arguments]

theorem copyRemaining_alike : Sim (SameState c c') (SameState c c') Eq copyRemaining copyRemaining := by
  refine iterRemaining_alike.bind fun rest _ e => ?_
  subst e
  refine modifyBack_alike fun n n' h h1 h2 => ⟨.intro h.command h.ids h.ids' h.values ?_ h.code h.stop h.subs, h1, h2⟩
  show n.unprocessed ++ rest = n'.unprocessed ++ rest
  rw [h.unprocessed]

/-- Messages that may differ. -/
def SameMessage (msg msg' : Str) : Prop :=
  msg = msg' ∨ (∃ t, msg = b!"Mandatory option is missing: " ++ t) ∧ ∃ t, msg' = b!"Mandatory option is missing: " ++ t

theorem error_alike {msg msg' : Str} (hm : SameMessage msg msg') : Sim (SameState c c') (SameState c c') Eq (error msg) (error msg') := by
  refine Sim.get.bind fun s s' hs => ?_
  refine (emit_alike (e := .error s.command msg) (e' := .error s'.command msg') ⟨by rw [hs.command, hs.command']; exact hs.alike.fullName, hm⟩).bind fun _ _ _ => ?_
  rw [hs.settings]
  refine Sim.ite Iff.rfl (fun _ => Sim.lift rfl) fun _ => ?_
  exact copyRemaining_alike.bind fun _ _ _ => Sim.modify fun t t' ht => setCodes ht _ _

theorem same_error (msg : Str) : Sim (SameState c c') (SameState c c') Eq (error msg) (error msg) := error_alike (.inl rfl)

theorem hasAllMandatory_missing {vs : Values} {os : List OptData} (h : ∃ o ∈ os, o.optional = false ∧ vs.has o.valueId = false) (hf : ∀ o ∈ os, o.flags ≠ []) :
    ∃ t, hasAllMandatory vs os = (do error (b!"Mandatory option is missing: " ++ t); pure false) := by
  induction os with
  | nil => obtain ⟨o, ho, _⟩ := h; simp at ho
  | cons o os ih =>
    simp only [hasAllMandatory]
    by_cases hc : (!o.optional && !vs.has o.valueId) = true
    · rw [if_pos hc]
      have : o.flags.isEmpty = false := by
        have := hf o (by simp)
        cases ho : o.flags with
        | nil => exact absurd ho this
        | cons _ _ => rfl
      rw [this]
      exact ⟨_, rfl⟩
    · rw [if_neg hc]
      refine ih ?_ fun o ho => hf o (by simp [ho])
      obtain ⟨p, hp, h1, h2⟩ := h
      rcases List.mem_cons.mp hp with rfl | hp
      · simp [h1, h2] at hc
      · exact ⟨p, hp, h1, h2⟩

theorem hasAllMandatory_none {vs : Values} {os : List OptData} (h : ¬ ∃ o ∈ os, o.optional = false ∧ vs.has o.valueId = false) :
    hasAllMandatory vs os = pure true := by
  induction os with
  | nil => rfl
  | cons o os ih =>
    simp only [hasAllMandatory]
    rw [if_neg, ih]
    · rintro ⟨p, hp, h1⟩
      exact h ⟨p, by simp [hp], h1⟩
    · intro hc
      refine h ⟨o, by simp, ?_⟩
      revert hc
      cases o.optional <;> cases vs.has o.valueId <;> simp

theorem hasAllMandatory_alike (hc : Alike c c') {vs vs' : Values} (hv : SameStore c c' vs vs') :
    Sim (SameState c c') (SameState c c') Eq (hasAllMandatory vs c.options) (hasAllMandatory vs' c'.options) := by
  have e : (∃ o ∈ c.options, o.optional = false ∧ vs.has o.valueId = false) ↔ ∃ o ∈ c'.options, o.optional = false ∧ vs'.has o.valueId = false := by
    constructor
    · rintro ⟨o, ho, h1, h2⟩
      obtain ⟨o', ho', hs⟩ := hc.options o ho
      exact ⟨o', ho', by rw [← hs.optional, h1], by rw [← hv.has hs.value, h2]⟩
    · rintro ⟨o', ho', h1, h2⟩
      obtain ⟨o, ho, hs⟩ := hc.options' o' ho'
      exact ⟨o, ho, by rw [hs.optional, h1], by rw [hv.has hs.value, h2]⟩
  by_cases h : ∃ o ∈ c.options, o.optional = false ∧ vs.has o.valueId = false
  · obtain ⟨t, h1⟩ := hasAllMandatory_missing h hc.flags
    obtain ⟨t', h2⟩ := hasAllMandatory_missing (e.mp h) hc.flags'
    rw [h1, h2]
    exact (error_alike (.inr ⟨⟨_, rfl⟩, _, rfl⟩)).bind fun _ _ _ => Sim.pure rfl
  · rw [hasAllMandatory_none h, hasAllMandatory_none fun h' => h (e.mpr h')]
    exact Sim.pure rfl

theorem checkCounts_alike : Sim (SameState c c') (SameState c c') Eq checkCounts checkCounts := by
  refine back_alike.bind fun n n' hn => Sim.get.bind fun s s' hs => ?_
  obtain ⟨hn, h1, h2⟩ := hn
  have hv := hn.values
  rw [h1, h2] at hv
  have e4 := Counter.isComplete_alike hs.counter
  rw [hs.command, hs.command', e4, hs.counter.counter, hn.subs.isEmpty, hs.alike.require, Counter.getMinMaxCount_alike hs.alike.arguments]
  refine (hasAllMandatory_alike hs.alike hv).bind fun ok ok' e => ?_
  subst e
  refine Sim.ite Iff.rfl (fun _ => Sim.pure rfl) fun _ => ?_
  cases c'.requireSubcommand with
  | none => exact Sim.lift trivial
  | some req =>
    refine Sim.ite Iff.rfl (fun _ => (same_error _).bind fun _ _ _ => Sim.pure rfl) fun _ => ?_
    refine Sim.ite Iff.rfl (fun _ => ?_) fun _ => (same_error _).bind fun _ _ _ => Sim.pure rfl
    exact Sim.bind (Sim.modify (P := SameState c c') (Q := SameState c c') fun t t' ht => setCodes ht .success .done) fun _ _ _ => Sim.pure rfl

theorem setCounter {s s' : PState} (hs : SameState c c' s s') {k k' : Counter} (hk : SameCounter c c' k k') :
    SameState c c' { s with counter := k } { s' with counter := k' } :=
  ⟨hs.command, hs.command', hs.alike, hs.settings, hs.iter, hs.mode, hs.calls, hk, hs.log, hs.stack⟩

/-- The parsers are in the same state except for the counters of arguments. -/
structure Entering (c c' : Command) (s s' : PState) : Prop where
  command : s.command = c
  command' : s'.command = c'
  countSame : CountSame s s'
  same : ∀ k k', SameCounter c c' k k' → SameState c c' { s with counter := k } { s' with counter := k' }

theorem initCounter_entering {s s' : PState} (hs : Entering c c' s s') :
    SameEnd Eq (initCounter s).1 (initCounter s').1 ∧ ((initCounter s).1 = .ok () → SameState c c' (initCounter s).2 (initCounter s').2) ∧
      ((initCounter s).1 ≠ .ok () → (initCounter s).2 = s ∧ (initCounter s').2 = s') := by
  obtain ⟨rfl, rfl, hcount, hsame⟩ := hs
  have ha := hcount.alike
  simp only [initCounter, Counter.requiresArgumentCount_alike ha.arguments, countArguments_alike hcount]
  split
  · exact ⟨rfl, fun _ => hsame _ _ (Counter.ofArgs_alike ha.arguments), fun h => absurd rfl h⟩
  · cases countArguments s' with
    | ok n => exact ⟨rfl, fun _ => hsame _ _ (Counter.ofArgsN_alike ha.arguments n 0), fun h => absurd rfl h⟩
    | throw m => exact ⟨rfl, fun h => by simp at h, fun _ => ⟨rfl, rfl⟩⟩
    | outOfRange => exact ⟨trivial, fun h => by simp at h, fun _ => ⟨rfl, rfl⟩⟩
    | exit k => exact ⟨rfl, fun h => by simp at h, fun _ => ⟨rfl, rfl⟩⟩
    | ub => exact ⟨trivial, fun h => by simp at h, fun _ => ⟨rfl, rfl⟩⟩
    | diverges => exact ⟨trivial, fun h => by simp at h, fun _ => ⟨rfl, rfl⟩⟩

theorem updateArguments_alike (args : List Str) : Sim (SameState c c') (SameState c c') Eq (updateArguments args) (updateArguments args) := by
  refine Sim.ite Iff.rfl (fun _ => Sim.pure rfl) fun _ => ?_
  refine (iterInsert_alike args).bind fun _ _ _ => Sim.get.bind fun s s' hs => ?_
  rw [countArguments_alike (countSame hs), hs.command, hs.command', Counter.requiresArgumentCount_alike hs.alike.arguments, hs.counter.counter]
  refine Sim.ite Iff.rfl (fun _ => Sim.pure rfl) fun _ => ?_
  refine (Sim.lift (SameEnd.refl _)).bind fun more _ e => ?_
  subst e
  refine Sim.modify fun t t' ht => ?_
  refine setCounter ht ?_
  rw [ht.command, ht.command']
  exact Counter.ofArgsN_alike ht.alike.arguments _ _

theorem apply_alike {op : BuilderOp} (ho : ByName op) {n n' : PNode} (h : SameNode n n') :
    SameEnd (fun r r' => SameNode r.1 r'.1 ∧ r.1.command = n.command ∧ r'.1.command = n'.command ∧ OptRel (Corr n.command n'.command) r.2 r'.2)
      (op.apply n) (op.apply n') := by
  cases op with
  | append name v =>
    refine (getValueId_node h name).bind fun a b hab => ⟨?_, rfl, rfl, .none⟩
    exact .intro h.command h.ids h.ids' (h.values.append h.command hab _ _ _) h.unprocessed h.code h.stop h.subs
  | assign name v =>
    refine (getValueId_node h name).bind fun a b hab => ⟨?_, rfl, rfl, .some hab⟩
    exact .intro h.command h.ids h.ids' (h.values.assign h.command hab _ _ _) h.unprocessed h.code h.stop h.subs
  | clear name =>
    refine (getValueId_node h name).bind fun a b hab => ⟨?_, rfl, rfl, .some hab⟩
    exact .intro h.command h.ids h.ids' (h.values.clear h.command hab) h.unprocessed h.code h.stop h.subs
  | appendTo _ _ _ => exact absurd ho id
  | assignTo _ _ _ => exact absurd ho id
  | clearOf _ => exact absurd ho id

theorem applyOps_alike {vid vid' : Nat} (hv : Corr c c' vid vid') {ops : List BuilderOp} (ho : ∀ op ∈ ops, ByName op) (b : Bool) :
    Sim (SameState c c') (SameState c c') Eq (applyOps vid ops b) (applyOps vid' ops b) := by
  induction ops generalizing b with
  | nil => exact Sim.pure rfl
  | cons op ops ih =>
    intro s s' hs
    obtain ⟨n, n', ns, ns', e1, e2, h1, h2, h3, h4⟩ := hs.stack
    simp only [applyOps, e1, e2]
    have k := apply_alike (ho op (by simp)) h1
    revert k
    generalize op.apply n = x
    generalize op.apply n' = y
    intro k
    cases x <;> cases y <;> first | exact absurd k id | skip
    · rename_i r r'
      obtain ⟨m, t⟩ := r
      obtain ⟨m', t'⟩ := r'
      obtain ⟨k1, k2, k3, k4⟩ := k
      simp only at k1 k2 k3 k4
      have e : (t == some vid) = (t' == some vid') := by
        rw [h3, h4] at k4
        cases k4 with
        | none => rfl
        | some k4 =>
          rw [Bool.eq_iff_iff, beq_iff_eq, beq_iff_eq, Option.some.injEq, Option.some.injEq]
          exact hs.alike.iff k4 hv
      simp only [e]
      refine ih (fun op h => ho op (by simp [h])) _ _ _ ?_
      exact ⟨hs.command, hs.command', hs.alike, hs.settings, hs.iter, hs.mode, hs.calls, hs.counter, hs.log,
        ⟨_, _, _, _, rfl, rfl, k1, h2, k2.trans h3, k3.trans h4⟩⟩
    all_goals exact ⟨k, hs⟩

theorem builderError_alike (msg : Str) : Sim (SameState c c') (SameState c c') Eq (builderError msg) (builderError msg) := by
  refine back_alike.bind fun n n' hn => ?_
  refine (emit_alike (e := .error n.command msg) (e' := .error n'.command msg) ⟨hn.1.command.fullName, .inl rfl⟩).bind fun _ _ _ => Sim.get.bind fun s s' hs => ?_
  rw [hs.settings]
  exact Sim.ite Iff.rfl (fun _ => Sim.lift rfl) fun _ => Sim.lift rfl

theorem runCallback_alike {env : Env} (he : UsesNames env) (cb : Nat) {view view' : ViewRef} (hview : plainView view = plainView view') {vid vid' : Nat}
    (hv : Corr c c' vid vid') (stored : Bool) (value : Option Str) :
    Sim (SameState c c') (SameState c c') Eq (runCallback env cb view vid stored value) (runCallback env cb view' vid' stored value) := by
  refine back_alike.bind fun n n' hn => Sim.get.bind fun s s' hs => ?_
  obtain ⟨e1, e2⟩ := he cb s.calls view view' value n n' hview (SameNode.sameValues n n' hn.1)
  rw [← hs.calls, ← e1]
  refine (Sim.modify (Q := SameState c c') fun t t' ht => ?_).bind fun _ _ _ => ?_
  · exact ⟨ht.command, ht.command', ht.alike, ht.settings, ht.iter, ht.mode, by rw [ht.calls], ht.counter,
      Each.append ht.log (.cons ⟨rfl, hview, rfl⟩ .nil), ht.stack⟩
  · refine (applyOps_alike hv e2 _).bind fun touched _ e => ?_
    subst e
    cases (env.callback cb s.calls view value n).fin with
    | returns => exact (updateArguments_alike _).bind fun _ _ _ => Sim.pure rfl
    | throws m => exact Sim.lift rfl
    | error m => exact (builderError_alike m).bind fun _ _ _ => Sim.pure rfl

theorem runCallbackOpt_alike {env : Env} (he : UsesNames env) (cb : Option Nat) {view view' : ViewRef} (hview : plainView view = plainView view')
    {vid vid' : Nat} (hv : Corr c c' vid vid') (stored : Bool) (value : Option Str) :
    Sim (SameState c c') (SameState c c') Eq (runCallbackOpt env cb view vid stored value) (runCallbackOpt env cb view' vid' stored value) := by
  cases cb with
  | none => exact Sim.pure rfl
  | some cb => exact runCallback_alike he cb hview hv stored value

theorem setValues {f f' : Values → Values} (hf : ∀ vs vs', Alike c c' → SameStore c c' vs vs' → SameStore c c' (f vs) (f' vs')) :
    Sim (SameState c c') (SameState c c') Eq (modifyBack fun n => { n with values := f n.values }) (modifyBack fun n => { n with values := f' n.values }) := by
  refine modifyBack_alike fun n n' h h1 h2 => ⟨.intro h.command h.ids h.ids' ?_ h.unprocessed h.code h.stop h.subs, h1, h2⟩
  have a := h.command
  have b := h.values
  rw [h1, h2] at a b
  show SameStore n.command n'.command (f n.values) (f' n'.values)
  rw [h1, h2]
  exact hf _ _ a b

theorem applyOperation_alike {o o' : OptData} (ho : SameOpt c c' o o') (flag : Str) :
    Sim (SameState c c') (SameState c c') Eq (applyOperation o flag) (applyOperation o' flag) := by
  have hv := ho.value
  simp only [applyOperation, ho.operation, ho.constant]
  have hassign : ∀ x, Sim (SameState c c') (SameState c c') Eq (modifyBack fun n => { n with values := n.values.assign o.valueId x o.argumentId })
      (modifyBack fun n => { n with values := n.values.assign o'.valueId x o'.argumentId }) :=
    fun x => setValues fun vs vs' ha h => h.assign ha hv _ _ _
  have happend : ∀ x, Sim (SameState c c') (SameState c c') Eq (modifyBack fun n => { n with values := n.values.append o.valueId x o.argumentId })
      (modifyBack fun n => { n with values := n.values.append o'.valueId x o'.argumentId }) :=
    fun x => setValues fun vs vs' ha h => h.append ha hv _ _ _
  cases o'.operation with
  | none => exact Sim.pure rfl
  | clear => exact (setValues fun vs vs' ha h => h.clear ha hv).bind fun _ _ _ => Sim.pure rfl
  | assign =>
    refine Sim.ite Iff.rfl (fun _ => (hassign _).bind fun _ _ _ => Sim.pure rfl) fun _ => iterNextValue_alike.bind fun v _ e => ?_
    subst e
    cases v with
    | none => exact (same_error _).bind fun _ _ _ => Sim.pure rfl
    | some v => exact (hassign _).bind fun _ _ _ => Sim.pure rfl
  | append =>
    refine Sim.ite Iff.rfl (fun _ => (happend _).bind fun _ _ _ => Sim.pure rfl) fun _ => iterNextValue_alike.bind fun v _ e => ?_
    subst e
    cases v with
    | none => exact (same_error _).bind fun _ _ _ => Sim.pure rfl
    | some v => exact (happend _).bind fun _ _ _ => Sim.pure rfl

theorem applyType_alike {o o' : OptData} (ho : SameOpt c c' o o') : Sim (SameState c c') (SameState c c') Eq (applyType o) (applyType o') := by
  have hb : Sim (SameState c c') (SameState c c') Eq (modifyBack fun n => { n with code := .stop, stopOption := some o })
      (modifyBack fun n => { n with code := .stop, stopOption := some o' }) := by
    refine modifyBack_alike fun n n' h h1 h2 => ⟨.intro h.command h.ids h.ids' h.values h.unprocessed rfl ?_ h.subs, h1, h2⟩
    exact congrArg some ho.plain
  simp only [applyType, ho.type]
  cases o'.type with
  | normal => exact Sim.pure rfl
  | help =>
    refine Sim.get.bind fun s s' hs => ?_
    refine (emit_alike (e := .help s.command) (e' := .help s'.command) (by rw [hs.command, hs.command']; exact hs.alike.fullName)).bind fun _ _ _ => ?_
    exact (setMode _).bind fun _ _ _ => hb.bind fun _ _ _ => Sim.pure rfl
  | exit => exact (setMode _).bind fun _ _ _ => hb.bind fun _ _ _ => Sim.pure rfl
  | stop => exact (setMode _).bind fun _ _ _ => hb.bind fun _ _ _ => Sim.pure rfl
  | lastArgument => exact (setMode _).bind fun _ _ _ => Sim.pure rfl
  | lastOption => exact (setMode _).bind fun _ _ _ => Sim.pure rfl

theorem processOptionData_alike {env : Env} (he : UsesNames env) {o o' : OptData} (ho : SameOpt c c' o o') (flag : Str) :
    Sim (SameState c c') (SameState c c') Eq (processOptionData env o flag) (processOptionData env o' flag) := by
  have hview : plainView (.opt o) = plainView (.opt o') := congrArg ViewRef.opt ho.plain
  refine (applyOperation_alike ho flag).bind fun r _ e => ?_
  subst e
  cases r with
  | none => exact Sim.pure rfl
  | some p =>
    obtain ⟨value, stored⟩ := p
    simp only [ho.callback]
    refine (runCallbackOpt_alike he o'.callback hview ho.value stored (some value)).bind fun v _ e => ?_
    subst e
    refine Sim.get.bind fun s s' hs => ?_
    rw [hs.settings]
    refine (runCallbackOpt_alike he s'.settings.optionCallback hview ho.value stored v).bind fun v _ e => ?_
    subst e
    refine (applyType_alike ho).bind fun r _ e => ?_
    subst e
    exact Sim.pure rfl

theorem closeFrames_alike (k : Nat) {st st' : List PNode} (h : Each SameNode st st') : Each SameNode (closeFrames k st) (closeFrames k st') := by
  induction k generalizing st st' with
  | zero => exact h
  | succ k ih =>
    match st, st', h with
    | _, _, .nil => exact .nil
    | _, _, .cons h .nil => exact .cons h .nil
    | _, _, .cons h (.cons hp ht) =>
      simp only [closeFrames]
      exact ih (.cons (.intro hp.command hp.ids hp.ids' hp.values hp.unprocessed hp.code hp.stop (Each.append hp.subs (.cons h .nil))) ht)

theorem similar_of {s s' : PState} (h : SameState c c' s s') : Similar s s' := ⟨c, c', h⟩

theorem reactivate_alike (size : Nat) : Sim (SameState c c') Similar Eq (reactivate size) (reactivate size) := by
  intro s s' hs
  have hst := stack_each hs
  have h := closeFrames_alike (s.stack.length - size) hst
  simp only [reactivate, ← hst.length_eq]
  revert h
  generalize closeFrames (s.stack.length - size) s.stack = a
  generalize closeFrames (s.stack.length - size) s'.stack = b
  intro h
  cases h with
  | nil => exact ⟨trivial, similar_of hs⟩
  | cons hn ht =>
    refine ⟨rfl, _, _, rfl, rfl, hn.command, hs.settings, hs.iter, rfl, hs.calls, ⟨.nil, rfl, rfl, rfl⟩, hs.log, ?_⟩
    exact ⟨_, _, _, _, rfl, rfl, hn, ht, rfl, rfl⟩

/-- Results of `next` that are the same except for numbers. -/
inductive SameResult : IterResult → IterResult → Prop
  | argument {a a' : ArgData} {v : Option Str} : plainArg a = plainArg a' → SameResult (.argument a v) (.argument a' v)
  | option {o o' : OptData} {v : Option Str} : plainOpt o = plainOpt o' → SameResult (.option o v) (.option o' v)
  | command {c c' : Command} {v : Str} : Alike c c' → SameResult (.command c v) (.command c' v)
  | done : SameResult .done .done
  | unknown {v : Str} : SameResult (.unknown v) (.unknown v)
  | error : SameResult .error .error

theorem processOption_alike {env : Env} (he : UsesNames env) (flag : Str) : Sim (SameState c c') Similar SameResult (processOption env flag) (processOption env flag) := by
  refine Sim.get.bind (fun s s' hs => ?_) fun _ _ h => similar_of h
  rw [hs.command, hs.command', ← hs.settings]
  have h := findOption_alike (fun _ _ h => h.argument) hs.alike.index flag s.settings.allowAbbreviatedOptions s.settings.caseInsensitive
  revert h
  generalize findOption c.optionIndex flag s.settings.allowAbbreviatedOptions s.settings.caseInsensitive = a
  generalize findOption c'.optionIndex flag s.settings.allowAbbreviatedOptions s.settings.caseInsensitive = b
  intro h
  cases h with
  | @some o o' ho =>
    refine (processOptionData_alike he ho flag).bind (fun p _ e => ?_) fun _ _ h => similar_of h
    subst e
    obtain ⟨res, v⟩ := p
    have hc : Sim (SameState c c') Similar SameResult (copyRemaining >>= fun _ => pure (.option o v)) (copyRemaining >>= fun _ => pure (.option o' v)) :=
      (copyRemaining_alike.bind fun _ _ _ => Sim.pure (.option ho.plain)).weaken fun _ _ h => similar_of h
    have hw : ∀ r r', SameResult r r' → Sim (SameState c c') Similar SameResult (pure r) (pure r') :=
      fun r r' h => (Sim.pure h).weaken fun _ _ h => similar_of h
    cases res with
    | normal => exact hw _ _ (.option ho.plain)
    | error => exact hw _ _ .error
    | stop => exact hc
    | exit => exact Sim.ite Iff.rfl (fun _ => Sim.weaken (Q := SameState c c') (Sim.lift (by exact rfl)) fun _ _ h => similar_of h) fun _ => hc
    | lastArgument =>
      refine checkCounts_alike.bind (fun ok _ e => ?_) fun _ _ h => similar_of h
      subst e
      refine Sim.ite Iff.rfl (fun _ => hw _ _ .error) fun _ => Sim.get.bind (fun t t' ht => ?_) fun _ _ h => similar_of h
      have k := findMultiParent_alike (stack_each ht)
      revert k
      generalize findMultiParent t.stack = x
      generalize findMultiParent t'.stack = y
      intro k
      cases k with
      | none => exact hc
      | some k =>
        simp only [k.length_eq]
        exact (reactivate_alike _).bind fun _ _ _ => Sim.pure (.option ho.plain)
  | none =>
    refine iterCurrent_alike.bind (fun cur _ e => ?_) fun _ _ h => similar_of h
    subst e
    refine Sim.weaken (Q := SameState c c') ?_ fun _ _ h => similar_of h
    refine Sim.ite Iff.rfl (fun _ => (same_error _).bind fun _ _ _ => Sim.pure .error) fun _ => ?_
    refine Sim.bind (modifyBack_alike fun n n' h h1 h2 => ⟨.intro h.command h.ids h.ids' h.values ?_ h.code h.stop h.subs, h1, h2⟩) fun _ _ _ => Sim.pure .unknown
    show n.unprocessed ++ [cur] = n'.unprocessed ++ [cur]
    rw [h.unprocessed]

/-- The methods do the same; if they fail, only what happened until then is compared. -/
def Ends (P : PState → PState → Prop) {α β : Type} (R : α → β → Prop) (m : ParserM α) (m' : ParserM β) : Prop :=
  ∀ s s', P s s' → SameEnd R (m s).1 (m' s').1 ∧ Each SameEvent (m s).2.log (m' s').2.log ∧ (∀ a, (m s).1 = .ok a → Similar (m s).2 (m' s').2)

theorem Ends.of {P Q : PState → PState → Prop} {α β : Type} {R : α → β → Prop} {m : ParserM α} {m' : ParserM β} (h : Sim P Q R m m')
    (hQ : ∀ s s', Q s s' → Similar s s') : Ends P R m m' := by
  intro s s' hs
  obtain ⟨h1, h2⟩ := h s s' hs
  have k := hQ _ _ h2
  refine ⟨h1, ?_, fun _ _ => k⟩
  obtain ⟨_, _, k⟩ := k
  exact k.log

theorem Ends.bind {P Q : PState → PState → Prop} {α β γ δ : Type} {R : α → β → Prop} {S : γ → δ → Prop} {m : ParserM α} {m' : ParserM β}
    {f : α → ParserM γ} {f' : β → ParserM δ} (hm : Sim P Q R m m') (hQ : ∀ s s', Q s s' → Similar s s') (hf : ∀ a b, R a b → Ends Q S (f a) (f' b)) :
    Ends P S (m >>= f) (m' >>= f') := by
  intro s s' hs
  show SameEnd S (ParserM.bind m f s).1 (ParserM.bind m' f' s').1 ∧ Each SameEvent (ParserM.bind m f s).2.log (ParserM.bind m' f' s').2.log ∧
    (∀ a, (ParserM.bind m f s).1 = .ok a → Similar (ParserM.bind m f s).2 (ParserM.bind m' f' s').2)
  have h := hm s s' hs
  simp only [ParserM.bind]
  revert h
  generalize m s = r
  generalize m' s' = r'
  obtain ⟨r, t⟩ := r
  obtain ⟨r', t'⟩ := r'
  rintro ⟨h1, h2⟩
  have k := hQ _ _ h2
  have kl : Each SameEvent t.log t'.log := by
    obtain ⟨_, _, k⟩ := k
    exact k.log
  cases r <;> cases r' <;> first | exact absurd h1 id | exact hf _ _ h1 t t' h2 | exact ⟨h1, kl, fun _ h => by simp at h⟩

theorem Ends.ite {P : PState → PState → Prop} {α β : Type} {p p' : Prop} [Decidable p] [Decidable p'] {R : α → β → Prop} {m n : ParserM α} {m' n' : ParserM β}
    (hp : p ↔ p') (hm : p → Ends P R m m') (hn : ¬ p → Ends P R n n') : Ends P R (if p then m else n) (if p' then m' else n') := by
  by_cases h : p
  · rw [if_pos h, if_pos (hp.mp h)]; exact hm h
  · rw [if_neg h, if_neg (fun h' => h (hp.mpr h'))]; exact hn h

theorem processCommand_alike {d d' : Command} (hd : Alike d d') : Ends Similar SameResult (processCommand d) (processCommand d') := by
  rintro s s' ⟨c, c', hs⟩
  have hst := stack_each hs
  have he : Entering d d' { s with stack := PNode.make d :: s.stack, command := d } { s' with stack := PNode.make d' :: s'.stack, command := d' } := by
    refine ⟨rfl, rfl, ⟨hd, hs.settings, hs.iter, Counter.isComplete_alike hs.counter, .cons (make_alike hd) hst⟩, fun k k' hk => ?_⟩
    exact ⟨rfl, rfl, hd, hs.settings, hs.iter, hs.mode, hs.calls, hk, hs.log, ⟨_, _, _, _, rfl, rfl, make_alike hd, hst, rfl, rfl⟩⟩
  obtain ⟨h1, h2, h3⟩ := initCounter_entering he
  have key : Ends (SameState d d') SameResult (do
      ParserM.modify fun s => { s with mode := .argumentsAndOptions }
      let cur ← iterCurrent
      pure (.command d cur)) (do
      ParserM.modify fun s => { s with mode := .argumentsAndOptions }
      let cur ← iterCurrent
      pure (.command d' cur)) := by
    refine Ends.of (Q := SameState d d') ?_ fun _ _ h => similar_of h
    refine (setMode _).bind fun _ _ _ => iterCurrent_alike.bind fun cur _ e => ?_
    subst e
    exact Sim.pure (.command hd)
  revert h1 h2 h3
  show _ → _ → _ → SameEnd _ (ParserM.bind initCounter _ { s with stack := PNode.make d :: s.stack, command := d }).1
      (ParserM.bind initCounter _ { s' with stack := PNode.make d' :: s'.stack, command := d' }).1 ∧
    Each SameEvent (ParserM.bind initCounter _ { s with stack := PNode.make d :: s.stack, command := d }).2.log
      (ParserM.bind initCounter _ { s' with stack := PNode.make d' :: s'.stack, command := d' }).2.log ∧
    (∀ a, (ParserM.bind initCounter _ { s with stack := PNode.make d :: s.stack, command := d }).1 = .ok a →
      Similar (ParserM.bind initCounter _ { s with stack := PNode.make d :: s.stack, command := d }).2
        (ParserM.bind initCounter _ { s' with stack := PNode.make d' :: s'.stack, command := d' }).2)
  simp only [ParserM.bind]
  generalize initCounter { s with stack := PNode.make d :: s.stack, command := d } = r
  generalize initCounter { s' with stack := PNode.make d' :: s'.stack, command := d' } = r'
  obtain ⟨r, t⟩ := r
  obtain ⟨r', t'⟩ := r'
  intro h1 h2 h3
  simp only at h1 h2 h3
  cases r <;> cases r' <;> first | exact absurd h1 id | skip
  · exact key t t' (h2 rfl)
  all_goals
    obtain ⟨rfl, rfl⟩ := h3 (by simp)
    exact ⟨h1, hs.log, fun _ h => by simp at h⟩

theorem processArgument_alike {env : Env} (he : UsesNames env) (value : Str) :
    Ends (SameState c c') SameResult (processArgument env value) (processArgument env value) := by
  refine Ends.bind Sim.get (fun _ _ h => similar_of h) fun s s' hs => ?_
  have h := findSibling_alike (countSame hs) value
  revert h
  generalize findSibling s value = a
  generalize findSibling s' value = b
  intro h
  cases h with
  | @some p p' h =>
    obtain ⟨d, size⟩ := p
    obtain ⟨d', size'⟩ := p'
    obtain ⟨hd, e⟩ := h
    simp only at e hd
    subst e
    exact Ends.bind (reactivate_alike _) (fun _ _ h => h) fun _ _ _ => processCommand_alike hd
  | none =>
    refine Ends.of (Q := SameState c c') ?_ fun _ _ h => similar_of h
    have h := Counter.nextArgument_alike hs.counter
    revert h
    simp only []
    generalize s.counter.nextArgument = a
    generalize s'.counter.nextArgument = b
    obtain ⟨a, k⟩ := a
    obtain ⟨b, k'⟩ := b
    rintro ⟨h, hk⟩
    have hset : Sim (SameState c c') (SameState c c') Eq (ParserM.modify fun s => { s with counter := k }) (ParserM.modify fun s => { s with counter := k' }) :=
      Sim.modify fun _ _ ht => setCounter ht hk
    cases h with
    | @some a a' ha =>
      have hview : plainView (.arg a) = plainView (.arg a') := congrArg ViewRef.arg ha.plain
      refine hset.bind fun _ _ _ => (setValues fun vs vs' hc h => h.append hc ha.value value _ _).bind fun _ _ _ => ?_
      rw [ha.callback]
      refine (runCallbackOpt_alike he a'.callback hview ha.value true (some value)).bind fun v _ e => ?_
      subst e
      refine Sim.get.bind fun t t' ht => ?_
      rw [ht.settings]
      refine (runCallbackOpt_alike he t'.settings.argumentCallback hview ha.value true v).bind fun v _ e => ?_
      subst e
      exact Sim.pure (.argument ha.plain)
    | none =>
      refine hset.bind fun _ _ _ => ?_
      rw [hs.settings]
      refine Sim.ite Iff.rfl (fun _ => ?_) fun _ => (same_error _).bind fun _ _ _ => Sim.pure .error
      refine Sim.bind (Q := SameState c c') (R := Eq) (modifyBack_alike fun n n' h h1 h2 => ⟨.intro h.command h.ids h.ids' h.values ?_ h.code h.stop h.subs, h1, h2⟩)
        fun _ _ _ => iterCurrent_alike.bind fun cur _ e => ?_
      · show n.unprocessed ++ [value] = n'.unprocessed ++ [value]
        rw [h.unprocessed]
      · subst e
        exact Sim.pure .unknown

theorem next_alike {env : Env} (he : UsesNames env) : Ends Similar SameResult (next env) (next env) := by
  rintro s0 s0' ⟨c, c', hs0⟩
  refine (Ends.bind (P := SameState c c') Sim.get (fun _ _ h => similar_of h) fun s s' hs => ?_ : Ends (SameState c c') SameResult (next env) (next env)) s0 s0' hs0
  rw [hs.mode, hs.settings, hs.command, hs.command']
  have key : ∀ (read : ParserM (Option Str)) (p : Prop) [Decidable p], Sim (SameState c c') (SameState c c') Eq read read →
      Ends (SameState c c') SameResult (do
        let arg ← read
        match arg with
        | none => do
          if (← checkCounts) then pure .done else pure .error
        | some arg =>
          if p ∧ isOption arg s'.settings.optionStyle then processOption env arg
          else if c.commands.isEmpty then processArgument env arg
          else match findCommand c.commands arg s'.settings.caseInsensitive with
            | some c => processCommand c
            | none => do
              error (b!"Unknown command: " ++ arg)
              pure .error) (do
        let arg ← read
        match arg with
        | none => do
          if (← checkCounts) then pure .done else pure .error
        | some arg =>
          if p ∧ isOption arg s'.settings.optionStyle then processOption env arg
          else if c'.commands.isEmpty then processArgument env arg
          else match findCommand c'.commands arg s'.settings.caseInsensitive with
            | some c => processCommand c
            | none => do
              error (b!"Unknown command: " ++ arg)
              pure .error) := by
    intro read p _ hr
    refine Ends.bind hr (fun _ _ h => similar_of h) fun arg _ e => ?_
    subst e
    cases arg with
    | none =>
      refine Ends.of (Q := SameState c c') ?_ fun _ _ h => similar_of h
      refine checkCounts_alike.bind fun ok _ e => ?_
      subst e
      exact Sim.ite Iff.rfl (fun _ => Sim.pure .done) fun _ => Sim.pure .error
    | some arg =>
      refine Ends.ite Iff.rfl (fun _ => Ends.of (processOption_alike he arg) fun _ _ h => h) fun _ => ?_
      refine Ends.ite (by rw [hs.alike.commands.isEmpty]) (fun _ => processArgument_alike he arg) fun _ => ?_
      have h := findCommand_alike hs.alike.commands arg s'.settings.caseInsensitive
      revert h
      generalize findCommand c.commands arg s'.settings.caseInsensitive = a
      generalize findCommand c'.commands arg s'.settings.caseInsensitive = b
      intro h
      cases h with
      | none =>
        exact Ends.of (Q := SameState c c') ((same_error _).bind fun _ _ _ => Sim.pure .error) fun _ _ h => similar_of h
      | some h => exact fun t t' ht => processCommand_alike h t t' (similar_of ht)
  cases s'.mode with
  | error => exact Ends.of (Q := SameState c c') (Sim.lift (by exact rfl)) fun _ _ h => similar_of h
  | done => exact Ends.of (Q := SameState c c') (Sim.pure .done) fun _ _ h => similar_of h
  | argumentsAndOptions => exact key iterNext _ iterNext_alike
  | argumentsOnly => exact key iterNextValue _ iterNextValue_alike

theorem run_alike {env : Env} (he : UsesNames env) (fuel : Nat) : Ends Similar Eq (run env fuel) (run env fuel) := by
  induction fuel with
  | zero => exact Ends.of (Q := Similar) (Sim.lift (by exact trivial)) fun _ _ h => h
  | succ fuel ih =>
    intro s s' hs
    have h := next_alike he s s' hs
    show SameEnd _ (ParserM.bind (next env) _ s).1 (ParserM.bind (next env) _ s').1 ∧
      Each SameEvent (ParserM.bind (next env) _ s).2.log (ParserM.bind (next env) _ s').2.log ∧
      (∀ a, (ParserM.bind (next env) _ s).1 = .ok a → Similar (ParserM.bind (next env) _ s).2 (ParserM.bind (next env) _ s').2)
    simp only [ParserM.bind]
    revert h
    generalize next env s = r
    generalize next env s' = r'
    obtain ⟨r, t⟩ := r
    obtain ⟨r', t'⟩ := r'
    rintro ⟨h1, h2, h3⟩
    simp only at h1 h2 h3
    cases r <;> cases r' <;> first | exact absurd h1 id | skip
    · have k := h3 _ rfl
      cases h1 with
      | done => exact ⟨rfl, h2, fun _ _ => k⟩
      | error => exact ⟨rfl, h2, fun _ _ => k⟩
      | _ => exact ih t t' k
    all_goals exact ⟨h1, h2, fun _ h => by simp at h⟩

theorem topLevel_alike {s s' : PState} (h : Similar s s') : OptRel SameNode (topLevel s) (topLevel s') := by
  obtain ⟨_, _, h⟩ := h
  have hst := stack_each h
  simp only [topLevel, closeAll, ← hst.length_eq]
  exact (closeFrames_alike _ hst).getLast?

/-- Parsers that are alike and start with the same values do the same. -/
theorem parse_alike {env : Env} (he : UsesNames env) {d d' : ParserData} (hc : Alike d.command d'.command) (hset : d.settings = d'.settings)
    (hi : SameStore d.command d'.command (initialValues d.command.options []) (initialValues d'.command.options [])) (args : List Str) (fuel : Nat) :
    SameEnd (OptRel SameNode) (parse env d args fuel).1 (parse env d' args fuel).1 ∧
      Each SameEvent (parse env d args fuel).2.log (parse env d' args fuel).2.log := by
  have hn : SameNode { PNode.make d.command with values := initialValues d.command.options [] }
      { PNode.make d'.command with values := initialValues d'.command.options [] } := .intro hc rfl rfl hi rfl rfl rfl .nil
  have hen : Entering d.command d'.command (startState d args) (startState d' args) := by
    refine ⟨rfl, rfl, ⟨hc, hset, ?_, rfl, .cons hn .nil⟩, fun k k' hk => ?_⟩
    · simp only [startState, hset]
    · refine ⟨rfl, rfl, hc, hset, ?_, rfl, rfl, hk, .nil, ⟨_, _, _, _, rfl, rfl, hn, .nil, rfl, rfl⟩⟩
      simp only [startState, hset]
  obtain ⟨h1, h2, h3⟩ := initCounter_entering hen
  simp only [parse, start]
  revert h1 h2 h3
  generalize initCounter (startState d args) = r
  generalize initCounter (startState d' args) = r'
  obtain ⟨r, t⟩ := r
  obtain ⟨r', t'⟩ := r'
  intro h1 h2 h3
  simp only at h1 h2 h3
  cases r <;> cases r' <;> first | exact absurd h1 id | skip
  · have h := run_alike he fuel t t' ⟨_, _, h2 rfl⟩
    simp only []
    revert h
    generalize run env fuel t = r
    generalize run env fuel t' = r'
    obtain ⟨r, u⟩ := r
    obtain ⟨r', u'⟩ := r'
    rintro ⟨k1, k2, k3⟩
    simp only at k1 k2 k3
    cases r <;> cases r' <;> first | exact absurd k1 id | skip
    · exact ⟨topLevel_alike (k3 _ rfl), k2⟩
    all_goals exact ⟨k1, k2⟩
  all_goals
    obtain ⟨rfl, rfl⟩ := h3 (by simp)
    exact ⟨h1, .nil⟩

end Parser

end Argos
