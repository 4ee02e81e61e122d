import Verif.Proofs.Bare

/-!
# The parser commutes with leaving out what is only shown: the methods of the parser
-/

namespace Argos

open Spec

/-! ## Data -/

theorem bareView_bare (v : ViewRef) : bareView (bareView v) = bareView v := by
  cases v <;> simp only [bareView, bareArg_bare, bareOpt_bare]

mutual
theorem bareNode_bare : (n : PNode) → bareNode (bareNode n) = bareNode n
  | ⟨command, ids, values, unprocessed, code, stopOption, subs⟩ => by
    simp only [bareNode, bareCommand_bare, Option.map_map, Function.comp_def, bareOpt_bare, bareNodes_bare subs]
theorem bareNodes_bare : (ns : List PNode) → bareNodes (bareNodes ns) = bareNodes ns
  | [] => rfl
  | n :: ns => by simp only [bareNodes, bareNode_bare n, bareNodes_bare ns]
end

section
variable (n : PNode)

theorem bareNode_command : (bareNode n).command = bareCommand n.command := by cases n; rfl
theorem bareNode_ids : (bareNode n).ids = n.ids := by cases n; rfl
theorem bareNode_values : (bareNode n).values = n.values := by cases n; rfl
theorem bareNode_unprocessed : (bareNode n).unprocessed = n.unprocessed := by cases n; rfl
theorem bareNode_code : (bareNode n).code = n.code := by cases n; rfl
theorem bareNode_stop : (bareNode n).stopOption = n.stopOption.map bareOpt := by cases n; rfl
theorem bareNode_subs : (bareNode n).subs = n.subs.map bareNode := by cases n; exact bareNodes_eq _

theorem bareNode_eq : bareNode n = ⟨bareCommand n.command, n.ids, n.values, n.unprocessed, n.code, n.stopOption.map bareOpt, n.subs.map bareNode⟩ := by
  cases n
  simp only [bareNode, bareNodes_eq]

end

theorem collectIds_bare (c : Command) : collectIds (bareCommand c) = collectIds c := by
  simp only [collectIds, bareCommand_arguments, bareCommand_options, List.flatMap_map]
  rfl

theorem makeIds_bare (c : Command) : makeIds (bareCommand c) = makeIds c := by
  simp only [makeIds, collectIds_bare]

theorem make_bare (c : Command) : PNode.make (bareCommand c) = bareNode (PNode.make c) := by
  simp only [PNode.make, makeIds_bare, bareNode, bareNodes, Option.map_none]

/-! ## Counters -/

/-- A count with its argument. -/
def bareCount (p : Nat × ArgData) : Nat × ArgData := (p.1, bareArg p.2)

/-- A counter without what is only shown. -/
def bareCounter (c : Counter) : Counter := { c with counters := c.counters.map bareCount }

namespace Counter

theorem findFirstOptionalLoop_bare (as : List ArgData) (i r : Nat) : findFirstOptionalLoop (as.map bareArg) i r = findFirstOptionalLoop as i r := by
  induction as generalizing i r with
  | nil => rfl
  | cons a as ih => simp only [findFirstOptionalLoop, List.map_cons, ih]; rfl

theorem makeCountersLoop_bare (k : Nat) (as : List ArgData) (i : Nat) : makeCountersLoop k (as.map bareArg) i = (makeCountersLoop k as i).map bareCount := by
  induction as generalizing i with
  | nil => rfl
  | cons a as ih =>
    have e1 : (bareArg a).minCount = a.minCount := rfl
    have e2 : (bareArg a).maxCount = a.maxCount := rfl
    simp only [makeCountersLoop, List.map_cons, ih, e1, e2]
    split <;> rfl

theorem minMaxLoop_bare (as : List ArgData) (lo hi : Nat) : minMaxLoop (as.map bareArg) lo hi = minMaxLoop as lo hi := by
  induction as generalizing lo hi with
  | nil => rfl
  | cons a as ih => simp only [minMaxLoop, List.map_cons, ih]; rfl

theorem getMinMaxCount_bare (as : List ArgData) : getMinMaxCount (as.map bareArg) = getMinMaxCount as := minMaxLoop_bare as 0 0

theorem distribute_bare (as : List ArgData) (n : Nat) : distribute (as.map bareArg) n = (distribute as n).map bareCount := by
  induction as generalizing n with
  | nil => rfl
  | cons a as ih =>
    have e1 : (bareArg a).minCount = a.minCount := rfl
    have e2 : (bareArg a).maxCount = a.maxCount := rfl
    simp only [distribute, List.map_cons, ih, e1, e2]
    repeat' split
    all_goals rfl

theorem makeCountersN_bare (as : List ArgData) (n : Nat) : makeCountersN (as.map bareArg) n = (makeCountersN as n).map bareCount := by
  simp only [makeCountersN, getMinMaxCount_bare, distribute_bare]

theorem ofArgs_bare (as : List ArgData) : ofArgs (as.map bareArg) = bareCounter (ofArgs as) := by
  simp only [ofArgs, bareCounter, findFirstOptional, findFirstOptionalLoop_bare, makeCountersLoop_bare]

theorem leadingZeros_bare (l : List (Nat × ArgData)) : leadingZeros (l.map bareCount) = leadingZeros l := by
  induction l with
  | nil => rfl
  | cons p l ih =>
    obtain ⟨n, a⟩ := p
    cases n with
    | zero => simp only [List.map_cons, bareCount, leadingZeros, ih]
    | succ n => rfl

theorem nextArgument_bare (c : Counter) : (bareCounter c).nextArgument = ((c.nextArgument).1.map bareArg, bareCounter (c.nextArgument).2) := by
  have e : (bareCounter c).counters = c.counters.map bareCount := rfl
  simp only [nextArgument, e]
  rw [← List.map_drop, leadingZeros_bare, List.getElem?_map]
  have e2 : (bareCounter c).index = c.index := rfl
  rw [e2]
  cases c.counters[c.index + leadingZeros (c.counters.drop c.index)]? with
  | none => rfl
  | some p =>
    simp only [Option.map_some, bareCounter, bareCount, List.map_set]

theorem skip_bare (c : Counter) (n : Nat) : skip (bareCounter c) n = bareCounter (skip c n) := by
  induction n generalizing c with
  | zero => rfl
  | succ n ih =>
    simp only [skip, nextArgument_bare]
    cases h : c.nextArgument with
    | mk a c' => cases a <;> simp only [Option.map_none, Option.map_some, ih]

theorem ofArgsN_bare (as : List ArgData) (n i : Nat) : ofArgsN (as.map bareArg) n i = bareCounter (ofArgsN as n i) := by
  simp only [ofArgsN, makeCountersN_bare, ← skip_bare, List.length_map]
  rfl

theorem isComplete_bare (c : Counter) : (bareCounter c).isComplete = c.isComplete := by
  have e : (bareCounter c).counters = c.counters.map bareCount := rfl
  simp only [isComplete, e, List.getElem?_map, Option.map_map]
  rfl

theorem requiresArgumentCountLoop_bare (as : List ArgData) (b : Bool) : requiresArgumentCountLoop (as.map bareArg) b = requiresArgumentCountLoop as b := by
  induction as generalizing b with
  | nil => rfl
  | cons a as ih => simp only [requiresArgumentCountLoop, List.map_cons, ih]; rfl

theorem requiresArgumentCount_bare (as : List ArgData) : requiresArgumentCount (as.map bareArg) = requiresArgumentCount as := requiresArgumentCountLoop_bare as true

end Counter

/-! ## Methods -/

/-- The state of the parser without what is only shown. -/
def bareState (s : PState) : PState :=
  { s with command := bareCommand s.command, stack := s.stack.map bareNode, counter := bareCounter s.counter, log := s.log.map bareEvent }

/-- The second method does what the first one does, without what is only shown. -/
def Commutes {α β : Type} (g : α → β) (m : ParserM α) (m' : ParserM β) : Prop := ∀ s, m' (bareState s) = ((m s).1.mapOk g, bareState (m s).2)

namespace Commutes

variable {α β γ δ : Type}

theorem bind {g : α → β} {h : γ → δ} {m : ParserM α} {m' : ParserM β} {f : α → ParserM γ} {f' : β → ParserM δ} (hm : Commutes g m m')
    (hf : ∀ a, Commutes h (f a) (f' (g a))) : Commutes h (m >>= f) (m' >>= f') := by
  intro s
  show ParserM.bind m' f' (bareState s) = ((ParserM.bind m f s).1.mapOk h, bareState (ParserM.bind m f s).2)
  simp only [ParserM.bind, hm s]
  cases h : m s with
  | mk r s' =>
    cases r with
    | ok a => exact hf a s'
    | _ => rfl

theorem pure {g : α → β} (a : α) : Commutes g (pure a) (Pure.pure (g a)) := fun _ => rfl

theorem lift {g : α → β} (x : Outcome α) : Commutes g (ParserM.lift x) (ParserM.lift (x.mapOk g)) := fun _ => rfl

theorem lift' {g : α → β} {x : Outcome α} {y : Outcome β} (h : y = x.mapOk g) : Commutes g (ParserM.lift x) (ParserM.lift y) := by
  subst h; exact lift x

theorem get : Commutes bareState ParserM.get ParserM.get := fun _ => rfl

theorem modify {f f' : PState → PState} (h : ∀ s, f' (bareState s) = bareState (f s)) : Commutes (fun x => x) (ParserM.modify f) (ParserM.modify f') := by
  intro s
  simp only [ParserM.modify, h]
  rfl

theorem ite {c c' : Prop} [Decidable c] [Decidable c'] {g : α → β} {m n : ParserM α} {m' n' : ParserM β} (hc : c' ↔ c) (hm : c → Commutes g m m')
    (hn : ¬ c → Commutes g n n') : Commutes g (if c then m else n) (if c' then m' else n') := by
  by_cases h : c
  · rw [if_pos h, if_pos (hc.mpr h)]
    exact hm h
  · rw [if_neg h, if_neg (fun h' => h (hc.mp h'))]
    exact hn h

end Commutes

namespace Parser

theorem back_bare : Commutes bareNode back back := by
  intro s
  cases h : s.stack with
  | nil => simp [back, bareState, h, Outcome.mapOk]
  | cons n ns => simp [back, bareState, h, Outcome.mapOk]

theorem modifyBack_bare {f f' : PNode → PNode} (hf : ∀ n, f' (bareNode n) = bareNode (f n)) : Commutes (fun x => x) (modifyBack f) (modifyBack f') := by
  intro s
  cases h : s.stack with
  | nil => simp [modifyBack, bareState, h, Outcome.mapOk]
  | cons n ns => simp [modifyBack, bareState, h, Outcome.mapOk, hf]

theorem iterNext_bare : Commutes (fun x => x) iterNext iterNext := by
  intro s
  simp only [iterNext]
  show (match s.iter.next with | .ok (a, it) => _ | .throw m => _ | .outOfRange => _ | .exit c => _ | .ub => _ | .diverges => _) = _
  cases s.iter.next <;> rfl

theorem iterNextValue_bare : Commutes (fun x => x) iterNextValue iterNextValue := by
  intro s
  simp only [iterNextValue]
  show (match s.iter.nextValue with | .ok (a, it) => _ | .throw m => _ | .outOfRange => _ | .exit c => _ | .ub => _ | .diverges => _) = _
  cases s.iter.nextValue <;> rfl

theorem iterRemaining_bare : Commutes (fun x => x) iterRemaining iterRemaining := by
  intro s
  simp only [iterRemaining]
  show (match s.iter.remainingArguments with | .ok (a, it) => _ | .throw m => _ | .outOfRange => _ | .exit c => _ | .ub => _ | .diverges => _) = _
  cases s.iter.remainingArguments <;> rfl

theorem iterInsert_bare (args : List Str) : Commutes (fun x => x) (iterInsert args) (iterInsert args) := by
  intro s
  simp only [iterInsert]
  show (match s.iter.insert args with | .ok it => _ | .throw m => _ | .outOfRange => _ | .exit c => _ | .ub => _ | .diverges => _) = _
  cases s.iter.insert args <;> rfl

theorem iterCurrent_bare : Commutes (fun x => x) iterCurrent iterCurrent := by
  intro s
  show (s.iter.current, _) = _
  simp only [iterCurrent]
  cases s.iter.current <;> rfl

theorem emit_bare (e : Event) : Commutes (fun x => x) (emit e) (emit (bareEvent e)) := by
  refine Commutes.modify fun s => ?_
  simp [bareState]

theorem findMultiParent_go_bare (st : List PNode) : findMultiParent.go (st.map bareNode) = (findMultiParent.go st).map (·.map bareNode) := by
  induction st with
  | nil => rfl
  | cons p ps ih =>
    simp only [findMultiParent.go, List.map_cons, bareNode_command, bareCommand_multi, ih]
    split <;> rfl

theorem findMultiParent_bare (st : List PNode) : findMultiParent (st.map bareNode) = (findMultiParent st).map (·.map bareNode) := by
  cases st with
  | nil => rfl
  | cons p ps => exact findMultiParent_go_bare ps

theorem findSibling_bare (s : PState) (name : Str) : findSibling (bareState s) name = (findSibling s name).map fun r => (bareCommand r.1, r.2) := by
  simp only [findSibling, bareState, Counter.isComplete_bare, findMultiParent_bare]
  split
  · rfl
  · cases findMultiParent s.stack with
    | none => rfl
    | some st =>
      cases st with
      | nil => rfl
      | cons p ps =>
        simp only [Option.map_some, List.map_cons, bareNode_command, bareCommand_commands, findCommand_bare, List.length_map, Option.map_map]
        rfl

theorem countStops_bare (s : PState) (k r : Nat) (arg : Str) : countStops (bareState s) k r arg = countStops s k r arg := by
  simp only [countStops, findSibling_bare]
  simp only [bareState, bareCommand_commands, findCommand_bare, Option.isSome_map]

theorem countArgsOnly_bare (s : PState) (k fuel : Nat) (it : Iter) (r : Nat) : countArgsOnly (bareState s) k fuel it r = countArgsOnly s k fuel it r := by
  induction fuel generalizing it r with
  | zero => rfl
  | succ fuel ih => simp only [countArgsOnly, countStops_bare, ih]

theorem countLoop_bare (s : PState) (k fuel : Nat) (it : Iter) (r : Nat) : countLoop (bareState s) k fuel it r = countLoop s k fuel it r := by
  induction fuel generalizing it r with
  | zero => rfl
  | succ fuel ih =>
    simp only [countLoop, countStops_bare, ih, countArgsOnly_bare]
    simp only [bareState, bareCommand_index, findOption_bare]
    cases it.next with
    | ok p =>
      obtain ⟨a, it'⟩ := p
      cases a with
      | none => rfl
      | some arg =>
        simp only []
        cases findOption s.command.optionIndex arg s.settings.allowAbbreviatedOptions s.settings.caseInsensitive with
        | none => rfl
        | some o =>
          simp only [Option.map_some, bareOpt_argument]
          rfl
    | _ => rfl

theorem countArguments_bare (s : PState) : countArguments (bareState s) = countArguments s := by
  simp only [countArguments, countLoop_bare]
  simp only [bareState, bareCommand_arguments, Counter.getMinMaxCount_bare]

theorem copyRemaining_bare : Commutes (fun x => x) copyRemaining copyRemaining := by
  refine iterRemaining_bare.bind fun rest => modifyBack_bare fun n => ?_
  simp only [bareNode_eq]

theorem error_bare (msg : Str) : Commutes (fun x => x) (error msg) (error msg) := by
  refine Commutes.get.bind fun s => ?_
  refine (emit_bare (.error s.command msg)).bind fun _ => ?_
  refine Commutes.ite Iff.rfl (fun _ => Commutes.lift' rfl) fun _ => ?_
  refine copyRemaining_bare.bind fun _ => Commutes.modify fun s => ?_
  simp only [bareState, List.map_map]
  congr 1
  refine List.map_congr_left fun n _ => ?_
  simp only [Function.comp, bareNode_eq]

theorem hasAllMandatory_bare (vs : Values) (os : List OptData) : Commutes (fun x => x) (hasAllMandatory vs os) (hasAllMandatory vs (os.map bareOpt)) := by
  induction os with
  | nil => exact Commutes.pure (g := fun x => x) true
  | cons o os ih =>
    simp only [hasAllMandatory, List.map_cons]
    refine Commutes.ite Iff.rfl (fun _ => ?_) fun _ => ih
    refine Commutes.ite Iff.rfl (fun _ => Commutes.lift' rfl) fun _ => ?_
    exact (error_bare _).bind fun _ => Commutes.pure (g := fun x => x) false

theorem checkCounts_bare : Commutes (fun x => x) checkCounts checkCounts := by
  refine back_bare.bind fun n => Commutes.get.bind fun s => ?_
  have e1 : (bareState s).command.options = s.command.options.map bareOpt := bareCommand_options _
  have e2 : (bareState s).command.requireSubcommand = s.command.requireSubcommand := bareCommand_require _
  have e3 : (bareState s).command.arguments = s.command.arguments.map bareArg := bareCommand_arguments _
  have e4 : (bareState s).counter.isComplete = s.counter.isComplete := Counter.isComplete_bare _
  have e5 : (bareState s).counter.counter = s.counter.counter := rfl
  simp only [bareNode_values, e1, e2, e3, e4, e5, bareNode_subs, List.isEmpty_map, Counter.getMinMaxCount_bare]
  refine (hasAllMandatory_bare _ _).bind fun ok => ?_
  refine Commutes.ite Iff.rfl (fun _ => Commutes.pure (g := fun x => x) false) fun _ => ?_
  cases s.command.requireSubcommand with
  | none => exact Commutes.lift' rfl
  | some req =>
    refine Commutes.ite Iff.rfl (fun _ => (error_bare _).bind fun _ => Commutes.pure (g := fun x => x) false) fun _ => ?_
    refine Commutes.ite Iff.rfl (fun _ => ?_) fun _ => (error_bare _).bind fun _ => Commutes.pure (g := fun x => x) false
    refine Commutes.bind (g := fun x => x) (Commutes.modify fun s => ?_) fun _ => Commutes.pure (g := fun x => x) true
    simp only [bareState, List.map_map]
    congr 1
    refine List.map_congr_left fun n _ => ?_
    simp only [Function.comp, bareNode_eq]

theorem initCounter_bare : Commutes (fun x => x) initCounter initCounter := by
  intro s
  have e3 : (bareState s).command.arguments = s.command.arguments.map bareArg := bareCommand_arguments _
  simp only [initCounter, e3, Counter.requiresArgumentCount_bare, countArguments_bare, Counter.ofArgs_bare, Counter.ofArgsN_bare]
  split
  · rfl
  · cases countArguments s <;> rfl

theorem updateArguments_bare (args : List Str) : Commutes (fun x => x) (updateArguments args) (updateArguments args) := by
  refine Commutes.ite Iff.rfl (fun _ => Commutes.pure (g := fun x => x) ()) fun _ => ?_
  refine (iterInsert_bare args).bind fun _ => Commutes.get.bind fun s => ?_
  have e3 : (bareState s).command.arguments = s.command.arguments.map bareArg := bareCommand_arguments _
  simp only [e3, Counter.requiresArgumentCount_bare, countArguments_bare]
  refine Commutes.ite Iff.rfl (fun _ => Commutes.pure (g := fun x => x) ()) fun _ => ?_
  refine Commutes.bind (g := fun x => x) (Commutes.lift' (by cases countArguments s <;> rfl)) fun more => Commutes.modify fun t => ?_
  have e3 : (bareState t).command.arguments = t.command.arguments.map bareArg := bareCommand_arguments _
  have e5 : (bareState s).counter.counter = s.counter.counter := rfl
  simp only [e3, e5, Counter.ofArgsN_bare]
  rfl

theorem apply_bare (op : BuilderOp) (n : PNode) : op.apply (bareNode n) = (op.apply n).mapOk fun r => (bareNode r.1, r.2) := by
  cases op <;> simp only [BuilderOp.apply, bareNode_ids, bareNode_values, Outcome.mapOk_bind, Outcome.pure_eq, Outcome.mapOk_ok, bareNode_eq]

theorem applyOps_bare (vid : Nat) (ops : List BuilderOp) (b : Bool) : Commutes (fun x => x) (applyOps vid ops b) (applyOps vid ops b) := by
  induction ops generalizing b with
  | nil => exact Commutes.pure (g := fun x => x) b
  | cons op ops ih =>
    intro s
    simp only [applyOps]
    cases h : s.stack with
    | nil => simp [bareState, h, Outcome.mapOk]
    | cons n ns =>
      have e : (bareState s).stack = bareNode n :: ns.map bareNode := by simp [bareState, h]
      simp only [e, apply_bare]
      cases op.apply n with
      | ok p =>
        obtain ⟨n', t⟩ := p
        have := ih (b || t == some vid) { s with stack := n' :: ns }
        exact this
      | _ => rfl

theorem builderError_bare (msg : Str) : Commutes (fun x => x) (builderError msg) (builderError msg) := by
  refine back_bare.bind fun n => ?_
  have e : Event.error (bareNode n).command msg = bareEvent (.error n.command msg) := by rw [bareNode_command]; rfl
  rw [e]
  refine (emit_bare _).bind fun _ => Commutes.get.bind fun s => ?_
  exact Commutes.ite Iff.rfl (fun _ => Commutes.lift' rfl) fun _ => Commutes.lift' rfl

theorem runCallback_bare {env : Env} (he : Unseeing env) (cb : Nat) (view : ViewRef) (vid : Nat) (stored : Bool) (value : Option Str) :
    Commutes (fun x => x) (runCallback env cb view vid stored value) (runCallback env cb (bareView view) vid stored value) := by
  refine back_bare.bind fun n => Commutes.get.bind fun s => ?_
  have e1 : (bareState s).calls = s.calls := rfl
  have e2 : env.callback cb s.calls (bareView view) value (bareNode n) = env.callback cb s.calls view value n :=
    he _ _ _ _ _ _ _ (bareView_bare view) (bareNode_bare n)
  simp only [e1, e2, bareNode_values]
  refine Commutes.bind (g := fun x => x) (Commutes.modify fun t => ?_) fun _ => ?_
  · simp [bareState, bareEvent]
  · refine (applyOps_bare _ _ _).bind fun touched => ?_
    cases (env.callback cb s.calls view value n).fin with
    | returns => exact (updateArguments_bare _).bind fun _ => Commutes.pure (g := fun x => x) _
    | throws m => exact Commutes.lift' rfl
    | error m => exact (builderError_bare m).bind fun _ => Commutes.pure (g := fun x => x) _

theorem runCallbackOpt_bare {env : Env} (he : Unseeing env) (cb : Option Nat) (view : ViewRef) (vid : Nat) (stored : Bool) (value : Option Str) :
    Commutes (fun x => x) (runCallbackOpt env cb view vid stored value) (runCallbackOpt env cb (bareView view) vid stored value) := by
  cases cb with
  | none => exact Commutes.pure (g := fun x => x) value
  | some cb => exact runCallback_bare he cb view vid stored value

theorem applyOperation_bare (o : OptData) (flag : Str) : Commutes (fun x => x) (applyOperation o flag) (applyOperation (bareOpt o) flag) := by
  have e1 : (bareOpt o).operation = o.operation := rfl
  have e2 : (bareOpt o).constant = o.constant := rfl
  have e3 : (bareOpt o).valueId = o.valueId := rfl
  have e4 : (bareOpt o).argumentId = o.argumentId := rfl
  simp only [applyOperation, e1, e2, e3, e4]
  cases o.operation with
  | none => exact Commutes.pure (g := fun x => x) _
  | clear =>
    refine Commutes.bind (modifyBack_bare fun n => ?_) fun _ => Commutes.pure (g := fun x => x) _
    simp only [bareNode_eq]
  | assign =>
    refine Commutes.ite Iff.rfl (fun _ => ?_) fun _ => ?_
    · refine Commutes.bind (modifyBack_bare fun n => ?_) fun _ => Commutes.pure (g := fun x => x) _
      simp only [bareNode_eq]
    · refine iterNextValue_bare.bind fun v => ?_
      cases v with
      | none => exact (error_bare _).bind fun _ => Commutes.pure (g := fun x => x) _
      | some v =>
        refine Commutes.bind (modifyBack_bare fun n => ?_) fun _ => Commutes.pure (g := fun x => x) _
        simp only [bareNode_eq]
  | append =>
    refine Commutes.ite Iff.rfl (fun _ => ?_) fun _ => ?_
    · refine Commutes.bind (modifyBack_bare fun n => ?_) fun _ => Commutes.pure (g := fun x => x) _
      simp only [bareNode_eq]
    · refine iterNextValue_bare.bind fun v => ?_
      cases v with
      | none => exact (error_bare _).bind fun _ => Commutes.pure (g := fun x => x) _
      | some v =>
        refine Commutes.bind (modifyBack_bare fun n => ?_) fun _ => Commutes.pure (g := fun x => x) _
        simp only [bareNode_eq]

theorem applyType_bare (o : OptData) : Commutes (fun x => x) (applyType o) (applyType (bareOpt o)) := by
  have e1 : (bareOpt o).type = o.type := rfl
  have hm : ∀ m : Mode, Commutes (fun x => x) (ParserM.modify fun s => { s with mode := m }) (ParserM.modify fun s => { s with mode := m }) :=
    fun m => Commutes.modify fun _ => rfl
  have hb : Commutes (fun x => x) (modifyBack fun n => { n with code := .stop, stopOption := some o })
      (modifyBack fun n => { n with code := .stop, stopOption := some (bareOpt o) }) := modifyBack_bare fun n => by simp only [bareNode_eq, Option.map_some]
  simp only [applyType, e1]
  cases o.type with
  | normal => exact Commutes.pure (g := fun x => x) _
  | help =>
    refine Commutes.get.bind fun s => (emit_bare (.help s.command)).bind fun _ => (hm _).bind fun _ => hb.bind fun _ => Commutes.pure (g := fun x => x) _
  | exit => exact (hm _).bind fun _ => hb.bind fun _ => Commutes.pure (g := fun x => x) _
  | stop => exact (hm _).bind fun _ => hb.bind fun _ => Commutes.pure (g := fun x => x) _
  | lastArgument => exact (hm _).bind fun _ => Commutes.pure (g := fun x => x) _
  | lastOption => exact (hm _).bind fun _ => Commutes.pure (g := fun x => x) _

theorem processOptionData_bare {env : Env} (he : Unseeing env) (o : OptData) (flag : Str) :
    Commutes (fun x => x) (processOptionData env o flag) (processOptionData env (bareOpt o) flag) := by
  refine (applyOperation_bare o flag).bind fun r => ?_
  cases r with
  | none => exact Commutes.pure (g := fun x => x) _
  | some p =>
    obtain ⟨value, stored⟩ := p
    refine (runCallbackOpt_bare he o.callback (.opt o) o.valueId stored (some value)).bind fun v => Commutes.get.bind fun s => ?_
    refine (runCallbackOpt_bare he s.settings.optionCallback (.opt o) o.valueId stored v).bind fun v => ?_
    exact (applyType_bare o).bind fun r => Commutes.pure (g := fun x => x) _

theorem closeFrames_bare (k : Nat) (st : List PNode) : closeFrames k (st.map bareNode) = (closeFrames k st).map bareNode := by
  induction k generalizing st with
  | zero => rfl
  | succ k ih =>
    match st with
    | [] => rfl
    | [n] => rfl
    | n :: p :: st =>
      have := ih ({ p with subs := p.subs ++ [n] } :: st)
      rw [closeFrames, ← this]
      simp only [List.map_cons, closeFrames, bareNode_eq, List.map_append, List.map_nil]

theorem reactivate_bare (size : Nat) : Commutes (fun x => x) (reactivate size) (reactivate size) := by
  intro s
  have e : (bareState s).stack = s.stack.map bareNode := rfl
  simp only [reactivate, e, List.length_map, closeFrames_bare]
  cases closeFrames (s.stack.length - size) s.stack with
  | nil => rfl
  | cons n ns =>
    simp only [List.map_cons, bareNode_command]
    rfl

theorem processOption_bare {env : Env} (he : Unseeing env) (flag : Str) : Commutes bareResult (processOption env flag) (processOption env flag) := by
  refine Commutes.get.bind fun s => ?_
  have e : (bareState s).command.optionIndex = s.command.optionIndex.map barePair := bareCommand_index _
  have es : (bareState s).settings = s.settings := rfl
  simp only [e, es, findOption_bare]
  cases findOption s.command.optionIndex flag s.settings.allowAbbreviatedOptions s.settings.caseInsensitive with
  | some o =>
    refine (processOptionData_bare he o flag).bind fun p => ?_
    obtain ⟨res, v⟩ := p
    have hc : Commutes bareResult (copyRemaining >>= fun _ => pure (.option o v)) (copyRemaining >>= fun _ => pure (.option (bareOpt o) v)) :=
      copyRemaining_bare.bind fun _ => Commutes.pure _
    cases res with
    | normal => exact Commutes.pure _
    | error => exact Commutes.pure _
    | stop => exact hc
    | exit => exact Commutes.ite Iff.rfl (fun _ => Commutes.lift' rfl) fun _ => hc
    | lastArgument =>
      refine checkCounts_bare.bind fun ok => Commutes.ite Iff.rfl (fun _ => Commutes.pure _) fun _ => Commutes.get.bind fun t => ?_
      have et : (bareState t).stack = t.stack.map bareNode := rfl
      simp only [et, findMultiParent_bare]
      cases findMultiParent t.stack with
      | none => exact hc
      | some st =>
        simp only [Option.map_some, List.length_map]
        exact (reactivate_bare _).bind fun _ => Commutes.pure _
  | none =>
    refine iterCurrent_bare.bind fun cur => ?_
    refine Commutes.ite Iff.rfl (fun _ => (error_bare _).bind fun _ => Commutes.pure _) fun _ => ?_
    refine Commutes.bind (modifyBack_bare fun n => ?_) fun _ => Commutes.pure _
    simp only [bareNode_eq]

theorem processCommand_bare (c : Command) : Commutes bareResult (processCommand c) (processCommand (bareCommand c)) := by
  refine Commutes.bind (g := fun x => x) (Commutes.modify fun s => ?_) fun _ => ?_
  · simp only [bareState, make_bare, List.map_cons]
  · refine initCounter_bare.bind fun _ => ?_
    refine Commutes.bind (g := fun x => x) (Commutes.modify fun s => rfl) fun _ => ?_
    exact iterCurrent_bare.bind fun cur => Commutes.pure _

theorem processArgument_bare {env : Env} (he : Unseeing env) (value : Str) : Commutes bareResult (processArgument env value) (processArgument env value) := by
  refine Commutes.get.bind fun s => ?_
  have es : (bareState s).settings = s.settings := rfl
  have ec : (bareState s).counter = bareCounter s.counter := rfl
  simp only [findSibling_bare, es, ec, Counter.nextArgument_bare]
  cases findSibling s value with
  | some p =>
    obtain ⟨c, size⟩ := p
    exact (reactivate_bare size).bind fun _ => processCommand_bare c
  | none =>
    simp only [Option.map_none]
    cases s.counter.nextArgument with
    | mk a counter' =>
      cases a with
      | some a =>
        simp only [Option.map_some]
        refine Commutes.bind (g := fun x => x) (Commutes.modify fun s => rfl) fun _ => ?_
        refine Commutes.bind (modifyBack_bare fun n => ?_) fun _ => ?_
        · simp only [bareNode_eq]
          rfl
        · refine (runCallbackOpt_bare he a.callback (.arg a) a.valueId true (some value)).bind fun v => Commutes.get.bind fun t => ?_
          exact (runCallbackOpt_bare he t.settings.argumentCallback (.arg a) a.valueId true v).bind fun v => Commutes.pure _
      | none =>
        simp only [Option.map_none]
        refine Commutes.bind (g := fun x => x) (Commutes.modify fun s => rfl) fun _ => ?_
        refine Commutes.ite Iff.rfl (fun _ => ?_) fun _ => (error_bare _).bind fun _ => Commutes.pure _
        refine Commutes.bind (modifyBack_bare fun n => ?_) fun _ => iterCurrent_bare.bind fun cur => Commutes.pure _
        simp only [bareNode_eq]

theorem next_bare {env : Env} (he : Unseeing env) : Commutes bareResult (next env) (next env) := by
  refine Commutes.get.bind fun s => ?_
  have es : (bareState s).settings = s.settings := rfl
  have em : (bareState s).mode = s.mode := rfl
  have ec : (bareState s).command.commands = s.command.commands.map bareCommand := bareCommand_commands _
  simp only [es, em, ec, List.isEmpty_map, findCommand_bare]
  have key : ∀ (read : ParserM (Option Str)) (p : Prop) [Decidable p], Commutes (fun x => x) read read →
      Commutes bareResult (do
        let arg ← read
        match arg with
        | none => do
          if (← checkCounts) then pure .done else pure .error
        | some arg =>
          if p ∧ isOption arg s.settings.optionStyle then processOption env arg
          else if s.command.commands.isEmpty then processArgument env arg
          else match findCommand s.command.commands arg s.settings.caseInsensitive with
            | some c => processCommand c
            | none => do
              error (b!"Unknown command: " ++ arg)
              pure .error) (do
        let arg ← read
        match arg with
        | none => do
          if (← checkCounts) then pure .done else pure .error
        | some arg =>
          if p ∧ isOption arg s.settings.optionStyle then processOption env arg
          else if s.command.commands.isEmpty then processArgument env arg
          else match (findCommand s.command.commands arg s.settings.caseInsensitive).map bareCommand with
            | some c => processCommand c
            | none => do
              error (b!"Unknown command: " ++ arg)
              pure .error) := by
    intro read p _ hr
    refine hr.bind fun arg => ?_
    cases arg with
    | none => exact checkCounts_bare.bind fun ok => Commutes.ite Iff.rfl (fun _ => Commutes.pure _) fun _ => Commutes.pure _
    | some arg =>
      refine Commutes.ite Iff.rfl (fun _ => processOption_bare he arg) fun _ => ?_
      refine Commutes.ite Iff.rfl (fun _ => processArgument_bare he arg) fun _ => ?_
      cases findCommand s.command.commands arg s.settings.caseInsensitive with
      | none => exact (error_bare _).bind fun _ => Commutes.pure _
      | some c => exact processCommand_bare c
  cases s.mode with
  | error => exact Commutes.lift' rfl
  | done => exact Commutes.pure _
  | argumentsAndOptions => exact key iterNext _ iterNext_bare
  | argumentsOnly => exact key iterNextValue _ iterNextValue_bare

theorem initialValues_bare (os : List OptData) (vs : Values) : initialValues (os.map bareOpt) vs = initialValues os vs := by
  induction os generalizing vs with
  | nil => rfl
  | cons o os ih =>
    simp only [initialValues, List.map_cons, ih]
    rfl

theorem startState_bare (d : ParserData) (args : List Str) : startState (bareData d) args = bareState (startState d args) := by
  have ec : (bareData d).command = bareCommand d.command := rfl
  simp only [startState, ec, make_bare, bareState, bareCommand_options, initialValues_bare, List.map_cons, List.map_nil, bareNode_eq]
  rfl

theorem start_bare (d : ParserData) (args : List Str) : start (bareData d) args = ((start d args).1, bareState (start d args).2) := by
  simp only [start, startState_bare, initCounter_bare (startState d args)]
  cases (initCounter (startState d args)).1 <;> rfl

theorem run_bare {env : Env} (he : Unseeing env) (fuel : Nat) : Commutes (fun x => x) (run env fuel) (run env fuel) := by
  induction fuel with
  | zero => exact Commutes.lift' rfl
  | succ fuel ih =>
    refine (next_bare he).bind fun r => ?_
    cases r <;> first | exact ih | exact Commutes.pure (g := fun x => x) ()

theorem topLevel_bare (s : PState) : topLevel (bareState s) = (topLevel s).map bareNode := by
  have e : (bareState s).stack = s.stack.map bareNode := rfl
  simp only [topLevel, closeAll, e, List.length_map, closeFrames_bare, List.getLast?_map]

theorem parse_bare {env : Env} (he : Unseeing env) (d : ParserData) (args : List Str) (fuel : Nat) :
    parse env (bareData d) args fuel = ((parse env d args fuel).1.mapOk (·.map bareNode), bareState (parse env d args fuel).2) := by
  simp only [parse, start_bare]
  cases h : start d args with
  | mk r s =>
    cases r with
    | ok _ =>
      simp only [run_bare he fuel s]
      cases h : run env fuel s with
      | mk r s' =>
        cases r with
        | ok _ =>
          simp only [Outcome.mapOk, topLevel_bare]
        | _ => rfl
    | _ => rfl

end Parser

end Argos
