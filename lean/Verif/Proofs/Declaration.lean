import Verif.Spec.Declaration
import Verif.Proofs.World

/-! # Lemmas about what a program declares -/

namespace Argos
open Spec

theorem lastSaid_nil {γ α : Type} (says : γ → Option α) (x : α) : lastSaid says [] x = x := rfl

theorem lastSaid_cons {γ α : Type} (says : γ → Option α) (c : γ) (cs : List γ) (x : α) :
    lastSaid says (c :: cs) x = lastSaid says cs ((says c).getD x) := by
  unfold lastSaid
  rw [List.filterMap_cons]
  cases h : says c with
  | none => rfl
  | some v =>
    simp only [Option.getD_some]
    rw [List.getLast?_cons]
    rfl

theorem lastSaid_none {γ α : Type} (cs : List γ) (x : α) : lastSaid (fun _ => none) cs x = x := by
  induction cs with
  | nil => rfl
  | cons c cs ih => rw [lastSaid_cons]; exact ih

theorem foldl_said {γ α : Type} (says : γ → Option α) (cs : List γ) (x : α) :
    cs.foldl (fun a c => (says c).getD a) x = lastSaid says cs x := by
  induction cs generalizing x with
  | nil => rfl
  | cons c cs ih => rw [List.foldl_cons, ih, lastSaid_cons]

/-- An attribute after a sequence of steps. -/
theorem fold_said {σ γ α : Type} {step : σ → γ → σ} {get : σ → α} {says : γ → Option α} (h : ∀ s c, get (step s c) = (says c).getD (get s))
    (cs : List γ) (s : σ) : get (cs.foldl step s) = lastSaid says cs (get s) := by
  induction cs generalizing s with
  | nil => rfl
  | cons c cs ih => rw [List.foldl_cons, ih, h, lastSaid_cons]

/-! ### Options -/

/-- A call on an option that is there. -/
theorem exec_opt {env : Env} {fuel : Nat} {w : World} {j : Nat} {o : OptData} (h : w.opts j = some o) {c : Call} (hs : c.Spares (.opt j)) :
    (w.exec env fuel c).2.opts j = some ((callsOnOpt j [c]).foldl OptData.set o) := by
  obtain ⟨hf, hu⟩ := hs
  cases c with
  | setOpt i x =>
    by_cases e : i = j
    · subst e
      simp [World.exec, OptHandle.call, h, callsOnOpt, setAt_same]
    · simp [World.exec, setAt_other _ _ (Ne.symm e), h, callsOnOpt, e]
  | newOpt i | copyOpt _ i =>
    have e : i ≠ j := fun e => hf (by rw [e]; rfl)
    simp [World.exec, setAt_other _ _ (Ne.symm e), h, callsOnOpt]
  | moveOpt i k =>
    have e : k ≠ j := fun e => hf (by rw [e]; rfl)
    have e2 : i ≠ j := by
      intro e2
      subst e2
      exact hu (by simp [Call.usesUp, Ne.symm e])
    simp [World.exec, setAt_other _ _ (Ne.symm e), setAt_other _ _ (Ne.symm e2), h, callsOnOpt]
  | cmdAddOpt i k | parserAddOpt i k =>
    have e : k ≠ j := fun e => hu (by rw [e]; rfl)
    simp only [World.exec]
    split
    · exact h
    · split
      · exact h
      · simp [setAt_other _ _ (Ne.symm e), h, callsOnOpt]
  | newArg | newCmd | newParser | copyArg | moveArg | moveCmd | moveParser | setArg | parse | parseMain | makeIterator | makeIteratorMain
    | parseConst | parseMainConst | makeIteratorConst | makeIteratorMainConst | writeHelp => exact h
  | copyCmd | setCmd | setParser | cmdAddCmd | parserAddCmd =>
    simp only [World.exec]
    split <;> exact h
  | cmdAddArg | parserAddArg | cmdCopyFrom | parserCopyFrom =>
    simp only [World.exec]
    split
    · exact h
    · split <;> exact h

theorem callsOnOpt_cons (j : Nat) (c : Call) (cs : List Call) : callsOnOpt j (c :: cs) = callsOnOpt j [c] ++ callsOnOpt j cs := by
  unfold callsOnOpt
  rw [← List.filterMap_append]
  rfl

theorem run_opt {env : Env} {fuel : Nat} {j : Nat} (cs : List Call) : ∀ {w : World} {o : OptData}, w.opts j = some o →
    (∀ c ∈ cs, c.Spares (.opt j)) → (w.run env fuel cs).opts j = some ((callsOnOpt j cs).foldl OptData.set o) := by
  induction cs with
  | nil => intro w o h _; exact h
  | cons c cs ih =>
    intro w o h hs
    rw [callsOnOpt_cons, List.foldl_append]
    exact ih (exec_opt h (hs c (by simp))) (fun x hx => hs x (by simp [hx]))

/-! ### Arguments -/

/-- What a setter of an argument does to the data. -/
def ArgData.afterCall (a : ArgData) (c : ArgCall) : ArgData := ((ArgHandle.call (some a) c).2).getD a

theorem ArgHandle.call_some (a : ArgData) (c : ArgCall) : (ArgHandle.call (some a) c).2 = some (a.afterCall c) := by
  unfold ArgData.afterCall
  cases c with
  | count n => simp only [ArgHandle.call]; split <;> rfl
  | countRange lo hi =>
    simp only [ArgHandle.call]
    split
    · rfl
    · split <;> rfl
  | _ => rfl

theorem exec_arg {env : Env} {fuel : Nat} {w : World} {j : Nat} {o : ArgData} (h : w.args j = some o) {c : Call} (hs : c.Spares (.arg j)) :
    (w.exec env fuel c).2.args j = some ((callsOnArg j [c]).foldl ArgData.afterCall o) := by
  obtain ⟨hf, hu⟩ := hs
  cases c with
  | setArg i x =>
    by_cases e : i = j
    · subst e
      simp [World.exec, ArgHandle.call_some, h, callsOnArg, setAt_same]
    · simp [World.exec, setAt_other _ _ (Ne.symm e), h, callsOnArg, e]
  | newArg i | copyArg _ i =>
    have e : i ≠ j := fun e => hf (by rw [e]; rfl)
    simp [World.exec, setAt_other _ _ (Ne.symm e), h, callsOnArg]
  | moveArg i k =>
    have e : k ≠ j := fun e => hf (by rw [e]; rfl)
    have e2 : i ≠ j := by
      intro e2
      subst e2
      exact hu (by simp [Call.usesUp, Ne.symm e])
    simp [World.exec, setAt_other _ _ (Ne.symm e), setAt_other _ _ (Ne.symm e2), h, callsOnArg]
  | cmdAddArg i k | parserAddArg i k =>
    have e : k ≠ j := fun e => hu (by rw [e]; rfl)
    simp only [World.exec]
    split
    · exact h
    · split
      · exact h
      · simp [setAt_other _ _ (Ne.symm e), h, callsOnArg]
  | newOpt | newCmd | newParser | copyOpt | moveOpt | moveCmd | moveParser | setOpt | parse | parseMain | makeIterator | makeIteratorMain
    | parseConst | parseMainConst | makeIteratorConst | makeIteratorMainConst | writeHelp => exact h
  | copyCmd | setCmd | setParser | cmdAddCmd | parserAddCmd =>
    simp only [World.exec]
    split <;> exact h
  | cmdAddOpt | parserAddOpt | cmdCopyFrom | parserCopyFrom =>
    simp only [World.exec]
    split
    · exact h
    · split <;> exact h

theorem run_arg {env : Env} {fuel : Nat} {j : Nat} (cs : List Call) : ∀ {w : World} {a : ArgData}, w.args j = some a →
    (∀ c ∈ cs, c.Spares (.arg j)) → (w.run env fuel cs).args j = some ((callsOnArg j cs).foldl ArgData.afterCall a) := by
  induction cs with
  | nil => intro w o h _; exact h
  | cons c cs ih =>
    intro w o h hs
    have : callsOnArg j (c :: cs) = callsOnArg j [c] ++ callsOnArg j cs := by
      unfold callsOnArg
      rw [← List.filterMap_append]
      rfl
    rw [this, List.foldl_append]
    exact ih (exec_arg h (hs c (by simp))) (fun x hx => hs x (by simp [hx]))

theorem afterCall_range (a : ArgData) {c : ArgCall} {lo hi : Nat} (h : rangeSaid c = some (lo, hi)) :
    (a.afterCall c).minCount = lo ∧ (a.afterCall c).maxCount = hi := by
  cases c <;> simp only [rangeSaid] at h <;> try simp at h
  · obtain ⟨h1, rfl, rfl⟩ := h
    simp [ArgData.afterCall, ArgHandle.call, h1]
  · obtain ⟨⟨h1, h2⟩, rfl, rfl⟩ := h
    simp [ArgData.afterCall, ArgHandle.call, h1, Nat.not_lt.mpr h2]

theorem leastAfter_cons (lo : Nat) (b : Bool) (bs : List Bool) :
    leastAfter lo (b :: bs) = leastAfter (if b then 0 else if lo = 0 then 1 else lo) bs := by
  unfold leastAfter
  rw [List.getLast?_cons]
  cases hl : bs.getLast? with
  | none =>
    have : bs = [] := by simpa using hl
    subst this
    cases b <;> simp
  | some x =>
    cases x <;> cases b <;> simp
    split <;> split <;> simp_all

theorem afterCall_noRange (a : ArgData) {c : ArgCall} (h : rangeSaid c = none) :
    (a.afterCall c).maxCount = a.maxCount ∧
      (a.afterCall c).minCount = match optionalSaid c with
        | none => a.minCount
        | some b => if b then 0 else if a.minCount = 0 then 1 else a.minCount := by
  cases c with
  | count n =>
    simp only [rangeSaid] at h
    split at h
    · rename_i e
      simp [ArgData.afterCall, ArgHandle.call, e, optionalSaid]
    · simp at h
  | countRange lo hi =>
    simp only [rangeSaid] at h
    split at h
    · rename_i e
      rcases e with e | e
      · simp [ArgData.afterCall, ArgHandle.call, e, optionalSaid]
      · simp only [ArgData.afterCall, ArgHandle.call, optionalSaid]
        split
        · simp
        · simp
    · simp at h
  | optional b =>
    cases b
    · simp only [ArgData.afterCall, ArgHandle.call, ArgData.setOptional, optionalSaid]
      by_cases e : a.minCount = 0 <;> simp [e]
    · simp [ArgData.afterCall, ArgHandle.call, ArgData.setOptional, optionalSaid]
  | mandatory b =>
    cases b
    · simp [ArgData.afterCall, ArgHandle.call, ArgData.setOptional, optionalSaid]
    · simp only [ArgData.afterCall, ArgHandle.call, ArgData.setOptional, optionalSaid]
      by_cases e : a.minCount = 0 <;> simp [e]
  | _ => exact ⟨rfl, rfl⟩

theorem fold_noRange (cs : List ArgCall) : ∀ (a : ArgData), (∀ x ∈ cs, rangeSaid x = none) →
    (cs.foldl ArgData.afterCall a).minCount = leastAfter a.minCount (cs.filterMap optionalSaid) ∧
      (cs.foldl ArgData.afterCall a).maxCount = a.maxCount := by
  induction cs with
  | nil => intro a _; exact ⟨rfl, rfl⟩
  | cons c cs ih =>
    intro a h
    obtain ⟨h1, h2⟩ := afterCall_noRange a (h c (by simp))
    obtain ⟨h3, h4⟩ := ih (a.afterCall c) (fun x hx => h x (by simp [hx]))
    refine ⟨?_, by rw [List.foldl_cons, h4, h1]⟩
    rw [List.foldl_cons, h3, h2, List.filterMap_cons]
    cases optionalSaid c with
    | none => rfl
    | some b => simp only [leastAfter_cons]

/-! ### Commands and parsers -/

theorem lookup_setText (id : TextId) (source : TextSource) (texts : List (TextId × TextSource)) (i : TextId) :
    (setText id source texts).lookup i = if i = id then some source else texts.lookup i := by
  have key : ∀ (k : TextId) (s : TextSource) (l : List (TextId × TextSource)), ((k, s) :: l).lookup i = if i = k then some s else l.lookup i := by
    intro k s l
    rw [List.lookup_cons]
    by_cases e : i = k
    · subst e; simp
    · have : (i == k) = false := by simpa using e
      simp [this, e]
  induction texts with
  | nil => rw [setText, key]
  | cons p texts ih =>
    obtain ⟨k, s⟩ := p
    rw [setText, key]
    split
    · rename_i e
      subst e
      rw [key]
      split <;> rfl
    · rename_i hne
      split
      · rw [key, key]
      · rw [key, ih]
        by_cases e : i = k
        · subst e
          have : ¬ i = id := fun e => hne e.symm
          simp [this]
        · simp [e]

/-- What is kept by `add`. -/
def Additive {α : Type} (get : Command → α) : Prop :=
  ∀ (c : Command) xs ys zs, get { c with arguments := xs, options := ys, commands := zs } = get c

theorem Additive.argument {α : Type} {get : Command → α} (h : Additive get) (c : Command) (a : Option ArgData) :
    get (Outcome.orKeep c (c.addArgument a)).2 = get c := by
  unfold Command.addArgument
  split
  · rfl
  · split
    · rfl
    · split
      · rfl
      · exact h c _ c.options c.commands

theorem Additive.option {α : Type} {get : Command → α} (h : Additive get) (c : Command) (o : Option OptData) :
    get (Outcome.orKeep c (c.addOption o)).2 = get c := by
  unfold Command.addOption
  split
  · rfl
  · split
    · rfl
    · exact h c c.arguments _ c.commands

theorem Additive.command {α : Type} {get : Command → α} (h : Additive get) (c : Command) (o : Option Command) :
    get (Outcome.orKeep c (c.addCommand o)).2 = get c := by
  unfold Command.addCommand
  split
  · rfl
  · split
    · rfl
    · split
      · rfl
      · exact h c c.arguments c.options _

/-- A call on a command object that is there. -/
theorem exec_cmd {α : Type} {get : Command → α} {upd : α → CmdCall → α} (hset : ∀ c x, get (c.set x) = upd (get c) x) (hadd : Additive get)
    {env : Env} {fuel : Nat} {w : World} {j : Nat} {k : Command} (h : w.cmds j = some k) {c : Call} (hs : c.Spares (.cmd j))
    (hn : ¬ c.CopiesInto (.cmd j)) :
    ∃ k', (w.exec env fuel c).2.cmds j = some k' ∧ get k' = (callsOnCmd j [c]).foldl upd (get k) := by
  obtain ⟨hf, hu⟩ := hs
  cases c with
  | setCmd i x =>
    by_cases e : i = j
    · subst e
      refine ⟨k.set x, by simp [World.exec, h, setAt_same], ?_⟩
      simp [callsOnCmd, hset]
    · refine ⟨k, ?_, by simp [callsOnCmd, e]⟩
      simp only [World.exec]
      split
      · exact h
      · simp [setAt_other _ _ (Ne.symm e), h]
  | newCmd i =>
    have e : i ≠ j := fun e => hf (by rw [e]; rfl)
    exact ⟨k, by simp [World.exec, setAt_other _ _ (Ne.symm e), h], rfl⟩
  | copyCmd s i =>
    have e : i ≠ j := fun e => hf (by rw [e]; rfl)
    refine ⟨k, ?_, rfl⟩
    simp only [World.exec]
    split
    · exact h
    · simp [setAt_other _ _ (Ne.symm e), h]
  | moveCmd i x =>
    have e : x ≠ j := fun e => hf (by rw [e]; rfl)
    have e2 : i ≠ j := by
      intro e2
      subst e2
      exact hu (by simp [Call.usesUp, Ne.symm e])
    exact ⟨k, by simp [World.exec, setAt_other _ _ (Ne.symm e), setAt_other _ _ (Ne.symm e2), h], rfl⟩
  | cmdAddArg i x =>
    simp only [World.exec]
    split
    · exact ⟨k, h, rfl⟩
    · rename_i k1 hk1
      split
      · exact ⟨k, h, rfl⟩
      · by_cases e : j = i
        · subst e
          rw [h] at hk1
          obtain rfl := Option.some.inj hk1
          exact ⟨_, setAt_same _ _ _, hadd.argument _ _⟩
        · exact ⟨k, by simp only [setAt_other _ _ e]; exact h, rfl⟩
  | cmdAddOpt i x =>
    simp only [World.exec]
    split
    · exact ⟨k, h, rfl⟩
    · rename_i k1 hk1
      split
      · exact ⟨k, h, rfl⟩
      · by_cases e : j = i
        · subst e
          rw [h] at hk1
          obtain rfl := Option.some.inj hk1
          exact ⟨_, setAt_same _ _ _, hadd.option _ _⟩
        · exact ⟨k, by simp only [setAt_other _ _ e]; exact h, rfl⟩
  | cmdAddCmd i x =>
    have e : x ≠ j := fun e => hu (by rw [e]; rfl)
    simp only [World.exec]
    split
    · exact ⟨k, h, rfl⟩
    · rename_i k1 hk1
      simp only [setAt_other _ _ (Ne.symm e)]
      by_cases e : j = i
      · subst e
        rw [h] at hk1
        obtain rfl := Option.some.inj hk1
        exact ⟨_, setAt_same _ _ _, hadd.command _ _⟩
      · exact ⟨k, by simp only [setAt_other _ _ e]; exact h, rfl⟩
  | cmdCopyFrom i x =>
    have e : j ≠ i := fun e => hn (.inl ⟨i, x, rfl, by rw [e]⟩)
    simp only [World.exec]
    split
    · exact ⟨k, h, rfl⟩
    · split
      · exact ⟨k, h, rfl⟩
      · exact ⟨k, by simp only [setAt_other _ _ e]; exact h, rfl⟩
  | parserAddCmd i x =>
    have e : x ≠ j := fun e => hu (by rw [e]; rfl)
    simp only [World.exec]
    split
    · exact ⟨k, h, rfl⟩
    · exact ⟨k, by simp only [setAt_other _ _ (Ne.symm e)]; exact h, rfl⟩
  | newOpt | newArg | newParser | copyOpt | copyArg | moveArg | moveOpt | moveParser | setOpt | setArg | parse | parseMain | makeIterator | makeIteratorMain
    | parseConst | parseMainConst | makeIteratorConst | makeIteratorMainConst | writeHelp => exact ⟨k, h, rfl⟩
  | setParser =>
    simp only [World.exec]
    split <;> exact ⟨k, h, rfl⟩
  | parserAddOpt | parserAddArg | parserCopyFrom =>
    simp only [World.exec]
    split
    · exact ⟨k, h, rfl⟩
    · split <;> exact ⟨k, h, rfl⟩

theorem run_command {α : Type} {get : Command → α} {upd : α → CmdCall → α} (hset : ∀ c x, get (c.set x) = upd (get c) x) (hadd : Additive get)
    {env : Env} {fuel : Nat} {j : Nat} (cs : List Call) : ∀ {w : World} {k : Command}, w.cmds j = some k →
    (∀ c ∈ cs, c.Spares (.cmd j) ∧ ¬ c.CopiesInto (.cmd j)) →
    ∃ k', (w.run env fuel cs).cmds j = some k' ∧ get k' = (callsOnCmd j cs).foldl upd (get k) := by
  induction cs with
  | nil => intro w k h _; exact ⟨k, h, rfl⟩
  | cons c cs ih =>
    intro w k h hs
    have : callsOnCmd j (c :: cs) = callsOnCmd j [c] ++ callsOnCmd j cs := by
      unfold callsOnCmd
      rw [← List.filterMap_append]
      rfl
    obtain ⟨k1, h1, h2⟩ := exec_cmd (env := env) (fuel := fuel) hset hadd h (hs c (by simp)).1 (hs c (by simp)).2
    obtain ⟨k2, h3, h4⟩ := ih h1 (fun x hx => hs x (by simp [hx]))
    exact ⟨k2, h3, by rw [this, List.foldl_append, h4, h2]⟩

/-- A call on a parser that is there. -/
theorem exec_parser {α : Type} {get : ParserData → α} {upd : α → ParserCall → α} {k : ParserData}
    (hset : ∀ x, get (Outcome.orKeep k (k.set x)).2 = upd (get k) x) (hadd : Additive (fun c => get { k with command := c }))
    {env : Env} {fuel : Nat} {w : World} {j : Nat} (h : w.parsers j = some k) {c : Call} (hs : c.Spares (.parser j))
    (hn : ¬ c.CopiesInto (.parser j)) :
    ∃ k', (w.exec env fuel c).2.parsers j = some k' ∧ get k' = (callsOnParser j [c]).foldl upd (get k) := by
  obtain ⟨hf, hu⟩ := hs
  cases c with
  | setParser i x =>
    by_cases e : i = j
    · subst e
      refine ⟨(Outcome.orKeep k (k.set x)).2, by simp [World.exec, h, setAt_same], ?_⟩
      simp [callsOnParser, hset]
    · refine ⟨k, ?_, by simp [callsOnParser, e]⟩
      simp only [World.exec]
      split
      · exact h
      · simp [setAt_other _ _ (Ne.symm e), h]
  | newParser i =>
    have e : i ≠ j := fun e => hf (by rw [e]; rfl)
    exact ⟨k, by simp [World.exec, setAt_other _ _ (Ne.symm e), h], rfl⟩
  | moveParser i x =>
    have e : x ≠ j := fun e => hf (by rw [e]; rfl)
    have e2 : i ≠ j := by
      intro e2
      subst e2
      exact hu (by simp [Call.usesUp, Ne.symm e])
    exact ⟨k, by simp [World.exec, setAt_other _ _ (Ne.symm e), setAt_other _ _ (Ne.symm e2), h], rfl⟩
  | parserAddArg i x =>
    simp only [World.exec]
    split
    · exact ⟨k, h, rfl⟩
    · rename_i k1 hk1
      split
      · exact ⟨k, h, rfl⟩
      · by_cases e : j = i
        · subst e
          rw [h] at hk1
          obtain rfl := Option.some.inj hk1
          exact ⟨_, setAt_same _ _ _, hadd.argument _ _⟩
        · exact ⟨k, by simp only [setAt_other _ _ e]; exact h, rfl⟩
  | parserAddOpt i x =>
    simp only [World.exec]
    split
    · exact ⟨k, h, rfl⟩
    · rename_i k1 hk1
      split
      · exact ⟨k, h, rfl⟩
      · by_cases e : j = i
        · subst e
          rw [h] at hk1
          obtain rfl := Option.some.inj hk1
          exact ⟨_, setAt_same _ _ _, hadd.option _ _⟩
        · exact ⟨k, by simp only [setAt_other _ _ e]; exact h, rfl⟩
  | parserAddCmd i x =>
    simp only [World.exec]
    split
    · exact ⟨k, h, rfl⟩
    · rename_i k1 hk1
      by_cases e : j = i
      · subst e
        rw [h] at hk1
        obtain rfl := Option.some.inj hk1
        exact ⟨_, setAt_same _ _ _, hadd.command _ _⟩
      · exact ⟨k, by simp only [setAt_other _ _ e]; exact h, rfl⟩
  | parserCopyFrom i x =>
    have e : j ≠ i := fun e => hn (.inr ⟨i, x, rfl, by rw [e]⟩)
    simp only [World.exec]
    split
    · exact ⟨k, h, rfl⟩
    · split
      · exact ⟨k, h, rfl⟩
      · exact ⟨k, by simp only [setAt_other _ _ e]; exact h, rfl⟩
  | parse i | parseMain i | makeIterator i | makeIteratorMain i =>
    have e : i ≠ j := fun e => hu (by rw [e]; rfl)
    exact ⟨k, by simp only [World.exec, setAt_other _ _ (Ne.symm e)]; exact h, rfl⟩
  | newOpt | newArg | newCmd | copyOpt | copyArg | moveArg | moveOpt | moveCmd | setOpt | setArg
    | parseConst | parseMainConst | makeIteratorConst | makeIteratorMainConst | writeHelp => exact ⟨k, h, rfl⟩
  | copyCmd | setCmd | cmdAddCmd =>
    simp only [World.exec]
    split <;> exact ⟨k, h, rfl⟩
  | cmdAddOpt | cmdAddArg | cmdCopyFrom =>
    simp only [World.exec]
    split
    · exact ⟨k, h, rfl⟩
    · split <;> exact ⟨k, h, rfl⟩

theorem run_parserObj {α : Type} {get : ParserData → α} {upd : α → ParserCall → α}
    (hset : ∀ d x, get (Outcome.orKeep d (d.set x)).2 = upd (get d) x) (hadd : ∀ d : ParserData, Additive (fun k => get { d with command := k }))
    {env : Env} {fuel : Nat} {j : Nat} (cs : List Call) : ∀ {w : World} {k : ParserData}, w.parsers j = some k →
    (∀ c ∈ cs, c.Spares (.parser j) ∧ ¬ c.CopiesInto (.parser j)) →
    ∃ k', (w.run env fuel cs).parsers j = some k' ∧ get k' = (callsOnParser j cs).foldl upd (get k) := by
  induction cs with
  | nil => intro w k h _; exact ⟨k, h, rfl⟩
  | cons c cs ih =>
    intro w k h hs
    have : callsOnParser j (c :: cs) = callsOnParser j [c] ++ callsOnParser j cs := by
      unfold callsOnParser
      rw [← List.filterMap_append]
      rfl
    obtain ⟨k1, h1, h2⟩ := exec_parser (env := env) (fuel := fuel) (hset k) (hadd k) h (hs c (by simp)).1 (hs c (by simp)).2
    obtain ⟨k2, h3, h4⟩ := ih h1 (fun x hx => hs x (by simp [hx]))
    exact ⟨k2, h3, by rw [this, List.foldl_append, h4, h2]⟩

/-! ### What is added -/

/-- The command has got these things, at the end of its lists. -/
structure Grew (xs : List (Command × World × Obj)) (k k' : Command) : Prop where
  options : k'.options = k.options ++ addedOptions xs
  arguments : k'.arguments = k.arguments ++ addedArguments xs
  commands : k'.commands = k.commands ++ addedCommands xs

theorem Grew.same {k k' : Command} (h1 : k'.options = k.options) (h2 : k'.arguments = k.arguments) (h3 : k'.commands = k.commands) :
    Grew [] k k' := ⟨by simp [h1, addedOptions], by simp [h2, addedArguments], by simp [h3, addedCommands]⟩

theorem Grew.refl (k : Command) : Grew [] k k := Grew.same rfl rfl rfl

theorem Grew.trans {xs ys : List (Command × World × Obj)} {k k' k'' : Command} (h1 : Grew xs k k') (h2 : Grew ys k' k'') : Grew (xs ++ ys) k k'' :=
  ⟨by rw [h2.options, h1.options, List.append_assoc]; simp [addedOptions],
    by rw [h2.arguments, h1.arguments, List.append_assoc]; simp [addedArguments],
    by rw [h2.commands, h1.commands, List.append_assoc]; simp [addedCommands]⟩

theorem grew_option (k : Command) (w : World) (j : Nat) {o : OptData} (h : w.opts j = some o) :
    Grew (match (Outcome.orKeep k (k.addOption (some o))).1 with | .ok () => [(k, w, .opt j)] | _ => []) k
      (Outcome.orKeep k (k.addOption (some o))).2 := by
  unfold Command.addOption
  by_cases e : o.flags.isEmpty = true
  · simp only [e, if_true, Outcome.orKeep, Outcome.done]; exact Grew.refl k
  · simp only [e, if_false, Outcome.orKeep]
    refine ⟨?_, by simp [addedArguments], by simp [addedCommands]⟩
    by_cases e2 : o.section_ = [] <;> simp [addedOptions, h, sectionIn, e2]

theorem grew_argument (k : Command) (w : World) (j : Nat) {a : ArgData} (h : w.args j = some a) :
    Grew (match (Outcome.orKeep k (k.addArgument (some a))).1 with | .ok () => [(k, w, .arg j)] | _ => []) k
      (Outcome.orKeep k (k.addArgument (some a))).2 := by
  unfold Command.addArgument
  by_cases e : (!k.commands.isEmpty) = true
  · simp only [e, if_true, Outcome.orKeep, Outcome.done]; exact Grew.refl k
  · simp only [e, if_false]
    by_cases e : a.name.isEmpty = true
    · simp only [e, if_true, Outcome.orKeep, Outcome.done]; exact Grew.refl k
    · simp only [e, if_false, Outcome.orKeep]
      refine ⟨by simp [addedOptions], ?_, by simp [addedCommands]⟩
      by_cases e2 : a.section_ = [] <;> simp [addedArguments, h, sectionIn, e2]

theorem grew_command (k : Command) (w : World) (j : Nat) :
    Grew (match (Outcome.orKeep k (k.addCommand (w.cmds j))).1 with | .ok () => [(k, w, .cmd j)] | _ => []) k
      (Outcome.orKeep k (k.addCommand (w.cmds j))).2 := by
  cases h : w.cmds j with
  | none => exact Grew.refl k
  | some a =>
    unfold Command.addCommand
    by_cases e : (!k.arguments.isEmpty) = true
    · simp only [e, if_true, Outcome.orKeep, Outcome.done]; exact Grew.refl k
    · simp only [e, if_false]
      by_cases e : a.name.isEmpty = true
      · simp only [e, if_true, Outcome.orKeep, Outcome.done]; exact Grew.refl k
      · simp only [e, if_false, Outcome.orKeep]
        refine ⟨by simp [addedOptions], by simp [addedArguments], ?_⟩
        by_cases e2 : a.section_ = [] <;> simp [addedCommands, h, sectionIn, e2]
        cases a; rfl

theorem set_contents (k : Command) (x : CmdCall) :
    (k.set x).options = k.options ∧ (k.set x).arguments = k.arguments ∧ (k.set x).commands = k.commands := by
  cases x <;> exact ⟨rfl, rfl, rfl⟩

theorem parserSet_contents (d : ParserData) (x : ParserCall) : (Outcome.orKeep d (d.set x)).2.command.options = d.command.options ∧
    (Outcome.orKeep d (d.set x)).2.command.arguments = d.command.arguments ∧ (Outcome.orKeep d (d.set x)).2.command.commands = d.command.commands := by
  cases x with
  | optionStyle s =>
    simp only [ParserData.set]
    split
    · split <;> exact ⟨rfl, rfl, rfl⟩
    · exact ⟨rfl, rfl, rfl⟩
  | _ => exact ⟨rfl, rfl, rfl⟩

/-- What one call adds. -/
def addition (env : Env) (fuel : Nat) (obj : Obj) (w : World) (c : Call) : List (Command × World × Obj) :=
  match w.command obj, c.addedTo obj, (w.exec env fuel c).1 with
  | some k, some x, .ok () => [(k, w, x)]
  | _, _, _ => []

theorem addition_other {env : Env} {fuel : Nat} {obj : Obj} {w : World} {c : Call} (h : c.addedTo obj = none) : addition env fuel obj w c = [] := by
  unfold addition
  rw [h]
  split
  · rename_i h1 _; simp at h1
  · rfl

theorem addition_throw {env : Env} {fuel : Nat} {obj : Obj} {w : World} {c : Call} (h : (w.exec env fuel c).1 ≠ .ok ()) : addition env fuel obj w c = [] := by
  unfold addition
  split
  · rename_i h1; exact absurd h1 h
  · rfl

theorem addition_call {env : Env} {fuel : Nat} {obj : Obj} {w : World} {c : Call} {k : Command} {x : Obj} (hk : w.command obj = some k)
    (h : c.addedTo obj = some x) : addition env fuel obj w c = match (w.exec env fuel c).1 with | .ok () => [(k, w, x)] | _ => [] := by
  unfold addition
  rw [h, hk]
  cases (w.exec env fuel c).1 <;> rfl

theorem exec_cmd_contents {env : Env} {fuel : Nat} {w : World} {j : Nat} {k : Command} (h : w.cmds j = some k) {c : Call} (hs : c.Spares (.cmd j))
    (hn : ¬ c.CopiesInto (.cmd j)) :
    ∃ k', (w.exec env fuel c).2.cmds j = some k' ∧ Grew (addition env fuel (.cmd j) w c) k k' := by
  have hk : w.command (.cmd j) = some k := h
  have other : c.addedTo (.cmd j) = none → (∃ k', (w.exec env fuel c).2.cmds j = some k' ∧ Grew [] k k') →
      ∃ k', (w.exec env fuel c).2.cmds j = some k' ∧ Grew (addition env fuel (.cmd j) w c) k k' := by
    intro h1 h2
    rw [addition_other h1]; exact h2
  obtain ⟨hf, hu⟩ := hs
  cases c with
  | setCmd i x =>
    refine other rfl ?_
    obtain ⟨e1, e2, e3⟩ := set_contents k x
    by_cases e : i = j
    · subst e
      exact ⟨k.set x, by simp [World.exec, h, setAt_same], Grew.same e1 e2 e3⟩
    · refine ⟨k, ?_, Grew.refl k⟩
      simp only [World.exec]
      split
      · exact h
      · simp [setAt_other _ _ (Ne.symm e), h]
  | newCmd i =>
    have e : i ≠ j := fun e => hf (by rw [e]; rfl)
    exact other rfl ⟨k, by simp [World.exec, setAt_other _ _ (Ne.symm e), h], Grew.refl k⟩
  | copyCmd s i =>
    have e : i ≠ j := fun e => hf (by rw [e]; rfl)
    refine other rfl ⟨k, ?_, Grew.refl k⟩
    simp only [World.exec]
    split
    · exact h
    · simp [setAt_other _ _ (Ne.symm e), h]
  | moveCmd i x =>
    have e : x ≠ j := fun e => hf (by rw [e]; rfl)
    have e2 : i ≠ j := by
      intro e2
      subst e2
      exact hu (by simp [Call.usesUp, Ne.symm e])
    exact other rfl ⟨k, by simp [World.exec, setAt_other _ _ (Ne.symm e), setAt_other _ _ (Ne.symm e2), h], Grew.refl k⟩
  | cmdAddArg i x =>
    by_cases e : j = i
    · subst e
      rw [addition_call (x := .arg x) hk (by simp [Call.addedTo])]
      simp only [World.exec, h]
      cases ha : w.args x with
      | none => exact ⟨k, h, Grew.refl k⟩
      | some a => exact ⟨_, setAt_same _ _ _, grew_argument k w x ha⟩
    · refine other (by simp [Call.addedTo, e]) ⟨k, ?_, Grew.refl k⟩
      simp only [World.exec]
      split
      · exact h
      · split
        · exact h
        · simp only [setAt_other _ _ e]; exact h
  | cmdAddOpt i x =>
    by_cases e : j = i
    · subst e
      rw [addition_call (x := .opt x) hk (by simp [Call.addedTo])]
      simp only [World.exec, h]
      cases ha : w.opts x with
      | none => exact ⟨k, h, Grew.refl k⟩
      | some a => exact ⟨_, setAt_same _ _ _, grew_option k w x ha⟩
    · refine other (by simp [Call.addedTo, e]) ⟨k, ?_, Grew.refl k⟩
      simp only [World.exec]
      split
      · exact h
      · split
        · exact h
        · simp only [setAt_other _ _ e]; exact h
  | cmdAddCmd i x =>
    have e : x ≠ j := fun e => hu (by rw [e]; rfl)
    by_cases e1 : j = i
    · subst e1
      rw [addition_call (x := .cmd x) hk (by simp [Call.addedTo])]
      simp only [World.exec, h]
      exact ⟨_, (setAt_other _ _ (Ne.symm e)).trans (setAt_same _ _ _), grew_command k w x⟩
    · refine other (by simp [Call.addedTo, e1]) ⟨k, ?_, Grew.refl k⟩
      simp only [World.exec]
      split
      · exact h
      · simp only [setAt_other _ _ (Ne.symm e), setAt_other _ _ e1]; exact h
  | cmdCopyFrom i x =>
    have e : j ≠ i := fun e => hn (.inl ⟨i, x, rfl, by rw [e]⟩)
    refine other rfl ?_
    simp only [World.exec]
    split
    · exact ⟨k, h, Grew.refl k⟩
    · split
      · exact ⟨k, h, Grew.refl k⟩
      · exact ⟨k, by simp only [setAt_other _ _ e]; exact h, Grew.refl k⟩
  | parserAddCmd i x =>
    have e : x ≠ j := fun e => hu (by rw [e]; rfl)
    refine other (by simp [Call.addedTo]) ?_
    simp only [World.exec]
    split
    · exact ⟨k, h, Grew.refl k⟩
    · exact ⟨k, by simp only [setAt_other _ _ (Ne.symm e)]; exact h, Grew.refl k⟩
  | newOpt | newArg | newParser | copyOpt | copyArg | moveArg | moveOpt | moveParser | setOpt | setArg | parse | parseMain | makeIterator | makeIteratorMain
    | parseConst | parseMainConst | makeIteratorConst | makeIteratorMainConst | writeHelp => exact other rfl ⟨k, h, Grew.refl k⟩
  | setParser =>
    refine other rfl ?_
    simp only [World.exec]
    split <;> exact ⟨k, h, Grew.refl k⟩
  | parserAddOpt | parserAddArg =>
    refine other (by simp [Call.addedTo]) ?_
    simp only [World.exec]
    split
    · exact ⟨k, h, Grew.refl k⟩
    · split <;> exact ⟨k, h, Grew.refl k⟩
  | parserCopyFrom =>
    refine other rfl ?_
    simp only [World.exec]
    split
    · exact ⟨k, h, Grew.refl k⟩
    · split <;> exact ⟨k, h, Grew.refl k⟩

theorem exec_parser_contents {env : Env} {fuel : Nat} {w : World} {j : Nat} {k : ParserData} (h : w.parsers j = some k) {c : Call}
    (hs : c.Spares (.parser j)) (hn : ¬ c.CopiesInto (.parser j)) :
    ∃ k', (w.exec env fuel c).2.parsers j = some k' ∧ Grew (addition env fuel (.parser j) w c) k.command k'.command := by
  have hk : w.command (.parser j) = some k.command := by simp [World.command, h]
  have other : c.addedTo (.parser j) = none → (∃ k', (w.exec env fuel c).2.parsers j = some k' ∧ Grew [] k.command k'.command) →
      ∃ k', (w.exec env fuel c).2.parsers j = some k' ∧ Grew (addition env fuel (.parser j) w c) k.command k'.command := by
    intro h1 h2
    rw [addition_other h1]; exact h2
  obtain ⟨hf, hu⟩ := hs
  cases c with
  | setParser i x =>
    refine other rfl ?_
    obtain ⟨e1, e2, e3⟩ := parserSet_contents k x
    by_cases e : i = j
    · subst e
      exact ⟨(Outcome.orKeep k (k.set x)).2, by simp [World.exec, h, setAt_same], Grew.same e1 e2 e3⟩
    · refine ⟨k, ?_, Grew.refl _⟩
      simp only [World.exec]
      split
      · exact h
      · simp [setAt_other _ _ (Ne.symm e), h]
  | newParser i =>
    have e : i ≠ j := fun e => hf (by rw [e]; rfl)
    exact other rfl ⟨k, by simp [World.exec, setAt_other _ _ (Ne.symm e), h], Grew.refl _⟩
  | moveParser i x =>
    have e : x ≠ j := fun e => hf (by rw [e]; rfl)
    have e2 : i ≠ j := by
      intro e2
      subst e2
      exact hu (by simp [Call.usesUp, Ne.symm e])
    exact other rfl ⟨k, by simp [World.exec, setAt_other _ _ (Ne.symm e), setAt_other _ _ (Ne.symm e2), h], Grew.refl _⟩
  | parserAddArg i x =>
    by_cases e : j = i
    · subst e
      rw [addition_call (x := .arg x) hk (by simp [Call.addedTo])]
      simp only [World.exec, h]
      cases ha : w.args x with
      | none => exact ⟨k, h, Grew.refl _⟩
      | some a => exact ⟨_, setAt_same _ _ _, grew_argument k.command w x ha⟩
    · refine other (by simp [Call.addedTo, e]) ⟨k, ?_, Grew.refl _⟩
      simp only [World.exec]
      split
      · exact h
      · split
        · exact h
        · simp only [setAt_other _ _ e]; exact h
  | parserAddOpt i x =>
    by_cases e : j = i
    · subst e
      rw [addition_call (x := .opt x) hk (by simp [Call.addedTo])]
      simp only [World.exec, h]
      cases ha : w.opts x with
      | none => exact ⟨k, h, Grew.refl _⟩
      | some a => exact ⟨_, setAt_same _ _ _, grew_option k.command w x ha⟩
    · refine other (by simp [Call.addedTo, e]) ⟨k, ?_, Grew.refl _⟩
      simp only [World.exec]
      split
      · exact h
      · split
        · exact h
        · simp only [setAt_other _ _ e]; exact h
  | parserAddCmd i x =>
    by_cases e : j = i
    · subst e
      rw [addition_call (x := .cmd x) hk (by simp [Call.addedTo])]
      simp only [World.exec, h]
      exact ⟨_, setAt_same _ _ _, grew_command k.command w x⟩
    · refine other (by simp [Call.addedTo, e]) ⟨k, ?_, Grew.refl _⟩
      simp only [World.exec]
      split
      · exact h
      · simp only [setAt_other _ _ e]; exact h
  | parserCopyFrom i x =>
    have e : j ≠ i := fun e => hn (.inr ⟨i, x, rfl, by rw [e]⟩)
    refine other rfl ?_
    simp only [World.exec]
    split
    · exact ⟨k, h, Grew.refl _⟩
    · split
      · exact ⟨k, h, Grew.refl _⟩
      · exact ⟨k, by simp only [setAt_other _ _ e]; exact h, Grew.refl _⟩
  | parse i | parseMain i | makeIterator i | makeIteratorMain i =>
    have e : i ≠ j := fun e => hu (by rw [e]; rfl)
    exact other rfl ⟨k, by simp only [World.exec, setAt_other _ _ (Ne.symm e)]; exact h, Grew.refl _⟩
  | newOpt | newArg | newCmd | copyOpt | copyArg | moveArg | moveOpt | moveCmd | setOpt | setArg
    | parseConst | parseMainConst | makeIteratorConst | makeIteratorMainConst | writeHelp => exact other rfl ⟨k, h, Grew.refl _⟩
  | copyCmd | setCmd =>
    refine other rfl ?_
    simp only [World.exec]
    split <;> exact ⟨k, h, Grew.refl _⟩
  | cmdAddCmd =>
    refine other (by simp [Call.addedTo]) ?_
    simp only [World.exec]
    split <;> exact ⟨k, h, Grew.refl _⟩
  | cmdAddOpt | cmdAddArg =>
    refine other (by simp [Call.addedTo]) ?_
    simp only [World.exec]
    split
    · exact ⟨k, h, Grew.refl _⟩
    · split <;> exact ⟨k, h, Grew.refl _⟩
  | cmdCopyFrom =>
    refine other rfl ?_
    simp only [World.exec]
    split
    · exact ⟨k, h, Grew.refl _⟩
    · split <;> exact ⟨k, h, Grew.refl _⟩

theorem exec_contents {env : Env} {fuel : Nat} {w : World} {obj : Obj} {k : Command} (h : w.command obj = some k) {c : Call}
    (hs : c.Spares obj) (hn : ¬ c.CopiesInto obj) :
    ∃ k', (w.exec env fuel c).2.command obj = some k' ∧ Grew (addition env fuel obj w c) k k' := by
  cases obj with
  | arg | opt => simp [World.command] at h
  | cmd j => exact exec_cmd_contents h hs hn
  | parser j =>
    simp only [World.command, Option.map_eq_some_iff] at h
    obtain ⟨d, h1, rfl⟩ := h
    obtain ⟨d', h2, h3⟩ := exec_parser_contents (env := env) (fuel := fuel) h1 hs hn
    exact ⟨d'.command, by simp [World.command, h2], h3⟩

theorem run_contents {env : Env} {fuel : Nat} {obj : Obj} (cs : List Call) : ∀ {w : World} {k : Command}, w.command obj = some k →
    (∀ c ∈ cs, c.Spares obj ∧ ¬ c.CopiesInto obj) →
    ∃ k', (w.run env fuel cs).command obj = some k' ∧ Grew (additions env fuel obj w cs) k k' := by
  induction cs with
  | nil => intro w k h _; exact ⟨k, h, Grew.refl k⟩
  | cons c cs ih =>
    intro w k h hs
    obtain ⟨k1, h1, h2⟩ := exec_contents (env := env) (fuel := fuel) h (hs c (by simp)).1 (hs c (by simp)).2
    obtain ⟨k2, h3, h4⟩ := ih h1 (fun x hx => hs x (by simp [hx]))
    exact ⟨k2, h3, h2.trans h4⟩

end Argos
