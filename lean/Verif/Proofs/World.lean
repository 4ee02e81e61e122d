import Verif.Spec.World
import Verif.Proofs.InitTree
import Verif.Proofs.Good

/-! # Lemmas about the client objects -/

namespace Argos

theorem setAt_self {α : Type} (f : Nat → α) (i : Nat) : setAt f i (f i) = f := by
  funext j
  unfold setAt
  split
  · rename_i h; rw [h]
  · rfl

theorem setAt_same {α : Type} (f : Nat → α) (i : Nat) (x : α) : setAt f i x i = x := by simp [setAt]

theorem setAt_other {α : Type} (f : Nat → α) {i j : Nat} (x : α) (h : j ≠ i) : setAt f i x j = f j := by simp [setAt, h]

/-- A consumed object stays so when it is set to null somewhere. -/
theorem setAt_none {α : Type} (f : Nat → Option α) (i j : Nat) (h : f j = none) : setAt f i none j = none := by
  unfold setAt; split <;> simp_all

theorem ArgHandle.call_none (c : ArgCall) : ∃ m, ArgHandle.call none c = (.throw m, none) := by
  cases c with
  | count n => simp only [ArgHandle.call]; split <;> exact ⟨_, rfl⟩
  | countRange lo hi =>
    simp only [ArgHandle.call]
    split
    · exact ⟨_, rfl⟩
    · split <;> exact ⟨_, rfl⟩
  | _ => exact ⟨_, rfl⟩

/-- A call on a consumed object. -/
theorem exec_consumed {env : Env} {fuel : Nat} {w : World} {c : Call} {obj : Obj} (hr : c.receiver = some obj) (hc : w.Consumed obj)
    (hm : ¬ c.isParseMain) : ∃ m, w.exec env fuel c = (.throw m, w) := by
  cases c with
  | newArg | newOpt | newCmd | newParser | copyArg | copyOpt | copyCmd | moveArg | moveOpt | moveCmd | moveParser => simp [Call.receiver] at hr
  | setArg i c =>
    simp only [Call.receiver, Option.some.injEq] at hr
    subst hr
    have hc : w.args i = none := hc
    obtain ⟨m, e⟩ := ArgHandle.call_none c
    refine ⟨m, ?_⟩
    simp only [World.exec, hc, e]
    rw [← hc, setAt_self]
  | setOpt i c =>
    simp only [Call.receiver, Option.some.injEq] at hr
    subst hr
    have hc : w.opts i = none := hc
    refine ⟨optMoved, ?_⟩
    simp only [World.exec, hc, OptHandle.call]
    rw [← hc, setAt_self]
  | setCmd i | cmdAddArg i | cmdAddOpt i | cmdAddCmd i | cmdCopyFrom i =>
    simp only [Call.receiver, Option.some.injEq] at hr
    subst hr
    have hc : w.cmds i = none := hc
    exact ⟨cmdMoved, by simp only [World.exec, hc]⟩
  | setParser i | parserAddArg i | parserAddOpt i | parserAddCmd i | parserCopyFrom i =>
    simp only [Call.receiver, Option.some.injEq] at hr
    subst hr
    have hc : w.parsers i = none := hc
    exact ⟨parserMoved, by simp only [World.exec, hc]⟩
  | parse i | parseConst i | makeIterator i | makeIteratorConst i | writeHelp i =>
    simp only [Call.receiver, Option.some.injEq] at hr
    subst hr
    have hc : w.parsers i = none := hc
    refine ⟨parserMoved, ?_⟩
    simp only [World.exec, hc, ParserHandle.parse, ParserHandle.parseConst, ParserHandle.makeIterator, ParserHandle.makeIteratorConst,
      ParserHandle.helpTarget, Outcome.done]
    try rw [← hc, setAt_self]
  | parseMain i argv =>
    simp only [Call.receiver, Option.some.injEq] at hr
    subst hr
    have hc : w.parsers i = none := hc
    cases argv with
    | cons => exact absurd trivial hm
    | nil =>
      refine ⟨parserMoved, ?_⟩
      simp only [World.exec, hc, ParserHandle.parseMain, ParserHandle.parse, Outcome.done]
      rw [← hc, setAt_self]
  | parseMainConst i argv =>
    simp only [Call.receiver, Option.some.injEq] at hr
    subst hr
    have hc : w.parsers i = none := hc
    cases argv <;> exact ⟨parserMoved, by simp only [World.exec, hc, ParserHandle.parseMainConst, ParserHandle.parseConst, Outcome.done]⟩
  | makeIteratorMain i argv =>
    simp only [Call.receiver, Option.some.injEq] at hr
    subst hr
    have hc : w.parsers i = none := hc
    cases argv with
    | cons =>
      refine ⟨parserMoved, ?_⟩
      simp only [World.exec, hc, ParserHandle.makeIteratorMain, ParserHandle.makeIterator, Outcome.done]
      rw [← hc, setAt_self]
    | nil =>
      refine ⟨b!"argc and argv must at least contain the command name.", ?_⟩
      · simp only [World.exec, hc, ParserHandle.makeIteratorMain, Outcome.done]
        rw [← hc, setAt_self]
  | makeIteratorMainConst i argv =>
    simp only [Call.receiver, Option.some.injEq] at hr
    subst hr
    have hc : w.parsers i = none := hc
    cases argv
    · exact ⟨b!"argc and argv must at least contain the command name.",
        by simp only [World.exec, ParserHandle.makeIteratorMainConst, Outcome.done]⟩
    · exact ⟨parserMoved, by simp only [World.exec, hc, ParserHandle.makeIteratorMainConst, ParserHandle.makeIteratorConst, Outcome.done]⟩

theorem ParserHandle.parse_none {env : Env} {fuel : Nat} {h : ParserHandle} {args : List Str} : (ParserHandle.parse env fuel h args).2 = none := by
  cases h <;> rfl

theorem ParserHandle.makeIterator_none {h : ParserHandle} {args : List Str} : (ParserHandle.makeIterator h args).2 = none := by
  cases h <;> rfl

theorem ParserHandle.parseMain_none {env : Env} {fuel : Nat} {h : ParserHandle} {args : List Str} :
    (ParserHandle.parseMain env fuel h args).2 = none := by
  cases args with
  | nil => exact parse_none
  | cons => cases h <;> rfl

/-- An object without data gets data only by construction or assignment. -/
theorem exec_keeps {env : Env} {fuel : Nat} {w : World} {c : Call} {obj : Obj} (hc : w.Consumed obj) (hf : c.fills ≠ some obj) :
    (w.exec env fuel c).2.Consumed obj := by
  have fill : ∀ {α : Type} {f : Nat → Option α} {i k : Nat} {x : Option α}, f k = none → i ≠ k → setAt f i x k = none := by
    intro α f i k x h1 h2
    rw [setAt_other _ _ (Ne.symm h2)]; exact h1
  -- an object is only changed to another value where it was there
  have upd : ∀ {α : Type} {f : Nat → Option α} {i k : Nat} {x y : α}, f i = some y → f k = none → setAt f i (some x) k = none := by
    intro α f i k x y h1 h2
    refine fill h2 ?_
    intro e; subst e; rw [h2] at h1; simp at h1
  cases c with
  | newArg i | newOpt i | newCmd i | newParser i =>
    cases obj <;> simp only [World.Consumed, World.exec] at hc ⊢ <;> first | exact hc | skip
    all_goals
      refine fill hc ?_
      intro e; subst e; exact hf rfl
  | copyArg i j | copyOpt i j =>
    cases obj <;> simp only [World.Consumed, World.exec] at hc ⊢ <;> first | exact hc | skip
    all_goals
      refine fill hc ?_
      intro e; subst e; exact hf rfl
  | copyCmd i j =>
    simp only [World.exec]
    split
    · exact hc
    · cases obj <;> simp only [World.Consumed] at hc ⊢ <;> first | exact hc | skip
      all_goals
        refine fill hc ?_
        intro e; subst e; exact hf rfl
  | moveArg i j | moveOpt i j | moveCmd i j | moveParser i j =>
    cases obj <;> simp only [World.Consumed, World.exec] at hc ⊢ <;> first | exact hc | skip
    all_goals
      refine fill (setAt_none _ _ _ hc) ?_
      intro e; subst e; exact hf rfl
  | setArg i c =>
    cases obj <;> simp only [World.Consumed, World.exec] at hc ⊢ <;> first | exact hc | skip
    rename_i k
    by_cases e : k = i
    · subst e
      rw [setAt_same, hc]
      obtain ⟨m, e⟩ := ArgHandle.call_none c
      rw [e]
    · rw [setAt_other _ _ e]; exact hc
  | setOpt i c =>
    cases obj <;> simp only [World.Consumed, World.exec] at hc ⊢ <;> first | exact hc | skip
    rename_i k
    by_cases e : k = i
    · subst e
      rw [setAt_same, hc]
      rfl
    · rw [setAt_other _ _ e]; exact hc
  | setCmd i c | setParser i c =>
    simp only [World.exec]
    split
    · exact hc
    · rename_i hw
      cases obj <;> simp only [World.Consumed] at hc ⊢ <;> first | exact hc | skip
      exact upd hw hc
  | cmdAddArg i j | cmdAddOpt i j | parserAddArg i j | parserAddOpt i j =>
    simp only [World.exec]
    split
    · exact hc
    · rename_i hw
      split
      · exact hc
      · cases obj <;> simp only [World.Consumed] at hc ⊢ <;> first | exact hc | exact setAt_none _ _ _ hc | exact upd hw hc
  | cmdAddCmd i j =>
    simp only [World.exec]
    split
    · exact hc
    · rename_i hw
      cases obj <;> simp only [World.Consumed] at hc ⊢ <;> first | exact hc | skip
      exact setAt_none _ _ _ (upd hw hc)
  | parserAddCmd i j =>
    simp only [World.exec]
    split
    · exact hc
    · rename_i hw
      cases obj <;> simp only [World.Consumed] at hc ⊢ <;> first | exact hc | exact setAt_none _ _ _ hc | exact upd hw hc
  | cmdCopyFrom i j | parserCopyFrom i j =>
    simp only [World.exec]
    split
    · exact hc
    · rename_i hw
      split
      · exact hc
      · cases obj <;> simp only [World.Consumed] at hc ⊢ <;> first | exact hc | exact upd hw hc
  | parse i args | parseMain i args | makeIterator i args =>
    cases obj <;> simp only [World.Consumed, World.exec, ParserHandle.parse_none, ParserHandle.parseMain_none, ParserHandle.makeIterator_none] at hc ⊢ <;>
      first | exact hc | exact setAt_none _ _ _ hc
  | makeIteratorMain i args =>
    cases obj <;> simp only [World.Consumed, World.exec] at hc ⊢ <;> first | exact hc | skip
    rename_i k
    by_cases e : k = i
    · subst e
      rw [setAt_same, hc]
      cases args <;> rfl
    · rw [setAt_other _ _ e]; exact hc
  | parseConst | parseMainConst | makeIteratorConst | makeIteratorMainConst | writeHelp => exact hc

theorem run_keeps {env : Env} {fuel : Nat} {w : World} {cs : List Call} {obj : Obj} (hc : w.Consumed obj) (hf : ∀ c ∈ cs, c.fills ≠ some obj) :
    (w.run env fuel cs).Consumed obj := by
  induction cs generalizing w with
  | nil => exact hc
  | cons c cs ih => exact ih (exec_keeps hc (hf c (by simp))) (fun x hx => hf x (by simp [hx]))

/-- What a call uses up has no data afterwards, also when the call throws. -/
theorem exec_usesUp {env : Env} {fuel : Nat} {w : World} {c : Call} {obj : Obj} (hu : c.usesUp = some obj)
    (hr : ∀ r, c.receiver = some r → ¬ w.Consumed r) (hm : ∀ i, c ≠ .makeIteratorMain i []) : (w.exec env fuel c).2.Consumed obj := by
  cases c with
  | moveArg i j | moveOpt i j | moveCmd i j | moveParser i j =>
    simp only [Call.usesUp] at hu
    split at hu
    · simp at hu
    · rename_i hne
      cases hu
      simp only [World.exec, World.Consumed]
      rw [setAt_other _ _ hne, setAt_same]
  | cmdAddArg i j | cmdAddOpt i j | parserAddArg i j | parserAddOpt i j =>
    cases hu
    have h1 := hr _ rfl
    simp only [World.Consumed] at h1
    simp only [World.exec]
    split
    · contradiction
    · split
      · simp only [World.Consumed]; assumption
      · simp only [World.Consumed]; rw [setAt_same]
  | cmdAddCmd i j | parserAddCmd i j =>
    cases hu
    have h1 := hr _ rfl
    simp only [World.Consumed] at h1
    simp only [World.exec]
    split
    · contradiction
    · simp only [World.Consumed]; rw [setAt_same]
  | parse i args | parseMain i args | makeIterator i args =>
    cases hu
    simp only [World.Consumed, World.exec, ParserHandle.parse_none, ParserHandle.parseMain_none, ParserHandle.makeIterator_none, setAt_same]
  | makeIteratorMain i args =>
    cases hu
    cases args with
    | nil => exact absurd rfl (hm i)
    | cons => simp only [World.Consumed, World.exec, ParserHandle.makeIteratorMain, ParserHandle.makeIterator_none, setAt_same]
  | _ => simp [Call.usesUp] at hu

/-! ### Properties of all command data -/

/-- The texts are a map: every id at most once, in order. -/
def TextsSorted (texts : List (TextId × TextSource)) : Prop := texts.Pairwise fun a b => a.1.index < b.1.index

theorem TextId.index_inj {a b : TextId} (h : a.index = b.index) : a = b := by
  cases a <;> cases b <;> first | rfl | (exact absurd h (by decide))

theorem setText_sorted {id : TextId} {source : TextSource} {texts : List (TextId × TextSource)} (h : TextsSorted texts) :
    TextsSorted (setText id source texts) ∧ ∀ n, n < id.index → (∀ p ∈ texts, n < p.1.index) → ∀ p ∈ setText id source texts, n < p.1.index := by
  induction texts with
  | nil =>
    refine ⟨by simp [TextsSorted, setText], ?_⟩
    intro n hn _ p hp
    simp only [setText, List.mem_singleton] at hp
    rw [hp]
    exact hn
  | cons q rest ih =>
    obtain ⟨i, s⟩ := q
    obtain ⟨h1, h2⟩ := List.pairwise_cons.mp h
    obtain ⟨h3, h4⟩ := ih h2
    unfold setText
    split
    · rename_i e
      subst e
      refine ⟨List.pairwise_cons.mpr ⟨h1, h2⟩, ?_⟩
      intro n hn hp p hm
      rcases List.mem_cons.mp hm with rfl | hm
      · exact hn
      · exact hp p (List.mem_cons_of_mem _ hm)
    · rename_i hne
      split
      · rename_i hlt
        refine ⟨List.pairwise_cons.mpr ⟨?_, h⟩, ?_⟩
        · intro p hp
          rcases List.mem_cons.mp hp with rfl | hp
          · exact hlt
          · have := h1 p hp
            simp only at this ⊢
            omega
        · intro n hn hp p hm
          rcases List.mem_cons.mp hm with rfl | hm
          · exact hn
          · exact hp p hm
      · rename_i hge
        have hgt : i.index < id.index := by
          have : i.index ≠ id.index := fun e => hne (TextId.index_inj e.symm)
          omega
        refine ⟨List.pairwise_cons.mpr ⟨h4 _ hgt h1, h3⟩, ?_⟩
        intro n hn hp p hm
        rcases List.mem_cons.mp hm with rfl | hm
        · exact hp _ List.mem_cons_self
        · exact h4 n hn (fun p hm => hp p (List.mem_cons_of_mem _ hm)) p hm

theorem copyTexts_sorted {src : List (TextId × TextSource)} : ∀ {texts : List (TextId × TextSource)}, TextsSorted texts →
    TextsSorted (copyTexts texts src).2 := by
  induction src with
  | nil => intro texts h; exact h
  | cons q rest ih =>
    intro texts h
    obtain ⟨i, s⟩ := q
    unfold copyTexts
    split
    · exact h
    · exact ih (setText_sorted h).1

/-- A property of command trees that the operations keep; `A` says which `copy_from` calls are allowed. -/
structure Kept (P : Command → Prop) (A : Command → Command → Prop) : Prop where
  fresh : ∀ name, P { name }
  copy : ∀ c, P c → P c.copy
  same : ∀ c c' : Command, c'.arguments = c.arguments → c'.commands = c.commands → c'.optionIndex = c.optionIndex →
    (TextsSorted c.texts → TextsSorted c'.texts) → P c → P c'
  addArg : ∀ (c : Command) l, c.commands = [] → P c → P { c with arguments := l }
  addCmd : ∀ c sub : Command, c.arguments = [] → P c → P sub → P { c with commands := c.commands ++ [sub] }
  copyFrom : ∀ c src : Command, A c src → P c → P src →
    P { c with arguments := c.arguments ++ src.arguments, commands := c.commands ++ Command.copies src.commands }

namespace Kept

variable {P : Command → Prop} {A : Command → Command → Prop}

theorem set (k : Kept P A) {c : Command} (h : P c) (call : CmdCall) : P (c.set call) :=
  k.same c _ (by cases call <;> rfl) (by cases call <;> rfl) (by cases call <;> rfl)
    (fun ht => by cases call <;> first | exact ht | exact (setText_sorted ht).1) h

theorem addArgument (k : Kept P A) {c : Command} (h : P c) (a : Option ArgData) : P (Outcome.orKeep c (c.addArgument a)).2 := by
  cases a with
  | none => exact h
  | some a =>
    unfold Command.addArgument
    simp only
    split
    · exact h
    · rename_i hc
      split
      · exact h
      · exact k.addArg c _ (by simpa using hc) h

theorem addOption (k : Kept P A) {c : Command} (h : P c) (o : Option OptData) : P (Outcome.orKeep c (c.addOption o)).2 := by
  cases o with
  | none => exact h
  | some o =>
    unfold Command.addOption
    simp only
    split
    · exact h
    · exact k.same c _ rfl rfl rfl id h

theorem addCommand (k : Kept P A) {c : Command} (h : P c) (sub : Option Command) (hs : ∀ s, sub = some s → P s) :
    P (Outcome.orKeep c (c.addCommand sub)).2 := by
  cases sub with
  | none => exact h
  | some sub =>
    unfold Command.addCommand
    simp only
    split
    · exact h
    · rename_i hc
      split
      · exact h
      · refine k.addCmd c _ (by simpa using hc) h ?_
        split
        · exact k.same sub _ rfl rfl rfl id (hs _ rfl)
        · exact hs _ rfl

theorem copied (k : Kept P A) {c src : Command} (ha : A c src) (h : P c) (hs : P src) : P (c.copyFrom src).2 := by
  have h1 := k.copyFrom c src ha h hs
  unfold Command.copyFrom
  simp only
  have key := copyTexts_sorted (src := src.texts) (texts := c.texts)
  split
  · rename_i e
    rw [e] at key
    exact k.same (Command.mk .. ) _ (by rfl) (by rfl) (by rfl) (by exact key) h1
  · rename_i e
    rw [e] at key
    exact k.same (Command.mk .. ) _ (by rfl) (by rfl) (by rfl) (by exact key) h1

theorem copiedSelf (k : Kept P A) {c : Command} (ha : A c c) (h : P c) : P c.copyFromSelf.2 := by
  unfold Command.copyFromSelf
  split
  · exact h
  · exact k.copied ha h h

/-- Every call keeps the property of all command data. -/
theorem exec (k : Kept P A) {env : Env} {fuel : Nat} {w : World} {call : Call} (hw : ∀ c, w.Has c → P c)
    (ha : ∀ c s, call.copies w = some (c, s) → A c s) : ∀ c, (w.exec env fuel call).2.Has c → P c := by
  have h1 : ∀ i c, w.cmds i = some c → P c := fun i c h => hw c (Or.inl ⟨i, h⟩)
  have h2 : ∀ i d, w.parsers i = some d → P d.command := fun i d h => hw _ (Or.inr ⟨i, d, h, rfl⟩)
  -- it is enough to look at the objects
  have key : ∀ w' : World, (∀ i c, w'.cmds i = some c → P c) → (∀ i d, w'.parsers i = some d → P d.command) → ∀ c, w'.Has c → P c := by
    intro w' g1 g2 c hc
    rcases hc with ⟨i, h⟩ | ⟨i, d, h, rfl⟩
    · exact g1 i c h
    · exact g2 i d h
  have upd : ∀ {f : Nat → CmdHandle} {i : Nat} {x : CmdHandle}, (∀ i c, f i = some c → P c) → (∀ c, x = some c → P c) →
      ∀ j c, setAt f i x j = some c → P c := by
    intro f i x g1 g2 j c h
    unfold setAt at h
    split at h
    · exact g2 c h
    · exact g1 j c h
  have updP : ∀ {f : Nat → ParserHandle} {i : Nat} {x : ParserHandle}, (∀ i d, f i = some d → P d.command) → (∀ d, x = some d → P d.command) →
      ∀ j d, setAt f i x j = some d → P d.command := by
    intro f i x g1 g2 j c h
    unfold setAt at h
    split at h
    · exact g2 c h
    · exact g1 j c h
  have nil : ∀ c : Command, (none : CmdHandle) = some c → P c := by simp
  have nilP : ∀ c : ParserData, (none : ParserHandle) = some c → P c.command := by simp
  cases call with
  | newArg | newOpt | copyArg | copyOpt | moveArg | moveOpt | setArg | setOpt => exact key _ h1 h2
  | parseConst | parseMainConst | makeIteratorConst | makeIteratorMainConst | writeHelp => exact hw
  | newCmd i name =>
    refine key _ (upd h1 ?_) h2
    intro c e; cases e; exact k.fresh name
  | newParser i name ex =>
    refine key _ h1 (updP h2 ?_)
    intro c e; cases e; exact k.fresh _
  | copyCmd i j =>
    simp only [World.exec]
    split
    · exact hw
    · refine key _ (upd h1 ?_) h2
      intro c e
      rw [Option.map_eq_some_iff] at e
      obtain ⟨c0, e1, rfl⟩ := e
      exact k.copy _ (h1 _ _ e1)
  | moveCmd i j => exact key _ (upd (upd h1 nil) (h1 i)) h2
  | moveParser i j => exact key _ h1 (updP (updP h2 nilP) (h2 i))
  | setCmd i c =>
    simp only [World.exec]
    split
    · exact hw
    · rename_i hc
      refine key _ (upd h1 ?_) h2
      intro c e; cases e; exact k.set (h1 _ _ hc) _
  | setParser i c =>
    simp only [World.exec]
    split
    · exact hw
    · rename_i d hd
      refine key _ h1 (updP h2 ?_)
      intro d' e; cases e
      have hd := h2 _ _ hd
      unfold ParserData.set
      split
      case h_5 =>
        split
        · split
          · exact hd
          · exact hd
        · exact hd
      all_goals first | exact hd | exact k.same d.command _ rfl rfl rfl id hd | exact k.same d.command _ rfl rfl rfl (fun ht => (setText_sorted ht).1) hd
  | cmdAddArg i j =>
    simp only [World.exec]
    split
    · exact hw
    · rename_i hc
      split
      · exact hw
      · refine key _ (upd h1 ?_) h2
        intro c e; cases e; exact k.addArgument (h1 _ _ hc) _
  | cmdAddOpt i j =>
    simp only [World.exec]
    split
    · exact hw
    · rename_i hc
      split
      · exact hw
      · refine key _ (upd h1 ?_) h2
        intro c e; cases e; exact k.addOption (h1 _ _ hc) _
  | cmdAddCmd i j =>
    simp only [World.exec]
    split
    · exact hw
    · rename_i hc
      refine key _ (upd (upd h1 ?_) nil) h2
      intro c e; cases e; exact k.addCommand (h1 _ _ hc) _ (h1 j)
  | cmdCopyFrom i j =>
    simp only [World.exec]
    split
    · exact hw
    · rename_i cmd hc
      split
      · exact hw
      · rename_i src hs
        have ha := ha cmd src (by simp [Call.copies, hc, hs])
        refine key _ (upd h1 ?_) h2
        intro c e; cases e
        split
        · rename_i hij
          subst hij
          rw [hc] at hs
          cases hs
          exact k.copiedSelf ha (h1 _ _ hc)
        · exact k.copied ha (h1 _ _ hc) (h1 _ _ hs)
  | parserAddArg i j =>
    simp only [World.exec]
    split
    · exact hw
    · rename_i hc
      split
      · exact hw
      · refine key _ h1 (updP h2 ?_)
        intro c e; cases e; exact k.addArgument (h2 _ _ hc) _
  | parserAddOpt i j =>
    simp only [World.exec]
    split
    · exact hw
    · rename_i hc
      split
      · exact hw
      · refine key _ h1 (updP h2 ?_)
        intro c e; cases e; exact k.addOption (h2 _ _ hc) _
  | parserAddCmd i j =>
    simp only [World.exec]
    split
    · exact hw
    · rename_i hc
      refine key _ (upd h1 nil) (updP h2 ?_)
      intro c e; cases e; exact k.addCommand (h2 _ _ hc) _ (h1 j)
  | parserCopyFrom i j =>
    simp only [World.exec]
    split
    · exact hw
    · rename_i cmd hc
      split
      · exact hw
      · rename_i src hs
        have ha := ha cmd.command src (by simp [Call.copies, hc, hs])
        refine key _ h1 (updP h2 ?_)
        intro c e; cases e
        exact k.copied ha (h2 _ _ hc) (h1 _ _ hs)
  | parse i args | parseMain i args | makeIterator i args =>
    refine key _ h1 ?_
    simp only [World.exec, ParserHandle.parse_none, ParserHandle.parseMain_none, ParserHandle.makeIterator_none]
    exact updP h2 nilP
  | makeIteratorMain i args =>
    refine key _ h1 (updP h2 ?_)
    cases args with
    | nil => exact h2 i
    | cons =>
      simp only [ParserHandle.makeIteratorMain, ParserHandle.makeIterator_none]
      exact nilP

end Kept

theorem Command.copies_eq (l : List Command) : Command.copies l = l.map Command.copy := by
  induction l with
  | nil => rw [Command.copies]; rfl
  | cons c l ih => rw [Command.copies, ih]; rfl

theorem Command.copy_fields (c : Command) :
    c.copy = { c with commands := c.commands.map Command.copy, visibility := .normal, optionIndex := [] } := by
  cases c
  rw [Command.copy, Command.copies_eq]

/-- A consumed object given to a call that checks it. -/
theorem exec_operand {env : Env} {fuel : Nat} {w : World} {c : Call} {obj : Obj} (hr : c.operand = some obj) (hc : w.Consumed obj)
    (hm : ∀ i j, c ≠ .cmdCopyFrom i j) : ∃ m, w.exec env fuel c = (.throw m, w) := by
  cases c with
  | cmdAddArg i j | parserAddArg i j | cmdAddOpt i j | parserAddOpt i j | parserCopyFrom i j =>
    cases hr
    simp only [World.Consumed] at hc
    simp only [World.exec, hc]
    split
    · exact ⟨_, rfl⟩
    · exact ⟨_, rfl⟩
  | cmdAddCmd i j =>
    cases hr
    simp only [World.Consumed] at hc
    simp only [World.exec, hc]
    split
    · exact ⟨_, rfl⟩
    · rename_i c hi
      simp only [Command.addCommand, Outcome.orKeep, Outcome.done]
      rw [← hi, setAt_self, ← hc, setAt_self]
      exact ⟨_, rfl⟩
  | parserAddCmd i j =>
    cases hr
    simp only [World.Consumed] at hc
    simp only [World.exec, hc]
    split
    · exact ⟨_, rfl⟩
    · rename_i d hi
      simp only [Command.addCommand, Outcome.orKeep, Outcome.done]
      rw [← hi, setAt_self, ← hc, setAt_self]
      exact ⟨_, rfl⟩
  | cmdCopyFrom i j => exact absurd rfl (hm i j)
  | _ => simp [Call.operand] at hr

/-! ### Copies -/

/-- The command at a path of a copy. -/
theorem Command.copy_at (p : List Nat) : ∀ c : Command, c.copy.at p = (c.at p).map Command.copy := by
  induction p with
  | nil => intro c; rfl
  | cons i p ih =>
    intro c
    have h : c.copy.commands = c.commands.map Command.copy := by rw [Command.copy_fields]
    simp only [Command.at, h, List.getElem?_map]
    cases c.commands[i]? with
    | none => rfl
    | some s => simpa using ih s

theorem Command.copy_props (c : Command) : c.copy.props = c.props := by
  rw [Command.copy_fields]
  simp [Command.props]

mutual
theorem Command.copy_eq : ∀ c : Command, c.Visible → (∀ x : Command, x.Within c → x.optionIndex = []) → c.copy = c
  | ⟨arguments, options, commands, currentSection, name, fullName, texts, v, requireSubcommand, multiCommand, section_, id, argumentId, index⟩, h, hi => by
    have h1 : v = .normal := h _ .self
    have h2 : index = [] := hi _ .self
    have h3 := Command.copies_id commands (fun c hc x hx => h x (.sub hc hx)) (fun c hc x hx => hi x (.sub hc hx))
    rw [Command.copy, h1, h2, h3]
theorem Command.copies_id : ∀ l : List Command, (∀ c ∈ l, c.Visible) → (∀ c ∈ l, ∀ x : Command, x.Within c → x.optionIndex = []) →
    Command.copies l = l
  | [], _, _ => by rw [Command.copies]
  | c :: l, h, hi => by
    rw [Command.copies, Command.copy_eq c (h c (by simp)) (hi c (by simp)),
      Command.copies_id l (fun x hx => h x (by simp [hx])) (fun x hx => hi x (by simp [hx]))]
end

theorem Command.within_iff {x c : Command} : x.Within c ↔ x = c ∨ ∃ s ∈ c.commands, x.Within s := by
  constructor
  · intro h
    cases h with
    | self => exact .inl rfl
    | sub hm hw => exact .inr ⟨_, hm, hw⟩
  · rintro (rfl | ⟨s, hm, hw⟩)
    · exact .self
    · exact .sub hm hw

/-- A property of every command of the tree that depends on the members in `Kept`. -/
theorem kept_within {Q : Command → Prop} (h0 : ∀ name, Q { name })
    (hsame : ∀ c c' : Command, c'.arguments = c.arguments → c'.commands.length = c.commands.length → c'.optionIndex = c.optionIndex → Q c → Q c')
    (hcopy : ∀ c : Command, Q c → Q { c with optionIndex := [] })
    (harg : ∀ (c : Command) l, c.commands = [] → Q c → Q { c with arguments := l })
    (hcmd : ∀ (c : Command) l, c.arguments = [] → Q c → Q { c with commands := l })
    {A : Command → Command → Prop}
    (hA : ∀ c src : Command, A c src → Q c → Q src →
      Q { c with arguments := c.arguments ++ src.arguments, commands := c.commands ++ Command.copies src.commands }) :
    Kept (fun c => ∀ x : Command, x.Within c → Q x) A where
  fresh name := by
    intro x hx
    rcases Command.within_iff.mp hx with rfl | ⟨s, hs, _⟩
    · exact h0 name
    · simp at hs
  copy c h := by
    intro x hx
    obtain ⟨p, hp⟩ := Command.at_of_within hx
    rw [Command.copy_at, Option.map_eq_some_iff] at hp
    obtain ⟨y, hy, rfl⟩ := hp
    have := hcopy y (h y (Command.within_of_at p hy))
    refine hsame _ _ ?_ ?_ ?_ this <;> simp [Command.copy_fields]
  same c c' h1 h2 h3 _ h := by
    intro x hx
    rcases Command.within_iff.mp hx with rfl | ⟨s, hs, hw⟩
    · exact hsame c x h1 (by rw [h2]) h3 (h c .self)
    · exact h x (.sub (h2 ▸ hs) hw)
  addArg c l hc h := by
    intro x hx
    rcases Command.within_iff.mp hx with rfl | ⟨s, hs, hw⟩
    · exact harg c l hc (h c .self)
    · exact h x (.sub hs hw)
  addCmd c sub hc h hs := by
    intro x hx
    rcases Command.within_iff.mp hx with rfl | ⟨s, hm, hw⟩
    · exact hcmd c _ hc (h c .self)
    · rcases List.mem_append.mp hm with hm | hm
      · exact h x (.sub hm hw)
      · simp only [List.mem_singleton] at hm
        subst hm
        exact hs x hw
  copyFrom c src ha h hs := by
    intro x hx
    rcases Command.within_iff.mp hx with rfl | ⟨s, hm, hw⟩
    · exact hA c src ha (h c .self) (hs src .self)
    · rcases List.mem_append.mp hm with hm | hm
      · exact h x (.sub hm hw)
      · rw [Command.copies_eq, List.mem_map] at hm
        obtain ⟨y, hy, rfl⟩ := hm
        obtain ⟨p, hp⟩ := Command.at_of_within hw
        rw [Command.copy_at, Option.map_eq_some_iff] at hp
        obtain ⟨z, hz, rfl⟩ := hp
        have := hcopy z (hs z (.sub hy (Command.within_of_at p hz)))
        refine hsame _ _ ?_ ?_ ?_ this <;> simp [Command.copy_fields]

/-- The full name of a sub-command. -/
theorem finishCommand_fullName {s : ParserSettings} (p : List Nat) : ∀ {fn : Str} {a b : Nat} {c c' : Command} {i : Nat} {q x : Command},
    finishCommand s fn a b c = .ok c' → c.at p = some q → q.commands[i]? = some x →
    (c'.at (p ++ [i])).map Command.fullName = some (q.name ++ [32] ++ x.name) := by
  induction p with
  | nil =>
    intro fn a b c c' i q x h hq hx
    simp only [Command.at, Option.some.injEq] at hq
    subst hq
    obtain ⟨x', hx'⟩ := (finishCommand_at s [i] h).2 x (by simp [Command.at, hx])
    obtain ⟨x0, fn', a', b', h1, h2, _, h4⟩ := (finishCommand_at s [i] h).1 x' hx'
    simp only [Command.at, hx, Option.some.injEq] at h1
    subst h1
    obtain ⟨c1, _, _, _, h5, _, rfl⟩ := finishCommand_ok h2
    obtain ⟨_, _, _, _, _, _, _, _, h6, _⟩ := finishSelf_ok h5
    rw [List.nil_append, hx']
    simp only [Option.map_some, h6, h4 i rfl]
  | cons j p ih =>
    intro fn a b c c' i q x h hq hx
    obtain ⟨c1, x1, y1, cmds, _, h2, rfl⟩ := finishCommand_ok h
    simp only [Command.at] at hq
    cases h3 : c.commands[j]? with
    | none => simp [h3] at hq
    | some s0 =>
      simp only [h3] at hq
      obtain ⟨s', h4, h5⟩ := (finishCommands_get h2).2 j s0 h3
      have := ih h5 hq hx
      simpa only [List.cons_append, Command.at, h4] using this

end Argos
