import Verif.Spec.Onward
import Verif.Proofs.Insert
import Verif.Proofs.Ends

/-! # Command lines that go on -/

namespace Argos
open Spec

theorem StdIt.remaining_more {it it' : StdIt} {r : List Str} (p : List Str) (h : it.remainingArguments = .ok (r, it')) :
    (it.more p).remainingArguments = .ok (r ++ p, it'.more p) := by
  obtain ⟨it1, h1, h2⟩ := Outcome.bind_eq_ok.mp h
  refine Outcome.bind_eq_ok.mpr ⟨_, StdIt.split_more p h1, ?_⟩
  obtain ⟨args, pos⟩ := it1
  simp only [StdIt.more] at h2 ⊢
  split at h2
  · rename_i hp
    refine (if_pos hp).trans ?_
    simp only [Outcome.ok.injEq, Prod.mk.injEq] at h2
    obtain ⟨rfl, rfl⟩ := h2
    rfl
  · rename_i hp
    refine (if_neg hp).trans ?_
    cases args with
    | nil => simp at h2
    | cons x rest =>
      simp only [Outcome.ok.injEq, Prod.mk.injEq] at h2
      obtain ⟨rfl, rfl⟩ := h2
      rfl

theorem OptIt.remaining_more {it it' : OptIt} {r : List Str} (p : List Str) (h : it.remainingArguments = .ok (r, it')) :
    (it.more p).remainingArguments = .ok (r ++ p, it'.more p) := by
  obtain ⟨args, pos, pf⟩ := it
  unfold OptIt.remainingArguments at h ⊢
  simp only [OptIt.more] at h ⊢
  split at h
  · rename_i hp
    refine (if_pos hp).trans ?_
    simp only [Outcome.ok.injEq, Prod.mk.injEq] at h
    obtain ⟨rfl, rfl⟩ := h
    rfl
  · rename_i hp
    refine (if_neg hp).trans ?_
    cases args with
    | nil => simp at h
    | cons x rest =>
      simp only [Outcome.ok.injEq, Prod.mk.injEq] at h
      obtain ⟨rfl, rfl⟩ := h
      rfl

theorem Iter.remaining_more {it it' : Iter} {r : List Str} (p : List Str) (h : it.remainingArguments = .ok (r, it')) :
    (it.more p).remainingArguments = .ok (r ++ p, it'.more p) := by
  cases it with
  | std it =>
    obtain ⟨⟨b, i⟩, h1, h2⟩ := Outcome.bind_eq_ok.mp h
    simp only [pure, Outcome.ok.injEq, Prod.mk.injEq] at h2
    obtain ⟨rfl, rfl⟩ := h2
    exact Outcome.bind_eq_ok.mpr ⟨_, StdIt.remaining_more p h1, rfl⟩
  | opt it =>
    obtain ⟨⟨b, i⟩, h1, h2⟩ := Outcome.bind_eq_ok.mp h
    simp only [pure, Outcome.ok.injEq, Prod.mk.injEq] at h2
    obtain ⟨rfl, rfl⟩ := h2
    exact Outcome.bind_eq_ok.mpr ⟨_, OptIt.remaining_more p h1, rfl⟩

namespace Parser
open ParserM

/-- A state while an argument is processed. -/
structure Fit (μ : Mode) (s : PState) : Prop where
  mode : s.mode = μ
  ok : s.iter.Ok
  args : s.iter.args ≠ []
  count : Counter.requiresArgumentCount s.command.arguments = false

/-- The remaining arguments have been stored: those of `t` go on with `p`. -/
def Shut (p : List Str) (s t : PState) : Prop :=
  ∃ n ns it, s.stack = n :: ns ∧ t = { s with stack := { n with unprocessed := n.unprocessed ++ p } :: ns, iter := it }

/-- The method does the same if the command line goes on, and does not end parsing. -/
def KeepsOn (p : List Str) (μ : Mode) {α : Type} (m : ParserM α) : Prop :=
  ∀ s, Fit μ s → m (s.more p) = ((m s).1, (m s).2.more p) ∧ Fit μ (m s).2

/-- The results of two runs, the second with more arguments: either the remaining arguments have been stored or `L` holds. -/
def Comes (p : List Str) {α : Type} (L : α → PState → Prop) (x y : Outcome α × PState) : Prop :=
  y.1 = x.1 ∧ (y.2 = x.2.more p ∧ (∀ a, x.1 = .ok a → L a x.2) ∨ Shut p x.2 y.2)

/-- The method does the same if the command line goes on, apart from the arguments left; if these have not been stored then `L` holds. -/
def ComesTo (p : List Str) (μ : Mode) {α : Type} (L : α → PState → Prop) (m : ParserM α) : Prop :=
  ∀ s, Fit μ s → Comes p L (m s) (m (s.more p))

variable {p : List Str} {μ : Mode}

theorem KeepsOn.comes {α : Type} {L : α → PState → Prop} {m : ParserM α} (h : KeepsOn p μ m) (hl : ∀ s a, Fit μ s → (m s).1 = .ok a → L a (m s).2) :
    ComesTo p μ L m := by
  intro s hs
  rw [(h s hs).1]
  exact ⟨rfl, Or.inl ⟨rfl, fun a ha => hl s a hs ha⟩⟩

theorem KeepsOn.bind {α β : Type} {m : ParserM α} {f : α → ParserM β} (h : KeepsOn p μ m) (hf : ∀ a, KeepsOn p μ (f a)) : KeepsOn p μ (m >>= f) := by
  intro s hs
  obtain ⟨h1, h2⟩ := h s hs
  rw [bind_apply, bind_apply, h1]
  generalize m s = q at h2 ⊢
  obtain ⟨o, s1⟩ := q
  cases o with
  | ok a => exact hf a s1 h2
  | _ => exact ⟨rfl, h2⟩

theorem ComesTo.bind {α β : Type} {L : β → PState → Prop} {m : ParserM α} {f : α → ParserM β} (h : KeepsOn p μ m) (hf : ∀ a, ComesTo p μ L (f a)) :
    ComesTo p μ L (m >>= f) := by
  intro s hs
  obtain ⟨h1, h2⟩ := h s hs
  rw [bind_apply, bind_apply, h1]
  generalize m s = q at h2 ⊢
  obtain ⟨o, s1⟩ := q
  cases o with
  | ok a => exact hf a s1 h2
  | _ => exact ⟨rfl, Or.inl ⟨rfl, by simp⟩⟩

theorem ComesTo.then {α β : Type} {L : α → PState → Prop} {L' : β → PState → Prop} {m : ParserM α} (h : ComesTo p μ L m) (f : α → β)
    (hl : ∀ a s, L a s → L' (f a) s) : ComesTo p μ L' (m >>= fun a => pure (f a)) := by
  intro s hs
  obtain ⟨h1, h2⟩ := h s hs
  rw [bind_apply, bind_apply]
  generalize m s = q at h1 h2 ⊢
  generalize m (s.more p) = q' at h1 h2 ⊢
  obtain ⟨o, s1⟩ := q
  obtain ⟨o', s1'⟩ := q'
  simp only at h1 h2
  subst h1
  cases o' with
  | ok a =>
    refine ⟨rfl, ?_⟩
    rcases h2 with ⟨h2, h3⟩ | h2
    · refine Or.inl ⟨h2, ?_⟩
      intro b hb
      have hb' : f a = b := by simpa [pure_apply] using hb
      rw [← hb']
      exact hl a _ (h3 a rfl)
    · exact Or.inr h2
  | _ =>
    refine ⟨rfl, ?_⟩
    rcases h2 with ⟨h2, _⟩ | h2
    · exact Or.inl ⟨h2, by simp⟩
    · exact Or.inr h2

theorem ComesTo.pure {α : Type} {L : α → PState → Prop} (a : α) (h : ∀ s, Fit μ s → L a s) : ComesTo p μ L (Pure.pure a : ParserM α) := by
  intro s hs
  refine ⟨rfl, Or.inl ⟨rfl, ?_⟩⟩
  intro b hb
  have hb' : a = b := by simpa [pure_apply] using hb
  rw [← hb']
  exact h s hs

theorem ComesTo.lift {α : Type} {L : α → PState → Prop} (x : Outcome α) (h : ∀ a, x ≠ .ok a) : ComesTo p μ L (ParserM.lift x) := by
  intro s hs
  refine ⟨rfl, Or.inl ⟨rfl, ?_⟩⟩
  intro b hb
  exact absurd hb (h b)

theorem KeepsOn.pure {α : Type} (a : α) : KeepsOn p μ (Pure.pure a : ParserM α) := fun _ hs => ⟨rfl, hs⟩
theorem KeepsOn.lift {α : Type} (x : Outcome α) : KeepsOn p μ (ParserM.lift x) := fun _ hs => ⟨rfl, hs⟩
theorem KeepsOn.emit (e : Event) : KeepsOn p μ (emit e) := fun _ hs => ⟨rfl, ⟨hs.mode, hs.ok, hs.args, hs.count⟩⟩

theorem KeepsOn.modify {f : PState → PState} (h1 : ∀ s, f (s.more p) = (f s).more p) (h2 : ∀ s, (f s).iter = s.iter) (h3 : ∀ s, (f s).command = s.command)
    (h4 : ∀ s, (f s).mode = s.mode) : KeepsOn p μ (ParserM.modify f) := fun s hs =>
  ⟨congrArg _ (h1 s), ⟨by rw [modify_apply]; exact (h4 s).trans hs.mode, by rw [modify_apply]; exact (h2 s).symm ▸ hs.ok, by rw [modify_apply]; exact (h2 s).symm ▸ hs.args,
    by rw [modify_apply]; exact (h3 s).symm ▸ hs.count⟩⟩

theorem KeepsOn.get {α : Type} {f : PState → ParserM α} (h : ∀ s0, KeepsOn p μ (f s0)) (hf : ∀ s, f (s.more p) = f s) : KeepsOn p μ (ParserM.get >>= f) := by
  intro s hs
  rw [get_bind, get_bind, hf]
  exact h s s hs

theorem ComesTo.get {α : Type} {L : α → PState → Prop} {f : PState → ParserM α} (h : ∀ s0, ComesTo p μ L (f s0)) (hf : ∀ s, f (s.more p) = f s) :
    ComesTo p μ L (ParserM.get >>= f) := by
  intro s hs
  rw [get_bind, get_bind, hf]
  exact h s s hs

theorem KeepsOn.ite {α : Type} {c : Prop} [Decidable c] {a b : ParserM α} (ha : KeepsOn p μ a) (hb : KeepsOn p μ b) :
    KeepsOn p μ (if c then a else b) := by
  split
  · exact ha
  · exact hb

theorem ComesTo.ite {α : Type} {L : α → PState → Prop} {c : Prop} [Decidable c] {a b : ParserM α} (ha : ComesTo p μ L a) (hb : ComesTo p μ L b) :
    ComesTo p μ L (if c then a else b) := by
  split
  · exact ha
  · exact hb

theorem KeepsOn.back : KeepsOn p μ back := by
  intro s hs
  unfold Parser.back
  show (match s.stack with | [] => _ | n :: _ => _) = _ ∧ _
  cases s.stack <;> exact ⟨rfl, hs⟩

theorem KeepsOn.modifyBack (f : PNode → PNode) : KeepsOn p μ (modifyBack f) := by
  intro s hs
  unfold Parser.modifyBack
  show (match s.stack with | [] => _ | n :: ns => _) = _ ∧ _
  cases s.stack with
  | nil => exact ⟨rfl, hs⟩
  | cons n ns => exact ⟨rfl, ⟨hs.mode, hs.ok, hs.args, hs.count⟩⟩

theorem KeepsOn.iterCurrent : KeepsOn p μ iterCurrent := by
  intro s hs
  obtain ⟨a, ha⟩ := s.iter.current_ok hs.args
  unfold Parser.iterCurrent
  have e : (s.more p).iter.current = .ok a := Iter.current_more p ha
  rw [e, ha]
  exact ⟨rfl, hs⟩

theorem KeepsOn.applyOps (vid : Nat) (ops : List BuilderOp) (b : Bool) : KeepsOn p μ (applyOps vid ops b) := by
  induction ops generalizing b with
  | nil => exact .pure b
  | cons op ops ih =>
    intro s hs
    unfold Parser.applyOps
    show (match s.stack with | [] => _ | n :: ns => _) = _ ∧ _
    cases s.stack with
    | nil => exact ⟨rfl, hs⟩
    | cons n ns =>
      simp only
      cases ho : op.apply n with
      | ok q =>
        obtain ⟨n', t'⟩ := q
        exact ih _ { s with stack := n' :: ns } ⟨hs.mode, hs.ok, hs.args, hs.count⟩
      | _ => exact ⟨rfl, hs⟩

theorem KeepsOn.updateArguments (new : List Str) : KeepsOn p μ (updateArguments new) := by
  intro s hs
  obtain ⟨it, h1, h2, _⟩ := s.iter.insert_spec hs.ok new
  have hr : ∃ s', Parser.updateArguments new s = (.ok (), s') ∧ Fit μ s' := by
    unfold Parser.updateArguments
    split
    · exact ⟨s, rfl, hs⟩
    · refine ⟨{ s with iter := it }, ?_, ⟨hs.mode, h2, Iter.insert_args _ _ _ h1 hs.args, hs.count⟩⟩
      have e : iterInsert new s = (.ok (), { s with iter := it }) := by unfold iterInsert; rw [h1]
      rw [bind_ok e, get_bind]
      exact congrFun (if_pos (by show (!Counter.requiresArgumentCount s.command.arguments) = true; rw [hs.count]; rfl)) _
  obtain ⟨s', e, hf⟩ := hr
  rw [(updateArguments_more p new hs.count e).1, e]
  exact ⟨rfl, hf⟩

theorem KeepsOn.builderError (msg : Str) : KeepsOn p μ (builderError msg) :=
  .bind .back fun _ => .bind (.emit _) fun _ => .get (fun _ => .ite (.lift _) (.lift _)) fun _ => rfl

theorem KeepsOn.runCallback (env : Env) (cb : Nat) (view : ViewRef) (vid : Nat) (stored : Bool) (value : Option Str) :
    KeepsOn p μ (runCallback env cb view vid stored value) := by
  refine .bind .back fun n => .get (fun s0 => ?_) fun _ => rfl
  refine .bind (.modify (fun _ => rfl) (fun _ => rfl) (fun _ => rfl) fun _ => rfl) fun _ => .bind (.applyOps _ _ _) fun t => ?_
  split
  · exact .lift _
  · exact .bind (.builderError _) fun _ => .pure _
  · exact .bind (.updateArguments _) fun _ => .pure _

theorem KeepsOn.runCallbackOpt (env : Env) (cb : Option Nat) (view : ViewRef) (vid : Nat) (stored : Bool) (value : Option Str) :
    KeepsOn p μ (runCallbackOpt env cb view vid stored value) := by
  cases cb with
  | none => exact .pure _
  | some cb => exact .runCallback env cb view vid stored value

theorem KeepsOn.calls (env : Env) (cb : Option Nat) (sel : ParserSettings → Option Nat) (view : ViewRef) (vid : Nat) (stored : Bool)
    (value : Option Str) : KeepsOn p μ (calls env cb sel view vid stored value) :=
  .bind (.runCallbackOpt _ _ _ _ _ _) fun _ => .get (fun _ => .runCallbackOpt _ _ _ _ _ _) fun _ => rfl

/-- The remaining arguments, and a change of the nodes after it. -/
theorem copied (p : List Str) (s : PState) (hok : s.iter.Ok) :
    (copyRemaining (s.more p)).1 = (copyRemaining s).1 ∧
      (s.stack = [] ∧ (copyRemaining s).1 = .ub ∧ (copyRemaining (s.more p)).2 = (copyRemaining s).2.more p ∨
        (copyRemaining s).1 = .ok () ∧ Shut p (copyRemaining s).2 (copyRemaining (s.more p)).2) := by
  obtain ⟨it, h1, _⟩ := s.iter.remaining_spec hok
  have h2 : (s.more p).iter.remainingArguments = .ok (s.iter.reader.unread ++ p, it.more p) := Iter.remaining_more p h1
  have e1 : iterRemaining s = (.ok s.iter.reader.unread, { s with iter := it }) := by unfold iterRemaining; rw [h1]
  have e2 : iterRemaining (s.more p) = (.ok (s.iter.reader.unread ++ p), { s with iter := it.more p }) := by
    unfold iterRemaining; rw [h2]; rfl
  unfold copyRemaining
  rw [bind_ok e1, bind_ok e2]
  unfold modifyBack
  simp only
  cases hst : s.stack with
  | nil => exact ⟨rfl, Or.inl ⟨rfl, rfl, rfl⟩⟩
  | cons n ns =>
    refine ⟨rfl, Or.inr ⟨rfl, ?_⟩⟩
    refine ⟨_, ns, it.more p, rfl, ?_⟩
    simp

theorem ComesTo.copyRemaining : ComesTo p μ (fun _ _ => False) copyRemaining := by
  intro s hs
  obtain ⟨h1, h2⟩ := copied p s hs.ok
  refine ⟨h1, ?_⟩
  rcases h2 with ⟨_, h2, h⟩ | ⟨_, h⟩
  · exact Or.inl ⟨h, by rw [h2]; simp⟩
  · exact Or.inr h

theorem ComesTo.error (msg : Str) : ComesTo p μ (fun _ _ => False) (error msg) := by
  refine .get (fun s0 => .bind (.emit _) fun _ => .ite (.lift _ (by simp)) ?_) fun _ => rfl
  intro s hs
  obtain ⟨h1, h2⟩ := copied p s hs.ok
  rw [bind_apply, bind_apply]
  generalize Parser.copyRemaining s = q at h1 h2 ⊢
  generalize Parser.copyRemaining (s.more p) = q' at h1 h2 ⊢
  obtain ⟨o, s1⟩ := q
  obtain ⟨o', s1'⟩ := q'
  simp only at h1 h2
  subst h1
  rcases h2 with ⟨_, rfl, h⟩ | ⟨rfl, n, ns, it, h3, rfl⟩
  · exact ⟨rfl, Or.inl ⟨h, by simp⟩⟩
  · refine ⟨rfl, Or.inr ⟨{ n with code := .failure }, ns.map fun n => { n with code := .failure }, it, ?_, ?_⟩⟩
    · simp [ParserM.modify, h3]
    · simp [ParserM.modify]

theorem hasAllMandatory_either (vs : Values) (os : List OptData) :
    (hasAllMandatory vs os = Pure.pure true) ∨ (hasAllMandatory vs os = ParserM.lift .ub) ∨
      ∃ msg, hasAllMandatory vs os = (error msg >>= fun _ => Pure.pure false) := by
  induction os with
  | nil => exact Or.inl rfl
  | cons o os ih =>
    unfold hasAllMandatory
    split
    · split
      · exact Or.inr (Or.inl rfl)
      · exact Or.inr (Or.inr ⟨_, rfl⟩)
    · exact ih

/-- The check ends in an error that does not depend on what follows, or it succeeds. -/
theorem checked : ComesTo p μ (fun b _ => b = true) checkCounts := by
  have fails : ∀ msg, ComesTo p μ (fun b _ => b = true) (Parser.error msg >>= fun _ => (Pure.pure false : ParserM Bool)) :=
    fun msg => .then (.error msg) _ fun _ _ h => h.elim
  intro t ht
  cases hst : t.stack with
  | nil =>
    have e : ∀ u : PState, u.stack = [] → checkCounts u = (.ub, u) := by
      intro u hu
      unfold checkCounts
      rw [bind_apply]
      unfold back
      rw [hu]
    rw [e t hst, e (t.more p) hst]
    exact ⟨rfl, Or.inl ⟨rfl, by simp⟩⟩
  | cons n ns =>
    have hb : ∀ u : PState, u.stack = n :: ns → back u = (.ok n, u) := fun u hu => back_run hu
    have e : ∀ u : PState, u.stack = n :: ns → u.command = t.command → u.counter = t.counter → checkCounts u =
        (hasAllMandatory n.values t.command.options >>= fun ok => if (!ok) = true then (Pure.pure false : ParserM Bool)
        else match t.command.requireSubcommand with
          | none => lift .ub
          | some req =>
            if (req && n.subs.isEmpty) = true then Parser.error b!"No command was given." >>= fun _ => Pure.pure false
            else if t.counter.isComplete = true then (ParserM.modify fun s => { s with
                mode := .done
                stack := s.stack.map fun n => { n with code := .success } }) >>= fun _ => Pure.pure true
            else Parser.error ((if (Counter.getMinMaxCount t.command.arguments).1 = (Counter.getMinMaxCount t.command.arguments).2 then b!"Too few arguments. Expected "
                else b!"Too few arguments. Expected at least ")
                ++ natToStr (Counter.getMinMaxCount t.command.arguments).1 ++ b!", received " ++ natToStr t.counter.counter ++ b!".") >>= fun _ => Pure.pure false) u := by
      intro u h1 h2 h3
      unfold checkCounts
      rw [bind_ok (hb u h1), get_bind, h2, h3]
      rfl
    rw [e t hst rfl rfl, e (t.more p) hst rfl rfl]
    rcases hasAllMandatory_either n.values t.command.options with h | h | ⟨msg, h⟩ <;> rw [h]
    · rw [bind_apply, bind_apply]
      simp only [pure_apply, Bool.not_true, Bool.false_eq_true, if_false]
      cases t.command.requireSubcommand with
      | none => exact ⟨rfl, Or.inl ⟨rfl, by simp [lift_apply]⟩⟩
      | some req =>
        simp only
        split
        · exact fails _ t ht
        · split
          · refine ⟨rfl, Or.inl ⟨rfl, ?_⟩⟩
            intro b hb
            rw [modify_bind] at hb
            have hb' : true = b := by simpa [pure_apply] using hb
            exact hb'.symm
          · exact fails _ t ht
    · exact ⟨rfl, Or.inl ⟨rfl, by rw [bind_apply]; simp [lift_apply]⟩⟩
    · have e : ∀ f : Bool → ParserM Bool, f false = Pure.pure false →
          ((Parser.error msg >>= fun _ => (Pure.pure false : ParserM Bool)) >>= f) = (Parser.error msg >>= fun _ => Pure.pure false) := by
        intro f hf
        funext t
        rw [bind_apply, bind_apply]
        generalize Parser.error msg t = q
        obtain ⟨o, t1⟩ := q
        cases o with
        | ok a => exact congrFun hf t1
        | _ => rfl
      rw [e]
      · exact fails msg t ht
      · rfl

/-- The next piece can be read, and its value too if it needs one. -/
def Served (s : PState) : Prop := ∃ a it, Taken s (some a) it ∧
  ∀ o, OptionLike s a → lookup s a = some o → TakesValue o → ∃ v it', it.nextValue = .ok (some v, it')

theorem applyOperation_served (o : OptData) (flag : Str) {s : PState} (hs : Fit μ s) (hne : s.stack ≠ [])
    (hv : TakesValue o → ∃ v it', s.iter.nextValue = .ok (some v, it')) :
    ∃ q s', applyOperation o flag s = (.ok (some q), s') ∧ Fit μ s' := by
  have plain : ∀ f : PNode → PNode, ∃ q s', (modifyBack f >>= fun _ => (Pure.pure (some ([], false)) : ParserM (Option (Str × Bool)))) s = (.ok (some q), s') ∧
      Fit μ s' := by
    intro f
    refine ⟨_, _, bind_ok (modifyBack_run f s hne), ?_⟩
    exact ⟨hs.mode, hs.ok, hs.args, hs.count⟩
  have valued : (∃ v it', s.iter.nextValue = .ok (some v, it')) → ∀ (g : Str → PNode → PNode), ∃ q s', (iterNextValue >>= fun x => match x with
        | some v => modifyBack (g v) >>= fun _ => (Pure.pure (some (v, true)) : ParserM (Option (Str × Bool)))
        | none => Parser.error (flag ++ b!": no value given.") >>= fun _ => Pure.pure none) s = (.ok (some q), s') ∧ Fit μ s' := by
    rintro ⟨v, it, h⟩ g
    obtain ⟨_, _, g1, g2, _⟩ := s.iter.nextValue_ok hs.ok
    rw [h] at g1
    simp only [Outcome.ok.injEq, Prod.mk.injEq] at g1
    obtain ⟨_, rfl⟩ := g1
    have hargs := ((s.iter.nextValue_weight h).2 v rfl).2
    rw [bind_ok (iterNextValue_run h)]
    simp only
    refine ⟨_, _, bind_ok (modifyBack_run (g v) { s with iter := it } hne), ?_⟩
    exact ⟨hs.mode, g2, hargs, hs.count⟩
  unfold applyOperation
  cases ho : o.operation with
  | none => exact ⟨_, s, rfl, hs⟩
  | clear => exact plain _
  | assign =>
    simp only
    split
    · exact plain _
    · rename_i hc
      exact valued (hv ⟨Or.inl ho, by simpa using hc⟩) _
  | append =>
    simp only
    split
    · exact plain _
    · rename_i hc
      exact valued (hv ⟨Or.inr ho, by simpa using hc⟩) _

theorem reactivated (p : List Str) {size : Nat} {s : PState} (hs : s.stack ≠ []) :
    reactivate size s = (.ok (), reactState size s) ∧ reactivate size (s.more p) = (.ok (), (reactState size s).more p) :=
  ⟨reactivate_run size s hs, reactivate_more p (reactivate_run size s hs)⟩

/-- The call of `next()` does not end parsing. -/
def Goes (r : IterResult) (s : PState) : Prop := ¬ r.IsLast ∧ s.mode ≠ .done

/-- The last step of an option. -/
theorem typed (p : List Str) (o : OptData) {s : PState} (hm : s.mode ≠ .done) :
    (∃ r s3, applyType o s = (.ok r, s3) ∧ applyType o (s.more p) = (.ok r, s3.more p) ∧ s3.iter = s.iter ∧ s3.command = s.command ∧ r ≠ .error ∧
      (r = .normal → s3.mode ≠ .done)) ∨
    (∃ s3, applyType o s = (.ub, s3) ∧ applyType o (s.more p) = (.ub, s3.more p)) := by
  have stops : ∀ u : PState, u.iter = s.iter → u.command = s.command → ∀ (f : PNode → PNode) (r : OptionResult), r ≠ .error → r ≠ .normal →
      (∃ r' s3, (Parser.modifyBack f >>= fun _ => (Pure.pure r : ParserM OptionResult)) u = (.ok r', s3) ∧
        (Parser.modifyBack f >>= fun _ => (Pure.pure r : ParserM OptionResult)) (u.more p) = (.ok r', s3.more p) ∧ s3.iter = s.iter ∧ s3.command = s.command ∧ r' ≠ .error ∧
        (r' = .normal → s3.mode ≠ .done)) ∨
      (∃ s3, (Parser.modifyBack f >>= fun _ => (Pure.pure r : ParserM OptionResult)) u = (.ub, s3) ∧
        (Parser.modifyBack f >>= fun _ => (Pure.pure r : ParserM OptionResult)) (u.more p) = (.ub, s3.more p)) := by
    intro u hu huc f r h1 h2
    cases hst : u.stack with
    | nil =>
      have e : ∀ w : PState, w.stack = [] → Parser.modifyBack f w = (.ub, w) := by
        intro w hw; unfold Parser.modifyBack; rw [hw]
      refine Or.inr ⟨u, ?_, ?_⟩
      · rw [bind_apply, e u hst]
      · rw [bind_apply, e (u.more p) hst]
    | cons n ns =>
      have e := modifyBack_run f u (by rw [hst]; simp)
      exact Or.inl ⟨r, _, bind_ok e, bind_ok (modifyBack_more p e), hu, huc, h1, fun h => absurd h h2⟩
  unfold applyType
  cases ho : o.type <;> simp only
  case normal => exact Or.inl ⟨_, s, rfl, rfl, rfl, rfl, by simp, fun _ => hm⟩
  case lastOption => exact Or.inl ⟨_, _, rfl, rfl, rfl, rfl, by simp, fun _ => by simp⟩
  case lastArgument => exact Or.inl ⟨_, _, rfl, rfl, rfl, rfl, by simp, by simp⟩
  case help =>
    exact stops { s with
      log := s.log ++ [.help s.command]
      mode := .done } rfl rfl _ _ (by simp) (by simp)
  case «exit» => exact stops { s with mode := .done } rfl rfl _ _ (by simp) (by simp)
  case stop => exact stops { s with mode := .done } rfl rfl _ _ (by simp) (by simp)

/-- What happens after the callbacks of an option. -/
theorem finished_option (hμ : μ ≠ .done) (o : OptData) (v : Option Str) (st : ParserSettings) : ComesTo p μ Goes (applyType o >>= fun r => match r with
    | .exit => if st.autoExit then ParserM.lift (.exit st.normalExitCode) else copyRemaining >>= fun _ => Pure.pure (IterResult.option o v)
    | .error => Pure.pure .error
    | .lastArgument => checkCounts >>= fun ok => if (!ok) = true then Pure.pure .error else ParserM.get >>= fun s => match findMultiParent s.stack with
      | some st => reactivate st.length >>= fun _ => Pure.pure (.option o v)
      | none => copyRemaining >>= fun _ => Pure.pure (.option o v)
    | .stop => copyRemaining >>= fun _ => Pure.pure (.option o v)
    | .normal => Pure.pure (.option o v)) := by
  intro s hs
  have copy : ∀ u : PState, u.iter = s.iter → Comes p Goes ((Parser.copyRemaining >>= fun _ => (Pure.pure (IterResult.option o v) : ParserM IterResult)) u)
      ((Parser.copyRemaining >>= fun _ => (Pure.pure (IterResult.option o v) : ParserM IterResult)) (u.more p)) := by
    intro u hu
    obtain ⟨h1, h2⟩ := copied p u (by rw [hu]; exact hs.ok)
    rw [bind_apply, bind_apply]
    generalize Parser.copyRemaining u = q at h1 h2 ⊢
    generalize Parser.copyRemaining (u.more p) = q' at h1 h2 ⊢
    obtain ⟨o, s1⟩ := q
    obtain ⟨o', s1'⟩ := q'
    simp only at h1 h2
    subst h1
    rcases h2 with ⟨_, rfl, h⟩ | ⟨rfl, h⟩
    · exact ⟨rfl, Or.inl ⟨h, by simp⟩⟩
    · exact ⟨rfl, Or.inr h⟩
  rcases typed p o (s := s) (by rw [hs.mode]; exact hμ) with ⟨r, s3, h1, h2, h3, h3', h4, h5⟩ | ⟨s3, h1, h2⟩
  · rw [bind_ok h1, bind_ok h2]
    cases r with
    | error => exact absurd rfl h4
    | normal =>
      refine ⟨rfl, Or.inl ⟨rfl, ?_⟩⟩
      intro r hr
      have hr' : IterResult.option o v = r := by simpa [pure_apply] using hr
      rw [← hr']
      exact ⟨id, h5 rfl⟩
    | stop => exact copy s3 (by rw [h3])
    | exit =>
      simp only
      split
      · exact ⟨rfl, Or.inl ⟨rfl, by simp [lift_apply]⟩⟩
      · exact copy s3 (by rw [h3])
    | lastArgument =>
      simp only
      obtain ⟨c1, c2⟩ := checked (p := p) (μ := s3.mode) s3 ⟨rfl, by rw [h3]; exact hs.ok, by rw [h3]; exact hs.args, by rw [h3']; exact hs.count⟩
      by_cases hct : (checkCounts s3).1 = .ok true
      · have hc0 : checkCounts s3 = (.ok true, (checkCounts s3).2) := by rw [← hct]
        obtain ⟨e1, e2, e3⟩ := checkCounts_more p hc0
        rw [e2] at hc0 e1
        rw [bind_ok hc0, bind_ok e1]
        simp only [Bool.not_true, Bool.false_eq_true, if_false]
        rw [get_bind, get_bind]
        have hne : (succState s3).stack ≠ [] := by
          intro hh
          exact e3 (by simpa [succState] using hh)
        show Comes p Goes _ ((match findMultiParent (succState s3).stack with | some st => _ | none => _ : ParserM IterResult) _)
        cases findMultiParent (succState s3).stack with
        | none => exact copy (succState s3) h3
        | some st =>
          simp only
          obtain ⟨r1, r2⟩ := reactivated p (size := st.length) hne
          rw [bind_ok r1, bind_ok r2]
          refine ⟨rfl, Or.inl ⟨rfl, ?_⟩⟩
          intro r hr
          have hr' : IterResult.option o v = r := by simpa [pure_apply] using hr
          rw [← hr']
          exact ⟨id, by simp [pure_apply, reactState]⟩
      rw [bind_apply, bind_apply]
      generalize checkCounts s3 = q at c1 c2 hct ⊢
      generalize checkCounts (s3.more p) = q' at c1 c2 ⊢
      obtain ⟨q, u⟩ := q
      obtain ⟨q', u'⟩ := q'
      simp only at c1 c2 hct
      subst c1
      cases q' with
      | ok b =>
        cases b with
        | false =>
          rcases c2 with ⟨_, c2⟩ | c2
          · exact absurd (c2 false rfl) (by simp)
          · exact ⟨rfl, Or.inr c2⟩
        | true => exact absurd rfl hct
      | _ =>
        rcases c2 with ⟨c2, _⟩ | c2
        · exact ⟨rfl, Or.inl ⟨c2, by simp⟩⟩
        · exact ⟨rfl, Or.inr c2⟩
  · rw [bind_apply, bind_apply, h1, h2]
    exact ⟨rfl, Or.inl ⟨rfl, by simp⟩⟩

theorem processOption_served (hμ : μ ≠ .done) (env : Env) (flag : Str) {s : PState} (hs : Fit μ s) (hne : s.stack ≠ [])
    (hv : ∀ o, lookup s flag = some o → TakesValue o → ∃ v it', s.iter.nextValue = .ok (some v, it')) :
    Comes p Goes (processOption env flag s) (processOption env flag (s.more p)) := by
  unfold processOption
  rw [get_bind, get_bind]
  show Comes p Goes ((match lookup s flag with | some opt => _ | none => _ : ParserM IterResult) _) ((match lookup s flag with | some opt => _ | none => _ : ParserM IterResult) _)
  cases hf : lookup s flag with
  | none =>
    have : ComesTo p μ Goes (iterCurrent >>= fun cur => if (!s.settings.ignoreUndefinedOptions || !startsWithCs cur flag) = true then
        (Parser.error (b!"Unknown option: " ++ cur) >>= fun _ => (Pure.pure IterResult.error : ParserM IterResult))
      else modifyBack (fun n => { n with unprocessed := n.unprocessed ++ [cur] }) >>= fun _ => Pure.pure (IterResult.unknown cur)) :=
      .bind .iterCurrent fun cur => .ite (.then (.error _) _ fun _ _ h => h.elim) (.bind (.modifyBack _) fun _ => .pure _ fun t ht => ⟨id, by rw [ht.mode]; exact hμ⟩)
    exact this s hs
  | some o =>
    simp only
    obtain ⟨⟨value, stored⟩, s1, h1, hs1⟩ := applyOperation_served o flag hs hne (hv o hf)
    have h1' := (applyOperation_more p h1).1
    have key := ComesTo.bind (p := p) (KeepsOn.calls env o.callback ParserSettings.optionCallback (.opt o) o.valueId stored (some value)) (fun v => finished_option hμ o v s.settings) s1 hs1
    have e : ∀ (t : PState) {t1 : PState}, applyOperation o flag t = (.ok (some (value, stored)), t1) → processOptionData env o flag t =
        (calls env o.callback ParserSettings.optionCallback (.opt o) o.valueId stored (some value) >>= fun v =>
        applyType o >>= fun r => (Pure.pure (r, v) : ParserM (OptionResult × Option Str))) t1 := by
      intro t t1 ht
      rw [processOptionData_eq, bind_ok ht]
    have assoc : ∀ (k : OptionResult × Option Str → ParserM IterResult) (t : PState) {t1 : PState}, applyOperation o flag t = (.ok (some (value, stored)), t1) →
        (processOptionData env o flag >>= k) t =
        (calls env o.callback ParserSettings.optionCallback (.opt o) o.valueId stored (some value) >>= fun v => applyType o >>= fun r => k (r, v)) t1 := by
      intro k t t1 ht
      rw [bind_apply, e t ht, bind_apply, bind_apply]
      generalize calls env o.callback ParserSettings.optionCallback (.opt o) o.valueId stored (some value) t1 = q
      obtain ⟨q, t2⟩ := q
      cases q with
      | ok v =>
        simp only
        rw [bind_apply, bind_apply]
        generalize applyType o t2 = q'
        obtain ⟨q', t3⟩ := q'
        cases q' <;> rfl
      | _ => rfl
    rw [assoc _ s h1, assoc _ (s.more p) h1']
    exact key

theorem processCommand_served (c : Command) {s : PState} (hargs : s.iter.args ≠ []) (hc : Counter.requiresArgumentCount c.arguments = false) :
    Comes p Goes (processCommand c s) (processCommand c (s.more p)) := by
  have e : ∀ t : PState, t.command = c → initCounter t = (.ok (), { t with counter := Counter.ofArgs t.command.arguments }) := by
    intro t ht
    unfold initCounter
    rw [ht, hc]
    rfl
  obtain ⟨a, ha⟩ := s.iter.current_ok hargs
  have run : ∀ t : PState, t.iter.current = .ok a → processCommand c t = (.ok (.command c a), { t with
      stack := PNode.make c :: t.stack
      command := c
      counter := Counter.ofArgs c.arguments
      mode := .argumentsAndOptions }) := by
    intro t ht
    unfold processCommand
    rw [modify_bind, bind_ok (e _ rfl), modify_bind]
    have hcur : ∀ u : PState, u.iter = t.iter → iterCurrent u = (.ok a, u) := by
      intro u hu; unfold iterCurrent; rw [hu, ht]
    exact bind_ok (hcur _ rfl)
  rw [run s ha, run (s.more p) (Iter.current_more p ha)]
  refine ⟨rfl, Or.inl ⟨rfl, ?_⟩⟩
  intro r hr
  have hr' : IterResult.command c a = r := by simpa using hr
  rw [← hr']
  exact ⟨id, by simp⟩

theorem processArgument_served (hμ : μ ≠ .done) (env : Env) (value : Str) {s : PState} (hs : Fit μ s) (hne : s.stack ≠ [])
    (hsib : ∀ c size, findSibling s value = some (c, size) → Counter.requiresArgumentCount c.arguments = false) :
    Comes p Goes (processArgument env value s) (processArgument env value (s.more p)) := by
  unfold processArgument
  rw [get_bind, get_bind]
  show Comes p Goes _ ((match findSibling s value with | some (c, size) => _ | none => _ : ParserM IterResult) _)
  cases hf : findSibling s value with
  | some q =>
    obtain ⟨c, size⟩ := q
    simp only
    obtain ⟨r1, r2⟩ := reactivated p (size := size) hne
    rw [bind_ok r1, bind_ok r2]
    exact processCommand_served c (s := reactState size s) hs.args (hsib c size hf)
  | none =>
    simp only
    show Comes p Goes _ ((match s.counter.nextArgument with | (some a, counter') => _ | (none, counter') => _ : ParserM IterResult) _)
    rcases s.counter.nextArgument with ⟨oa, ct⟩
    have hk : KeepsOn p μ (ParserM.modify fun s : PState => { s with counter := ct }) := .modify (fun _ => rfl) (fun _ => rfl) (fun _ => rfl) fun _ => rfl
    have goes : ∀ r : IterResult, ¬ r.IsLast → ∀ t : PState, Fit μ t → Goes r t := fun r hr t ht => ⟨hr, by rw [ht.mode]; exact hμ⟩
    cases oa with
    | some a =>
      refine ComesTo.bind hk (fun _ => ?_) s hs
      exact .bind (.modifyBack _) fun _ => .bind (.runCallbackOpt _ _ _ _ _ _) fun v =>
        .get (fun s0 => .bind (.runCallbackOpt _ _ _ _ _ _) fun _ => .pure _ (goes _ id)) fun _ => rfl
    | none =>
      refine ComesTo.bind hk (fun _ => ComesTo.ite ?_ (.then (.error _) _ fun _ _ h => h.elim)) s hs
      exact .bind (.modifyBack _) fun _ => .bind .iterCurrent fun _ => .pure _ (goes _ id)

/-- A call of `next()` that does not get to the end of the command line. -/
theorem next_served (env : Env) {d : ParserData}
    (hnc : ∀ c : Command, c.Within d.command → Counter.requiresArgumentCount c.arguments = false) {s : PState} (hg : Good d s) (hsv : Served s)
    (p : List Str) : Comes p Goes (next env s) (next env (s.more p)) := by
  obtain ⟨a, it, ht, hv⟩ := hsv
  have ht' : Taken (s.more p) (some a) (it.more p) := by
    rcases ht with ⟨h1, h2⟩ | ⟨h1, h2⟩
    · exact Or.inl ⟨h1, Iter.next_more _ h2⟩
    · exact Or.inr ⟨h1, Iter.nextValue_more _ h2⟩
  have hargs : it.args ≠ [] := by
    rcases ht with ⟨_, h2⟩ | ⟨_, h2⟩
    · exact ((s.iter.next_weight h2).2 a rfl).2
    · exact ((s.iter.nextValue_weight h2).2 a rfl).2
  have hμ : s.mode ≠ .done := by
    rcases ht with ⟨h2, _⟩ | ⟨h2, _⟩ <;> rw [h2] <;> simp
  obtain ⟨hok, _, hg'⟩ := hg.taken ht
  have hfit : Fit s.mode { s with iter := it } := ⟨rfl, hok, hargs, hnc _ hg.within⟩
  have hne : s.stack ≠ [] := hg.ne
  rw [next_taken env s _ it ht, next_taken env _ _ _ ht']
  show Comes p Goes _ (nextTail env s.mode s (some a) (PState.more { s with iter := it } p))
  unfold nextTail
  simp only
  split
  · rename_i hm
    exact processOption_served hμ env a hfit hne fun o ho htv => hv o hm ho htv
  · split
    · refine processArgument_served hμ env a hfit hne ?_
      intro c size hf
      obtain ⟨_, q, pre, r, ps, e1, _, _, _, e5⟩ := findSibling_some hf
      refine hnc _ (Command.Within.trans (.sub (findCommand_mem e5) .self) (hg.path.within r ?_))
      have e1' : s.stack = q :: pre ++ r :: ps := e1
      rw [e1']; simp
    · cases hf : findCommand s.command.commands a s.settings.caseInsensitive with
      | some c =>
        simp only
        exact processCommand_served c (s := { s with iter := it }) hargs
          (hnc _ (Command.Within.trans (.sub (findCommand_mem hf) .self) hg.within))
      | none => exact ComesTo.then (.error _) _ (fun _ _ h => h.elim) _ hfit

/-! ### A whole command line -/

theorem EndUntouched.served {s : PState} (h : EndUntouched s) : Served s := h

theorem Served.unfinished {s : PState} (h : Served s) : Unfinished s := by
  obtain ⟨a, it, h, _⟩ := h
  rcases h with ⟨h, _⟩ | ⟨h, _⟩
  · exact Or.inl h
  · exact Or.inr h

theorem full_nil (k : Nat) (post : List Str) (s : PState) : s.full k [] post = s.more post := by
  unfold PState.full
  split <;> rfl

theorem trace_onward {env : Env} {d : ParserData} (hrd : Ready d)
    (hnc : ∀ c : Command, c.Within d.command → Counter.requiresArgumentCount c.arguments = false) {pre : List Str} (post : List Str)
    {rs : List IterResult} {t : PState} (ht : Trace env (start d pre).2 rs t) (hrs : ∀ x ∈ rs, ¬ x.IsLast) (hu : Unfinished t) :
    Trace env (start d (pre ++ post)).2 rs (t.more post) ∧ Good d t := by
  obtain ⟨h1, _, h3⟩ := trace_full (Differs.refl env t.calls) post hrd hnc ht (start_good d pre).2 hrs hu (Nat.le_refl _)
  rw [full_nil, full_nil] at h1
  rw [start_more d (hnc _ .self) pre post]
  exact ⟨h1, h3⟩

theorem _root_.Argos.Spec.Trailing.nest {p : List Str} {a a' : PNode} (h : Trailing p a a') (l : List PNode) : Trailing p (nest a l) (nest a' l) := by
  induction l generalizing a a' with
  | nil => exact h
  | cons q qs ih => exact ih (.sub (n := { q with subs := q.subs ++ [a] }) (ms := q.subs) rfl h)

theorem Shut.topLevel {p : List Str} {s t : PState} (h : Shut p s t) :
    ∃ n n', topLevel s = some n ∧ topLevel t = some n' ∧ Trailing p n n' := by
  obtain ⟨n, ns, it, h1, rfl⟩ := h
  exact ⟨_, _, topLevel_eq h1, topLevel_eq rfl, .nest .here ns⟩

theorem Shut.log {p : List Str} {s t : PState} (h : Shut p s t) : t.log = s.log ∧ t.calls = s.calls ∧ t.mode = s.mode := by
  obtain ⟨n, ns, it, h1, rfl⟩ := h
  exact ⟨rfl, rfl, rfl⟩

theorem run_final {env : Env} {s : PState} {p : List Str} (h : Comes p Goes (next env s) (next env (s.more p)))
    (hf : Over (next env s).1 (next env s).2) (fuel : Nat) :
    (run env (fuel + 2) (s.more p)).1 = (run env (fuel + 2) s).1 ∧ (run env (fuel + 2) (s.more p)).2.log = (run env (fuel + 2) s).2.log ∧
    (run env (fuel + 2) (s.more p)).2.calls = (run env (fuel + 2) s).2.calls ∧
    ((run env (fuel + 2) s).1 = .ok () → Shut p (run env (fuel + 2) s).2 (run env (fuel + 2) (s.more p)).2) := by
  rw [run_succ, run_succ, bind_apply, bind_apply]
  obtain ⟨h1, h2⟩ := h
  generalize next env s = q at h1 h2 hf ⊢
  generalize next env (s.more p) = q' at h1 h2 ⊢
  obtain ⟨o, u⟩ := q
  obtain ⟨o', u'⟩ := q'
  simp only at h1 h2 hf
  subst h1
  have hlog : u'.log = u.log ∧ u'.calls = u.calls := by
    rcases h2 with ⟨rfl, _⟩ | h2
    · exact ⟨rfl, rfl⟩
    · exact ⟨h2.log.1, h2.log.2.1⟩
  cases o' with
  | ok r =>
    have hsh : Shut p u u' := by
      rcases h2 with ⟨_, h2⟩ | h2
      · obtain ⟨g1, g2⟩ := h2 r rfl
        rcases hf with hf | hf
        · exact absurd hf g1
        · exact absurd hf g2
      · exact h2
    have done : ∀ w : PState, w.mode = .done → run env (fuel + 1) w = (.ok (), w) := by
      intro w hw
      have hn : next env w = (.ok .done, w) := by
        unfold next
        rw [get_bind, hw]
        rfl
      rw [run_succ, bind_ok hn]
      rfl
    cases r with
    | error => exact ⟨rfl, hlog.1, hlog.2, fun _ => hsh⟩
    | done => exact ⟨rfl, hlog.1, hlog.2, fun _ => hsh⟩
    | _ =>
      have hm : u.mode = .done := by
        rcases hf with hf | hf
        · exact hf.elim
        · exact hf
      simp only
      rw [done u hm, done u' (hsh.log.2.2.trans hm)]
      exact ⟨rfl, hlog.1, hlog.2, fun _ => hsh⟩
  | _ => exact ⟨rfl, hlog.1, hlog.2, fun hh => by simp at hh⟩

theorem parse_onward {env : Env} {d : ParserData} (hrd : Ready d)
    (hnc : ∀ c : Command, c.Within d.command → Counter.requiresArgumentCount c.arguments = false) {pre : List Str} (post : List Str)
    {rs : List IterResult} {t : PState} (ht : Trace env (start d pre).2 rs t) (hrs : ∀ x ∈ rs, ¬ x.IsLast) (hsv : Served t)
    (hf : Over (next env t).1 (next env t).2) {fuel : Nat} (hfu : rs.length + 2 ≤ fuel) :
    EndsAlike post (parse env d pre fuel) (parse env d (pre ++ post) fuel) := by
  obtain ⟨ht', hg⟩ := trace_onward hrd hnc post ht hrs hsv.unfinished
  have hn := run_final (next_served env hnc hg hsv post) hf (fuel - rs.length - 2)
  obtain ⟨S, hS⟩ : ∃ S, start d pre = (.ok (), S) := ⟨_, (start_good d pre).1⟩
  obtain ⟨S', hS'⟩ : ∃ S', start d (pre ++ post) = (.ok (), S') := ⟨_, (start_good d (pre ++ post)).1⟩
  rw [hS] at ht
  rw [hS'] at ht'
  have e1 := Parser.Trace.run ht hrs (fuel - rs.length - 2 + 2)
  have e2 := Parser.Trace.run ht' hrs (fuel - rs.length - 2 + 2)
  rw [show rs.length + (fuel - rs.length - 2 + 2) = fuel by omega] at e1 e2
  rw [← e1, ← e2] at hn
  unfold parse
  rw [hS, hS']
  simp only at hn ⊢
  generalize run env fuel S = q at hn ⊢
  generalize run env fuel S' = q' at hn ⊢
  obtain ⟨o, u⟩ := q
  obtain ⟨o', u'⟩ := q'
  obtain ⟨n1, n2, n3, n4⟩ := hn
  simp only at n1 n2 n3 n4
  subst n1
  cases o' with
  | ok x => exact ⟨(n4 rfl).topLevel, n2, n3⟩
  | throw m => exact ⟨rfl, n2, n3⟩
  | outOfRange => exact ⟨trivial, n2, n3⟩
  | exit c => exact ⟨rfl, n2, n3⟩
  | ub => exact ⟨trivial, n2, n3⟩
  | diverges => exact ⟨trivial, n2, n3⟩

end Parser
end Argos
