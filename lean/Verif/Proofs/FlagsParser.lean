import Verif.Proofs.Flags
import Verif.Proofs.Screen

/-! # The parser on two iterators that read the same -/

namespace Argos
open Spec

namespace Parser
open ParserM

section
variable (K : Prop) (st : ParserSettings)

/-- The states differ only in the iterators, and, unless `K`, in the output. -/
structure Twin (s t : PState) : Prop where
  settings : s.settings = st
  same : ∃ i l, t = { s with iter := i, log := l } ∧ (K → l = s.log)

/-- The states are twins in command `c` and mode `m`, and the iterators are related. -/
structure Pair (J : Iter → Iter → Prop) (c : Command) (m : Mode) (s t : PState) : Prop where
  twin : Twin K st s t
  iter : J s.iter t.iter
  command : s.command = c
  mode : s.mode = m

/-- The methods do the same; `Q` holds if they return. -/
def Follows {α β : Type} (P : PState → PState → Prop) (R : α → β → Prop) (Q : α → PState → PState → Prop) (m : ParserM α) (m' : ParserM β) : Prop :=
  ∀ s t, P s t → SameEnd R (m s).1 (m' t).1 ∧ Twin K st (m s).2 (m' t).2 ∧ ∀ a, (m s).1 = .ok a → Q a (m s).2 (m' t).2

variable {K st}

theorem Follows.bind {α α' β β' : Type} {P : PState → PState → Prop} {R : α → α' → Prop} {S : β → β' → Prop} {Q : α → PState → PState → Prop}
    {T : β → PState → PState → Prop} {m : ParserM α} {m' : ParserM α'} {f : α → ParserM β} {f' : α' → ParserM β'}
    (hm : Follows K st P R Q m m') (hf : ∀ a b, R a b → Follows K st (Q a) S T (f a) (f' b)) : Follows K st P S T (m >>= f) (m' >>= f') := by
  intro s t hst
  show SameEnd S (ParserM.bind m f s).1 (ParserM.bind m' f' t).1 ∧ Twin K st (ParserM.bind m f s).2 (ParserM.bind m' f' t).2 ∧
    ∀ a, (ParserM.bind m f s).1 = .ok a → T a (ParserM.bind m f s).2 (ParserM.bind m' f' t).2
  have h := hm s t hst
  simp only [ParserM.bind]
  revert h
  generalize m s = r
  generalize m' t = r'
  obtain ⟨r, s1⟩ := r
  obtain ⟨r', t1⟩ := r'
  rintro ⟨h1, h2, h3⟩
  cases r <;> cases r' <;> first
    | exact absurd h1 id
    | exact hf _ _ h1 s1 t1 (h3 _ rfl)
    | exact ⟨h1, h2, by intro a ha; simp at ha⟩

theorem Follows.pure {α β : Type} {P : PState → PState → Prop} (hP : ∀ s t, P s t → Twin K st s t) {R : α → β → Prop} {a : α} {b : β} (h : R a b) :
    Follows K st P R (fun _ => P) (Pure.pure a) (Pure.pure b) := fun s t hs => ⟨h, hP s t hs, fun _ _ => hs⟩

theorem Follows.lift {α β : Type} {P : PState → PState → Prop} (hP : ∀ s t, P s t → Twin K st s t) {R : α → β → Prop} {x : Outcome α} {y : Outcome β}
    (h : SameEnd R x y) : Follows K st P R (fun _ => P) (ParserM.lift x) (ParserM.lift y) := fun s t hs => ⟨h, hP s t hs, fun _ _ => hs⟩

theorem Follows.get {α β : Type} {P : PState → PState → Prop} {S : α → β → Prop} {T : α → PState → PState → Prop} {f : PState → ParserM α}
    {f' : PState → ParserM β} (h : ∀ s t, P s t → Follows K st (fun a b => a = s ∧ b = t) S T (f s) (f' t)) :
    Follows K st P S T (ParserM.get >>= f) (ParserM.get >>= f') := fun s t hs => h s t hs s t ⟨rfl, rfl⟩

theorem Follows.modify {P Q : PState → PState → Prop} {f f' : PState → PState} (hQ : ∀ s t, Q s t → Twin K st s t) (h : ∀ s t, P s t → Q (f s) (f' t)) :
    Follows K st P (fun _ _ => True) (fun _ => Q) (ParserM.modify f) (ParserM.modify f') :=
  fun s t hs => ⟨trivial, hQ _ _ (h s t hs), fun _ _ => h s t hs⟩

theorem Follows.ite {α β : Type} {P : PState → PState → Prop} {R : α → β → Prop} {Q : α → PState → PState → Prop} {p : Prop} [Decidable p]
    {m n : ParserM α} {m' n' : ParserM β} (hm : p → Follows K st P R Q m m') (hn : ¬ p → Follows K st P R Q n n') :
    Follows K st P R Q (if p then m else n) (if p then m' else n') := by
  by_cases h : p
  · rw [if_pos h, if_pos h]; exact hm h
  · rw [if_neg h, if_neg h]; exact hn h

theorem Follows.weaken {α β : Type} {P P' : PState → PState → Prop} {R R' : α → β → Prop} {Q Q' : α → PState → PState → Prop} {m : ParserM α} {m' : ParserM β}
    (h : Follows K st P R Q m m') (hP : ∀ s t, P' s t → P s t) (hR : ∀ a b, R a b → R' a b) (hQ : ∀ a s t, Q a s t → Q' a s t) :
    Follows K st P' R' Q' m m' := by
  intro s t hs
  obtain ⟨h1, h2, h3⟩ := h s t (hP s t hs)
  exact ⟨h1.imp hR, h2, fun a ha => hQ a _ _ (h3 a ha)⟩

theorem Follows.post {α β : Type} {P : PState → PState → Prop} {R : α → β → Prop} {Q Q' : α → PState → PState → Prop} {m : ParserM α} {m' : ParserM β}
    (h : Follows K st P R Q m m') (hQ : ∀ a s t, Q a s t → Q' a s t) : Follows K st P R Q' m m' := h.weaken (fun _ _ h => h) (fun _ _ h => h) hQ

theorem Follows.pre {α β : Type} {P P' : PState → PState → Prop} {R : α → β → Prop} {Q : α → PState → PState → Prop} {m : ParserM α} {m' : ParserM β}
    (h : Follows K st P R Q m m') (hP : ∀ s t, P' s t → P s t) : Follows K st P' R Q m m' := h.weaken hP (fun _ _ h => h) fun _ _ _ h => h

/-- The iterators stay related when something is inserted. -/
def Inserts (J : Iter → Iter → Prop) : Prop := ∀ {i j : Iter} (new : List Str), J i j →
  SameEnd (fun i' j' => J i' j' ∧ ∀ (s : PState) (l l' : List Event), countArguments { s with iter := i', log := l } = countArguments { s with iter := j', log := l' }) (i.insert new) (j.insert new)

theorem inserts_beside {P : Str → Prop} (hP : ∀ w, P w → P []) : Inserts (Beside P) := fun new h =>
  (h.insert hP new).imp fun _ _ hb => ⟨hb, fun s l l' => countArguments_beside hb s l l'⟩

theorem inserts_first {p q : UInt8} {qs : Str} (hp : p ≠ c!"-") : Inserts (First p q qs) := by
  intro i j new h
  obtain ⟨rest, e1, e2⟩ := h.insert hp new
  rw [e1, e2]
  exact ⟨.divided rest, fun s l l' => countArguments_first p rest s l l'⟩

variable {J : Iter → Iter → Prop} {c : Command} {m : Mode}

theorem Pair.elim {s t : PState} (h : Pair K st J c m s t) : s.settings = st ∧ s.command = c ∧ s.mode = m ∧
    ∃ i l, t = { s with iter := i, log := l } ∧ (K → l = s.log) ∧ J s.iter i := by
  obtain ⟨⟨h1, i, l, rfl, hl⟩, h2, h3, h4⟩ := h
  exact ⟨h1, h3, h4, i, l, rfl, hl, h2⟩

theorem Pair.intro {s : PState} {i : Iter} {l : List Event} (h1 : s.settings = st) (h2 : s.command = c) (h3 : s.mode = m) (hl : K → l = s.log)
    (hJ : J s.iter i) : Pair K st J c m s { s with iter := i, log := l } := ⟨⟨h1, i, l, rfl, hl⟩, hJ, h2, h3⟩

theorem follows_back : Follows K st (Pair K st J c m) Eq (fun _ => Pair K st J c m) back back := by
  intro s t h
  obtain ⟨i, l, rfl, hl⟩ := h.twin.same
  unfold back
  simp only
  split
  · exact ⟨trivial, h.twin, by intro a ha; simp at ha⟩
  · exact ⟨rfl, h.twin, fun _ _ => h⟩

theorem follows_modifyBack (f : PNode → PNode) : Follows K st (Pair K st J c m) (fun _ _ => True) (fun _ => Pair K st J c m) (modifyBack f) (modifyBack f) := by
  intro s t h
  obtain ⟨h1, h2, h3, i, l, rfl, hl, hJ⟩ := h.elim
  unfold modifyBack
  simp only
  split
  · exact ⟨trivial, h.twin, by intro a ha; simp at ha⟩
  · rename_i n ns hs
    have : Pair K st J c m { s with stack := f n :: ns } { s with stack := f n :: ns, iter := i, log := l } := ⟨⟨h1, i, l, rfl, hl⟩, hJ, h2, h3⟩
    exact ⟨trivial, this.twin, fun _ _ => this⟩

theorem follows_emit (e e' : Event) (he : K → e = e') : Follows K st (Pair K st J c m) (fun _ _ => True) (fun _ => Pair K st J c m) (emit e) (emit e') := by
  refine Follows.modify (fun _ _ h => h.twin) fun s t h => ?_
  obtain ⟨h1, h2, h3, i, l, rfl, hl, hJ⟩ := h.elim
  exact ⟨⟨h1, i, l ++ [e'], rfl, fun hK => by rw [hl hK, he hK]⟩, hJ, h2, h3⟩

theorem follows_updateArguments (hJ : Inserts J) (new : List Str) :
    Follows K st (Pair K st J c m) (fun _ _ => True) (fun _ => Pair K st J c m) (updateArguments new) (updateArguments new) := by
  intro s t h
  obtain ⟨h1, h2, h3, i, l, rfl, hl, hj⟩ := h.elim
  unfold updateArguments
  by_cases hn : new.isEmpty
  · rw [if_pos hn]
    exact ⟨trivial, h.twin, fun _ _ => h⟩
  · rw [if_neg hn]
    have hi := hJ new hj
    simp only [bind_apply, iterInsert]
    revert hi
    generalize s.iter.insert new = x
    generalize i.insert new = y
    intro hi
    cases x <;> cases y <;> first | exact absurd hi id | skip
    · rename_i i1 j1
      obtain ⟨hi1, hi2⟩ := hi
      simp only [get_apply]
      have hp : Pair K st J c m { s with iter := i1 } { s with iter := j1, log := l } := ⟨⟨h1, j1, l, rfl, hl⟩, hi1, h2, h3⟩
      by_cases hr : (!Counter.requiresArgumentCount s.command.arguments) = true
      · simp only [if_pos hr, pure_apply]
        exact ⟨trivial, hp.twin, fun _ _ => hp⟩
      · simp only [if_neg hr, bind_apply, lift_apply]
        have hc : countArguments { s with iter := i1 } = countArguments { s with iter := j1, log := l } := hi2 s s.log l
        rw [hc]
        generalize countArguments { s with iter := j1, log := l } = z
        cases z with
        | ok n =>
          have hp' : Pair K st J c m { s with iter := i1, counter := Counter.ofArgsN s.command.arguments (s.counter.counter + n) s.counter.counter }
              { s with iter := j1, log := l, counter := Counter.ofArgsN s.command.arguments (s.counter.counter + n) s.counter.counter } :=
            ⟨⟨h1, j1, l, rfl, hl⟩, hi1, h2, h3⟩
          exact ⟨trivial, hp'.twin, fun _ _ => hp'⟩
        | _ => exact ⟨by first | rfl | trivial, hp.twin, by intro a ha; simp at ha⟩
    all_goals exact ⟨hi, h.twin, by intro a ha; simp at ha⟩

theorem follows_applyOps (vid : Nat) (ops : List BuilderOp) : ∀ b : Bool,
    Follows K st (Pair K st J c m) Eq (fun _ => Pair K st J c m) (applyOps vid ops b) (applyOps vid ops b) := by
  induction ops with
  | nil => intro b; exact Follows.pure (fun _ _ h => h.twin) rfl
  | cons op ops ih =>
    intro b s t h
    obtain ⟨h1, h2, h3, i, l, rfl, hl, hJ⟩ := h.elim
    unfold applyOps
    simp only
    split
    · exact ⟨trivial, h.twin, by intro a ha; simp at ha⟩
    · rename_i n ns hs
      generalize op.apply n = z
      cases z with
      | ok r =>
        obtain ⟨n', t⟩ := r
        have hp : Pair K st J c m { s with stack := n' :: ns } { s with stack := n' :: ns, iter := i, log := l } := ⟨⟨h1, i, l, rfl, hl⟩, hJ, h2, h3⟩
        exact ih _ _ _ hp
      | _ => exact ⟨by first | rfl | trivial, h.twin, by intro a ha; simp at ha⟩

theorem follows_builderError (msg : Str) {T : Unit → PState → PState → Prop} : Follows K st (Pair K st J c m) (fun _ _ => True) T (builderError msg) (builderError msg) := by
  refine follows_back.bind fun n _ e => ?_
  subst e
  refine (follows_emit _ _ fun _ => rfl).bind fun _ _ _ => Follows.get fun s t h => ?_
  obtain ⟨h1, h2, h3, i, l, rfl, hl, hJ⟩ := h.elim
  have hx : ∀ x : Outcome Unit, (∀ a, x ≠ .ok a) → Follows K st (fun a b => a = s ∧ b = { s with iter := i, log := l }) (fun _ _ => True) T
      (ParserM.lift x) (ParserM.lift x) := by
    rintro x hx a b ⟨rfl, rfl⟩
    exact ⟨(SameEnd.refl x).imp fun _ _ _ => trivial, h.twin, fun a ha => absurd ha (hx a)⟩
  exact Follows.ite (fun _ => hx _ (by simp)) fun _ => hx _ (by simp)

theorem follows_runCallback (env : Env) (hJ : Inserts J) (cb : Nat) (view : ViewRef) (vid : Nat) (stored : Bool) (value : Option Str) :
    Follows K st (Pair K st J c m) Eq (fun _ => Pair K st J c m) (runCallback env cb view vid stored value) (runCallback env cb view vid stored value) := by
  refine follows_back.bind fun n _ e => ?_
  subst e
  refine Follows.get fun s t h => ?_
  obtain ⟨h1, h2, h3, i, l, rfl, hl, hj⟩ := h.elim
  simp only
  refine Follows.bind (R := fun _ _ => True) (Q := fun _ => Pair K st J c m) ?_ fun _ _ _ => ?_
  · refine Follows.modify (fun _ _ h => h.twin) ?_
    rintro _ _ ⟨rfl, rfl⟩
    exact ⟨⟨h1, i, _, rfl, fun hK => by rw [hl hK]⟩, hj, h2, h3⟩
  · refine (follows_applyOps vid _ _).bind fun touched _ e => ?_
    subst e
    split
    · exact Follows.lift (fun _ _ h => h.twin) rfl
    · exact (follows_builderError _ (T := fun _ => Pair K st J c m)).bind fun _ _ _ => Follows.pure (fun _ _ h => h.twin) rfl
    · exact (follows_updateArguments hJ _).bind fun _ _ _ => Follows.pure (fun _ _ h => h.twin) rfl

theorem follows_runCallbackOpt (env : Env) (hJ : Inserts J) (cb : Option Nat) (view : ViewRef) (vid : Nat) (stored : Bool) (value : Option Str) :
    Follows K st (Pair K st J c m) Eq (fun _ => Pair K st J c m) (runCallbackOpt env cb view vid stored value) (runCallbackOpt env cb view vid stored value) := by
  unfold runCallbackOpt
  cases cb with
  | none => exact Follows.pure (fun _ _ h => h.twin) rfl
  | some cb => exact follows_runCallback env hJ cb view vid stored value

theorem follows_calls (env : Env) (hJ : Inserts J) (cb : Option Nat) (sel : ParserSettings → Option Nat) (view : ViewRef) (vid : Nat) (stored : Bool)
    (value : Option Str) :
    Follows K st (Pair K st J c m) Eq (fun _ => Pair K st J c m) (calls env cb sel view vid stored value) (calls env cb sel view vid stored value) := by
  refine (follows_runCallbackOpt env hJ cb view vid stored value).bind fun v _ e => ?_
  subst e
  refine Follows.get fun s t h => ?_
  obtain ⟨h1, h2, h3, i, l, rfl, hl, hj⟩ := h.elim
  exact (follows_runCallbackOpt env hJ (sel s.settings) view vid stored v).pre (by rintro _ _ ⟨rfl, rfl⟩; exact h)

/-- The states are twins and the iterators are related. -/
def Loose (K : Prop) (st : ParserSettings) (J : Iter → Iter → Prop) (s t : PState) : Prop := Twin K st s t ∧ J s.iter t.iter

theorem Pair.loose {s t : PState} (h : Pair K st J c m s t) : Loose K st J s t := ⟨h.twin, h.iter⟩

theorem Loose.pair {s t : PState} (h : Loose K st J s t) : Pair K st J s.command s.mode s t := ⟨h.1, h.2, rfl, rfl⟩

theorem follows_copyRemaining {P : Str → Prop} (hP : ∀ w, P w → P []) :
    Follows K st (Pair K st (Beside P) c m) (fun _ _ => True) (fun _ => Pair K st (Beside P) c m) copyRemaining copyRemaining := by
  refine Follows.bind (R := Eq) (Q := fun _ => Pair K st (Beside P) c m) ?_ fun rest _ e => by subst e; exact follows_modifyBack _
  intro s t h
  obtain ⟨h1, h2, h3, i, l, rfl, hl, hj⟩ := h.elim
  have hr := hj.remaining hP
  unfold iterRemaining
  simp only
  revert hr
  generalize s.iter.remainingArguments = x
  generalize i.remainingArguments = y
  intro hr
  cases x <;> cases y <;> first | exact absurd hr id | skip
  · rename_i x y
    obtain ⟨x, i1⟩ := x
    obtain ⟨y, j1⟩ := y
    obtain ⟨rfl, hb⟩ := hr
    have hp : Pair K st (Beside P) c m { s with iter := i1 } { s with iter := j1, log := l } := ⟨⟨h1, j1, l, rfl, hl⟩, hb, h2, h3⟩
    exact ⟨rfl, hp.twin, fun _ _ => hp⟩
  all_goals exact ⟨by first | exact hr | trivial, h.twin, by intro a ha; simp at ha⟩

theorem follows_error {P : Str → Prop} (hP : ∀ w, P w → P []) (msg msg' : Str) (he : K → msg = msg') :
    Follows K st (Pair K st (Beside P) c m) (fun _ _ => True) (fun _ => Pair K st (Beside P) c .error) (error msg) (error msg') := by
  refine Follows.get fun s t h => ?_
  obtain ⟨h1, h2, h3, i, l, rfl, hl, hj⟩ := h.elim
  simp only
  refine Follows.bind (R := fun _ _ => True) (Q := fun _ => Pair K st (Beside P) c m)
    ((follows_emit _ _ fun hK => by rw [he hK]).pre (by rintro _ _ ⟨rfl, rfl⟩; exact h)) fun _ _ _ => ?_
  refine Follows.ite (fun _ a b hab => ⟨rfl, hab.twin, by intro a ha; simp [lift_apply] at ha⟩) fun _ => ?_
  refine (follows_copyRemaining hP).bind fun _ _ _ => Follows.modify (fun _ _ h => h.twin) fun s t h => ?_
  obtain ⟨h1, h2, h3, i, l, rfl, hl, hj⟩ := h.elim
  exact ⟨⟨h1, i, l, rfl, hl⟩, hj, h2, rfl⟩

theorem follows_hasAllMandatory {P : Str → Prop} (hP : ∀ w, P w → P []) (vs : Values) (os : List OptData) :
    Follows K st (Pair K st (Beside P) c m) Eq (fun b => Pair K st (Beside P) c (if b then m else .error)) (hasAllMandatory vs os) (hasAllMandatory vs os) := by
  induction os with
  | nil =>
    refine fun s t h => ⟨rfl, h.twin, ?_⟩
    intro a ha
    simp only [hasAllMandatory, pure_apply, Outcome.ok.injEq] at ha
    subst ha
    exact h
  | cons o os ih =>
    unfold hasAllMandatory
    refine Follows.ite (fun _ => ?_) fun _ => ih
    refine Follows.ite (fun _ a b hab => ⟨trivial, hab.twin, by intro a ha; simp [lift_apply] at ha⟩) fun _ => ?_
    refine (follows_error hP _ _ fun _ => rfl).bind fun _ _ _ s t h => ⟨rfl, h.twin, ?_⟩
    intro a ha
    simp only [pure_apply, Outcome.ok.injEq] at ha
    subst ha
    exact h

theorem Follows.any {α β ι : Type} {P : ι → PState → PState → Prop} {R : α → β → Prop} {Q : α → PState → PState → Prop} {m : ParserM α} {m' : ParserM β}
    (h : ∀ x, Follows K st (P x) R Q m m') : Follows K st (fun s t => ∃ x, P x s t) R Q m m' := fun s t ⟨x, hx⟩ => h x s t hx

theorem Follows.ends {α β : Type} {P : PState → PState → Prop} {R : α → β → Prop} {Q : α → PState → PState → Prop} {x : Outcome α} {y : Outcome β}
    (hP : ∀ s t, P s t → Twin K st s t) (h : SameEnd (fun _ _ => False) x y) : Follows K st P R Q (ParserM.lift x) (ParserM.lift y) := by
  intro s t hs
  refine ⟨h.imp fun _ _ h => h.elim, hP s t hs, ?_⟩
  intro a ha
  simp only [lift_apply] at ha
  subst ha
  cases y <;> exact absurd h id

theorem follows_checkCounts {P : Str → Prop} (hP : ∀ w, P w → P []) :
    Follows K st (Pair K st (Beside P) c m) Eq (fun b => Pair K st (Beside P) c (if b then .done else .error)) checkCounts checkCounts := by
  refine follows_back.bind fun n _ e => ?_
  subst e
  refine Follows.get fun s t h => ?_
  obtain ⟨h1, h2, h3, i, l, rfl, hl, hj⟩ := h.elim
  simp only
  refine Follows.bind ((follows_hasAllMandatory hP n.values s.command.options).pre (by rintro _ _ ⟨rfl, rfl⟩; exact h)) fun b _ e => ?_
  subst e
  have hfail : ∀ {P' : PState → PState → Prop} (msg : Str), (∀ s t, P' s t → Pair K st (Beside P) c m s t) →
      Follows K st P' Eq (fun b => Pair K st (Beside P) c (if b then .done else .error)) (error msg >>= fun _ => pure false) (error msg >>= fun _ => pure false) := by
    intro P' msg hP'
    refine ((follows_error hP msg msg fun _ => rfl).pre hP').bind fun _ _ _ s t h => ⟨rfl, h.twin, ?_⟩
    intro a ha
    simp only [pure_apply, Outcome.ok.injEq] at ha
    subst ha
    exact h
  cases b with
  | false =>
    intro s t h
    refine ⟨rfl, h.twin, ?_⟩
    intro a ha
    simp only [Bool.not_false, if_true, pure_apply, Outcome.ok.injEq] at ha
    subst ha
    exact h
  | true =>
    simp only [Bool.not_true, Bool.false_eq_true, if_false, if_true]
    split
    · exact Follows.ends (fun _ _ h => h.twin) trivial
    · refine Follows.ite (fun _ => hfail _ fun _ _ h => h) fun _ => Follows.ite (fun _ => ?_) fun _ => hfail _ fun _ _ h => h
      refine (Follows.modify (Q := Pair K st (Beside P) c .done) (fun _ _ h => h.twin) fun s t h => ?_).bind fun _ _ _ s t h => ⟨rfl, h.twin, ?_⟩
      · obtain ⟨h1, h2, h3, i, l, rfl, hl, hj⟩ := h.elim
        exact ⟨⟨h1, i, l, rfl, hl⟩, hj, h2, rfl⟩
      · intro a ha
        simp only [pure_apply, Outcome.ok.injEq] at ha
        subst ha
        exact h

theorem follows_reactivate (size : Nat) :
    Follows K st (Pair K st J c m) (fun _ _ => True) (fun _ s t => ∃ c', Pair K st J c' .argumentsOnly s t) (reactivate size) (reactivate size) := by
  intro s t h
  obtain ⟨h1, h2, h3, i, l, rfl, hl, hj⟩ := h.elim
  unfold reactivate
  simp only
  split
  · exact ⟨trivial, h.twin, by intro a ha; simp at ha⟩
  · exact ⟨trivial, ⟨h1, i, l, rfl, hl⟩, fun _ _ => ⟨_, ⟨h1, i, l, rfl, hl⟩, hj, rfl, rfl⟩⟩

theorem follows_initCounter {P : Str → Prop} :
    Follows K st (Pair K st (Beside P) c m) (fun _ _ => True) (fun _ => Pair K st (Beside P) c m) initCounter initCounter := by
  intro s t h
  obtain ⟨h1, h2, h3, i, l, rfl, hl, hj⟩ := h.elim
  unfold initCounter
  by_cases hr : (!Counter.requiresArgumentCount s.command.arguments) = true
  · simp only [if_pos hr]
    exact ⟨trivial, ⟨h1, i, l, rfl, hl⟩, fun _ _ => ⟨⟨h1, i, l, rfl, hl⟩, hj, h2, h3⟩⟩
  · simp only [if_neg hr]
    have hc : countArguments s = countArguments { s with iter := i, log := l } := countArguments_beside hj s s.log l
    rw [hc]
    generalize countArguments { s with iter := i, log := l } = z
    cases z with
    | ok n => exact ⟨trivial, ⟨h1, i, l, rfl, hl⟩, fun _ _ => ⟨⟨h1, i, l, rfl, hl⟩, hj, h2, h3⟩⟩
    | _ => exact ⟨by first | rfl | trivial, h.twin, by intro a ha; simp at ha⟩

theorem follows_current {P : Str → Prop} :
    Follows K st (Pair K st (Beside P) c m) (fun _ _ => True) (fun _ => Pair K st (Beside P) c m) iterCurrent iterCurrent :=
  fun s t h => ⟨h.iter.current, h.twin, fun _ _ => h⟩

end

/-- The same report, except for the text of the current argument. -/
inductive Reports : IterResult → IterResult → Prop
  | same (r : IterResult) : Reports r r
  | command (c : Command) (x y : Str) : Reports (.command c x) (.command c y)
  | unknown (x y : Str) : Reports (.unknown x) (.unknown y)

section
variable {K : Prop} {st : ParserSettings} {J : Iter → Iter → Prop} {c : Command} {m : Mode}

/-- Nothing is left in the current argument. -/
abbrev Clear (K : Prop) (st : ParserSettings) (s t : PState) : Prop := Loose K st (Beside fun _ => False) s t

theorem Clear.pair {s t : PState} (h : Clear K st s t) : Pair K st (Beside fun _ => False) s.command s.mode s t := Loose.pair h

theorem follows_processCommand (sub : Command) :
    Follows K st (Clear K st) Reports (fun _ => Clear K st) (processCommand sub) (processCommand sub) := by
  refine (Follows.modify (Q := fun s t => ∃ m, Pair K st (Beside fun _ => False) sub m s t) (fun _ _ ⟨_, h⟩ => h.twin) fun s t h => ?_).bind fun _ _ _ => ?_
  · obtain ⟨h1, h2, h3, i, l, rfl, hl, hj⟩ := h.pair.elim
    exact ⟨s.mode, ⟨h1, i, l, rfl, hl⟩, hj, rfl, rfl⟩
  · refine Follows.any fun m => follows_initCounter.bind fun _ _ _ => ?_
    refine (Follows.modify (Q := Pair K st (Beside fun _ => False) sub .argumentsAndOptions) (fun _ _ h => h.twin) fun s t h => ?_).bind fun _ _ _ => ?_
    · obtain ⟨h1, h2, h3, i, l, rfl, hl, hj⟩ := h.elim
      exact ⟨⟨h1, i, l, rfl, hl⟩, hj, h2, rfl⟩
    · refine follows_current.bind fun x y _ => ?_
      exact (Follows.pure (fun _ _ h => h.twin) (.command _ _ _)).post fun _ _ _ h => h.loose

theorem follows_fail {P : Str → Prop} (hP : ∀ w, P w → P []) (msg msg' : Str) (he : K → msg = msg') :
    Follows K st (Pair K st (Beside P) c m) Reports (fun _ => Pair K st (Beside P) c .error) (error msg >>= fun _ => pure IterResult.error)
      (error msg' >>= fun _ => pure IterResult.error) :=
  (follows_error hP msg msg' he).bind fun _ _ _ => Follows.pure (fun _ _ h => h.twin) (.same _)

theorem noneLeft : ∀ w : Str, (fun _ : Str => False) w → (fun _ : Str => False) [] := fun _ h => h

theorem follows_processArgument (env : Env) (value : Str) :
    Follows K st (Clear K st) Reports (fun _ => Clear K st) (processArgument env value) (processArgument env value) := by
  refine Follows.get fun s t h => ?_
  obtain ⟨h1, h2, h3, i, l, rfl, hl, hj⟩ := h.pair.elim
  have e : findSibling { s with iter := i, log := l } value = findSibling s value := rfl
  simp only [e]
  have hin : Inserts (Beside fun _ : Str => False) := inserts_beside noneLeft
  split
  · refine Follows.bind ((follows_reactivate _).pre (by rintro _ _ ⟨rfl, rfl⟩; exact h.pair)) fun _ _ _ => ?_
    exact (follows_processCommand _).pre fun s t ⟨c', hp⟩ => hp.loose
  · generalize s.counter.nextArgument = z
    obtain ⟨a, ct⟩ := z
    have hmod : Follows K st (fun a b => a = s ∧ b = { s with iter := i, log := l }) (fun _ _ => True)
        (fun _ => Pair K st (Beside fun _ => False) s.command s.mode) (ParserM.modify fun s => { s with counter := ct })
        (ParserM.modify fun s => { s with counter := ct }) := by
      refine Follows.modify (fun _ _ h => h.twin) ?_
      rintro _ _ ⟨rfl, rfl⟩
      exact ⟨⟨h1, i, l, rfl, hl⟩, hj, rfl, rfl⟩
    cases a with
    | some a =>
      simp only
      refine hmod.bind fun _ _ _ => (follows_modifyBack _).bind fun _ _ _ => ?_
      refine Follows.bind (follows_runCallbackOpt env hin _ _ _ _ _) fun v _ e => ?_
      subst e
      refine Follows.get fun s t h => ?_
      obtain ⟨h1, h2, h3, i, l, rfl, hl, hj⟩ := h.elim
      refine Follows.bind ((follows_runCallbackOpt env hin _ _ _ _ _).pre (P' := fun a b => a = s ∧ b = { s with iter := i, log := l })
        (by rintro _ _ ⟨rfl, rfl⟩; exact h)) fun v _ e => ?_
      subst e
      exact (Follows.pure (fun _ _ h => h.twin) (.same _)).post fun _ _ _ h => h.loose
    | none =>
      simp only
      refine hmod.bind fun _ _ _ => Follows.ite (fun _ => ?_) fun _ => ?_
      · refine (follows_modifyBack _).bind fun _ _ _ => follows_current.bind fun x y _ => ?_
        exact (Follows.pure (fun _ _ h => h.twin) (.unknown _ _)).post fun _ _ _ h => h.loose
      · exact (follows_fail noneLeft _ _ fun _ => rfl).post fun _ _ _ h => h.loose

/-- An option that doesn't take a value. -/
theorem follows_operation_none {o : OptData} (ho : ¬ NeedsValue o) (flag : Str) :
    Follows K st (Pair K st J c m) (fun a b => a = b ∧ a.isSome = true) (fun _ => Pair K st J c m) (applyOperation o flag) (applyOperation o flag) := by
  have hset : ∀ f : PNode → PNode, Follows K st (Pair K st J c m) (fun a b => a = b ∧ a.isSome = true) (fun _ => Pair K st J c m)
      (modifyBack f >>= fun _ => pure (some (([] : Str), false))) (modifyBack f >>= fun _ => pure (some (([] : Str), false))) := fun f =>
    (follows_modifyBack f).bind fun _ _ _ => Follows.pure (fun _ _ h => h.twin) ⟨rfl, rfl⟩
  unfold applyOperation
  cases hop : o.operation with
  | none => exact Follows.pure (fun _ _ h => h.twin) ⟨rfl, rfl⟩
  | clear => exact hset _
  | assign =>
    have hc : (!o.constant.isEmpty) = true := by
      cases hk : o.constant with
      | nil => exact absurd ⟨Or.inl hop, hk⟩ ho
      | cons _ _ => rfl
    simp only [if_pos hc]
    exact hset _
  | append =>
    have hc : (!o.constant.isEmpty) = true := by
      cases hk : o.constant with
      | nil => exact absurd ⟨Or.inr hop, hk⟩ ho
      | cons _ _ => rfl
    simp only [if_pos hc]
    exact hset _

theorem follows_nextValue {P Q : Str → Prop} :
    Follows K st (Pair K st (Beside P) c m) Eq (fun _ => Pair K st (Beside Q) c m) iterNextValue iterNextValue := by
  intro s t h
  obtain ⟨h1, h2, h3, i, l, rfl, hl, hj⟩ := h.elim
  have hr := hj.nextValue (Q := Q)
  unfold iterNextValue
  simp only
  revert hr
  generalize s.iter.nextValue = x
  generalize i.nextValue = y
  intro hr
  cases x <;> cases y <;> first | exact absurd hr id | skip
  · rename_i x y
    obtain ⟨x, i1⟩ := x
    obtain ⟨y, j1⟩ := y
    obtain ⟨rfl, hb⟩ := hr
    have hp : Pair K st (Beside Q) c m { s with iter := i1 } { s with iter := j1, log := l } := ⟨⟨h1, j1, l, rfl, hl⟩, hb, h2, h3⟩
    exact ⟨rfl, hp.twin, fun _ _ => hp⟩
  all_goals exact ⟨by first | exact hr | trivial, h.twin, by intro a ha; simp at ha⟩

/-- An option can be processed for both flags and iterators. -/
structure Handles (K : Prop) (J : Iter → Iter → Prop) (P : Str → Prop) (o : OptData) (f g : Str) : Prop where
  value : NeedsValue o → ∀ i j, J i j → SameEnd (fun x y => x.1 = y.1 ∧ Beside P x.2 y.2 ∧ (x.1 = none → K → f = g)) i.nextValue j.nextValue
  none : ¬ NeedsValue o → ∀ i j, J i j → Beside P i j

theorem handles_beside {P P' : Str → Prop} {o : OptData} (ho : NeedsValue o ∨ ∀ w, P w → P' w) (flag : Str) : Handles K (Beside P) P' o flag flag :=
  ⟨fun _ _ _ h => (h.nextValue (Q := P')).imp fun _ _ h => ⟨h.1, h.2, fun _ _ => rfl⟩, fun hn _ _ h => h.imp (ho.resolve_left hn)⟩

/-- What an option does with its value. -/
theorem follows_operation {P : Str → Prop} (hP : ∀ w, P w → P []) (o : OptData) {f g : Str} (ho : Handles K J P o f g) :
    Follows K st (Pair K st J c m) Eq (fun a => Pair K st (Beside P) c (if a.isSome then m else .error)) (applyOperation o f) (applyOperation o g) := by
  by_cases ht : NeedsValue o
  · have hval : ∀ u : Str → PNode → PNode, Follows K st (Pair K st J c m) Eq (fun a => Pair K st (Beside P) c (if a.isSome then m else .error))
        (iterNextValue >>= fun x => match x with
          | some v => do modifyBack (u v); pure (some (v, true))
          | none => do error (f ++ b!": no value given."); pure none)
        (iterNextValue >>= fun x => match x with
          | some v => do modifyBack (u v); pure (some (v, true))
          | none => do error (g ++ b!": no value given."); pure none) := by
      intro u
      refine Follows.bind (R := fun x y => x = y ∧ (x = none → K → f = g)) (Q := fun _ => Pair K st (Beside P) c m) ?_ ?_
      · intro s t h
        obtain ⟨h1, h2, h3, i, l, rfl, hl, hj⟩ := h.elim
        have hr := ho.value ht _ _ hj
        unfold iterNextValue
        simp only
        revert hr
        generalize s.iter.nextValue = x
        generalize i.nextValue = y
        intro hr
        cases x <;> cases y <;> first | exact absurd hr id | skip
        · rename_i x y
          obtain ⟨x, i1⟩ := x
          obtain ⟨y, j1⟩ := y
          obtain ⟨rfl, hb, hfg⟩ := hr
          have hp : Pair K st (Beside P) c m { s with iter := i1 } { s with iter := j1, log := l } := ⟨⟨h1, j1, l, rfl, hl⟩, hb, h2, h3⟩
          exact ⟨⟨rfl, hfg⟩, hp.twin, fun _ _ => hp⟩
        all_goals exact ⟨by first | exact hr | trivial, h.twin, by intro a ha; simp at ha⟩
      · rintro x _ ⟨rfl, hfg⟩
        cases x with
        | some v =>
          refine (follows_modifyBack _).bind fun _ _ _ s t h => ⟨rfl, h.twin, ?_⟩
          intro a ha
          simp only [pure_apply, Outcome.ok.injEq] at ha
          subst ha
          exact h
        | none =>
          refine (follows_error hP _ _ fun hK => by rw [hfg rfl hK]).bind fun _ _ _ s t h => ⟨rfl, h.twin, ?_⟩
          intro a ha
          simp only [pure_apply, Outcome.ok.injEq] at ha
          subst ha
          exact h
    have hc : ¬ (!o.constant.isEmpty) = true := by rw [ht.2]; simp
    unfold applyOperation
    rcases ht.1 with hop | hop
    · rw [hop]; simp only [if_neg hc]; exact hval _
    · rw [hop]; simp only [if_neg hc]; exact hval _
  · have e : applyOperation o g = applyOperation o f := by
      unfold applyOperation
      cases hop : o.operation with
      | none => rfl
      | clear => rfl
      | assign =>
        have hc : (!o.constant.isEmpty) = true := by
          cases hk : o.constant with
          | nil => exact absurd ⟨Or.inl hop, hk⟩ ht
          | cons _ _ => rfl
        simp only [if_pos hc]
      | append =>
        have hc : (!o.constant.isEmpty) = true := by
          cases hk : o.constant with
          | nil => exact absurd ⟨Or.inr hop, hk⟩ ht
          | cons _ _ => rfl
        simp only [if_pos hc]
    rw [e]
    intro s t h
    obtain ⟨a1, a2, a3⟩ := follows_operation_none ht f s t h
    refine ⟨a1.imp fun _ _ h => h.1, a2, fun a ha => ?_⟩
    have h3 := a3 a ha
    rw [ha] at a1
    revert a1
    generalize (applyOperation o f t).1 = y
    intro a1
    cases y <;> first | exact absurd a1 id | skip
    show Pair K st (Beside P) c (if a.isSome = true then m else .error) _ _
    rw [if_pos a1.2]
    exact ⟨h3.twin, ho.none ht _ _ h3.iter, h3.command, h3.mode⟩

/-- What the type of an option does. -/
theorem follows_type {P : Str → Prop} (o : OptData) :
    Follows K st (Pair K st (Beside P) c m) Eq
      (fun r s t => ∃ m', Pair K st (Beside P) c m' s t ∧ (m' = .argumentsAndOptions → r = .normal ∧ o.type = .normal)) (applyType o) (applyType o) := by
  have hmode : ∀ m', Follows K st (Pair K st (Beside P) c m) (fun _ _ => True) (fun _ => Pair K st (Beside P) c m')
      (ParserM.modify fun s => { s with mode := m' }) (ParserM.modify fun s => { s with mode := m' }) := by
    intro m'
    refine Follows.modify (fun _ _ h => h.twin) fun s t h => ?_
    obtain ⟨h1, h2, h3, i, l, rfl, hl, hj⟩ := h.elim
    exact ⟨⟨h1, i, l, rfl, hl⟩, hj, h2, rfl⟩
  unfold applyType
  generalize o.type = ty
  have hret : ∀ (m' : Mode) (r : OptionResult), (m' = .argumentsAndOptions → r = .normal ∧ ty = .normal) → Follows K st (Pair K st (Beside P) c m') Eq
      (fun r s t => ∃ m', Pair K st (Beside P) c m' s t ∧ (m' = .argumentsAndOptions → r = .normal ∧ ty = .normal)) (pure r) (pure r) := by
    intro m' r hm s t h
    refine ⟨rfl, h.twin, fun a ha => ⟨m', h, ?_⟩⟩
    simp only [pure_apply, Outcome.ok.injEq] at ha
    subst ha
    exact hm
  cases ty with
  | normal => exact hret m .normal fun _ => ⟨rfl, rfl⟩
  | help =>
    refine Follows.get fun s t h => ?_
    obtain ⟨h1, h2, h3, i, l, rfl, hl, hj⟩ := h.elim
    refine Follows.bind ((follows_emit _ _ fun _ => rfl).pre (P := Pair K st (Beside P) c m) (P' := fun a b => a = s ∧ b = { s with iter := i, log := l })
      (by rintro _ _ ⟨rfl, rfl⟩; exact h)) fun _ _ _ => (hmode .done).bind fun _ _ _ => (follows_modifyBack _).bind fun _ _ _ => ?_
    exact hret _ _ (by simp)
  | exit => exact (hmode .done).bind fun _ _ _ => (follows_modifyBack _).bind fun _ _ _ => hret _ _ (by simp)
  | stop => exact (hmode .done).bind fun _ _ _ => (follows_modifyBack _).bind fun _ _ _ => hret _ _ (by simp)
  | lastArgument => exact (hmode .done).bind fun _ _ _ => hret _ _ (by simp)
  | lastOption => exact (hmode .argumentsOnly).bind fun _ _ _ => hret _ _ (by simp)

/-- Options in one command. -/
abbrev look (st : ParserSettings) (c : Command) (flag : Str) : Option OptData :=
  findOption c.optionIndex flag st.allowAbbreviatedOptions st.caseInsensitive

/-- `FlagsKnown` if `K`. -/
abbrev Meant (K : Prop) (st : ParserSettings) (c : Command) (w : Str) : Prop := K → FlagsKnown (look st c) w

theorem meant_nil {c : Command} : ∀ w, Meant K st c w → Meant K st c [] := fun _ _ _ => trivial

/-- The states agree between two calls of `next`. -/
structure Level (K : Prop) (st : ParserSettings) (s t : PState) : Prop where
  twin : Twin K st s t
  iter : Beside (fun _ => True) s.iter t.iter
  flags : s.mode = .argumentsAndOptions → Beside (Meant K st s.command) s.iter t.iter

theorem Clear.level {s t : PState} (h : Clear K st s t) : Level K st s t :=
  ⟨h.1, h.2.imp fun _ h => h.elim, fun _ => h.2.imp fun _ h => h.elim⟩

theorem Pair.off {P : Str → Prop} {s t : PState} (h : Pair K st (Beside P) c m s t) (hm : m ≠ .argumentsAndOptions) : Level K st s t :=
  ⟨h.twin, h.iter.imp fun _ _ => trivial, fun e => absurd (h.mode.symm.trans e) hm⟩

theorem Pair.on {s t : PState} (h : Pair K st (Beside (Meant K st c)) c m s t) : Level K st s t :=
  ⟨h.twin, h.iter.imp fun _ _ => trivial, fun _ => by rw [h.command]; exact h.iter⟩

/-- An option that exists. -/
theorem follows_option_any (env : Env) {f g : Str} (o : OptData) {P' : Str → Prop} (hP : ∀ w, P' w → P' [])
    (ho : Handles K J P' o f g) (hf : look st c f = some o) (hg : look st c g = some o) :
    Follows K st (Pair K st J c m) Reports
      (fun _ s t => (∃ m', Pair K st (Beside P') c m' s t ∧ (m' = .argumentsAndOptions → o.type = .normal)) ∨ ∃ c', Pair K st (Beside P') c' .argumentsOnly s t)
      (processOption env f) (processOption env g) := by
  refine Follows.get fun s t h => ?_
  obtain ⟨h1, h2, h3, i, l, rfl, hl, hj⟩ := h.elim
  have e : findOption s.command.optionIndex f s.settings.allowAbbreviatedOptions s.settings.caseInsensitive = some o := by rw [h1, h2]; exact hf
  have e' : findOption s.command.optionIndex g s.settings.allowAbbreviatedOptions s.settings.caseInsensitive = some o := by rw [h1, h2]; exact hg
  simp only [e, e']
  have hin : Inserts (Beside P') := inserts_beside hP
  refine Follows.bind (R := Eq) (Q := fun r s t => ∃ m', Pair K st (Beside P') c m' s t ∧ (m' = .argumentsAndOptions → r.1 = .normal ∧ o.type = .normal)) ?_ ?_
  · refine Follows.bind ((follows_operation hP o ho).pre (P := Pair K st J c m) (P' := fun a b => a = s ∧ b = { s with iter := i, log := l })
      (by rintro _ _ ⟨rfl, rfl⟩; exact h)) fun x _ e => ?_
    subst e
    cases x with
    | none =>
      intro s t h
      refine ⟨rfl, h.twin, fun a ha => ⟨_, h, ?_⟩⟩
      simp
    | some x =>
      obtain ⟨value, stored⟩ := x
      simp only
      refine Follows.bind (follows_runCallbackOpt env hin _ _ _ _ _) fun v _ e => ?_
      subst e
      refine Follows.get fun s t h => ?_
      obtain ⟨h1, h2, h3, i, l, rfl, hl, hj⟩ := h.elim
      refine Follows.bind ((follows_runCallbackOpt env hin _ _ _ _ _).pre (P := Pair K st (Beside P') c m) (P' := fun a b => a = s ∧ b = { s with iter := i, log := l })
        (by rintro _ _ ⟨rfl, rfl⟩; exact h)) fun v _ e => ?_
      subst e
      refine Follows.bind (follows_type o) fun r _ e => ?_
      subst e
      intro s t h
      obtain ⟨m', h, hm⟩ := h
      refine ⟨rfl, h.twin, fun a ha => ⟨m', h, ?_⟩⟩
      simp only [pure_apply, Outcome.ok.injEq] at ha
      subst ha
      exact hm
  · rintro ⟨res, v⟩ _ rfl
    simp only
    refine Follows.any fun m' => ?_
    have hret : ∀ (m' : Mode), (m' = .argumentsAndOptions → o.type = .normal) → ∀ r : IterResult,
        Follows K st (Pair K st (Beside P') c m') Reports
          (fun _ s t => (∃ m', Pair K st (Beside P') c m' s t ∧ (m' = .argumentsAndOptions → o.type = .normal)) ∨ ∃ c', Pair K st (Beside P') c' .argumentsOnly s t)
          (pure r) (pure r) := fun m' hm r =>
      (Follows.pure (fun _ _ h => h.twin) (.same r)).post fun _ _ _ h => Or.inl ⟨m', h, hm⟩
    by_cases hm : m' = .argumentsAndOptions → res = .normal ∧ o.type = .normal
    · refine Follows.pre (P := Pair K st (Beside P') c m') ?_ fun _ _ h => h.1
      cases res with
      | exit =>
        refine Follows.ite (fun _ => Follows.ends (fun _ _ h => h.twin) rfl) fun _ => ?_
        exact (follows_copyRemaining hP).bind fun _ _ _ => hret _ (fun e => (hm e).2) _
      | error => exact hret _ (fun e => (hm e).2) _
      | lastArgument =>
        refine (follows_checkCounts hP).bind fun b _ e => ?_
        subst e
        have hb : (if b = true then Mode.done else Mode.error) = .argumentsAndOptions → o.type = .normal := by cases b <;> simp
        refine Follows.ite (fun _ => hret _ hb _) fun _ => Follows.get fun s t h => ?_
        obtain ⟨h1, h2, h3, i, l, rfl, hl, hj⟩ := h.elim
        simp only
        split
        · refine Follows.bind ((follows_reactivate _).pre (P := Pair K st (Beside P') c (if b = true then Mode.done else Mode.error))
            (P' := fun a b => a = s ∧ b = { s with iter := i, log := l }) (by rintro _ _ ⟨rfl, rfl⟩; exact h)) fun _ _ _ => ?_
          exact (Follows.pure (fun _ _ ⟨_, h⟩ => h.twin) (.same _)).post fun _ _ _ h => Or.inr h
        · exact Follows.bind ((follows_copyRemaining hP).pre (P := Pair K st (Beside P') c (if b = true then Mode.done else Mode.error))
            (P' := fun a b => a = s ∧ b = { s with iter := i, log := l }) (by rintro _ _ ⟨rfl, rfl⟩; exact h)) fun _ _ _ => hret _ hb _
      | stop => exact (follows_copyRemaining hP).bind fun _ _ _ => hret _ (fun e => (hm e).2) _
      | normal => exact hret _ (fun e => (hm e).2) _
    · intro s t h
      exact absurd h.2 hm

theorem follows_option (env : Env) (flag : Str) (o : OptData) {P P' : Str → Prop} (hP : ∀ w, P' w → P' [])
    (ho : NeedsValue o ∨ ∀ w, P w → P' w) (hlook : look st c flag = some o) :
    Follows K st (Pair K st (Beside P) c m) Reports
      (fun _ s t => (∃ m', Pair K st (Beside P') c m' s t ∧ (m' = .argumentsAndOptions → o.type = .normal)) ∨ ∃ c', Pair K st (Beside P') c' .argumentsOnly s t)
      (processOption env flag) (processOption env flag) :=
  follows_option_any env o hP (handles_beside ho flag) hlook hlook

/-- An option that doesn't exist. -/
theorem follows_unknown (env : Env) (flag : Str) {P : Str → Prop} (hP : ∀ w, P w → P []) (hk : ¬ K) (hi : st.ignoreUndefinedOptions = false)
    (hlook : look st c flag = none) :
    Follows K st (Pair K st (Beside P) c m) Reports (fun _ => Pair K st (Beside P) c .error) (processOption env flag) (processOption env flag) := by
  refine Follows.get fun s t h => ?_
  obtain ⟨h1, h2, h3, i, l, rfl, hl, hj⟩ := h.elim
  have e : findOption s.command.optionIndex flag s.settings.allowAbbreviatedOptions s.settings.caseInsensitive = none := by rw [h1, h2]; exact hlook
  simp only [e]
  refine Follows.bind (follows_current.pre (P := Pair K st (Beside P) c m) (P' := fun a b => a = s ∧ b = { s with iter := i, log := l })
    (by rintro _ _ ⟨rfl, rfl⟩; exact h)) fun x y _ => ?_
  have hi' : s.settings.ignoreUndefinedOptions = false := by rw [h1]; exact hi
  simp only [hi', Bool.not_false, Bool.true_or, if_true]
  exact follows_fail hP _ _ fun hK => absurd hK hk

/-- The same for iterators that are equal. -/
theorem follows_unknown_same (env : Env) (flag : Str) (hlook : look st c flag = none) :
    Follows K st (Pair K st Eq c m) Reports (fun _ => Clear K st) (processOption env flag) (processOption env flag) := by
  have hcl : ∀ {s t : PState}, Pair K st Eq c m s t → Pair K st (Beside fun _ => False) c m s t := fun h =>
    ⟨h.twin, h.iter ▸ .refl _, h.command, h.mode⟩
  refine Follows.get fun s t h => ?_
  obtain ⟨h1, h2, h3, i, l, rfl, hl, hj⟩ := h.elim
  have e : findOption s.command.optionIndex flag s.settings.allowAbbreviatedOptions s.settings.caseInsensitive = none := by rw [h1, h2]; exact hlook
  simp only [e]
  refine Follows.bind (R := Eq) (Q := fun _ => Pair K st (Beside fun _ => False) c m) ?_ fun cur _ e => ?_
  · rintro a b ⟨ha, hb⟩
    rw [ha, hb]
    have : SameEnd Eq s.iter.current i.current := hj ▸ SameEnd.refl _
    exact ⟨this, h.twin, fun _ _ => hcl h⟩
  · subst e
    refine Follows.ite (fun _ => (follows_fail noneLeft _ _ fun _ => rfl).post fun _ _ _ h => h.loose) fun _ => ?_
    refine (follows_modifyBack _).bind fun _ _ _ => ?_
    exact (Follows.pure (fun _ _ h => h.twin) (.same _)).post fun _ _ _ h => h.loose

/-- What follows when the same has been read and the iterators agree. -/
theorem follows_tail (env : Env) (s0 t0 : PState) (h0 : Twin K st s0 t0) (a : Option Str) :
    Follows K st (Pair K st Eq s0.command m) Reports (fun _ => Clear K st) (nextTail env m s0 a) (nextTail env m t0 a) := by
  have hcl : ∀ {s t : PState} {c : Command} {m : Mode}, Pair K st Eq c m s t → Pair K st (Beside fun _ => False) c m s t := fun h =>
    ⟨h.twin, h.iter ▸ .refl _, h.command, h.mode⟩
  obtain ⟨hs, i0, l0, rfl, hl0⟩ := h0
  unfold nextTail
  cases a with
  | none =>
    refine ((follows_checkCounts noneLeft).pre fun _ _ h => hcl h).bind fun b _ e => ?_
    subst e
    refine Follows.ite (fun _ => ?_) fun _ => ?_
    all_goals exact (Follows.pure (fun _ _ h => h.twin) (.same _)).post fun _ _ _ h => h.loose
  | some arg =>
    simp only
    refine Follows.ite (fun _ => ?_) fun _ => Follows.ite (fun _ => ?_) fun _ => ?_
    · cases hlook : look st s0.command arg with
      | none => exact follows_unknown_same env arg hlook
      | some o =>
        refine ((follows_option env arg o noneLeft (Or.inr fun _ h => h) hlook).pre fun _ _ h => hcl h).post fun _ _ _ h => ?_
        rcases h with ⟨m', h, _⟩ | ⟨c', h⟩ <;> exact h.loose
    · exact ((follows_processArgument env arg).pre fun _ _ h => (hcl h).loose)
    · split
      · exact ((follows_processCommand _).pre fun _ _ h => (hcl h).loose)
      · exact ((follows_fail noneLeft _ _ fun _ => rfl).pre fun _ _ h => hcl h).post fun _ _ _ h => h.loose

theorem next_aao (env : Env) {s : PState} (h : s.mode = .argumentsAndOptions) :
    next env s = (iterNext >>= nextTail env .argumentsAndOptions s) s := by
  obtain ⟨se, c, st, i, ct, m, lg, cl⟩ := s
  simp only at h
  subst h
  show (iterNext >>= _ : ParserM IterResult) _ = _
  congr 1

theorem next_ao (env : Env) {s : PState} (h : s.mode = .argumentsOnly) :
    next env s = (iterNextValue >>= nextTail env .argumentsOnly s) s := by
  obtain ⟨se, c, st, i, ct, m, lg, cl⟩ := s
  simp only at h
  subst h
  show (iterNextValue >>= _ : ParserM IterResult) _ = _
  congr 1

/-- The same result of `next`, and agreement afterwards. -/
def Agree (K : Prop) (st : ParserSettings) (x y : Outcome IterResult × PState) : Prop :=
  SameEnd Reports x.1 y.1 ∧ Twin K st x.2 y.2 ∧ ∀ a, x.1 = .ok a → Level K st x.2 y.2

/-- The same with agreement of the iterators up to what has been read. -/
def AgreeClear (K : Prop) (st : ParserSettings) (x y : Outcome IterResult × PState) : Prop :=
  SameEnd Reports x.1 y.1 ∧ Twin K st x.2 y.2 ∧ ∀ a, x.1 = .ok a → Clear K st x.2 y.2

theorem AgreeClear.agree {x y : Outcome IterResult × PState} (h : AgreeClear K st x y) : Agree K st x y := ⟨h.1, h.2.1, fun a ha => (h.2.2 a ha).level⟩

theorem same_iterNext (env : Env) {s t : PState} (h : Twin K st s t) (e : s.iter.next = t.iter.next) (hm : s.mode = .argumentsAndOptions) :
    AgreeClear K st (next env s) (next env t) := by
  have htm : t.mode = .argumentsAndOptions := by obtain ⟨_, i, l, rfl, _⟩ := h; exact hm
  rw [next_aao env hm, next_aao env htm]
  have hf := fun a => follows_tail (m := .argumentsAndOptions) env s t h a
  have hb : Follows K st (fun a b => a = s ∧ b = t) Eq (fun _ => Pair K st Eq s.command .argumentsAndOptions) iterNext iterNext := by
    rintro a b ⟨ha, hb⟩
    rw [ha, hb]
    obtain ⟨h1, i, l, rfl, hl⟩ := h
    simp only at e
    unfold iterNext
    simp only
    rw [← e]
    generalize s.iter.next = z
    cases z with
    | ok z => exact ⟨rfl, ⟨h1, _, l, rfl, hl⟩, fun _ _ => ⟨⟨h1, _, l, rfl, hl⟩, rfl, rfl, hm⟩⟩
    | _ => exact ⟨by first | rfl | trivial, ⟨h1, i, l, rfl, hl⟩, by intro a ha; simp at ha⟩
  exact hb.bind (fun a _ e => by subst e; exact hf a) s t ⟨rfl, rfl⟩

/-- Reading the rest of an argument as a value. -/
theorem follows_tail_ao (env : Env) (s0 t0 : PState) (h0 : Twin K st s0 t0) (a : Option Str) :
    Follows K st (Pair K st (Beside fun _ => False) s0.command m) Reports (fun _ => Clear K st) (nextTail env .argumentsOnly s0 a)
      (nextTail env .argumentsOnly t0 a) := by
  obtain ⟨hs, i0, l0, rfl, hl0⟩ := h0
  unfold nextTail
  cases a with
  | none =>
    refine (follows_checkCounts noneLeft).bind fun b _ e => ?_
    subst e
    refine Follows.ite (fun _ => ?_) fun _ => ?_
    all_goals exact (Follows.pure (fun _ _ h => h.twin) (.same _)).post fun _ _ _ h => h.loose
  | some arg =>
    have hn : ¬ (Mode.argumentsOnly = .argumentsAndOptions ∧ isOption arg s0.settings.optionStyle = true) := by simp
    simp only [if_neg hn]
    refine Follows.ite (fun _ => ?_) fun _ => ?_
    · exact (follows_processArgument env arg).pre fun _ _ h => h.loose
    · split
      · exact (follows_processCommand _).pre fun _ _ h => h.loose
      · exact (follows_fail noneLeft _ _ fun _ => rfl).post fun _ _ _ h => h.loose

theorem flag_tail (hst : st.optionStyle ≠ .slash) (hK : K ∨ st.ignoreUndefinedOptions = false) (env : Env) {s t s0 t0 : PState} (h0 : Twin K st s0 t0) {x : UInt8}
    {w : Str} (hmeant : Meant K st s0.command (x :: w))
    (h : Pair K st (Beside fun v => v = w) s0.command .argumentsAndOptions s t) :
    Agree K st (nextTail env .argumentsAndOptions s0 (some [c!"-", x]) s) (nextTail env .argumentsAndOptions t0 (some [c!"-", x]) t) := by
  obtain ⟨hs, i0, l0, rfl, hl0⟩ := h0
  have hopt : isOption [c!"-", x] s0.settings.optionStyle = true := by rw [hs]; simp [isOption, hst]
  have hopt' : Mode.argumentsAndOptions = .argumentsAndOptions ∧ isOption [c!"-", x] s0.settings.optionStyle = true := ⟨rfl, hopt⟩
  show Agree K st (nextTail env .argumentsAndOptions s0 (some [c!"-", x]) s) (nextTail env .argumentsAndOptions s0 (some [c!"-", x]) t)
  have e : nextTail env .argumentsAndOptions s0 (some [c!"-", x]) = processOption env [c!"-", x] := if_pos hopt'
  rw [e]
  cases hlook : look st s0.command [c!"-", x] with
  | none =>
    have hk : ¬ K := by
      intro hK
      obtain ⟨o, ho, _⟩ := hmeant hK
      rw [hlook] at ho
      simp at ho
    obtain ⟨a1, a2, a3⟩ := follows_unknown (P := fun _ => True) env [c!"-", x] (fun _ _ => trivial) hk (hK.resolve_left hk) hlook s t
      ⟨h.twin, h.iter.imp fun _ _ => trivial, h.command, h.mode⟩
    exact ⟨a1, a2, fun a ha => (a3 a ha).off (by simp)⟩
  | some o =>
    by_cases hty : NeedsValue o ∨ (K → FlagsKnown (look st s0.command) w)
    · obtain ⟨a1, a2, a3⟩ := follows_option (P' := Meant K st s0.command) env [c!"-", x] o meant_nil
        (hty.imp id fun hw v e => by subst e; exact hw) hlook s t h
      refine ⟨a1, a2, fun a ha => ?_⟩
      rcases a3 a ha with ⟨m', hp, _⟩ | ⟨c', hp⟩
      · exact hp.on
      · exact hp.off (by simp)
    · have hn : o.type ≠ .normal := by
        intro hn
        apply hty
        by_cases hf : NeedsValue o
        · exact Or.inl hf
        · refine Or.inr fun hK => ?_
          obtain ⟨o', ho', hx⟩ := hmeant hK
          rw [hlook] at ho'
          injection ho' with ho'
          subst ho'
          exact (hx.resolve_left hf).resolve_left fun h => h hn
      obtain ⟨a1, a2, a3⟩ := follows_option (P' := fun _ => True) env [c!"-", x] o (fun _ _ => trivial)
        (Or.inr fun _ _ => trivial) hlook s t h
      refine ⟨a1, a2, fun a ha => ?_⟩
      rcases a3 a ha with ⟨m', hp, hm⟩ | ⟨c', hp⟩
      · exact hp.off fun e => hn (hm e)
      · exact hp.off (by simp)

theorem level_next (hst : st.optionStyle ≠ .slash) (hK : K ∨ st.ignoreUndefinedOptions = false) (env : Env) {s t : PState} (h : Level K st s t) :
    Agree K st (next env s) (next env t) := by
  obtain ⟨h1, i, l, rfl, hl⟩ := h.twin
  rcases (show s.mode = .error ∨ s.mode = .done ∨ s.mode = .argumentsOnly ∨ s.mode = .argumentsAndOptions by cases s.mode <;> simp) with hm | hm | hm | hm
  · have e : ∀ s : PState, s.mode = .error → next env s = (.throw b!"next() called after error.", s) := by
      intro s hs; obtain ⟨_, _, _, _, _, m, _, _⟩ := s; simp only at hs; subst hs; rfl
    rw [e s hm, e { s with iter := i, log := l } hm]
    exact ⟨rfl, h.twin, by intro a ha; simp at ha⟩
  · have e : ∀ s : PState, s.mode = .done → next env s = (.ok .done, s) := by
      intro s hs; obtain ⟨_, _, _, _, _, m, _, _⟩ := s; simp only at hs; subst hs; rfl
    rw [e s hm, e { s with iter := i, log := l } hm]
    exact ⟨.same _, h.twin, fun _ _ => h⟩
  · rw [next_ao env hm, next_ao env (s := { s with iter := i, log := l }) hm]
    have hb : Follows K st (Pair K st (Beside fun _ => True) s.command .argumentsOnly) Reports (fun _ => Clear K st)
        (iterNextValue >>= nextTail env .argumentsOnly s) (iterNextValue >>= nextTail env .argumentsOnly { s with iter := i, log := l }) :=
      follows_nextValue.bind fun a _ e => by subst e; exact follows_tail_ao env s _ h.twin a
    obtain ⟨a1, a2, a3⟩ := hb s { s with iter := i, log := l } ⟨h.twin, h.iter, rfl, hm⟩
    exact ⟨a1, a2, fun a ha => (a3 a ha).level⟩
  · rcases (h.flags hm).next with e | ⟨x, w, i', j', hw, e1, e2, hb⟩
    · exact (same_iterNext env h.twin e hm).agree
    · rw [next_taken env s _ i' (Or.inl ⟨hm, e1⟩), next_taken env { s with iter := i, log := l } _ j' (Or.inl ⟨hm, e2⟩)]
      show Agree K st (nextTail env s.mode s _ _) (nextTail env s.mode { s with iter := i, log := l } _ _)
      rw [hm]
      exact flag_tail hst hK env h.twin hw ⟨⟨h1, j', l, rfl, hl⟩, hb, rfl, by first | exact hm | rfl⟩

theorem clear_next (env : Env) {s t : PState} (h : Clear K st s t) : AgreeClear K st (next env s) (next env t) := by
  obtain ⟨h1, i, l, rfl, hl⟩ := h.1
  rcases (show s.mode = .error ∨ s.mode = .done ∨ s.mode = .argumentsOnly ∨ s.mode = .argumentsAndOptions by cases s.mode <;> simp) with hm | hm | hm | hm
  · have e : ∀ s : PState, s.mode = .error → next env s = (.throw b!"next() called after error.", s) := by
      intro s hs; obtain ⟨_, _, _, _, _, m, _, _⟩ := s; simp only at hs; subst hs; rfl
    rw [e s hm, e { s with iter := i, log := l } hm]
    exact ⟨rfl, h.1, by intro a ha; simp at ha⟩
  · have e : ∀ s : PState, s.mode = .done → next env s = (.ok .done, s) := by
      intro s hs; obtain ⟨_, _, _, _, _, m, _, _⟩ := s; simp only at hs; subst hs; rfl
    rw [e s hm, e { s with iter := i, log := l } hm]
    exact ⟨.same _, h.1, fun _ _ => h⟩
  · rw [next_ao env hm, next_ao env (s := { s with iter := i, log := l }) hm]
    have hb : Follows K st (Pair K st (Beside fun _ => False) s.command .argumentsOnly) Reports (fun _ => Clear K st)
        (iterNextValue >>= nextTail env .argumentsOnly s) (iterNextValue >>= nextTail env .argumentsOnly { s with iter := i, log := l }) :=
      follows_nextValue.bind fun a _ e => by subst e; exact follows_tail_ao env s _ h.1 a
    exact hb s { s with iter := i, log := l } ⟨h.1, h.2, rfl, hm⟩
  · rcases h.2.next with e | ⟨x, w, i', j', hw, _⟩
    · exact same_iterNext env h.1 e hm
    · exact hw.elim

/-- An option without a value that doesn't change how the rest is read. -/
theorem follows_plain (env : Env) (hJ : Inserts J) (flag : Str) (o : OptData) (ho : ¬ NeedsValue o) (hty : o.type = .normal) (hlook : look st c flag = some o) :
    Follows K st (Pair K st J c m) Reports (fun _ => Pair K st J c m) (processOption env flag) (processOption env flag) := by
  refine Follows.get fun s t h => ?_
  obtain ⟨h1, h2, h3, i, l, rfl, hl, hj⟩ := h.elim
  have e : findOption s.command.optionIndex flag s.settings.allowAbbreviatedOptions s.settings.caseInsensitive = some o := by rw [h1, h2]; exact hlook
  simp only [e]
  refine Follows.bind (R := fun x y => x = y ∧ x.1 = .normal) (Q := fun _ => Pair K st J c m) ?_ ?_
  · refine Follows.bind ((follows_operation_none ho flag).pre (P := Pair K st J c m) (P' := fun a b => a = s ∧ b = { s with iter := i, log := l })
      (by rintro _ _ ⟨rfl, rfl⟩; exact h)) fun x _ e => ?_
    obtain ⟨rfl, hx⟩ := e
    cases x with
    | none => simp at hx
    | some x =>
      obtain ⟨value, stored⟩ := x
      simp only
      refine Follows.bind (follows_runCallbackOpt env hJ _ _ _ _ _) fun v _ e => ?_
      subst e
      refine Follows.get fun s t h => ?_
      obtain ⟨h1, h2, h3, i, l, rfl, hl, hj⟩ := h.elim
      refine Follows.bind ((follows_runCallbackOpt env hJ _ _ _ _ _).pre (P := Pair K st J c m) (P' := fun a b => a = s ∧ b = { s with iter := i, log := l })
        (by rintro _ _ ⟨rfl, rfl⟩; exact h)) fun v _ e => ?_
      subst e
      have hat : applyType o = pure .normal := by unfold applyType; rw [hty]
      rw [hat]
      exact Follows.pure (fun _ _ h => h.twin) ⟨rfl, rfl⟩
  · rintro ⟨res, v⟩ _ ⟨rfl, hr⟩
    simp only at hr
    subst hr
    exact Follows.pure (fun _ _ h => h.twin) (.same _)

/-- The states between two calls of `next`: the first flag has just been processed, or they agree. -/
def Between (K : Prop) (st : ParserSettings) (p q : UInt8) (qs : Str) (s t : PState) : Prop :=
  Level K st s t ∨ (Pair K st (First p q qs) s.command .argumentsAndOptions s t ∧ Meant K st s.command (q :: qs))

theorem between_next (hst : st.optionStyle ≠ .slash) (hK : K ∨ st.ignoreUndefinedOptions = false) {p q : UInt8} {qs : Str} (hp : p ≠ c!"-") (hq : q ≠ c!"-")
    (env : Env) {s t : PState} (h : Between K st p q qs s t) : Agree K st (next env s) (next env t) := by
  rcases h with h | ⟨h, hw⟩
  · exact level_next hst hK env h
  · rcases h.iter.next hp hq with e | ⟨i', j', e1, e2, hb⟩
    · exact (same_iterNext env h.twin e h.mode).agree
    · obtain ⟨h1, h2, h3, i, l, rfl, hl, hj⟩ := h.elim
      rw [next_taken env s _ i' (Or.inl ⟨h3, e1⟩), next_taken env { s with iter := i, log := l } _ j' (Or.inl ⟨h3, e2⟩)]
      show Agree K st (nextTail env s.mode s _ _) (nextTail env s.mode { s with iter := i, log := l } _ _)
      rw [h3]
      exact flag_tail hst hK env h.twin hw ⟨⟨h1, j', l, rfl, hl⟩, hb, rfl, by first | exact h3 | rfl⟩

/-- The same end of the loop. -/
def AgreeEnd (K : Prop) (st : ParserSettings) (x y : Outcome Unit × PState) : Prop := SameEnd (fun _ _ => True) x.1 y.1 ∧ Twin K st x.2 y.2

theorem run_from {env : Env} {R : PState → PState → Prop} (fuel : Nat) (hrun : ∀ {s t}, R s t → AgreeEnd K st (run env fuel s) (run env fuel t)) {s t : PState}
    (h1 : SameEnd Reports (next env s).1 (next env t).1) (h2 : Twin K st (next env s).2 (next env t).2)
    (h3 : ∀ a, (next env s).1 = .ok a → R (next env s).2 (next env t).2) :
    AgreeEnd K st (run env (fuel + 1) s) (run env (fuel + 1) t) := by
  rw [run_succ, run_succ, bind_apply, bind_apply]
  revert h1 h2 h3
  generalize next env s = x
  generalize next env t = y
  obtain ⟨x, s1⟩ := x
  obtain ⟨y, t1⟩ := y
  intro h1 h2 h3
  cases x <;> cases y <;> first
    | exact absurd h1 id
    | exact ⟨h1, h2⟩
    | skip
  rename_i r r'
  have h3 := h3 r rfl
  cases (show Reports r r' from h1) with
  | same r =>
    cases r with
    | done => exact ⟨trivial, h2⟩
    | error => exact ⟨trivial, h2⟩
    | _ => exact hrun h3
  | command => exact hrun h3
  | unknown => exact hrun h3

theorem run_level (hst : st.optionStyle ≠ .slash) (hK : K ∨ st.ignoreUndefinedOptions = false) (env : Env) (fuel : Nat) :
    ∀ {s t : PState}, Level K st s t → AgreeEnd K st (run env fuel s) (run env fuel t) := by
  induction fuel with
  | zero => intro s t h; exact ⟨trivial, h.twin⟩
  | succ fuel ih =>
    intro s t h
    obtain ⟨a1, a2, a3⟩ := level_next hst hK env h
    exact run_from fuel ih a1 a2 a3

theorem run_clear (env : Env) (fuel : Nat) : ∀ {s t : PState}, Clear K st s t → AgreeEnd K st (run env fuel s) (run env fuel t) := by
  induction fuel with
  | zero => intro s t h; exact ⟨trivial, h.1⟩
  | succ fuel ih =>
    intro s t h
    obtain ⟨a1, a2, a3⟩ := clear_next env h
    exact run_from fuel ih a1 a2 a3

theorem run_between (hst : st.optionStyle ≠ .slash) (hK : K ∨ st.ignoreUndefinedOptions = false) {p q : UInt8} {qs : Str} (hp : p ≠ c!"-") (hq : q ≠ c!"-")
    (env : Env) (fuel : Nat) {s t : PState} (h : Between K st p q qs s t) (ht : Twin K st s t) : AgreeEnd K st (run env fuel s) (run env fuel t) := by
  cases fuel with
  | zero => exact ⟨trivial, ht⟩
  | succ fuel =>
    obtain ⟨a1, a2, a3⟩ := between_next hst hK hp hq env h
    exact run_from fuel (run_level hst hK env fuel) a1 a2 a3

end

theorem _root_.Argos.StdIt.next_nothing {it it' : StdIt} (h : it.remainingArguments = .ok ([], it')) (x : Str) (post : List Str) :
    (it.more (x :: post)).next = .ok (StdIt.nextFresh (x :: post)) := by
  obtain ⟨args, pos⟩ := it
  obtain ⟨h3, h4⟩ := StdIt.nothing h
  rcases h4 with ⟨h4, h5⟩ | ⟨a, h4, h5⟩ <;> simp only at h4 h5 <;> subst h4
  · subst h5; rfl
  · cases pos with
    | npos => rfl
    | «at» n =>
      cases n with
      | zero => exact absurd rfl h5
      | succ n =>
        simp only [StdIt.more, List.cons_append, List.nil_append, StdIt.next]
        cases hc : a[n + 1]? with
        | none => rfl
        | some c =>
          simp only
          have hlt : n + 1 < a.length := by
            rcases Nat.lt_or_ge (n + 1) a.length with h | h
            · exact h
            · rw [List.getElem?_eq_none h] at hc; simp at hc
          simp only [StdIt.splitConcatenatedFlags] at h3
          rw [if_neg (by omega)] at h3
          cases h1 : a[1]? with
          | none => rw [h1] at h3; simp at h3
          | some a1 =>
            rw [h1] at h3
            simp only at h3 ⊢
            split at h3
            · rename_i e; rw [e]; simp
            · simp only [Outcome.ok.injEq, StdIt.mk.injEq] at h3
              have := congrArg List.length h3.1
              simp at this

/-- Parsing with `-pq` and with `-p` and `-q`. -/
theorem flags_run {K : Prop} {env : Env} {d : ParserData} (hst : d.settings.optionStyle = .standard) (hK : K ∨ d.settings.ignoreUndefinedOptions = false) {p q : UInt8} {qs : Str}
    (hp : p ≠ c!"-") (hq : q ≠ c!"-") {s : PState} (hg : Good d s) (hm : s.mode = .argumentsAndOptions) (hl : NothingLeft s.iter) {o : OptData}
    (hlook : lookup s [c!"-", p] = some o) (ho : ¬ NeedsValue o) (hty : o.type = .normal) (hk : K → FlagsKnown (lookup s) (q :: qs)) (post : List Str) (fuel : Nat) :
    AgreeEnd K d.settings (run env fuel (s.more ((c!"-" :: p :: q :: qs) :: post))) (run env fuel (s.more ([c!"-", p] :: (c!"-" :: q :: qs) :: post))) := by
  have hset := hg.settings
  obtain ⟨it', hl⟩ := hl
  obtain ⟨it, hit⟩ : ∃ it, s.iter = .std it := by
    have := hg.pfx
    rw [hst] at this
    cases hi : s.iter with
    | std it => exact ⟨it, rfl⟩
    | opt it => rw [hi] at this; simp [Iter.pfx, stylePrefix] at this
  rw [hit] at hl
  obtain ⟨⟨b, i⟩, h1, h2⟩ := Outcome.bind_eq_ok.mp hl
  simp only [pure, Outcome.ok.injEq, Prod.mk.injEq] at h2
  obtain ⟨rfl, _⟩ := h2
  have e1 : (s.more ((c!"-" :: p :: q :: qs) :: post)).iter.next = .ok (some [c!"-", p], .std ⟨(c!"-" :: p :: q :: qs) :: post, .at 2⟩) := by
    simp only [PState.more, hit, Iter.more, Iter.next, StdIt.next_nothing h1]
    simp [StdIt.nextFresh, hp]
  have e2 : (s.more ([c!"-", p] :: (c!"-" :: q :: qs) :: post)).iter.next = .ok (some [c!"-", p], .std ⟨[c!"-", p] :: (c!"-" :: q :: qs) :: post, .npos⟩) := by
    simp only [PState.more, hit, Iter.more, Iter.next, StdIt.next_nothing h1]
    simp [StdIt.nextFresh]
  have htw : Twin K d.settings (s.more ((c!"-" :: p :: q :: qs) :: post)) (s.more ([c!"-", p] :: (c!"-" :: q :: qs) :: post)) :=
    ⟨hset, _, s.log, rfl, fun _ => rfl⟩
  have hst' : d.settings.optionStyle ≠ .slash := by rw [hst]; simp
  cases fuel with
  | zero => exact ⟨trivial, htw⟩
  | succ fuel =>
    have hopt : isOption [c!"-", p] s.settings.optionStyle = true := by rw [hset, hst]; rfl
    have hpl := follows_plain (K := K) (st := d.settings) (c := s.command) (m := .argumentsAndOptions) env (inserts_first (q := q) (qs := qs) hp) [c!"-", p] o ho hty
      (by rw [← hset]; exact hlook)
      { s with iter := .std ⟨(c!"-" :: p :: q :: qs) :: post, .at 2⟩ } { s with iter := .std ⟨[c!"-", p] :: (c!"-" :: q :: qs) :: post, .npos⟩ }
      ⟨⟨hset, _, s.log, rfl, fun _ => rfl⟩, .whole post, rfl, hm⟩
    have t1 : next env (s.more ((c!"-" :: p :: q :: qs) :: post)) = processOption env [c!"-", p] { s with iter := .std ⟨(c!"-" :: p :: q :: qs) :: post, .at 2⟩ } := by
      rw [next_taken env (s.more ((c!"-" :: p :: q :: qs) :: post)) _ _ (Or.inl ⟨hm, e1⟩)]
      exact congrFun (if_pos ⟨hm, hopt⟩) _
    have t2 : next env (s.more ([c!"-", p] :: (c!"-" :: q :: qs) :: post)) =
        processOption env [c!"-", p] { s with iter := .std ⟨[c!"-", p] :: (c!"-" :: q :: qs) :: post, .npos⟩ } := by
      rw [next_taken env (s.more ([c!"-", p] :: (c!"-" :: q :: qs) :: post)) _ _ (Or.inl ⟨hm, e2⟩)]
      exact congrFun (if_pos ⟨hm, hopt⟩) _
    rw [← t1, ← t2] at hpl
    obtain ⟨a1, a2, a3⟩ := hpl
    refine run_from (R := fun x y => Between K d.settings p q qs x y ∧ Twin K d.settings x y) fuel (fun h => run_between hst' hK hp hq env fuel h.1 h.2) a1 a2 fun a ha => ?_
    have hb := a3 a ha
    refine ⟨Or.inr ⟨⟨hb.twin, hb.iter, rfl, hb.mode⟩, fun h => ?_⟩, hb.twin⟩
    rw [hb.command]
    have := hk h
    unfold lookup at this
    rw [hset] at this
    exact this

/-- What comes after `pre` decides about the rest. -/
theorem parse_more {K : Prop} {env : Env} {d : ParserData} (hrd : Ready d)
    (hnc : ∀ c : Command, c.Within d.command → Counter.requiresArgumentCount c.arguments = false) {pre : List Str} {rs : List IterResult} {s : PState}
    (ht : Trace env (start d pre).2 rs s) (hrs : ∀ x ∈ rs, ¬ x.IsLast) (hu : Unfinished s) {X Y : List Str}
    (hXY : Good d s → ∀ f, AgreeEnd K d.settings (run env f (s.more X)) (run env f (s.more Y))) (fuel : Nat) (hf : rs.length ≤ fuel) :
    SameEnd Eq (parse env d (pre ++ X) fuel).1 (parse env d (pre ++ Y) fuel).1 ∧
    Twin K d.settings (parse env d (pre ++ X) fuel).2 (parse env d (pre ++ Y) fuel).2 := by
  have key : ∀ rest, Trace env (start d (pre ++ rest)).2 rs (s.more rest) ∧ Good d s := by
    intro rest
    obtain ⟨a1, a2, a3⟩ := trace_full (Differs.refl env s.calls) rest hrd hnc ht (start_good d pre).2 hrs hu (Nat.le_refl _)
    have e1 : PState.full s.calls [] rest (start d pre).2 = (start d (pre ++ rest)).2 := by
      rw [start_more d (hnc _ .self) pre rest]
      unfold PState.full
      rw [if_pos a2]
    have e2 : s.full s.calls [] rest = s.more rest := by unfold PState.full; rw [if_pos (Nat.le_refl _)]
    rw [e1, e2] at a1
    exact ⟨a1, a3⟩
  obtain ⟨f, rfl⟩ : ∃ f, fuel = rs.length + f := ⟨fuel - rs.length, by omega⟩
  have h := hXY (key []).2 f
  rw [← Trace.run (key _).1 hrs, ← Trace.run (key _).1 hrs] at h
  obtain ⟨S, hS⟩ : ∃ S, start d (pre ++ X) = (.ok (), S) := ⟨_, (start_good d _).1⟩
  obtain ⟨T, hT⟩ : ∃ T, start d (pre ++ Y) = (.ok (), T) := ⟨_, (start_good d _).1⟩
  rw [hS, hT] at h
  unfold parse
  rw [hS, hT]
  simp only at h ⊢
  revert h
  generalize run env (rs.length + f) S = x
  generalize run env (rs.length + f) T = y
  obtain ⟨x, s1⟩ := x
  obtain ⟨y, t1⟩ := y
  rintro ⟨h1, h2⟩
  have htop : topLevel s1 = topLevel t1 := by
    obtain ⟨_, i, l, e, _⟩ := h2
    simp only at e
    rw [e]
    rfl
  cases x <;> cases y <;> first
    | exact absurd h1 id
    | exact ⟨h1, h2⟩
    | exact ⟨htop, h2⟩

theorem flags_parse {K : Prop} {env : Env} {d : ParserData} (hrd : Ready d)
    (hnc : ∀ c : Command, c.Within d.command → Counter.requiresArgumentCount c.arguments = false) (hst : d.settings.optionStyle = .standard)
    (hK : K ∨ d.settings.ignoreUndefinedOptions = false) {p q : UInt8} {qs : Str} (hp : p ≠ c!"-") (hq : q ≠ c!"-") {pre : List Str} {rs : List IterResult} {s : PState}
    (ht : Trace env (start d pre).2 rs s) (hrs : ∀ x ∈ rs, ¬ x.IsLast) (hm : s.mode = .argumentsAndOptions) (hl : NothingLeft s.iter) {o : OptData}
    (hlook : lookup s [c!"-", p] = some o) (ho : ¬ NeedsValue o) (hty : o.type = .normal) (hk : K → FlagsKnown (lookup s) (q :: qs)) (post : List Str)
    (fuel : Nat) (hf : rs.length ≤ fuel) :
    SameEnd Eq (parse env d (pre ++ (c!"-" :: p :: q :: qs) :: post) fuel).1 (parse env d (pre ++ [c!"-", p] :: (c!"-" :: q :: qs) :: post) fuel).1 ∧
    Twin K d.settings (parse env d (pre ++ (c!"-" :: p :: q :: qs) :: post) fuel).2 (parse env d (pre ++ [c!"-", p] :: (c!"-" :: q :: qs) :: post) fuel).2 :=
  parse_more hrd hnc ht hrs (Or.inl hm) (fun hg f => flags_run hst hK hp hq hg hm hl hlook ho hty hk post f) fuel hf

end Parser
end Argos
