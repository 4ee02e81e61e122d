import Verif.Spec.Insert
import Verif.Proofs.Screen
import Verif.Proofs.Grammar

/-! # A longer command line, and arguments inserted by callbacks -/

namespace Argos
open Spec

/-! ### The iterators on a longer command line -/

/-- More arguments at the end of the command line. -/
def StdIt.more (it : StdIt) (p : List Str) : StdIt := ⟨it.args ++ p, it.pos⟩
/-- More arguments at the end of the command line. -/
def OptIt.more (it : OptIt) (p : List Str) : OptIt := ⟨it.args ++ p, it.pos, it.pfx⟩
/-- More arguments at the end of the command line. -/
def Iter.more : Iter → List Str → Iter
  | .std it, p => .std (it.more p)
  | .opt it, p => .opt (it.more p)

theorem StdIt.nextFresh_append (x : Str) (rest p : List Str) :
    StdIt.nextFresh (x :: rest ++ p) = ((StdIt.nextFresh (x :: rest)).1, (StdIt.nextFresh (x :: rest)).2.more p) := by
  simp only [StdIt.nextFresh, List.cons_append]
  split
  · split
    · rfl
    · split
      · rfl
      · split <;> rfl
  · rfl

theorem StdIt.nextFresh_more {args : List Str} {a : Str} {it : StdIt} (p : List Str) (h : StdIt.nextFresh args = (some a, it)) :
    StdIt.nextFresh (args ++ p) = (some a, it.more p) := by
  cases args with
  | nil => simp [StdIt.nextFresh] at h
  | cons x rest => rw [StdIt.nextFresh_append, h]

theorem OptIt.nextFresh_append (x : Str) (rest p : List Str) (c : UInt8) :
    OptIt.nextFresh (x :: rest ++ p) c = ((OptIt.nextFresh (x :: rest) c).1, (OptIt.nextFresh (x :: rest) c).2.more p) := by
  simp only [OptIt.nextFresh, List.cons_append]
  split
  · split
    · rfl
    · split <;> rfl
  · rfl

theorem OptIt.nextFresh_more {args : List Str} {x : UInt8} {a : Str} {it : OptIt} (p : List Str)
    (h : OptIt.nextFresh args x = (some a, it)) : OptIt.nextFresh (args ++ p) x = (some a, it.more p) := by
  cases args with
  | nil => simp [OptIt.nextFresh] at h
  | cons x rest => rw [OptIt.nextFresh_append, h]

theorem StdIt.next_more {it it' : StdIt} {a : Str} (p : List Str) (h : it.next = .ok (some a, it')) :
    (it.more p).next = .ok (some a, it'.more p) := by
  obtain ⟨args, pos⟩ := it
  unfold StdIt.next at h ⊢
  cases pos with
  | npos =>
    cases args with
    | nil => simp at h
    | cons x rest =>
      simp only [StdIt.more, List.cons_append, Outcome.ok.injEq] at h ⊢
      exact StdIt.nextFresh_more p h
  | «at» n =>
    cases n with
    | zero =>
      simp only [StdIt.more, Outcome.ok.injEq] at h ⊢
      exact StdIt.nextFresh_more p h
    | succ n =>
      cases args with
      | nil => simp at h
      | cons x rest =>
        simp only [StdIt.more, List.cons_append] at h ⊢
        split at h
        · split at h
          · simp at h
          · split at h
            · rename_i hc
              simp only [Outcome.ok.injEq, Prod.mk.injEq] at h
              obtain ⟨h1, rfl⟩ := h
              rw [if_pos hc, h1]
              rfl
            · rename_i hc
              rw [if_neg hc]
              simp only [Outcome.ok.injEq] at h ⊢
              exact StdIt.nextFresh_more p h
        · simp only [Outcome.ok.injEq] at h ⊢
          exact StdIt.nextFresh_more p h

theorem OptIt.next_more {it it' : OptIt} {a : Str} (p : List Str) (h : it.next = .ok (some a, it')) :
    (it.more p).next = .ok (some a, it'.more p) := by
  obtain ⟨args, pos, x⟩ := it
  unfold OptIt.next at h ⊢
  simp only [OptIt.more] at h ⊢
  split at h
  · rename_i hp
    refine (if_pos hp).trans ?_
    simp only [Outcome.ok.injEq] at h ⊢
    exact OptIt.nextFresh_more p h
  · rename_i hp
    refine (if_neg hp).trans ?_
    cases args with
    | nil => simp at h
    | cons y rest =>
      simp only [List.cons_append, Outcome.ok.injEq] at h ⊢
      exact OptIt.nextFresh_more p h

theorem StdIt.nextValue_more {it it' : StdIt} {a : Str} (p : List Str) (h : it.nextValue = .ok (some a, it')) :
    (it.more p).nextValue = .ok (some a, it'.more p) := by
  obtain ⟨args, pos⟩ := it
  unfold StdIt.nextValue at h ⊢
  cases args with
  | nil => simp at h
  | cons x rest =>
    cases pos with
    | npos =>
      cases rest with
      | nil => simp at h
      | cons y rest =>
        simp only [StdIt.more, List.cons_append, Outcome.ok.injEq, Prod.mk.injEq] at h ⊢
        obtain ⟨h1, rfl⟩ := h
        exact ⟨h1, rfl⟩
    | «at» n =>
      simp only [StdIt.more, List.cons_append] at h ⊢
      split at h
      · rename_i hn
        rw [if_pos hn]
        simp only [Outcome.ok.injEq, Prod.mk.injEq] at h ⊢
        obtain ⟨h1, rfl⟩ := h
        exact ⟨h1, rfl⟩
      · simp at h

theorem OptIt.nextValue_more {it it' : OptIt} {a : Str} (p : List Str) (h : it.nextValue = .ok (some a, it')) :
    (it.more p).nextValue = .ok (some a, it'.more p) := by
  obtain ⟨args, pos, pf⟩ := it
  unfold OptIt.nextValue at h ⊢
  cases args with
  | nil => simp at h
  | cons x rest =>
    cases pos with
    | npos =>
      cases rest with
      | nil => simp at h
      | cons y rest =>
        simp only [OptIt.more, List.cons_append, Outcome.ok.injEq, Prod.mk.injEq] at h ⊢
        obtain ⟨h1, rfl⟩ := h
        exact ⟨h1, rfl⟩
    | «at» n =>
      simp only [OptIt.more, List.cons_append] at h ⊢
      split at h
      · rename_i hn
        rw [if_pos hn]
        simp only [Outcome.ok.injEq, Prod.mk.injEq] at h ⊢
        obtain ⟨h1, rfl⟩ := h
        exact ⟨h1, rfl⟩
      · simp at h

theorem Iter.next_more {it it' : Iter} {a : Str} (p : List Str) (h : it.next = .ok (some a, it')) :
    (it.more p).next = .ok (some a, it'.more p) := by
  cases it with
  | std it =>
    obtain ⟨⟨b, i⟩, h1, h2⟩ := Outcome.bind_eq_ok.mp h
    simp only [pure, Outcome.ok.injEq, Prod.mk.injEq] at h2
    obtain ⟨rfl, rfl⟩ := h2
    exact Outcome.bind_eq_ok.mpr ⟨_, StdIt.next_more p h1, rfl⟩
  | opt it =>
    obtain ⟨⟨b, i⟩, h1, h2⟩ := Outcome.bind_eq_ok.mp h
    simp only [pure, Outcome.ok.injEq, Prod.mk.injEq] at h2
    obtain ⟨rfl, rfl⟩ := h2
    exact Outcome.bind_eq_ok.mpr ⟨_, OptIt.next_more p h1, rfl⟩

theorem Iter.nextValue_more {it it' : Iter} {a : Str} (p : List Str) (h : it.nextValue = .ok (some a, it')) :
    (it.more p).nextValue = .ok (some a, it'.more p) := by
  cases it with
  | std it =>
    obtain ⟨⟨b, i⟩, h1, h2⟩ := Outcome.bind_eq_ok.mp h
    simp only [pure, Outcome.ok.injEq, Prod.mk.injEq] at h2
    obtain ⟨rfl, rfl⟩ := h2
    exact Outcome.bind_eq_ok.mpr ⟨_, StdIt.nextValue_more p h1, rfl⟩
  | opt it =>
    obtain ⟨⟨b, i⟩, h1, h2⟩ := Outcome.bind_eq_ok.mp h
    simp only [pure, Outcome.ok.injEq, Prod.mk.injEq] at h2
    obtain ⟨rfl, rfl⟩ := h2
    exact Outcome.bind_eq_ok.mpr ⟨_, OptIt.nextValue_more p h1, rfl⟩

theorem Iter.current_more {it : Iter} {a : Str} (p : List Str) (h : it.current = .ok a) : (it.more p).current = .ok a := by
  cases it with
  | std it =>
    obtain ⟨args, pos⟩ := it
    cases args with
    | nil => simp [Iter.current, StdIt.current] at h
    | cons x rest => exact h
  | opt it =>
    obtain ⟨args, pos, pf⟩ := it
    cases args with
    | nil => simp [Iter.current, OptIt.current] at h
    | cons x rest => exact h

theorem StdIt.split_more {it it' : StdIt} (p : List Str) (h : it.splitConcatenatedFlags = .ok it') :
    (it.more p).splitConcatenatedFlags = .ok (it'.more p) := by
  obtain ⟨args, pos⟩ := it
  unfold StdIt.splitConcatenatedFlags at h ⊢
  cases pos with
  | npos =>
    cases args with
    | nil => simp at h
    | cons x rest =>
      simp only [Outcome.ok.injEq] at h
      subst h
      rfl
  | «at» n =>
    cases n with
    | zero =>
      simp only [Outcome.ok.injEq] at h
      subst h
      rfl
    | succ n =>
      cases args with
      | nil => simp at h
      | cons x rest =>
        simp only [StdIt.more, List.cons_append] at h ⊢
        split at h
        · rename_i hn
          simp only [Outcome.ok.injEq] at h
          subst h
          rw [if_pos hn]; rfl
        · rename_i hn
          rw [if_neg hn]
          split at h
          · simp at h
          · split at h
            · rename_i hc
              simp only [Outcome.ok.injEq] at h
              subst h
              rw [if_pos hc]; rfl
            · rename_i hc
              simp only [Outcome.ok.injEq] at h
              subst h
              rw [if_neg hc]; rfl

theorem StdIt.insert_more {it it' : StdIt} {new : List Str} (p : List Str) (h : it.insert new = .ok it') :
    (it.more p).insert new = .ok (it'.more p) := by
  obtain ⟨it1, h1, h2⟩ := Outcome.bind_eq_ok.mp h
  refine Outcome.bind_eq_ok.mpr ⟨_, StdIt.split_more p h1, ?_⟩
  obtain ⟨args, pos⟩ := it1
  simp only [StdIt.more] at h2 ⊢
  split at h2
  · rename_i hp
    refine (if_pos hp).trans ?_
    simp only [Outcome.ok.injEq] at h2
    subst h2
    simp
  · rename_i hp
    refine (if_neg hp).trans ?_
    cases args with
    | nil => simp at h2
    | cons x rest =>
      simp only [Outcome.ok.injEq] at h2
      subst h2
      simp

theorem OptIt.insert_more {it it' : OptIt} {new : List Str} (p : List Str) (h : it.insert new = .ok it') :
    (it.more p).insert new = .ok (it'.more p) := by
  obtain ⟨args, pos, pf⟩ := it
  unfold OptIt.insert at h ⊢
  simp only [OptIt.more] at h ⊢
  split at h
  · rename_i hp
    refine (if_pos hp).trans ?_
    simp only [Outcome.ok.injEq] at h
    subst h
    simp
  · rename_i hp
    refine (if_neg hp).trans ?_
    cases args with
    | nil => simp at h
    | cons x rest =>
      simp only [Outcome.ok.injEq] at h
      subst h
      simp

theorem Iter.insert_more {it it' : Iter} {new : List Str} (p : List Str) (h : it.insert new = .ok it') :
    (it.more p).insert new = .ok (it'.more p) := by
  cases it with
  | std it =>
    obtain ⟨i, h1, h2⟩ := Outcome.bind_eq_ok.mp h
    simp only [pure, Outcome.ok.injEq] at h2
    subst h2
    exact Outcome.bind_eq_ok.mpr ⟨_, StdIt.insert_more p h1, rfl⟩
  | opt it =>
    obtain ⟨i, h1, h2⟩ := Outcome.bind_eq_ok.mp h
    simp only [pure, Outcome.ok.injEq] at h2
    subst h2
    exact Outcome.bind_eq_ok.mpr ⟨_, OptIt.insert_more p h1, rfl⟩

/-- The iterators when everything has been read. -/
theorem StdIt.nothing {it : StdIt} {it' : StdIt} (h : it.remainingArguments = .ok ([], it')) :
    it.splitConcatenatedFlags = .ok it ∧ ((it.args = [] ∧ it.pos = .at 0) ∨ (∃ a, it.args = [a] ∧ it.pos ≠ .at 0)) := by
  obtain ⟨it1, h1, h2⟩ := Outcome.bind_eq_ok.mp h
  obtain ⟨args, pos⟩ := it
  unfold StdIt.splitConcatenatedFlags at h1 ⊢
  cases pos with
  | npos =>
    cases args with
    | nil => simp at h1
    | cons x rest =>
      simp only [Outcome.ok.injEq] at h1
      subst h1
      simp only [reduceCtorEq, if_false, Outcome.ok.injEq, Prod.mk.injEq] at h2
      obtain ⟨rfl, _⟩ := h2
      simp
  | «at» n =>
    cases n with
    | zero =>
      simp only [Outcome.ok.injEq] at h1
      subst h1
      simp only [if_true, Outcome.ok.injEq, Prod.mk.injEq] at h2
      obtain ⟨rfl, _⟩ := h2
      simp
    | succ n =>
      cases args with
      | nil => simp at h1
      | cons x rest =>
        simp only at h1 ⊢
        split at h1
        · rename_i hn
          simp only [Outcome.ok.injEq] at h1
          subst h1
          simp only [Pos.at.injEq, Nat.succ_ne_zero, if_false, Outcome.ok.injEq, Prod.mk.injEq] at h2
          obtain ⟨rfl, _⟩ := h2
          rw [if_pos hn]
          simp
        · rename_i hn
          rw [if_neg hn]
          split at h1
          · simp at h1
          · split at h1
            · rename_i hc
              simp only [Outcome.ok.injEq] at h1
              subst h1
              simp only [Pos.at.injEq, Nat.succ_ne_zero, if_false, Outcome.ok.injEq, Prod.mk.injEq] at h2
              obtain ⟨rfl, _⟩ := h2
              simp [hc]
            · simp only [Outcome.ok.injEq] at h1
              subst h1
              simp at h2

theorem OptIt.nothing {it : OptIt} {it' : OptIt} (h : it.remainingArguments = .ok ([], it')) :
    (it.args = [] ∧ it.pos = .at 0) ∨ (∃ a, it.args = [a] ∧ it.pos ≠ .at 0) := by
  obtain ⟨args, pos, pf⟩ := it
  unfold OptIt.remainingArguments at h
  simp only at h ⊢
  split at h
  · rename_i hp
    simp only [Outcome.ok.injEq, Prod.mk.injEq] at h
    exact Or.inl ⟨h.1, hp⟩
  · rename_i hp
    cases args with
    | nil => simp at h
    | cons x rest =>
      simp only [Outcome.ok.injEq, Prod.mk.injEq] at h
      exact Or.inr ⟨x, by rw [h.1], hp⟩

/-- Insertion when everything has been read puts the arguments in front of those that come after. -/
theorem Iter.insert_nothing {it : Iter} (h : NothingLeft it) (new post : List Str) :
    (it.more post).insert new = .ok (it.more (new ++ post)) := by
  obtain ⟨it', h⟩ := h
  cases it with
  | std it =>
    obtain ⟨⟨b, i⟩, h1, h2⟩ := Outcome.bind_eq_ok.mp h
    simp only [pure, Outcome.ok.injEq, Prod.mk.injEq] at h2
    obtain ⟨rfl, _⟩ := h2
    obtain ⟨h3, h4⟩ := StdIt.nothing h1
    refine Outcome.bind_eq_ok.mpr ⟨it.more (new ++ post), ?_, rfl⟩
    refine Outcome.bind_eq_ok.mpr ⟨_, StdIt.split_more post h3, ?_⟩
    obtain ⟨args, pos⟩ := it
    rcases h4 with ⟨h4, h5⟩ | ⟨a, h4, h5⟩ <;> simp only at h4 h5 <;> subst h4
    · subst h5; rfl
    · simp [StdIt.more, h5]
  | opt it =>
    obtain ⟨⟨b, i⟩, h1, h2⟩ := Outcome.bind_eq_ok.mp h
    simp only [pure, Outcome.ok.injEq, Prod.mk.injEq] at h2
    obtain ⟨rfl, _⟩ := h2
    have h4 := OptIt.nothing h1
    refine Outcome.bind_eq_ok.mpr ⟨it.more (new ++ post), ?_, rfl⟩
    obtain ⟨args, pos, pf⟩ := it
    rcases h4 with ⟨h4, h5⟩ | ⟨a, h4, h5⟩ <;> simp only at h4 h5 <;> subst h4
    · subst h5; rfl
    · simp [OptIt.more, OptIt.insert, h5]

/-- After an insertion something is left. -/
theorem Iter.insert_left {it it' : Iter} {new : List Str} (h : it.insert new = .ok it') (hl : NothingLeft it') : new = [] := by
  obtain ⟨it2, hl⟩ := hl
  cases it with
  | std it =>
    obtain ⟨i, h1, h2⟩ := Outcome.bind_eq_ok.mp h
    simp only [pure, Outcome.ok.injEq] at h2
    subst h2
    obtain ⟨⟨b, j⟩, g1, g2⟩ := Outcome.bind_eq_ok.mp hl
    simp only [pure, Outcome.ok.injEq, Prod.mk.injEq] at g2
    obtain ⟨rfl, _⟩ := g2
    obtain ⟨_, h4⟩ := StdIt.nothing g1
    obtain ⟨i1, h5, h6⟩ := Outcome.bind_eq_ok.mp h1
    split at h6
    · rename_i hp
      simp only [Outcome.ok.injEq] at h6
      subst h6
      rcases h4 with ⟨h4, _⟩ | ⟨a, _, h4⟩
      · simp at h4; exact h4.1
      · exact absurd hp h4
    · rename_i hp
      split at h6
      · simp at h6
      · simp only [Outcome.ok.injEq] at h6
        subst h6
        rcases h4 with ⟨h4, _⟩ | ⟨a, h4, _⟩
        · simp at h4
        · simp at h4; exact h4.2.1
  | opt it =>
    obtain ⟨i, h1, h2⟩ := Outcome.bind_eq_ok.mp h
    simp only [pure, Outcome.ok.injEq] at h2
    subst h2
    obtain ⟨⟨b, j⟩, g1, g2⟩ := Outcome.bind_eq_ok.mp hl
    simp only [pure, Outcome.ok.injEq, Prod.mk.injEq] at g2
    obtain ⟨rfl, _⟩ := g2
    have h4 := OptIt.nothing g1
    unfold OptIt.insert at h1
    split at h1
    · rename_i hp
      simp only [Outcome.ok.injEq] at h1
      subst h1
      rcases h4 with ⟨h4, _⟩ | ⟨a, _, h4⟩
      · simp at h4; exact h4.1
      · exact absurd hp h4
    · rename_i hp
      split at h1
      · simp at h1
      · simp only [Outcome.ok.injEq] at h1
        subst h1
        rcases h4 with ⟨h4, _⟩ | ⟨a, h4, _⟩
        · simp at h4
        · simp at h4; exact h4.2.1

/-! ### The parser on a longer command line -/

/-- More arguments at the end of the command line. -/
def PState.more (s : PState) (p : List Str) : PState := { s with iter := s.iter.more p }

/-- The environments differ in that the callback called after `k` calls also inserts `new`. -/
structure Differs (env env' : Env) (k : Nat) (new : List Str) : Prop where
  other : ∀ cb j v x n, j ≠ k → env'.callback cb j v x n = env.callback cb j v x n
  here : ∀ cb v x n, env'.callback cb k v x n =
    { env.callback cb k v x n with newArguments := (env.callback cb k v x n).newArguments ++ new }

theorem Env.inserting_differs (env : Env) (k : Nat) (new : List Str) : Differs env (env.inserting k new) k new := by
  constructor
  · intro cb j v x n h
    simp only [Env.inserting, if_neg h]
  · intro cb v x n
    simp only [Env.inserting, if_true]

theorem Differs.refl (env : Env) (k : Nat) : Differs env env k [] := by
  constructor
  · intros; rfl
  · intros; simp

/-- The state with `post` still to come; the inserted arguments are in front of it once the callback has been called. -/
def PState.full (k : Nat) (new post : List Str) (s : PState) : PState := s.more (if s.calls ≤ k then post else new ++ post)

/-- Once the callback has been called, everything has been read. -/
def Settled (k : Nat) (s : PState) : Prop := k < s.calls → NothingLeft s.iter

namespace Parser
open ParserM

theorem bind_inv {α β : Type} {m : ParserM α} {f : α → ParserM β} {s s' : PState} {b : β}
    (h : (m >>= f) s = (.ok b, s')) : ∃ a s1, m s = (.ok a, s1) ∧ f a s1 = (.ok b, s') := by
  rw [bind_apply] at h
  rcases hm : m s with ⟨o, s1⟩
  rw [hm] at h
  cases o with
  | ok a => exact ⟨a, s1, rfl, h⟩
  | _ => simp at h

/-- What the methods between two readings of the command line keep. -/
structure Same (s s' : PState) : Prop where
  settings : s'.settings = s.settings
  command : s'.command = s.command

theorem modifyBack_inv {f : PNode → PNode} {s s' : PState} {u : Unit} (h : modifyBack f s = (.ok u, s')) :
    s' = { s with stack := headMap f s.stack } ∧ s.stack ≠ [] := by
  unfold modifyBack at h
  cases hs : s.stack with
  | nil => rw [hs] at h; simp at h
  | cons n ns =>
    rw [hs] at h
    simp only [Prod.mk.injEq, true_and] at h
    exact ⟨h.symm, by simp⟩

theorem back_inv {s s' : PState} {n : PNode} (h : back s = (.ok n, s')) : s' = s ∧ ∃ ns, s.stack = n :: ns := by
  unfold back at h
  cases hs : s.stack with
  | nil => rw [hs] at h; simp at h
  | cons m ns =>
    rw [hs] at h
    simp only [Prod.mk.injEq, Outcome.ok.injEq] at h
    exact ⟨h.2.symm, ns, by rw [h.1]⟩

theorem applyOps_more (p : List Str) (vid : Nat) (ops : List BuilderOp) : ∀ {t b : Bool} {s s' : PState},
    applyOps vid ops t s = (.ok b, s') →
    applyOps vid ops t (s.more p) = (.ok b, s'.more p) ∧ s'.iter = s.iter ∧ s'.calls = s.calls ∧ Same s s' := by
  induction ops with
  | nil =>
    intro t b s s' h
    simp only [applyOps, pure_apply, Prod.mk.injEq, Outcome.ok.injEq] at h ⊢
    obtain ⟨rfl, rfl⟩ := h
    exact ⟨⟨rfl, rfl⟩, rfl, rfl, ⟨rfl, rfl⟩⟩
  | cons op ops ih =>
    intro t b s s' h
    unfold applyOps at h ⊢
    cases hs : s.stack with
    | nil => rw [hs] at h; simp at h
    | cons n ns =>
      have hs' : (s.more p).stack = n :: ns := hs
      rw [hs] at h
      rw [hs']
      simp only at h ⊢
      cases ho : op.apply n with
      | ok q =>
        obtain ⟨n', t'⟩ := q
        rw [ho] at h
        obtain ⟨h1, h2, h3, h4⟩ := ih h
        exact ⟨h1, h2, h3, ⟨h4.settings, h4.command⟩⟩
      | _ => rw [ho] at h; simp at h

theorem updateArguments_more (p new : List Str) {s s' : PState} {u : Unit}
    (hc : Counter.requiresArgumentCount s.command.arguments = false) (h : updateArguments new s = (.ok u, s')) :
    updateArguments new (s.more p) = (.ok u, s'.more p) ∧ s'.calls = s.calls ∧ Same s s' ∧
      (NothingLeft s'.iter → new = [] ∧ s' = s) := by
  unfold updateArguments at h ⊢
  split at h
  · rename_i hn
    rw [if_pos hn]
    simp only [pure_apply, Prod.mk.injEq, true_and] at h ⊢
    subst h
    exact ⟨rfl, rfl, ⟨rfl, rfl⟩, fun _ => ⟨by simpa using hn, rfl⟩⟩
  · rename_i hn
    rw [if_neg hn]
    obtain ⟨_, s1, h1, h2⟩ := bind_inv h
    unfold iterInsert at h1
    cases hi : s.iter.insert new with
    | ok it =>
      rw [hi] at h1
      simp only [Prod.mk.injEq, true_and] at h1
      subst h1
      rw [get_bind] at h2
      have hc' : (!Counter.requiresArgumentCount ({ s with iter := it } : PState).command.arguments) = true := by
        show (!Counter.requiresArgumentCount s.command.arguments) = true
        rw [hc]; rfl
      rw [if_pos hc'] at h2
      simp only [pure_apply, Prod.mk.injEq, true_and] at h2
      subst h2
      refine ⟨?_, rfl, ⟨rfl, rfl⟩, fun hl => absurd (Iter.insert_left hi hl) (by simpa using hn)⟩
      have e : iterInsert new (s.more p) = (.ok (), PState.more { s with iter := it } p) := by
        unfold iterInsert
        show (match (s.iter.more p).insert new with | .ok it => _ | .throw m => _ | .outOfRange => _ | .exit c => _ | .ub => _ | .diverges => _) = _
        rw [Iter.insert_more p hi]
        rfl
      rw [bind_ok e, get_bind]
      exact congrFun (if_pos hc') _
    | _ => rw [hi] at h1; simp at h1

/-- A callback. -/
theorem runCallback_full {env env' : Env} {k : Nat} {new : List Str} (hd : Differs env env' k new) (post : List Str) {cb : Nat}
    {view : ViewRef} {vid : Nat} {stored : Bool} {value v : Option Str} {s s' : PState}
    (hc : Counter.requiresArgumentCount s.command.arguments = false)
    (h : runCallback env cb view vid stored value s = (.ok v, s')) (hl : Settled k s') :
    runCallback env' cb view vid stored value (s.full k new post) = (.ok v, s'.full k new post) ∧ s.calls ≤ s'.calls ∧
      Same s s' ∧ Settled k s := by
  unfold runCallback at h
  obtain ⟨n, s1, h1, h'⟩ := bind_inv h
  clear h
  obtain ⟨rfl, ns, hs⟩ := back_inv h1
  have h := h'
  clear h'
  rw [get_bind, modify_bind] at h
  obtain ⟨touched, s2, h2, h⟩ := bind_inv h
  cases hf : (env.callback cb s1.calls view value n).fin with
  | throws m => rw [hf] at h; simp [lift_apply] at h
  | error m =>
    rw [hf] at h
    simp only at h
    obtain ⟨_, s3, h3, _⟩ := bind_inv h
    unfold builderError at h3
    obtain ⟨_, s4, _, h3⟩ := bind_inv h3
    obtain ⟨_, s5, _, h3⟩ := bind_inv h3
    rw [get_bind] at h3
    split at h3 <;> simp [lift_apply] at h3
  | returns =>
    rw [hf] at h
    simp only at h
    obtain ⟨_, s3, h3, h4⟩ := bind_inv h
    simp only [pure_apply, Prod.mk.injEq, Outcome.ok.injEq] at h4
    obtain ⟨hv, rfl⟩ := h4
    have o := fun p => applyOps_more p vid _ h2
    obtain ⟨_, o2, o3, o4⟩ := o []
    simp only at o2 o3 o4
    have hc2 : Counter.requiresArgumentCount s2.command.arguments = false := by rw [o4.command]; exact hc
    have w := fun p => updateArguments_more p _ hc2 h3
    obtain ⟨_, w2, w3, w4⟩ := w []
    have hcalls : s3.calls = s1.calls + 1 := by rw [w2, o3]
    refine ⟨?_, by omega, ⟨w3.settings.trans o4.settings, w3.command.trans o4.command⟩, ?_⟩
    · unfold runCallback
      have hb : back (s1.full k new post) = (.ok n, s1.full k new post) := back_run (s := s1.full k new post) hs
      rw [bind_ok hb, get_bind, modify_bind]
      -- the arguments on the command line before the callback
      generalize hp : (if s1.calls ≤ k then post else new ++ post) = p
      have e1 : s1.full k new post = s1.more p := by unfold PState.full; rw [hp]
      rw [e1]
      have ec : (s1.more p).calls = s1.calls := rfl
      rw [ec]
      have o1 := (o p).1
      by_cases hk : s1.calls = k
      · rw [hk] at hf h2 o1 h3 w ⊢
        rw [hd.here]
        simp only [hf]
        refine (bind_ok o1).trans ?_
        have hl3 := hl (by omega)
        obtain ⟨hm, hs3⟩ := w4 hl3
        rw [hk] at hm
        rw [hm]
        simp only [List.nil_append]
        have hp' : p = post := by rw [← hp, if_pos (by omega)]
        have e3 : s3.full k new post = s3.more (new ++ post) := by unfold PState.full; rw [if_neg (by omega)]
        rw [e3, hp', hs3]
        have hl2 : NothingLeft s2.iter := by rw [← hs3]; exact hl3
        have hu : updateArguments new (s2.more post) = (.ok (), s2.more (new ++ post)) := by
          unfold updateArguments
          split
          · rename_i hn
            have : new = [] := by simpa using hn
            rw [this]; rfl
          · have e : iterInsert new (s2.more post) = (.ok (), s2.more (new ++ post)) := by
              unfold iterInsert
              show (match (s2.iter.more post).insert new with | .ok it => _ | .throw m => _ | .outOfRange => _ | .exit c => _ | .ub => _ | .diverges => _) = _
              rw [Iter.insert_nothing hl2 new post]
              rfl
            rw [bind_ok e, get_bind]
            exact congrFun (if_pos (by show (!Counter.requiresArgumentCount s2.command.arguments) = true; rw [hc2]; rfl)) _
        rw [bind_ok hu, hv]
        rfl
      · rw [hd.other _ _ _ _ _ hk]
        simp only [hf]
        refine (bind_ok o1).trans ?_
        rw [bind_ok (w p).1, hv]
        have e3 : s3.full k new post = s3.more p := by
          unfold PState.full
          rw [← hp]
          congr 1
          by_cases hk' : s1.calls ≤ k
          · rw [if_pos hk', if_pos (by omega)]
          · rw [if_neg hk', if_neg (by omega)]
        rw [e3]
        rfl
    · intro hk
      have hl3 := hl (by omega)
      obtain ⟨_, hs3⟩ := w4 hl3
      rw [hs3, o2] at hl3
      exact hl3

theorem runCallbackOpt_full {env env' : Env} {k : Nat} {new : List Str} (hd : Differs env env' k new) (post : List Str)
    {cb : Option Nat} {view : ViewRef} {vid : Nat} {stored : Bool} {value v : Option Str} {s s' : PState}
    (hc : Counter.requiresArgumentCount s.command.arguments = false)
    (h : runCallbackOpt env cb view vid stored value s = (.ok v, s')) (hl : Settled k s') :
    runCallbackOpt env' cb view vid stored value (s.full k new post) = (.ok v, s'.full k new post) ∧ s.calls ≤ s'.calls ∧
      Same s s' ∧ Settled k s := by
  cases cb with
  | none =>
    simp only [runCallbackOpt, pure_apply, Prod.mk.injEq, Outcome.ok.injEq] at h
    obtain ⟨rfl, rfl⟩ := h
    exact ⟨rfl, Nat.le_refl _, ⟨rfl, rfl⟩, hl⟩
  | some cb => exact runCallback_full hd post hc h hl

theorem calls_full {env env' : Env} {k : Nat} {new : List Str} (hd : Differs env env' k new) (post : List Str)
    {cb : Option Nat} {sel : ParserSettings → Option Nat} {view : ViewRef} {vid : Nat} {stored : Bool} {value v : Option Str} {s s' : PState}
    (hc : Counter.requiresArgumentCount s.command.arguments = false)
    (h : calls env cb sel view vid stored value s = (.ok v, s')) (hl : Settled k s') :
    calls env' cb sel view vid stored value (s.full k new post) = (.ok v, s'.full k new post) ∧ s.calls ≤ s'.calls ∧
      Same s s' ∧ Settled k s := by
  unfold calls at h ⊢
  obtain ⟨v1, s1, h1, h⟩ := bind_inv h
  rw [get_bind] at h
  -- the second one first: it tells that everything has been read
  have hsame : Same s s1 := by
    cases cb with
    | none =>
      simp only [runCallbackOpt, pure_apply, Prod.mk.injEq, Outcome.ok.injEq] at h1
      obtain ⟨_, rfl⟩ := h1
      exact ⟨rfl, rfl⟩
    | some cb =>
      have := runCallback_full (Differs.refl env s1.calls) [] hc h1 (fun hh => absurd hh (by omega))
      exact this.2.2.1
  obtain ⟨b1, b2, b3, b4⟩ := runCallbackOpt_full hd post (by rw [hsame.command]; exact hc) h hl
  obtain ⟨a1, a2, _, a4⟩ := runCallbackOpt_full hd post hc h1 b4
  rw [bind_ok a1, get_bind]
  exact ⟨b1, Nat.le_trans a2 b2, ⟨b3.settings.trans hsame.settings, b3.command.trans hsame.command⟩, a4⟩

theorem modifyBack_more (p : List Str) {f : PNode → PNode} {s s' : PState} {u : Unit} (h : modifyBack f s = (.ok u, s')) :
    modifyBack f (s.more p) = (.ok u, s'.more p) := by
  obtain ⟨rfl, hne⟩ := modifyBack_inv h
  exact modifyBack_run f (s.more p) hne

theorem iterNext_inv {s s' : PState} {a : Option Str} (h : iterNext s = (.ok a, s')) :
    ∃ it, s.iter.next = .ok (a, it) ∧ s' = { s with iter := it } := by
  unfold iterNext at h
  cases hi : s.iter.next with
  | ok q =>
    obtain ⟨b, it⟩ := q
    rw [hi] at h
    simp only [Prod.mk.injEq, Outcome.ok.injEq] at h
    exact ⟨it, by rw [h.1], h.2.symm⟩
  | _ => rw [hi] at h; simp at h

theorem iterNextValue_inv {s s' : PState} {a : Option Str} (h : iterNextValue s = (.ok a, s')) :
    ∃ it, s.iter.nextValue = .ok (a, it) ∧ s' = { s with iter := it } := by
  unfold iterNextValue at h
  cases hi : s.iter.nextValue with
  | ok q =>
    obtain ⟨b, it⟩ := q
    rw [hi] at h
    simp only [Prod.mk.injEq, Outcome.ok.injEq] at h
    exact ⟨it, by rw [h.1], h.2.symm⟩
  | _ => rw [hi] at h; simp at h

theorem iterNext_more (p : List Str) {s s' : PState} {a : Str} (h : iterNext s = (.ok (some a), s')) :
    iterNext (s.more p) = (.ok (some a), s'.more p) := by
  obtain ⟨it, h1, rfl⟩ := iterNext_inv h
  exact iterNext_run (s := s.more p) (Iter.next_more p h1)

theorem iterNextValue_more (p : List Str) {s s' : PState} {a : Str} (h : iterNextValue s = (.ok (some a), s')) :
    iterNextValue (s.more p) = (.ok (some a), s'.more p) := by
  obtain ⟨it, h1, rfl⟩ := iterNextValue_inv h
  exact iterNextValue_run (s := s.more p) (Iter.nextValue_more p h1)

theorem applyOperation_more (p : List Str) {o : OptData} {flag : Str} {s s' : PState} {q : Str × Bool}
    (h : applyOperation o flag s = (.ok (some q), s')) :
    applyOperation o flag (s.more p) = (.ok (some q), s'.more p) ∧ s'.calls = s.calls ∧ Same s s' := by
  have plain : ∀ (f : PNode → PNode), (modifyBack f >>= fun _ => (pure (some ([], false)) : ParserM (Option (Str × Bool)))) s = (.ok (some q), s') →
      (modifyBack f >>= fun _ => (pure (some ([], false)) : ParserM (Option (Str × Bool)))) (s.more p) = (.ok (some q), s'.more p) ∧
      s'.calls = s.calls ∧ Same s s' := by
    intro f hf
    obtain ⟨_, s1, h1, h2⟩ := bind_inv hf
    rw [bind_ok (modifyBack_more p h1)]
    simp only [pure_apply, Prod.mk.injEq] at h2 ⊢
    obtain ⟨h2, rfl⟩ := h2
    obtain ⟨rfl, _⟩ := modifyBack_inv h1
    exact ⟨⟨h2, rfl⟩, rfl, ⟨rfl, rfl⟩⟩
  have valued : ∀ (g : Str → PNode → PNode), (iterNextValue >>= fun x => match x with
        | some v => modifyBack (g v) >>= fun _ => (pure (some (v, true)) : ParserM (Option (Str × Bool)))
        | none => error (flag ++ b!": no value given.") >>= fun _ => pure none) s = (.ok (some q), s') →
      (iterNextValue >>= fun x => match x with
        | some v => modifyBack (g v) >>= fun _ => (pure (some (v, true)) : ParserM (Option (Str × Bool)))
        | none => error (flag ++ b!": no value given.") >>= fun _ => pure none) (s.more p) = (.ok (some q), s'.more p) ∧
      s'.calls = s.calls ∧ Same s s' := by
    intro g hf
    obtain ⟨x, s1, h1, h2⟩ := bind_inv hf
    cases x with
    | none =>
      obtain ⟨_, s2, _, h3⟩ := bind_inv h2
      simp [pure_apply] at h3
    | some v =>
      rw [bind_ok (iterNextValue_more p h1)]
      obtain ⟨it, _, rfl⟩ := iterNextValue_inv h1
      obtain ⟨_, s2, h3, h4⟩ := bind_inv h2
      simp only
      rw [bind_ok (modifyBack_more p h3)]
      simp only [pure_apply, Prod.mk.injEq] at h4 ⊢
      obtain ⟨h4, rfl⟩ := h4
      obtain ⟨rfl, _⟩ := modifyBack_inv h3
      exact ⟨⟨h4, rfl⟩, rfl, ⟨rfl, rfl⟩⟩
  unfold applyOperation at h ⊢
  cases ho : o.operation with
  | none =>
    rw [ho] at h
    simp only [pure_apply, Prod.mk.injEq] at h ⊢
    obtain ⟨h, rfl⟩ := h
    exact ⟨⟨h, rfl⟩, rfl, ⟨rfl, rfl⟩⟩
  | clear => rw [ho] at h; exact plain _ h
  | assign =>
    rw [ho] at h
    simp only at h ⊢
    split at h
    · rename_i hc; rw [if_pos hc]; exact plain _ h
    · rename_i hc; rw [if_neg hc]; exact valued _ h
  | append =>
    rw [ho] at h
    simp only at h ⊢
    split at h
    · rename_i hc; rw [if_pos hc]; exact plain _ h
    · rename_i hc; rw [if_neg hc]; exact valued _ h

theorem hasAllMandatory_true (vs : Values) (os : List OptData) {s s' : PState} (h : hasAllMandatory vs os s = (.ok true, s')) :
    s' = s ∧ ∀ t : PState, hasAllMandatory vs os t = (.ok true, t) := by
  induction os with
  | nil =>
    simp only [hasAllMandatory, pure_apply, Prod.mk.injEq, true_and] at h ⊢
    exact ⟨h.symm, fun _ => trivial⟩
  | cons o os ih =>
    unfold hasAllMandatory at h ⊢
    split at h
    · split at h
      · simp [lift_apply] at h
      · obtain ⟨_, s1, _, h2⟩ := bind_inv h
        simp [pure_apply] at h2
    · rename_i hc
      simp only [if_neg hc]
      exact ih h

theorem checkCounts_more (p : List Str) {s s' : PState} (h : checkCounts s = (.ok true, s')) :
    checkCounts (s.more p) = (.ok true, s'.more p) ∧ s' = succState s ∧ s.stack ≠ [] := by
  unfold checkCounts at h ⊢
  obtain ⟨n, s1, h1, h2⟩ := bind_inv h
  clear h
  obtain ⟨rfl, ns, hs⟩ := back_inv h1
  rw [get_bind] at h2
  obtain ⟨ok, s2, h3, h4⟩ := bind_inv h2
  cases ok with
  | false => simp [pure_apply] at h4
  | true =>
    obtain ⟨rfl, hm⟩ := hasAllMandatory_true _ _ h3
    have hb : back (s2.more p) = (.ok n, s2.more p) := back_run (s := s2.more p) hs
    have hm' : hasAllMandatory n.values (s2.more p).command.options (s2.more p) = (.ok true, s2.more p) := hm _
    rw [bind_ok hb, get_bind, bind_ok hm']
    simp only [Bool.not_true, Bool.false_eq_true, if_false] at h4 ⊢
    show (match s2.command.requireSubcommand with | none => _ | some req => _ : ParserM Bool) _ = _ ∧ _
    cases hr : s2.command.requireSubcommand with
    | none => rw [hr] at h4; simp [lift_apply] at h4
    | some req =>
      rw [hr] at h4
      simp only at h4 ⊢
      split at h4
      · obtain ⟨_, s3, _, h5⟩ := bind_inv h4
        simp [pure_apply] at h5
      · rename_i hq
        rw [if_neg hq]
        split at h4
        · rename_i hi
          have hi' : (s2.more p).counter.isComplete = true := hi
          rw [if_pos hi', modify_bind]
          rw [modify_bind] at h4
          simp only [pure_apply, Prod.mk.injEq, true_and] at h4 ⊢
          subst h4
          exact ⟨rfl, rfl, by rw [hs]; simp⟩
        · obtain ⟨_, s3, _, h5⟩ := bind_inv h4
          simp [pure_apply] at h5

/-- What `applyType` does to a state. -/
theorem applyType_more (p : List Str) {o : OptData} {s s' : PState} {r : OptionResult} (h : applyType o s = (.ok r, s')) :
    applyType o (s.more p) = (.ok r, s'.more p) ∧ s'.calls = s.calls ∧ s'.iter = s.iter ∧
      (r = .exit ∨ r = .stop → s'.mode = .done) ∧ r ≠ .error := by
  unfold applyType at h ⊢
  cases ho : o.type <;> rw [ho] at h <;> simp only at h ⊢
  case normal =>
    simp only [pure_apply, Prod.mk.injEq, Outcome.ok.injEq] at h ⊢
    obtain ⟨rfl, rfl⟩ := h
    simp
  case help =>
    rw [get_bind] at h
    obtain ⟨_, s1, h1, h3⟩ := bind_inv h
    clear h
    rw [modify_bind] at h3
    simp only [emit, modify_apply, Prod.mk.injEq, true_and] at h1
    subst h1
    obtain ⟨_, s2, h2, h⟩ := bind_inv h3
    clear h3
    simp only [pure_apply, Prod.mk.injEq, Outcome.ok.injEq] at h
    obtain ⟨rfl, rfl⟩ := h
    have e := modifyBack_more p h2
    obtain ⟨rfl, _⟩ := modifyBack_inv h2
    refine ⟨?_, rfl, rfl, fun _ => rfl, by simp⟩
    rw [get_bind, bind_apply]
    simp only [emit, modify_apply]
    rw [modify_bind]
    exact bind_ok e
  case «exit» =>
    rw [modify_bind] at h
    obtain ⟨_, s2, h2, h⟩ := bind_inv h
    simp only [pure_apply, Prod.mk.injEq, Outcome.ok.injEq] at h
    obtain ⟨rfl, rfl⟩ := h
    have e := modifyBack_more p h2
    obtain ⟨rfl, _⟩ := modifyBack_inv h2
    refine ⟨?_, rfl, rfl, fun _ => rfl, by simp⟩
    rw [modify_bind]
    exact bind_ok e
  case stop =>
    rw [modify_bind] at h
    obtain ⟨_, s2, h2, h⟩ := bind_inv h
    simp only [pure_apply, Prod.mk.injEq, Outcome.ok.injEq] at h
    obtain ⟨rfl, rfl⟩ := h
    have e := modifyBack_more p h2
    obtain ⟨rfl, _⟩ := modifyBack_inv h2
    refine ⟨?_, rfl, rfl, fun _ => rfl, by simp⟩
    rw [modify_bind]
    exact bind_ok e
  case lastArgument =>
    rw [modify_bind] at h ⊢
    simp only [pure_apply, Prod.mk.injEq, Outcome.ok.injEq] at h ⊢
    obtain ⟨rfl, rfl⟩ := h
    exact ⟨⟨rfl, rfl⟩, rfl, rfl, by simp, by simp⟩
  case lastOption =>
    rw [modify_bind] at h ⊢
    simp only [pure_apply, Prod.mk.injEq, Outcome.ok.injEq] at h ⊢
    obtain ⟨rfl, rfl⟩ := h
    exact ⟨⟨rfl, rfl⟩, rfl, rfl, by simp, by simp⟩

theorem copyRemaining_mode {s s' : PState} {u : Unit} (h : copyRemaining s = (.ok u, s')) : s'.mode = s.mode := by
  unfold copyRemaining at h
  obtain ⟨rest, s1, h1, h2⟩ := bind_inv h
  obtain ⟨rfl, _⟩ := modifyBack_inv h2
  unfold iterRemaining at h1
  cases hi : s.iter.remainingArguments with
  | ok q =>
    obtain ⟨b, it⟩ := q
    rw [hi] at h1
    simp only [Prod.mk.injEq, Outcome.ok.injEq] at h1
    obtain ⟨_, rfl⟩ := h1
    rfl
  | _ => rw [hi] at h1; simp at h1

theorem reactivate_inv {size : Nat} {s s' : PState} {u : Unit} (h : reactivate size s = (.ok u, s')) :
    s' = reactState size s ∧ s.stack ≠ [] := by
  have hne : s.stack ≠ [] := by
    intro hs
    unfold reactivate at h
    rw [hs] at h
    generalize ([] : List PNode).length - size = m at h
    cases m <;> simp [closeFrames] at h
  rw [reactivate_run size s hne] at h
  simp only [Prod.mk.injEq, true_and] at h
  exact ⟨h.symm, hne⟩

theorem reactivate_more (p : List Str) {size : Nat} {s s' : PState} {u : Unit} (h : reactivate size s = (.ok u, s')) :
    reactivate size (s.more p) = (.ok u, s'.more p) := by
  obtain ⟨rfl, hne⟩ := reactivate_inv h
  exact reactivate_run size (s.more p) hne

theorem full_same (k : Nat) (new post : List Str) {s s' : PState} (h : s'.calls = s.calls) :
    s'.full k new post = s'.more (if s.calls ≤ k then post else new ++ post) := by
  unfold PState.full; rw [h]

theorem settled_same {k : Nat} {s s' : PState} (hc : s'.calls = s.calls) (hi : s'.iter = s.iter) (h : Settled k s') : Settled k s := by
  unfold Settled at h ⊢
  rw [hc, hi] at h
  exact h

theorem iterCurrent_more (p : List Str) {s s' : PState} {a : Str} (h : iterCurrent s = (.ok a, s')) :
    iterCurrent (s.more p) = (.ok a, s'.more p) ∧ s' = s := by
  unfold iterCurrent at h ⊢
  simp only [Prod.mk.injEq] at h
  obtain ⟨h1, rfl⟩ := h
  have e : (s.more p).iter.current = .ok a := Iter.current_more p h1
  rw [e]
  exact ⟨rfl, rfl⟩

theorem processOptionData_full {env env' : Env} {k : Nat} {new : List Str} (hd : Differs env env' k new) (post : List Str)
    {o : OptData} {flag : Str} {s s' : PState} {r : OptionResult} {v : Option Str}
    (hc : Counter.requiresArgumentCount s.command.arguments = false)
    (h : processOptionData env o flag s = (.ok (r, v), s')) (hne : r ≠ .error) (hl : Settled k s') :
    processOptionData env' o flag (s.full k new post) = (.ok (r, v), s'.full k new post) ∧ s.calls ≤ s'.calls ∧
      (r = .exit ∨ r = .stop → s'.mode = .done) := by
  rw [processOptionData_eq] at h ⊢
  obtain ⟨q, s1, h1, h2⟩ := bind_inv h
  cases q with
  | none =>
    simp only [pure_apply, Prod.mk.injEq, Outcome.ok.injEq] at h2
    exact absurd h2.1.1.symm hne
  | some q =>
    obtain ⟨value, stored⟩ := q
    simp only at h2
    obtain ⟨v1, s2, h3, h4⟩ := bind_inv h2
    obtain ⟨r1, s3, h5, h6⟩ := bind_inv h4
    simp only [pure_apply, Prod.mk.injEq, Outcome.ok.injEq] at h6
    obtain ⟨⟨rfl, rfl⟩, rfl⟩ := h6
    have a := fun p => applyOperation_more p h1
    obtain ⟨_, a2, a3⟩ := a []
    have b := fun p => applyType_more p h5
    obtain ⟨_, b2, b3, b4, _⟩ := b []
    have hl2 := settled_same b2 b3 hl
    obtain ⟨c1, c2, c3, _⟩ := calls_full hd post (by rw [a3.command]; exact hc) h3 hl2
    refine ⟨?_, by omega, b4⟩
    have e1 := (a (if s.calls ≤ k then post else new ++ post)).1
    rw [← full_same k new post a2] at e1
    have e1' : applyOperation o flag (s.full k new post) = (.ok (some (value, stored)), s1.full k new post) := e1
    rw [bind_ok e1']
    simp only
    rw [bind_ok c1]
    have e2 := (b (if s2.calls ≤ k then post else new ++ post)).1
    rw [← full_same k new post b2] at e2
    have e2' : applyType o (s2.full k new post) = (.ok r1, s3.full k new post) := e2
    rw [bind_ok e2']
    rfl

theorem processOption_full {env env' : Env} {k : Nat} {new : List Str} (hd : Differs env env' k new) (post : List Str)
    {flag : Str} {s s' : PState} {r : IterResult} (hc : Counter.requiresArgumentCount s.command.arguments = false)
    (h : processOption env flag s = (.ok r, s')) (hr : ¬ r.IsLast) (hu : Unfinished s') (hl : Settled k s') :
    processOption env' flag (s.full k new post) = (.ok r, s'.full k new post) ∧ s.calls ≤ s'.calls := by
  have hnd : s'.mode ≠ .done := by
    intro hm; unfold Unfinished at hu; rw [hm] at hu; simp at hu
  unfold processOption at h ⊢
  rw [get_bind] at h ⊢
  show ((match findOption s.command.optionIndex flag s.settings.allowAbbreviatedOptions
    s.settings.caseInsensitive with | some opt => _ | none => _ : ParserM IterResult) _ = _) ∧ _
  cases hf : findOption s.command.optionIndex flag s.settings.allowAbbreviatedOptions s.settings.caseInsensitive with
  | none =>
    rw [hf] at h
    simp only at h ⊢
    obtain ⟨cur, s1, h1, h2⟩ := bind_inv h
    clear h
    have c := fun p => iterCurrent_more p h1
    obtain ⟨_, rfl⟩ := c []
    split at h2
    · obtain ⟨_, s2, _, h3⟩ := bind_inv h2
      simp only [pure_apply, Prod.mk.injEq, Outcome.ok.injEq] at h3
      exact absurd (by rw [← h3.1]; trivial) hr
    · rename_i hn
      obtain ⟨_, s2, h3, h4⟩ := bind_inv h2
      simp only [pure_apply, Prod.mk.injEq, Outcome.ok.injEq] at h4
      obtain ⟨rfl, rfl⟩ := h4
      have e2 := fun p => modifyBack_more p h3
      obtain ⟨rfl, _⟩ := modifyBack_inv h3
      refine ⟨?_, Nat.le_refl _⟩
      rw [bind_ok (show iterCurrent (s1.full k new post) = (.ok cur, s1.full k new post) from (c _).1)]
      refine (congrFun (if_neg hn) _).trans ?_
      exact bind_ok (e2 _)
  | some o =>
    rw [hf] at h
    simp only at h ⊢
    obtain ⟨⟨res, v⟩, s1, h1, h2⟩ := bind_inv h
    simp only at h2
    have done : ∀ {s2 : PState} {u : Unit}, s1.mode = .done → copyRemaining s1 = (.ok u, s2) → s2 = s' → False := by
      intro s2 u hm hcp e
      have := copyRemaining_mode hcp
      rw [e] at this
      exact hnd (this.trans hm)
    cases res with
    | error =>
      simp only [pure_apply, Prod.mk.injEq, Outcome.ok.injEq] at h2
      exact absurd (by rw [← h2.1]; trivial) hr
    | normal =>
      simp only [pure_apply, Prod.mk.injEq, Outcome.ok.injEq] at h2
      obtain ⟨rfl, rfl⟩ := h2
      obtain ⟨a1, a2, _⟩ := processOptionData_full hd post hc h1 (by simp) hl
      rw [bind_ok a1]
      exact ⟨rfl, a2⟩
    | exit =>
      exfalso
      obtain ⟨_, _, a3⟩ := processOptionData_full (Differs.refl env s1.calls) [] hc h1 (by simp) (fun hh => absurd hh (by omega))
      have hm := a3 (Or.inl rfl)
      simp only at h2
      split at h2
      · simp [lift_apply] at h2
      · obtain ⟨_, s2, h3, h4⟩ := bind_inv h2
        simp only [pure_apply, Prod.mk.injEq, Outcome.ok.injEq] at h4
        exact done hm h3 h4.2
    | stop =>
      exfalso
      obtain ⟨_, _, a3⟩ := processOptionData_full (Differs.refl env s1.calls) [] hc h1 (by simp) (fun hh => absurd hh (by omega))
      have hm := a3 (Or.inr rfl)
      simp only at h2
      obtain ⟨_, s2, h3, h4⟩ := bind_inv h2
      simp only [pure_apply, Prod.mk.injEq, Outcome.ok.injEq] at h4
      exact done hm h3 h4.2
    | lastArgument =>
      simp only at h2
      obtain ⟨ok, s2, h3, h4⟩ := bind_inv h2
      cases ok with
      | false =>
        simp only [Bool.not_false, if_true, pure_apply, Prod.mk.injEq, Outcome.ok.injEq] at h4
        exact absurd (by rw [← h4.1]; trivial) hr
      | true =>
        simp only [Bool.not_true, Bool.false_eq_true, if_false] at h4
        rw [get_bind] at h4
        have b := fun p => checkCounts_more p h3
        obtain ⟨_, hs2, _⟩ := b []
        cases hm : findMultiParent s2.stack with
        | none =>
          exfalso
          rw [hm] at h4
          simp only at h4
          obtain ⟨_, s3, h5, h6⟩ := bind_inv h4
          simp only [pure_apply, Prod.mk.injEq, Outcome.ok.injEq] at h6
          have := copyRemaining_mode h5
          rw [h6.2, hs2] at this
          exact hnd this
        | some st =>
          rw [hm] at h4
          simp only at h4
          obtain ⟨_, s3, h5, h6⟩ := bind_inv h4
          simp only [pure_apply, Prod.mk.injEq, Outcome.ok.injEq] at h6
          obtain ⟨rfl, rfl⟩ := h6
          have c := fun p => reactivate_more p h5
          obtain ⟨hs3, _⟩ := reactivate_inv h5
          have k1 : s3.calls = s1.calls := by rw [hs3, hs2]; rfl
          have k2 : s3.iter = s1.iter := by rw [hs3, hs2]; rfl
          have k3 : s2.calls = s1.calls := by rw [hs2]; rfl
          obtain ⟨a1, a2, _⟩ := processOptionData_full hd post hc h1 (by simp) (settled_same k1 k2 hl)
          refine ⟨?_, by omega⟩
          rw [bind_ok a1]
          simp only
          have b1 := (b (if s1.calls ≤ k then post else new ++ post)).1
          have b1' : checkCounts (s1.full k new post) = (.ok true, s2.full k new post) := by
            rw [full_same k new post k3]; exact b1
          rw [bind_ok b1']
          simp only [Bool.not_true, Bool.false_eq_true, if_false]
          rw [get_bind]
          have hm' : findMultiParent (s2.full k new post).stack = some st := hm
          rw [hm']
          simp only
          have c1 := c (if s2.calls ≤ k then post else new ++ post)
          have c1' : reactivate st.length (s2.full k new post) = (.ok (), s3.full k new post) := by
            rw [full_same k new post (show s3.calls = s2.calls by omega)]; exact c1
          rw [bind_ok c1']
          rfl

theorem processCommand_full (k : Nat) (new post : List Str) {c : Command} {s s' : PState} {r : IterResult}
    (hc : Counter.requiresArgumentCount c.arguments = false) (h : processCommand c s = (.ok r, s')) :
    processCommand c (s.full k new post) = (.ok r, s'.full k new post) ∧ s'.calls = s.calls := by
  unfold processCommand at h ⊢
  rw [modify_bind] at h ⊢
  have e : ∀ t : PState, t.command = c → initCounter t = (.ok (), { t with counter := Counter.ofArgs t.command.arguments }) := by
    intro t ht
    unfold initCounter
    rw [ht, hc]
    rfl
  rw [bind_ok (e _ rfl), modify_bind] at h
  rw [bind_ok (e _ rfl), modify_bind]
  obtain ⟨cur, s1, h1, h2⟩ := bind_inv h
  clear h
  have c1 := fun p => iterCurrent_more p h1
  obtain ⟨_, rfl⟩ := c1 []
  simp only [pure_apply, Prod.mk.injEq, Outcome.ok.injEq] at h2
  obtain ⟨rfl, rfl⟩ := h2
  refine ⟨?_, rfl⟩
  exact bind_ok (c1 (if s.calls ≤ k then post else new ++ post)).1

theorem processArgument_full {env env' : Env} {k : Nat} {new : List Str} (hd : Differs env env' k new) (post : List Str)
    {value : Str} {s s' : PState} {r : IterResult} (hc : Counter.requiresArgumentCount s.command.arguments = false)
    (hsib : ∀ c size, findSibling s value = some (c, size) → Counter.requiresArgumentCount c.arguments = false)
    (h : processArgument env value s = (.ok r, s')) (hr : ¬ r.IsLast) (hl : Settled k s') :
    processArgument env' value (s.full k new post) = (.ok r, s'.full k new post) ∧ s.calls ≤ s'.calls := by
  unfold processArgument at h ⊢
  rw [get_bind] at h ⊢
  show ((match findSibling s value with | some (c, size) => _ | none => _ : ParserM IterResult) _ = _) ∧ _
  cases hf : findSibling s value with
  | some q =>
    obtain ⟨c, size⟩ := q
    rw [hf] at h
    simp only at h ⊢
    obtain ⟨_, s1, h1, h2⟩ := bind_inv h
    have e := reactivate_more (if s.calls ≤ k then post else new ++ post) h1
    obtain ⟨hs1, _⟩ := reactivate_inv h1
    have k1 : s1.calls = s.calls := by rw [hs1]; rfl
    obtain ⟨a1, a2⟩ := processCommand_full k new post (hsib c size hf) h2
    have e' : reactivate size (s.full k new post) = (.ok (), s1.full k new post) := by
      rw [full_same k new post k1]; exact e
    rw [bind_ok e']
    exact ⟨a1, by omega⟩
  | none =>
    rw [hf] at h
    simp only at h ⊢
    show ((match s.counter.nextArgument with | (some a, counter') => _ | (none, counter') => _ : ParserM IterResult) _ = _) ∧ _
    rcases hn : s.counter.nextArgument with ⟨oa, ct⟩
    rw [hn] at h
    cases oa with
    | some a =>
      simp only at h ⊢
      rw [modify_bind] at h ⊢
      obtain ⟨_, s1, h1, h2⟩ := bind_inv h
      have e := modifyBack_more (if s.calls ≤ k then post else new ++ post) h1
      obtain ⟨hs1, _⟩ := modifyBack_inv h1
      have k1 : s1.calls = s.calls := by rw [hs1]
      have k2 : s1.command = s.command := by rw [hs1]
      have h3 : (calls env a.callback ParserSettings.argumentCallback (.arg a) a.valueId true (some value) >>= fun v =>
          (pure (.argument a v) : ParserM IterResult)) s1 = (.ok r, s') := by
        unfold calls
        rw [bind_apply, bind_apply]
        rw [bind_apply] at h2
        generalize runCallbackOpt env a.callback (ViewRef.arg a) a.valueId true (some value) s1 = q at h2 ⊢
        obtain ⟨q, s2⟩ := q
        cases q <;> exact h2
      obtain ⟨v, s2, h4, h5⟩ := bind_inv h3
      simp only [pure_apply, Prod.mk.injEq, Outcome.ok.injEq] at h5
      obtain ⟨rfl, rfl⟩ := h5
      obtain ⟨a1, a2, _, _⟩ := calls_full hd post (by rw [k2]; exact hc) h4 hl
      refine ⟨?_, by omega⟩
      rw [← full_same k new post k1] at e
      refine (bind_ok e).trans ?_
      have e5 := bind_ok (f := fun v => (pure (.argument a v) : ParserM IterResult)) a1
      unfold calls at e5
      rw [bind_apply, bind_apply] at e5
      rw [bind_apply]
      generalize runCallbackOpt env' a.callback (ViewRef.arg a) a.valueId true (some value) (s1.full k new post) = q at e5 ⊢
      obtain ⟨q, s2⟩ := q
      cases q <;> exact e5
    | none =>
      simp only at h ⊢
      rw [modify_bind] at h ⊢
      split at h
      · rename_i hi
        obtain ⟨_, s1, h1, h2⟩ := bind_inv h
        obtain ⟨cur, s2, h3, h4⟩ := bind_inv h2
        simp only [pure_apply, Prod.mk.injEq, Outcome.ok.injEq] at h4
        obtain ⟨rfl, rfl⟩ := h4
        have e := modifyBack_more (if s.calls ≤ k then post else new ++ post) h1
        obtain ⟨hs1, _⟩ := modifyBack_inv h1
        obtain ⟨c1, c2⟩ := iterCurrent_more (if s.calls ≤ k then post else new ++ post) h3
        have k1 : s1.calls = s.calls := by rw [hs1]
        have k2 : s2.calls = s.calls := by rw [c2, k1]
        refine ⟨?_, by omega⟩
        rw [full_same k new post k2]
        refine (congrFun (if_pos hi) _).trans ?_
        refine (bind_ok e).trans ?_
        exact bind_ok c1
      · obtain ⟨_, s2, _, h3⟩ := bind_inv h
        simp only [pure_apply, Prod.mk.injEq, Outcome.ok.injEq] at h3
        exact absurd (by rw [← h3.1]; trivial) hr

theorem next_full {env env' : Env} {k : Nat} {new : List Str} (hd : Differs env env' k new) (post : List Str) {d : ParserData}
    (hnc : ∀ c : Command, c.Within d.command → Counter.requiresArgumentCount c.arguments = false) {s s' : PState} (hg : Good d s)
    {r : IterResult} (h : next env s = (.ok r, s')) (hr : ¬ r.IsLast) (hu : Unfinished s') (hl : Settled k s') :
    next env' (s.full k new post) = (.ok r, s'.full k new post) ∧ s.calls ≤ s'.calls := by
  have hc := hnc _ hg.within
  have hm : s.mode = .argumentsAndOptions ∨ s.mode = .argumentsOnly := by
    cases hm : s.mode with
    | error => unfold next at h; rw [get_bind, hm] at h; simp [lift_apply] at h
    | done =>
      unfold next at h
      rw [get_bind, hm] at h
      simp only [pure_apply, Prod.mk.injEq, Outcome.ok.injEq] at h
      exact absurd (by rw [← h.1]; trivial) hr
    | argumentsAndOptions => exact Or.inl rfl
    | argumentsOnly => exact Or.inr rfl
  have ht : ∃ a it, Taken s a it := by
    rcases hm with hm | hm
    · have := s.iter.next_spec hg.iterOk
      revert this
      split
      · rintro ⟨it, h1, _⟩; exact ⟨_, it, Or.inl ⟨hm, h1⟩⟩
      · rintro ⟨it, h1, _⟩; exact ⟨_, it, Or.inl ⟨hm, h1⟩⟩
    · obtain ⟨it, h1, _⟩ := s.iter.nextValue_spec hg.iterOk
      exact ⟨_, it, Or.inr ⟨hm, h1⟩⟩
  obtain ⟨x, it, ht⟩ := ht
  rw [next_taken env s x it ht] at h
  cases x with
  | none =>
    exfalso
    unfold nextTail at h
    simp only at h
    obtain ⟨ok, s2, _, h3⟩ := bind_inv h
    cases ok <;> simp only [if_true, Bool.false_eq_true, if_false, pure_apply, Prod.mk.injEq, Outcome.ok.injEq] at h3 <;>
      exact hr (by rw [← h3.1]; trivial)
  | some a =>
    have ht' : Taken (s.full k new post) (some a) (it.more (if s.calls ≤ k then post else new ++ post)) := by
      rcases ht with ⟨h1, h2⟩ | ⟨h1, h2⟩
      · exact Or.inl ⟨h1, Iter.next_more _ h2⟩
      · exact Or.inr ⟨h1, Iter.nextValue_more _ h2⟩
    rw [next_taken env' _ _ _ ht']
    show nextTail env' s.mode s (some a) (PState.full k new post { s with iter := it }) = _ ∧ _
    unfold nextTail at h ⊢
    simp only at h ⊢
    split at h
    · rename_i hm
      rw [if_pos hm]
      exact processOption_full hd post hc h hr hu hl
    · rename_i hm
      rw [if_neg hm]
      split at h
      · rename_i he
        rw [if_pos he]
        refine processArgument_full hd post hc ?_ h hr hl
        intro c size hf
        obtain ⟨_, q, pre, p, ps, e1, _, _, _, e5⟩ := findSibling_some hf
        refine hnc _ (Command.Within.trans (.sub (findCommand_mem e5) .self) (hg.path.within p ?_))
        have e1' : s.stack = q :: pre ++ p :: ps := e1
        rw [e1']; simp
      · rename_i he
        rw [if_neg he]
        cases hf : findCommand s.command.commands a s.settings.caseInsensitive with
        | some c =>
          rw [hf] at h
          obtain ⟨a1, a2⟩ := processCommand_full k new post
            (hnc _ (Command.Within.trans (.sub (findCommand_mem hf) .self) hg.within)) h
          exact ⟨a1, Nat.le_of_eq a2.symm⟩
        | none =>
          rw [hf] at h
          obtain ⟨_, s2, _, h3⟩ := bind_inv h
          simp only [pure_apply, Prod.mk.injEq, Outcome.ok.injEq] at h3
          exact absurd (by rw [← h3.1]; trivial) hr

/-! ### After the callback -/

/-- The two methods do the same after the first `k + 1` calls of callbacks. -/
def Later (k : Nat) {α : Type} (m m' : ParserM α) : Prop := ∀ s : PState, k < s.calls → m' s = m s ∧ k < (m s).2.calls

theorem Later.bind {k : Nat} {α β : Type} {m m' : ParserM α} {f f' : α → ParserM β} (h : Later k m m') (hf : ∀ a, Later k (f a) (f' a)) :
    Later k (m >>= f) (m' >>= f') := by
  intro s hs
  obtain ⟨h1, h2⟩ := h s hs
  rw [bind_apply, bind_apply, h1]
  generalize m s = q at h2 ⊢
  obtain ⟨o, s1⟩ := q
  cases o with
  | ok a => exact hf a s1 h2
  | _ => exact ⟨rfl, h2⟩

theorem Later.of {k : Nat} {α : Type} {m : ParserM α} (h : ∀ s, (m s).2.calls = s.calls) : Later k m m := by
  intro s hs
  exact ⟨rfl, by rw [h]; exact hs⟩

theorem Later.pure {k : Nat} {α : Type} (a : α) : Later k (Pure.pure a : ParserM α) (Pure.pure a) := .of fun _ => rfl
theorem Later.get {k : Nat} : Later k ParserM.get ParserM.get := .of fun _ => rfl
theorem Later.lift {k : Nat} {α : Type} (x : Outcome α) : Later k (ParserM.lift x) (ParserM.lift x) := .of fun _ => rfl
theorem Later.modify {k : Nat} {f : PState → PState} (h : ∀ s, (f s).calls = s.calls) : Later k (ParserM.modify f) (ParserM.modify f) := .of h
theorem Later.emit {k : Nat} (e : Event) : Later k (emit e) (emit e) := .of fun _ => rfl

theorem Later.ite {k : Nat} {α : Type} {c : Prop} [Decidable c] {a a' b b' : ParserM α} (ha : Later k a a') (hb : Later k b b') :
    Later k (if c then a else b) (if c then a' else b') := by
  split
  · exact ha
  · exact hb

theorem Later.back {k : Nat} : Later k Parser.back Parser.back := .of fun s => by
  unfold Parser.back; split <;> rfl
theorem Later.modifyBack {k : Nat} (f : PNode → PNode) : Later k (Parser.modifyBack f) (Parser.modifyBack f) := .of fun s => by
  unfold Parser.modifyBack; split <;> rfl
theorem Later.iterNext {k : Nat} : Later k Parser.iterNext Parser.iterNext := .of fun s => by
  unfold Parser.iterNext; split <;> rfl
theorem Later.iterNextValue {k : Nat} : Later k Parser.iterNextValue Parser.iterNextValue := .of fun s => by
  unfold Parser.iterNextValue; split <;> rfl
theorem Later.iterRemaining {k : Nat} : Later k Parser.iterRemaining Parser.iterRemaining := .of fun s => by
  unfold Parser.iterRemaining; split <;> rfl
theorem Later.iterInsert {k : Nat} (l : List Str) : Later k (Parser.iterInsert l) (Parser.iterInsert l) := .of fun s => by
  unfold Parser.iterInsert; split <;> rfl
theorem Later.iterCurrent {k : Nat} : Later k Parser.iterCurrent Parser.iterCurrent := .of fun _ => rfl
theorem Later.reactivate {k : Nat} (n : Nat) : Later k (Parser.reactivate n) (Parser.reactivate n) := .of fun s => by
  unfold Parser.reactivate; simp only; split <;> rfl
theorem Later.initCounter {k : Nat} : Later k Parser.initCounter Parser.initCounter := .of fun s => by
  unfold Parser.initCounter; split
  · rfl
  · split <;> rfl

theorem Later.copyRemaining {k : Nat} : Later k Parser.copyRemaining Parser.copyRemaining :=
  .bind .iterRemaining fun _ => .modifyBack _

theorem Later.error {k : Nat} (msg : Str) : Later k (Parser.error msg) (Parser.error msg) :=
  .bind .get fun _ => .bind (.emit _) fun _ => .ite (.lift _) (.bind .copyRemaining fun _ => .modify fun _ => rfl)

theorem Later.hasAllMandatory {k : Nat} (vs : Values) (os : List OptData) : Later k (Parser.hasAllMandatory vs os) (Parser.hasAllMandatory vs os) := by
  induction os with
  | nil => exact .pure _
  | cons o os ih =>
    unfold Parser.hasAllMandatory
    exact .ite (.ite (.lift _) (.bind (.error _) fun _ => .pure _)) ih

theorem Later.checkCounts {k : Nat} : Later k Parser.checkCounts Parser.checkCounts := by
  refine .bind .back fun n => .bind .get fun s => .bind (.hasAllMandatory _ _) fun ok => .ite (.pure _) ?_
  split
  · exact .lift _
  · exact .ite (.bind (.error _) fun _ => .pure _) (.ite (.bind (.modify fun _ => rfl) fun _ => .pure _) (.bind (.error _) fun _ => .pure _))

theorem Later.updateArguments {k : Nat} (l : List Str) : Later k (Parser.updateArguments l) (Parser.updateArguments l) :=
  .ite (.pure _) (.bind (.iterInsert l) fun _ => .bind .get fun _ => .ite (.pure _) (.bind (.lift _) fun _ => .modify fun _ => rfl))

theorem applyOps_calls (vid : Nat) (ops : List BuilderOp) : ∀ (t : Bool) (s : PState), (applyOps vid ops t s).2.calls = s.calls := by
  induction ops with
  | nil => intros; rfl
  | cons op ops ih =>
    intro t s
    unfold applyOps
    split
    · rfl
    · split
      · rw [ih]
      all_goals rfl

theorem Later.builderError {k : Nat} (msg : Str) : Later k (Parser.builderError msg) (Parser.builderError msg) :=
  .bind .back fun _ => .bind (.emit _) fun _ => .bind .get fun _ => .ite (.lift _) (.lift _)

theorem Later.runCallback {env env' : Env} {k : Nat} {new : List Str} (hd : Differs env env' k new) (cb : Nat) (view : ViewRef)
    (vid : Nat) (stored : Bool) (value : Option Str) :
    Later k (Parser.runCallback env cb view vid stored value) (Parser.runCallback env' cb view vid stored value) := by
  refine .bind .back fun n => ?_
  intro s hs
  rw [get_bind, get_bind, hd.other cb s.calls view value n (by omega)]
  revert s hs
  have h : ∀ r : CallbackResult, Later k (do
      ParserM.modify fun s => { s with calls := s.calls + 1, log := s.log ++ [.callback cb view value n.values] }
      let touched ← applyOps vid r.ops false
      match r.fin with
      | .throws m => ParserM.lift (.throw m)
      | .error m => do
        Parser.builderError m
        Pure.pure none
      | .returns => do
        Parser.updateArguments r.newArguments
        Pure.pure (if stored && touched then none else value) : ParserM (Option Str)) (do
      ParserM.modify fun s => { s with calls := s.calls + 1, log := s.log ++ [.callback cb view value n.values] }
      let touched ← applyOps vid r.ops false
      match r.fin with
      | .throws m => ParserM.lift (.throw m)
      | .error m => do
        Parser.builderError m
        Pure.pure none
      | .returns => do
        Parser.updateArguments r.newArguments
        Pure.pure (if stored && touched then none else value) : ParserM (Option Str)) := by
    intro r
    refine .bind ?_ fun _ => .bind (.of fun s => applyOps_calls vid r.ops false s) fun touched => ?_
    · intro s hs; exact ⟨rfl, Nat.lt_succ_of_lt hs⟩
    · split
      · exact .lift _
      · exact .bind (.builderError _) fun _ => .pure _
      · exact .bind (.updateArguments _) fun _ => .pure _
  intro s hs
  exact h _ s hs

theorem Later.runCallbackOpt {env env' : Env} {k : Nat} {new : List Str} (hd : Differs env env' k new) (cb : Option Nat) (view : ViewRef)
    (vid : Nat) (stored : Bool) (value : Option Str) :
    Later k (Parser.runCallbackOpt env cb view vid stored value) (Parser.runCallbackOpt env' cb view vid stored value) := by
  cases cb with
  | none => exact .pure _
  | some cb => exact .runCallback hd cb view vid stored value

theorem Later.applyOperation {k : Nat} (o : OptData) (flag : Str) : Later k (Parser.applyOperation o flag) (Parser.applyOperation o flag) := by
  unfold Parser.applyOperation
  split
  · refine .ite (.bind (.modifyBack _) fun _ => .pure _) (.bind .iterNextValue fun x => ?_)
    split
    · exact .bind (.modifyBack _) fun _ => .pure _
    · exact .bind (.error _) fun _ => .pure _
  · refine .ite (.bind (.modifyBack _) fun _ => .pure _) (.bind .iterNextValue fun x => ?_)
    split
    · exact .bind (.modifyBack _) fun _ => .pure _
    · exact .bind (.error _) fun _ => .pure _
  · exact .bind (.modifyBack _) fun _ => .pure _
  · exact .pure _

theorem Later.applyType {k : Nat} (o : OptData) : Later k (Parser.applyType o) (Parser.applyType o) := by
  unfold Parser.applyType
  split
  · exact .pure _
  · exact .bind .get fun _ => .bind (.emit _) fun _ => .bind (.modify fun _ => rfl) fun _ => .bind (.modifyBack _) fun _ => .pure _
  · exact .bind (.modify fun _ => rfl) fun _ => .bind (.modifyBack _) fun _ => .pure _
  · exact .bind (.modify fun _ => rfl) fun _ => .bind (.modifyBack _) fun _ => .pure _
  · exact .bind (.modify fun _ => rfl) fun _ => .pure _
  · exact .bind (.modify fun _ => rfl) fun _ => .pure _

theorem Later.processOption {env env' : Env} {k : Nat} {new : List Str} (hd : Differs env env' k new) (flag : Str) :
    Later k (Parser.processOption env flag) (Parser.processOption env' flag) := by
  refine .bind .get fun s => ?_
  split
  · refine .bind ?_ fun q => ?_
    · refine .bind (.applyOperation _ _) fun q => ?_
      split
      · exact .pure _
      · exact .bind (.runCallbackOpt hd _ _ _ _ _) fun _ => .bind .get fun _ => .bind (.runCallbackOpt hd _ _ _ _ _) fun _ =>
          .bind (.applyType _) fun _ => .pure _
    · obtain ⟨res, v⟩ := q
      simp only
      split
      · exact .ite (.lift _) (.bind .copyRemaining fun _ => .pure _)
      · exact .pure _
      · refine .bind .checkCounts fun ok => .ite (.pure _) (.bind .get fun s => ?_)
        split
        · exact .bind (.reactivate _) fun _ => .pure _
        · exact .bind .copyRemaining fun _ => .pure _
      · exact .bind .copyRemaining fun _ => .pure _
      · exact .pure _
  · exact .bind .iterCurrent fun cur => .ite (.bind (.error _) fun _ => .pure _) (.bind (.modifyBack _) fun _ => .pure _)

theorem Later.processCommand {k : Nat} (c : Command) : Later k (Parser.processCommand c) (Parser.processCommand c) :=
  .bind (.modify fun _ => rfl) fun _ => .bind .initCounter fun _ => .bind (.modify fun _ => rfl) fun _ => .bind .iterCurrent fun _ => .pure _

theorem Later.processArgument {env env' : Env} {k : Nat} {new : List Str} (hd : Differs env env' k new) (value : Str) :
    Later k (Parser.processArgument env value) (Parser.processArgument env' value) := by
  refine .bind .get fun s => ?_
  split
  · exact .bind (.reactivate _) fun _ => .processCommand _
  · split
    · exact .bind (.modify fun _ => rfl) fun _ => .bind (.modifyBack _) fun _ => .bind (.runCallbackOpt hd _ _ _ _ _) fun _ =>
        .bind .get fun _ => .bind (.runCallbackOpt hd _ _ _ _ _) fun _ => .pure _
    · exact .bind (.modify fun _ => rfl) fun _ => .ite (.bind (.modifyBack _) fun _ => .bind .iterCurrent fun _ => .pure _)
        (.bind (.error _) fun _ => .pure _)

theorem Later.next {env env' : Env} {k : Nat} {new : List Str} (hd : Differs env env' k new) : Later k (Parser.next env) (Parser.next env') := by
  refine .bind .get fun s => ?_
  split
  · exact .lift _
  · exact .pure _
  · refine .ite (.bind .iterNext fun x => ?_) (.bind .iterNextValue fun x => ?_)
    all_goals
      simp only
      split
      · exact .bind .checkCounts fun _ => .ite (.pure _) (.pure _)
      · refine .ite (.processOption hd _) (.ite (.processArgument hd _) ?_)
        split
        · exact .processCommand _
        · exact .bind (.error _) fun _ => .pure _

theorem Later.run {env env' : Env} {k : Nat} {new : List Str} (hd : Differs env env' k new) (fuel : Nat) :
    Later k (Parser.run env fuel) (Parser.run env' fuel) := by
  induction fuel with
  | zero => exact .lift _
  | succ fuel ih =>
    refine .bind (.next hd) fun r => ?_
    split
    · exact .pure _
    · exact .pure _
    · exact ih

/-! ### Traces -/

theorem next_unfinished {env : Env} {s s' : PState} {r : IterResult} (h : next env s = (.ok r, s')) (hr : ¬ r.IsLast) : Unfinished s := by
  unfold Unfinished
  cases hm : s.mode with
  | error => unfold next at h; rw [get_bind, hm] at h; simp [lift_apply] at h
  | done =>
    unfold next at h
    rw [get_bind, hm] at h
    simp only [pure_apply, Prod.mk.injEq, Outcome.ok.injEq] at h
    exact absurd (by rw [← h.1]; trivial) hr
  | argumentsAndOptions => exact Or.inl rfl
  | argumentsOnly => exact Or.inr rfl

theorem trace_full {env env' : Env} {k : Nat} {new : List Str} (hd : Differs env env' k new) (post : List Str) {d : ParserData}
    (hrd : Ready d) (hnc : ∀ c : Command, c.Within d.command → Counter.requiresArgumentCount c.arguments = false) {s s' : PState}
    {rs : List IterResult} (h : Trace env s rs s') : Good d s → (∀ r ∈ rs, ¬ r.IsLast) → Unfinished s' → s'.calls ≤ k →
    Trace env' (s.full k new post) rs (s'.full k new post) ∧ s.calls ≤ s'.calls ∧ Good d s' := by
  induction h with
  | nil => intro hg _ _ _; exact ⟨.nil, Nat.le_refl _, hg⟩
  | cons hn ht ih =>
    rename_i s s1 s' r rs
    intro hg hr hu hk
    obtain ⟨_, hg1⟩ := next_good hrd hg hn
    obtain ⟨i1, i2, i3⟩ := ih hg1 (fun r' hr' => hr r' (List.mem_cons_of_mem _ hr')) hu hk
    have hu1 : Unfinished s1 := by
      cases ht with
      | nil => exact hu
      | cons hn1 _ => exact next_unfinished hn1 (hr _ (by simp))
    obtain ⟨a1, a2⟩ := next_full hd post hnc hg hn (hr r (by simp)) hu1 (fun hh => absurd hh (by omega))
    exact ⟨.cons a1 i1, by omega, i3⟩

theorem start_more (d : ParserData) (hc : Counter.requiresArgumentCount d.command.arguments = false) (pre post : List Str) :
    start d (pre ++ post) = (.ok (), (start d pre).2.more post) := by
  have e : ∀ args, start d args = (.ok (), { startState d args with counter := Counter.ofArgs d.command.arguments }) := by
    intro args
    have hc' : Counter.requiresArgumentCount (startState d args).command.arguments = false := hc
    unfold start initCounter
    rw [hc']
    rfl
  rw [e, e]
  have : Iter.make d.settings.optionStyle (pre ++ post) = (Iter.make d.settings.optionStyle pre).more post := by
    cases d.settings.optionStyle <;> rfl
  simp only [startState, PState.more, this]

theorem Trace.run {env : Env} {s s' : PState} {rs : List IterResult} (h : Trace env s rs s') : (∀ r ∈ rs, ¬ r.IsLast) → ∀ fuel,
    Parser.run env (rs.length + fuel) s = Parser.run env fuel s' := by
  induction h with
  | nil => intro _ fuel; simp
  | cons hn ht ih =>
    rename_i s s1 s' r rs
    intro hr fuel
    have e : (r :: rs).length + fuel = (rs.length + fuel) + 1 := by simp; omega
    rw [e, run_succ, bind_ok hn]
    have ih' := ih (fun r' hr' => hr r' (List.mem_cons_of_mem _ hr')) fuel
    have hr0 := hr r (by simp)
    cases r with
    | done => exact absurd trivial hr0
    | error => exact absurd trivial hr0
    | _ => exact ih'

theorem Trace.snoc {env : Env} {s s1 s' : PState} {rs : List IterResult} {r : IterResult} (h : Trace env s rs s1)
    (hn : Parser.next env s1 = (.ok r, s')) : Trace env s (rs ++ [r]) s' := by
  induction h with
  | nil => exact .cons hn .nil
  | cons h1 _ ih => exact .cons h1 (ih hn)

/-- The two iterators report the same and reach the same state. -/
theorem inserted_trace {env : Env} {d : ParserData} (hrd : Ready d)
    (hnc : ∀ c : Command, c.Within d.command → Counter.requiresArgumentCount c.arguments = false) {pre : List Str} (new post : List Str)
    {rs : List IterResult} {r : IterResult} {s1 s2 : PState} {k : Nat} (ht : Trace env (start d pre).2 rs s1)
    (hrs : ∀ x ∈ rs, ¬ x.IsLast) (hn : next env s1 = (.ok r, s2)) (hr : ¬ r.IsLast) (hu : Unfinished s2)
    (hk1 : s1.calls ≤ k) (hk2 : k < s2.calls) (hl : NothingLeft s2.iter) :
    Trace (env.inserting k new) (start d (pre ++ post)).2 (rs ++ [r]) (s2.more (new ++ post)) ∧
    Trace env (start d (pre ++ new ++ post)).2 (rs ++ [r]) (s2.more (new ++ post)) := by
  have hc := hnc _ (.self)
  have key : ∀ {env' : Env} {new post : List Str}, Differs env env' k new →
      Trace env' (start d (pre ++ post)).2 (rs ++ [r]) (s2.more (new ++ post)) := by
    intro env' new post hd
    obtain ⟨a1, a2, a3⟩ := trace_full hd post hrd hnc ht (start_good d pre).2 hrs (next_unfinished hn hr) hk1
    obtain ⟨b1, _⟩ := next_full hd post hnc a3 hn hr hu (fun _ => hl)
    have e := Trace.snoc a1 b1
    have e1 : PState.full k new post (start d pre).2 = (start d (pre ++ post)).2 := by
      rw [start_more d hc pre post]
      unfold PState.full
      rw [if_pos (by omega)]
    have e2 : s2.full k new post = s2.more (new ++ post) := by
      unfold PState.full
      rw [if_neg (by omega)]
    rw [e1, e2] at e
    exact e
  refine ⟨key (Env.inserting_differs env k new), ?_⟩
  have := key (post := new ++ post) (Differs.refl env k)
  rw [List.append_assoc]
  exact this

theorem inserted_parse {env : Env} {d : ParserData} (hrd : Ready d)
    (hnc : ∀ c : Command, c.Within d.command → Counter.requiresArgumentCount c.arguments = false) {pre : List Str} (new post : List Str)
    {rs : List IterResult} {r : IterResult} {s1 s2 : PState} {k : Nat} (ht : Trace env (start d pre).2 rs s1)
    (hrs : ∀ x ∈ rs, ¬ x.IsLast) (hn : next env s1 = (.ok r, s2)) (hr : ¬ r.IsLast) (hu : Unfinished s2)
    (hk1 : s1.calls ≤ k) (hk2 : k < s2.calls) (hl : NothingLeft s2.iter) (fuel : Nat) (hf : rs.length < fuel) :
    parse (env.inserting k new) d (pre ++ post) fuel = parse env d (pre ++ new ++ post) fuel := by
  obtain ⟨h1, h2⟩ := inserted_trace hrd hnc new post ht hrs hn hr hu hk1 hk2 hl
  have hall : ∀ x ∈ rs ++ [r], ¬ x.IsLast := by
    intro x hx
    rcases List.mem_append.mp hx with hx | hx
    · exact hrs x hx
    · simp only [List.mem_singleton] at hx; rw [hx]; exact hr
  obtain ⟨f, rfl⟩ : ∃ f, fuel = (rs ++ [r]).length + f := ⟨fuel - (rs.length + 1), by simp; omega⟩
  have e : run (env.inserting k new) ((rs ++ [r]).length + f) (start d (pre ++ post)).2 =
      run env ((rs ++ [r]).length + f) (start d (pre ++ new ++ post)).2 := by
    rw [Trace.run h1 hall, Trace.run h2 hall]
    exact (Later.run (Env.inserting_differs env k new) f (s2.more (new ++ post)) hk2).1
  have s3 := (start_good d (pre ++ post)).1
  have s4 := (start_good d (pre ++ new ++ post)).1
  rw [s3, s4] at e
  unfold parse
  rw [s3, s4]
  simp only
  rw [e]

end Parser

end Argos
