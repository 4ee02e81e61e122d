import Verif.Model.Parser
import Verif.Spec.Lookup

/-!
# What the iterators read

All that is read of a command line whose words have a property at every position has this property.
-/

namespace Argos

/-- A property of the strings that the iterators make up. -/
structure Lenient (W : Str → Prop) : Prop where
  empty : W []
  dash : ∀ s, W (c!"-" :: s)
  slash : ∀ s, W (c!"/" :: s)

/-- What has not been read has the property. -/
def CleanAt (W : Str → Prop) (args : List Str) (pos : Pos) : Prop :=
  (∀ a ∈ args.tail, ∀ q, W (a.drop q)) ∧ ∀ a rest, args = a :: rest → ∀ p, pos = .at p → ∀ q, p ≤ q → W (a.drop q)

/-- See `CleanAt`. -/
def Clean (W : Str → Prop) : Iter → Prop
  | .std it => CleanAt W it.args it.pos
  | .opt it => CleanAt W it.args it.pos ∧ (it.pfx = c!"-" ∨ it.pfx = c!"/")

variable {W : Str → Prop}

theorem CleanAt.all {args : List Str} (h : CleanAt W args (.at 0)) : ∀ a ∈ args, ∀ q, W (a.drop q) := by
  intro a ha q
  cases args with
  | nil => simp at ha
  | cons b rest =>
    rcases List.mem_cons.mp ha with rfl | ha
    · exact h.2 _ _ rfl 0 rfl q (Nat.zero_le _)
    · exact h.1 a ha q

theorem CleanAt.of {a : Str} {rest : List Str} {pos : Pos} (h : ∀ b ∈ a :: rest, ∀ q, W (b.drop q)) : CleanAt W (a :: rest) pos := by
  refine ⟨fun b hb => h b (List.mem_cons_of_mem _ hb), ?_⟩
  intro b r e p _ q _
  cases e
  exact h a (by simp) q

theorem CleanAt.nil (pos : Pos) : CleanAt W [] pos := ⟨fun a ha => by simp at ha, fun a r e => by simp at e⟩

theorem CleanAt.npos {args : List Str} (h : ∀ a ∈ args.tail, ∀ q, W (a.drop q)) : CleanAt W args .npos := ⟨h, fun _ _ _ p e => by cases e⟩

theorem StdIt.nextFresh_clean (hl : Lenient W) {args : List Str} (h : ∀ a ∈ args, ∀ q, W (a.drop q)) :
    CleanAt W (StdIt.nextFresh args).2.args (StdIt.nextFresh args).2.pos ∧ ∀ x, (StdIt.nextFresh args).1 = some x → W x := by
  unfold StdIt.nextFresh
  split
  · exact ⟨CleanAt.nil _, by simp⟩
  · rename_i a rest
    have hw : W a := h a (by simp) 0
    split
    · rename_i a0 a1 a2 r
      split
      · exact ⟨CleanAt.of h, by simp only [Option.some.injEq]; rintro x rfl; exact hw⟩
      · rename_i h0
        have h0 : a0 = c!"-" := by simpa using h0
        subst h0
        split
        · exact ⟨CleanAt.of h, by simp only [Option.some.injEq]; rintro x rfl; exact hl.dash _⟩
        · split
          · exact ⟨CleanAt.of h, by simp only [Option.some.injEq]; rintro x rfl; exact hw⟩
          · exact ⟨CleanAt.of h, by simp only [Option.some.injEq]; rintro x rfl; exact hl.dash _⟩
    · exact ⟨CleanAt.of h, by simp only [Option.some.injEq]; rintro x rfl; exact hw⟩

theorem StdIt.next_clean (hl : Lenient W) {it it' : StdIt} {x : Option Str} (h : CleanAt W it.args it.pos) (e : it.next = .ok (x, it')) :
    CleanAt W it'.args it'.pos ∧ ∀ a, x = some a → W a := by
  obtain ⟨args, pos⟩ := it
  have fresh : ∀ l : List Str, (∀ a ∈ l, ∀ q, W (a.drop q)) → (Outcome.ok (StdIt.nextFresh l) : Outcome (Option Str × StdIt)) = .ok (x, it') →
      CleanAt W it'.args it'.pos ∧ ∀ a, x = some a → W a := by
    intro l hall e
    have k := StdIt.nextFresh_clean hl hall
    rw [Outcome.ok.inj e] at k
    exact k
  match pos, args, h, e with
  | .at 0, args, h, e => exact fresh _ h.all e
  | .npos, [], h, e => simp [StdIt.next] at e
  | .npos, a :: rest, h, e => exact fresh _ h.1 e
  | .at (p + 1), [], h, e => simp [StdIt.next] at e
  | .at (p + 1), a :: rest, h, e =>
    simp only [StdIt.next] at e
    split at e
    · split at e
      · simp at e
      · split at e
        · cases e
          refine ⟨⟨h.1, fun b r eb q hq k hk => ?_⟩, by simp only [Option.some.injEq]; rintro x rfl; exact hl.dash _⟩
          split at hq
          · cases hq
          · cases hq
            cases eb
            exact h.2 _ _ rfl (p + 1) rfl k (by omega)
        · exact fresh _ h.1 e
    · exact fresh _ h.1 e

theorem StdIt.nextValue_clean {it it' : StdIt} {x : Option Str} (h : CleanAt W it.args it.pos) (e : it.nextValue = .ok (x, it')) :
    CleanAt W it'.args it'.pos ∧ ∀ a, x = some a → W a := by
  obtain ⟨args, pos⟩ := it
  match args, pos, h, e with
  | [], pos, h, e =>
    cases e
    exact ⟨h, by simp⟩
  | a :: rest, .at p, h, e =>
    simp only [StdIt.nextValue] at e
    split at e
    · cases e
      exact ⟨CleanAt.npos h.1, by simp only [Option.some.injEq]; rintro x rfl; exact h.2 _ _ rfl p rfl p (Nat.le_refl _)⟩
    · simp at e
  | [a], .npos, h, e =>
    cases e
    exact ⟨CleanAt.nil _, by simp⟩
  | a :: b :: rest, .npos, h, e =>
    cases e
    refine ⟨CleanAt.npos fun c hc => h.1 c (List.mem_cons_of_mem _ hc), ?_⟩
    simp only [Option.some.injEq]
    rintro x rfl
    exact h.1 b (by simp) 0

theorem StdIt.split_clean (hl : Lenient W) {it it' : StdIt} (h : CleanAt W it.args it.pos) (e : it.splitConcatenatedFlags = .ok it') :
    CleanAt W it'.args it'.pos := by
  obtain ⟨args, pos⟩ := it
  match pos, args, h, e with
  | .at 0, args, h, e => cases e; exact h
  | .npos, [], h, e => simp [StdIt.splitConcatenatedFlags] at e
  | .npos, a :: rest, h, e => cases e; exact h
  | .at (p + 1), [], h, e => simp [StdIt.splitConcatenatedFlags] at e
  | .at (p + 1), a :: rest, h, e =>
    simp only [StdIt.splitConcatenatedFlags] at e
    split at e
    · cases e; exact h
    · split at e
      · simp at e
      · split at e
        · cases e; exact h
        · cases e
          refine ⟨?_, ?_⟩
          · intro b hb q
            rcases List.mem_cons.mp hb with rfl | hb
            · cases q with
              | zero => exact hl.dash _
              | succ q =>
                rw [List.drop_succ_cons, List.drop_drop]
                exact h.2 _ _ rfl (p + 1) rfl _ (by omega)
            · exact h.1 b hb q
          · intro b r eb q hq k hk
            cases eb
            cases hq
            rw [List.drop_eq_nil_of_le (by simp; omega)]
            exact hl.empty

theorem StdIt.remaining_clean (hl : Lenient W) {it it' : StdIt} {l : List Str} (h : CleanAt W it.args it.pos) (e : it.remainingArguments = .ok (l, it')) :
    CleanAt W it'.args it'.pos := by
  unfold StdIt.remainingArguments at e
  rw [Outcome.bind_eq_ok] at e
  obtain ⟨it1, h1, e⟩ := e
  have k := StdIt.split_clean hl h h1
  split at e
  · cases e; exact k
  · split at e
    · simp at e
    · cases e; exact k

theorem StdIt.insert_clean (hl : Lenient W) {it it' : StdIt} {new : List Str} (h : CleanAt W it.args it.pos) (hn : ∀ a ∈ new, ∀ q, W (a.drop q))
    (e : it.insert new = .ok it') : CleanAt W it'.args it'.pos := by
  unfold StdIt.insert at e
  rw [Outcome.bind_eq_ok] at e
  obtain ⟨it1, h1, e⟩ := e
  have k := StdIt.split_clean hl h h1
  split at e
  · rename_i hp
    cases e
    rw [hp] at k
    have : ∀ a ∈ new ++ it1.args, ∀ q, W (a.drop q) := fun a ha => (List.mem_append.mp ha).elim (hn a) (k.all a)
    generalize new ++ it1.args = l at this
    cases l with
    | nil => exact CleanAt.nil _
    | cons b l => exact CleanAt.of this
  · split at e
    · simp at e
    · rename_i a rest ha
      cases e
      rw [ha] at k
      refine ⟨fun b hb => (List.mem_append.mp hb).elim (hn b) (k.1 b), ?_⟩
      intro b r eb
      cases eb
      exact k.2 _ _ rfl

theorem OptIt.nextFresh_clean (hl : Lenient W) {args : List Str} {pfx : UInt8} (hp : pfx = c!"-" ∨ pfx = c!"/") (h : ∀ a ∈ args, ∀ q, W (a.drop q)) :
    (CleanAt W (OptIt.nextFresh args pfx).2.args (OptIt.nextFresh args pfx).2.pos ∧ (OptIt.nextFresh args pfx).2.pfx = pfx) ∧
      ∀ x, (OptIt.nextFresh args pfx).1 = some x → W x := by
  unfold OptIt.nextFresh
  split
  · exact ⟨⟨CleanAt.nil _, rfl⟩, by simp⟩
  · rename_i a rest
    have hw : W a := h a (by simp) 0
    split
    · rename_i a0 a1 a2 r
      split
      · exact ⟨⟨CleanAt.of h, rfl⟩, by simp only [Option.some.injEq]; rintro x rfl; exact hw⟩
      · rename_i h0
        have h0 : a0 = pfx := by simpa using h0
        split
        · exact ⟨⟨CleanAt.of h, rfl⟩, by simp only [Option.some.injEq]; rintro x rfl; exact hw⟩
        · refine ⟨⟨CleanAt.of h, rfl⟩, ?_⟩
          simp only [Option.some.injEq]
          rintro x rfl
          rw [List.take_succ_cons, h0]
          rcases hp with rfl | rfl
          · exact hl.dash _
          · exact hl.slash _
    · exact ⟨⟨CleanAt.of h, rfl⟩, by simp only [Option.some.injEq]; rintro x rfl; exact hw⟩

theorem Iter.next_clean (hl : Lenient W) {it it' : Iter} {x : Option Str} (h : Clean W it) (e : it.next = .ok (x, it')) : Clean W it' ∧ ∀ a, x = some a → W a := by
  cases it with
  | std it =>
    simp only [Iter.next] at e
    rw [Outcome.bind_eq_ok] at e
    obtain ⟨⟨y, it1⟩, h1, e⟩ := e
    cases e
    exact StdIt.next_clean hl h h1
  | opt it =>
    simp only [Iter.next] at e
    rw [Outcome.bind_eq_ok] at e
    obtain ⟨⟨y, it1⟩, h1, e⟩ := e
    cases e
    obtain ⟨args, pos, pfx⟩ := it
    obtain ⟨h, hp⟩ := h
    have fresh : ∀ l : List Str, (∀ a ∈ l, ∀ q, W (a.drop q)) → (Outcome.ok (OptIt.nextFresh l pfx) : Outcome (Option Str × OptIt)) = .ok (y, it1) →
        Clean W (.opt it1) ∧ ∀ a, y = some a → W a := by
      intro l hall e
      have k := OptIt.nextFresh_clean hl hp hall
      rw [Outcome.ok.inj e] at k
      exact ⟨⟨k.1.1, by rw [k.1.2]; exact hp⟩, k.2⟩
    unfold OptIt.next at h1
    split at h1
    · rename_i hp0
      simp only at hp0
      simp only [hp0] at h
      exact fresh _ h.all h1
    · split at h1
      · simp at h1
      · rename_i ha
        simp only at ha
        simp only [ha] at h
        exact fresh _ h.1 h1

theorem Iter.nextValue_clean (hl : Lenient W) {it it' : Iter} {x : Option Str} (h : Clean W it) (e : it.nextValue = .ok (x, it')) :
    Clean W it' ∧ ∀ a, x = some a → W a := by
  cases it with
  | std it =>
    simp only [Iter.nextValue] at e
    rw [Outcome.bind_eq_ok] at e
    obtain ⟨⟨y, it1⟩, h1, e⟩ := e
    cases e
    exact StdIt.nextValue_clean h h1
  | opt it =>
    simp only [Iter.nextValue] at e
    rw [Outcome.bind_eq_ok] at e
    obtain ⟨⟨y, it1⟩, h1, e⟩ := e
    cases e
    obtain ⟨args, pos, pfx⟩ := it
    obtain ⟨h, hp⟩ := h
    match args, pos, h, h1 with
    | [], pos, h, h1 =>
      cases h1
      exact ⟨⟨h, hp⟩, by simp⟩
    | a :: rest, .at p, h, h1 =>
      simp only [OptIt.nextValue] at h1
      split at h1
      · cases h1
        exact ⟨⟨CleanAt.npos h.1, hp⟩, by simp only [Option.some.injEq]; rintro x rfl; exact h.2 _ _ rfl p rfl p (Nat.le_refl _)⟩
      · simp at h1
    | [a], .npos, h, h1 =>
      cases h1
      exact ⟨⟨CleanAt.nil _, hp⟩, by simp⟩
    | a :: b :: rest, .npos, h, h1 =>
      cases h1
      refine ⟨⟨⟨fun c hc => h.1 c (List.mem_cons_of_mem _ hc), ?_⟩, hp⟩, ?_⟩
      · intro c r ec p hp q hq
        cases ec
        cases hp
        rw [List.drop_eq_nil_of_le hq]
        exact hl.empty
      · simp only [Option.some.injEq]
        rintro x rfl
        exact h.1 b (by simp) 0

theorem Iter.remaining_clean (hl : Lenient W) {it it' : Iter} {l : List Str} (h : Clean W it) (e : it.remainingArguments = .ok (l, it')) : Clean W it' := by
  cases it with
  | std it =>
    simp only [Iter.remainingArguments] at e
    rw [Outcome.bind_eq_ok] at e
    obtain ⟨⟨y, it1⟩, h1, e⟩ := e
    cases e
    exact StdIt.remaining_clean hl h h1
  | opt it =>
    simp only [Iter.remainingArguments] at e
    rw [Outcome.bind_eq_ok] at e
    obtain ⟨⟨y, it1⟩, h1, e⟩ := e
    cases e
    unfold OptIt.remainingArguments at h1
    split at h1
    · cases h1; exact h
    · split at h1
      · simp at h1
      · cases h1; exact h

theorem Iter.insert_clean (hl : Lenient W) {it it' : Iter} {new : List Str} (h : Clean W it) (hn : ∀ a ∈ new, ∀ q, W (a.drop q)) (e : it.insert new = .ok it') :
    Clean W it' := by
  cases it with
  | std it =>
    simp only [Iter.insert] at e
    rw [Outcome.bind_eq_ok] at e
    obtain ⟨it1, h1, e⟩ := e
    cases e
    exact StdIt.insert_clean hl h hn h1
  | opt it =>
    simp only [Iter.insert] at e
    rw [Outcome.bind_eq_ok] at e
    obtain ⟨it1, h1, e⟩ := e
    cases e
    obtain ⟨k, hp⟩ := h
    unfold OptIt.insert at h1
    split at h1
    · rename_i hp0
      cases h1
      rw [hp0] at k
      have : ∀ a ∈ new ++ it.args, ∀ q, W (a.drop q) := fun a ha => (List.mem_append.mp ha).elim (hn a) (k.all a)
      refine ⟨?_, hp⟩
      simp only
      generalize new ++ it.args = l at this
      cases l with
      | nil => exact CleanAt.nil _
      | cons b l => exact CleanAt.of this
    · split at h1
      · simp at h1
      · rename_i a rest ha
        cases h1
        rw [ha] at k
        refine ⟨⟨fun b hb => (List.mem_append.mp hb).elim (hn b) (k.1 b), ?_⟩, hp⟩
        intro b r eb
        cases eb
        exact k.2 _ _ rfl

theorem Iter.make_clean {style : OptionStyle} {args : List Str} (h : ∀ a ∈ args, ∀ q, W (a.drop q)) : Clean W (Iter.make style args) := by
  have : CleanAt W args (.at 0) := by
    cases args with
    | nil => exact CleanAt.nil _
    | cons a rest => exact CleanAt.of h
  cases style with
  | slash => exact ⟨this, .inr rfl⟩
  | dash => exact ⟨this, .inl rfl⟩
  | standard => exact this

end Argos
