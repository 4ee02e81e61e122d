import Verif.Model.Iterators
import Verif.Spec.Reader

/-! # The iterators implement the reader -/

namespace Argos

open Spec

theorem findChar_cut (a : Str) :
    (findChar c!"=" a = none ∧ cutAfterEqual a = none) ∨
    ∃ e, findChar c!"=" a = some e ∧ e < a.length ∧ cutAfterEqual a = some (a.take (e + 1), a.drop (e + 1)) := by
  induction a with
  | nil => left; simp [findChar, cutAfterEqual]
  | cons x xs ih =>
    by_cases hx : x = c!"="
    · right
      refine ⟨0, ?_, by simp, ?_⟩
      · simp [findChar, hx]
      · subst hx
        simp [cutAfterEqual]
    · have hx' : (x != c!"=") = true := by simpa using hx
      simp only [findChar, cutAfterEqual, List.takeWhile_cons,
        List.dropWhile_cons, hx', if_true, if_neg hx] at ih ⊢
      rcases ih with ⟨h1, h2⟩ | ⟨e, h1, h2, h3⟩
      · left
        refine ⟨by simp [h1], ?_⟩
        revert h2
        cases List.dropWhile (fun x => x != c!"=") xs <;> simp
      · right
        refine ⟨e + 1, by simp [h1], by simp; omega, ?_⟩
        revert h3
        cases List.dropWhile (fun x => x != c!"=") xs with
        | nil => simp
        | cons y ys =>
          simp only [Option.some.injEq, Prod.mk.injEq, List.take_succ_cons, List.drop_succ_cons]
          rintro ⟨h3, h4⟩
          simp [← h3, h4]

/-! ### STANDARD style -/

/-- What an iterator of the STANDARD style has not read. -/
def StdIt.reader (it : StdIt) : Reader :=
  match it.pos, it.args with
  | .at 0, args => ⟨[], args⟩
  | .npos, args => ⟨[], args.tail⟩
  | .at (_ + 1), [] => ⟨[], []⟩
  | .at (p + 1), a :: rest => if a[1]? = some c!"-" then ⟨[], rest⟩ else ⟨a.drop (p + 1), rest⟩

/-- Invariant of the STANDARD iterator. -/
def StdIt.Ok (it : StdIt) : Prop :=
  it.pos = .at 0 ∨ ∃ a rest, it.args = a :: rest ∧
    (it.pos = .npos ∨ ∃ p, it.pos = .at (p + 2) ∧ p + 2 ≤ a.length)

/-- The value `next_value` returns after a flag has been read, and the state afterwards. -/
def StdIt.valueState (it : StdIt) : Option Str × Reader :=
  match it.pos, it.args with
  | .npos, args => (args.tail.head?, ⟨[], args.tail.tail⟩)
  | .at p, a :: rest => (some (a.drop p), ⟨[], rest⟩)
  | .at _, [] => (none, ⟨[], []⟩)

theorem StdIt.nextFresh_spec (args : List Str) :
    match (Reader.mk [] args).readStandard with
    | none => args = [] ∧ StdIt.nextFresh args = (none, ⟨[], .at 0⟩)
    | some x => ∃ it', StdIt.nextFresh args = (some x.flag, it') ∧ it'.Ok ∧ it'.reader = x.afterFlag ∧
        it'.valueState = (x.value, x.afterValue) := by
  match args with
  | [] => simp [Reader.readStandard, StdIt.nextFresh]
  | [] :: rest => exact ⟨_, rfl, Or.inr ⟨_, _, rfl, Or.inl rfl⟩, rfl, rfl⟩
  | [a] :: rest => exact ⟨_, rfl, Or.inr ⟨_, _, rfl, Or.inl rfl⟩, rfl, rfl⟩
  | [a, b] :: rest => exact ⟨_, rfl, Or.inr ⟨_, _, rfl, Or.inl rfl⟩, rfl, rfl⟩
  | (d :: c :: x :: xs) :: rest =>
    simp only [Reader.readStandard, StdIt.nextFresh]
    by_cases hd : d ≠ c!"-"
    · simp only [if_pos hd]
      exact ⟨_, rfl, Or.inr ⟨_, _, rfl, Or.inl rfl⟩, rfl, rfl⟩
    · simp only [if_neg hd]
      have hd' : d = c!"-" := by simpa using hd
      by_cases hc : c ≠ c!"-"
      · simp only [if_pos hc]
        refine ⟨⟨(d :: c :: x :: xs) :: rest, .at 2⟩, by simp [shortFlag, hd'],
          Or.inr ⟨_, _, rfl, Or.inr ⟨0, rfl, by simp⟩⟩, ?_, ?_⟩
        · simp [StdIt.reader, shortFlag, hc]
        · simp [StdIt.valueState, shortFlag]
      · have hc' : c = c!"-" := by simpa using hc
        simp only [if_neg hc]
        rcases findChar_cut (d :: c :: x :: xs) with ⟨h1, h2⟩ | ⟨e, h1, h2, h3⟩
        · simp only [h1, h2]
          exact ⟨_, rfl, Or.inr ⟨_, _, rfl, Or.inl rfl⟩, rfl, rfl⟩
        · simp only [h1, h3]
          have he : 2 ≤ e := by
            match e with
            | 0 => simp [findChar, hd'] at h1
            | 1 => simp [findChar, hd', hc'] at h1
            | _ + 2 => omega
          obtain ⟨p, rfl⟩ : ∃ p, e = p + 2 := ⟨e - 2, by omega⟩
          refine ⟨_, rfl, Or.inr ⟨_, _, rfl, Or.inr ⟨p + 1, rfl, by omega⟩⟩, ?_, ?_⟩
          · simp [StdIt.reader, equalFlag, hc']
          · simp [StdIt.valueState, equalFlag]

theorem StdIt.next_spec (it : StdIt) (h : it.Ok) :
    match it.reader.readStandard with
    | none => ∃ it', it.next = .ok (none, it') ∧ it'.Ok ∧ it'.reader = it.reader
    | some x => ∃ it', it.next = .ok (some x.flag, it') ∧ it'.Ok ∧ it'.reader = x.afterFlag ∧
        it'.valueState = (x.value, x.afterValue) := by
  obtain ⟨args, pos⟩ := it
  -- reading a fresh argument
  have fresh : ∀ args', (StdIt.mk args pos).reader = ⟨[], args'⟩ →
      (StdIt.mk args pos).next = .ok (StdIt.nextFresh args') →
      match (StdIt.mk args pos).reader.readStandard with
      | none => ∃ it', (StdIt.mk args pos).next = .ok (none, it') ∧ it'.Ok ∧
          it'.reader = (StdIt.mk args pos).reader
      | some x => ∃ it', (StdIt.mk args pos).next = .ok (some x.flag, it') ∧ it'.Ok ∧
          it'.reader = x.afterFlag ∧ it'.valueState = (x.value, x.afterValue) := by
    intro args' h1 h2
    have := StdIt.nextFresh_spec args'
    rw [h1, h2]
    revert this
    cases (Reader.mk [] args').readStandard with
    | none =>
      rintro ⟨h3, h4⟩
      exact ⟨_, by rw [h4], Or.inl rfl, by simp [StdIt.reader, h3]⟩
    | some x =>
      rintro ⟨it', h3, h4⟩
      exact ⟨it', by rw [h3], h4⟩
  rcases h with h | ⟨a, rest, h1, h2⟩
  · simp only at h
    subst h
    exact fresh args rfl rfl
  · simp only at h1 h2
    subst h1
    rcases h2 with h2 | ⟨p, h2, hp⟩
    · subst h2
      exact fresh rest rfl rfl
    · subst h2
      have ha1 : ∃ a1, a[1]? = some a1 := ⟨a[1]'(by omega), by simp [show 1 < a.length by omega]⟩
      obtain ⟨a1, ha1⟩ := ha1
      by_cases hd : a1 = c!"-"
      · subst hd
        refine fresh rest (by simp [StdIt.reader, ha1]) ?_
        simp only [StdIt.next, ha1]
        cases a[p + 1 + 1]? <;> simp
      · by_cases hlt : p + 2 < a.length
        · have e : a.drop (p + 2) = a[p + 2] :: a.drop (p + 3) := List.drop_eq_getElem_cons hlt
          have hr : (StdIt.mk (a :: rest) (.at (p + 2))).reader = ⟨a[p + 2] :: a.drop (p + 3), rest⟩ := by
            simp only [StdIt.reader, ha1, Option.some.injEq, if_neg hd]
            rw [e]
          rw [hr]
          simp only [Reader.readStandard, StdIt.next, ha1]
          have e2 : a[p + 1 + 1]? = some a[p + 2] := by simp [hlt]
          simp only [e2, hd, ne_eq, not_false_eq_true, if_true]
          by_cases hend : p + 3 = a.length
          · have hnil : a.drop (p + 3) = [] := by simp [hend]
            refine ⟨_, by simp [hend, shortFlag, hnil, wholeFlag]; rfl, Or.inr ⟨_, _, rfl, Or.inl rfl⟩, ?_, ?_⟩
            · simp [StdIt.reader, shortFlag, hnil, wholeFlag]
            · simp [StdIt.valueState, shortFlag, hnil, wholeFlag]
          · have hnil : a.drop (p + 3) ≠ [] := by simp; omega
            refine ⟨⟨a :: rest, .at (p + 3)⟩, ?_, Or.inr ⟨_, _, rfl, Or.inr ⟨p + 1, rfl, by omega⟩⟩, ?_, ?_⟩
            · simp [hend, shortFlag, hnil]
            · simp [StdIt.reader, shortFlag, hnil, ha1, hd]
            · simp [StdIt.valueState, shortFlag, hnil]
        · have hr : (StdIt.mk (a :: rest) (.at (p + 2))).reader = ⟨[], rest⟩ := by
            simp [StdIt.reader, ha1, hd]
            omega
          refine fresh rest hr ?_
          have : a[p + 1 + 1]? = none := by simp; omega
          simp only [StdIt.next, this]

theorem StdIt.nextValue_spec (it : StdIt) (h : it.Ok) :
    ∃ it', it.nextValue = .ok (it.valueState.1, it') ∧ it'.Ok ∧ it'.reader = it.valueState.2 ∧
      (it'.pos = .npos ∨ it'.args = []) := by
  obtain ⟨args, pos⟩ := it
  rcases h with h | ⟨a, rest, h1, h2⟩
  · simp only at h
    subst h
    cases args with
    | nil => exact ⟨_, rfl, Or.inl rfl, rfl, Or.inr rfl⟩
    | cons a rest =>
      exact ⟨_, by simp [StdIt.nextValue, StdIt.valueState]; rfl, Or.inr ⟨_, _, rfl, Or.inl rfl⟩, by simp [StdIt.reader, StdIt.valueState], Or.inl rfl⟩
  · simp only at h1 h2
    subst h1
    rcases h2 with h2 | ⟨p, h2, hp⟩
    · subst h2
      cases rest with
      | nil => exact ⟨_, rfl, Or.inl rfl, rfl, Or.inr rfl⟩
      | cons b rest => exact ⟨_, rfl, Or.inr ⟨_, _, rfl, Or.inl rfl⟩, rfl, Or.inl rfl⟩
    · subst h2
      refine ⟨⟨a :: rest, .npos⟩, ?_, Or.inr ⟨_, _, rfl, Or.inl rfl⟩, rfl, Or.inl rfl⟩
      simp [StdIt.nextValue, StdIt.valueState, hp]

theorem StdIt.split_spec (it : StdIt) (h : it.Ok) :
    ∃ it', it.splitConcatenatedFlags = .ok it' ∧ it'.Ok ∧ it'.reader = ⟨[], it.reader.unread⟩ ∧
      (if it'.pos = .at 0 then it'.args = it.reader.unread
       else ∃ a, it'.args = a :: it.reader.unread) ∧ it'.pos = it.pos ∧
      (∀ p, it'.pos = .at (p + 1) → ∀ a rest, it'.args = a :: rest → a[1]? = some c!"-" ∨ a.length = p + 1) := by
  obtain ⟨args, pos⟩ := it
  rcases h with h | ⟨a, rest, h1, h2⟩
  · simp only at h
    subst h
    exact ⟨_, rfl, Or.inl rfl, by simp [StdIt.reader, Reader.unread], by simp [StdIt.reader, Reader.unread], rfl, by simp⟩
  · simp only at h1 h2
    subst h1
    rcases h2 with h2 | ⟨p, h2, hp⟩
    · subst h2
      exact ⟨_, rfl, Or.inr ⟨_, _, rfl, Or.inl rfl⟩, rfl, ⟨a, rfl⟩, rfl, by simp⟩
    · subst h2
      obtain ⟨a1, ha1⟩ : ∃ a1, a[1]? = some a1 := ⟨a[1]'(by omega), by simp [show 1 < a.length by omega]⟩
      by_cases hge : p + 2 ≥ a.length
      · refine ⟨⟨a :: rest, .at (p + 2)⟩, ?_, Or.inr ⟨_, _, rfl, Or.inr ⟨p, rfl, hp⟩⟩, ?_, ?_, rfl, ?_⟩
        · simp [StdIt.splitConcatenatedFlags, hge]
        · by_cases hd : a1 = c!"-" <;> simp [StdIt.reader, ha1, hd, Reader.unread] <;> omega
        · by_cases hd : a1 = c!"-" <;> simp [StdIt.reader, ha1, hd, Reader.unread] <;> omega
        · intro q hq b r hb
          simp at hq hb
          right; rw [← hb.1]; omega
      · by_cases hd : a1 = c!"-"
        · refine ⟨⟨a :: rest, .at (p + 2)⟩, ?_, Or.inr ⟨_, _, rfl, Or.inr ⟨p, rfl, hp⟩⟩, ?_, ?_, rfl, ?_⟩
          · simp [StdIt.splitConcatenatedFlags, ha1, hd]
          · simp [StdIt.reader, ha1, hd, Reader.unread]
          · simp [StdIt.reader, ha1, hd, Reader.unread]
          · intro q hq b r hb
            simp at hb
            left; rw [← hb.1, ha1, hd]
        · have hne : a.drop (p + 2) ≠ [] := by simp; omega
          refine ⟨⟨a.take (p + 2) :: (c!"-" :: a.drop (p + 2)) :: rest, .at (p + 2)⟩, ?_,
            Or.inr ⟨_, _, rfl, Or.inr ⟨p, rfl, by simp; omega⟩⟩, ?_, ?_, rfl, ?_⟩
          · simp [StdIt.splitConcatenatedFlags, ha1, hd, hge]
          · have : (a.take (p + 2))[1]? = some a1 := by simp [List.getElem?_take, ha1]
            simp [StdIt.reader, ha1, hd, Reader.unread, this, hge]
          · simp [StdIt.reader, ha1, hd, Reader.unread, hge]
          · intro q hq b r hb
            simp at hb hq
            right; rw [← hb.1]; simp; omega

theorem StdIt.remaining_spec (it : StdIt) (h : it.Ok) :
    ∃ it', it.remainingArguments = .ok (it.reader.unread, it') ∧ it'.Ok ∧
      it'.reader = ⟨[], it.reader.unread⟩ := by
  obtain ⟨it', h1, h2, h3, h4, h5, _⟩ := it.split_spec h
  refine ⟨it', ?_, h2, h3⟩
  simp only [StdIt.remainingArguments, h1, Outcome.bind_ok]
  by_cases hp : it'.pos = .at 0
  · simp only [hp, if_true] at h4 ⊢
    rw [h4]
  · simp only [hp, if_false] at h4 ⊢
    obtain ⟨a, ha⟩ := h4
    simp [ha]

theorem StdIt.insert_spec (it : StdIt) (h : it.Ok) (new : List Str) :
    ∃ it', it.insert new = .ok it' ∧ it'.Ok ∧ it'.reader = ⟨[], new ++ it.reader.unread⟩ := by
  obtain ⟨it', h1, h2, h3, h4, h5, h6⟩ := it.split_spec h
  simp only [StdIt.insert, h1, Outcome.bind_ok]
  by_cases hp : it'.pos = .at 0
  · simp only [hp, if_true] at h4 ⊢
    exact ⟨_, rfl, Or.inl rfl, by simp [StdIt.reader, h4]⟩
  · simp only [hp, if_false] at h4 ⊢
    obtain ⟨a, ha⟩ := h4
    simp only [ha]
    refine ⟨_, rfl, ?_, ?_⟩
    · rcases h2 with h2 | ⟨b, rest, hb, h2⟩
      · exact absurd h2 hp
      · rw [ha] at hb
        simp at hb
        obtain ⟨rfl, rfl⟩ := hb
        exact Or.inr ⟨_, _, rfl, h2⟩
    · obtain ⟨args', pos'⟩ := it'
      simp only at ha hp h6
      subst ha
      match pos', hp with
      | .npos, _ => rfl
      | .at 0, hp => exact absurd rfl hp
      | .at (p + 1), _ =>
        rcases h6 p rfl a _ rfl with h7 | h7
        · simp [StdIt.reader, h7]
        · by_cases hd : a[1]? = some c!"-"
          · simp [StdIt.reader, hd]
          · simp [StdIt.reader, hd]; omega

/-! ### SLASH and DASH styles -/

/-- What an iterator of the other styles has not read. -/
def OptIt.reader (it : OptIt) : Reader :=
  if it.pos = .at 0 then ⟨[], it.args⟩ else ⟨[], it.args.tail⟩

/-- Invariant of the iterator of the other styles. -/
def OptIt.Ok (it : OptIt) : Prop :=
  it.pos = .at 0 ∨ ∃ a rest, it.args = a :: rest ∧
    (it.pos = .npos ∨ ∃ p, it.pos = .at (p + 1) ∧ p + 1 ≤ a.length)

/-- The value `next_value` returns after a flag has been read, and the state afterwards. -/
def OptIt.valueState (it : OptIt) : Option Str × Reader :=
  match it.pos, it.args with
  | .npos, args => (args.tail.head?, ⟨[], args.tail.tail⟩)
  | .at p, a :: rest => (some (a.drop p), ⟨[], rest⟩)
  | .at _, [] => (none, ⟨[], []⟩)

theorem OptIt.nextFresh_spec (args : List Str) (pfx : UInt8) :
    match (Reader.mk [] args).readPrefixed pfx with
    | none => args = [] ∧ OptIt.nextFresh args pfx = (none, ⟨[], .at 0, pfx⟩)
    | some x => ∃ it', OptIt.nextFresh args pfx = (some x.flag, it') ∧ it'.Ok ∧
        it'.reader = x.afterFlag ∧ it'.valueState = (x.value, x.afterValue) ∧ it'.pfx = pfx ∧
        it'.pos ≠ .at 0 := by
  match args with
  | [] => simp [Reader.readPrefixed, OptIt.nextFresh]
  | [] :: rest => exact ⟨_, rfl, Or.inr ⟨_, _, rfl, Or.inl rfl⟩, rfl, rfl, rfl, by simp⟩
  | [a] :: rest => exact ⟨_, rfl, Or.inr ⟨_, _, rfl, Or.inl rfl⟩, rfl, rfl, rfl, by simp⟩
  | [a, b] :: rest => exact ⟨_, rfl, Or.inr ⟨_, _, rfl, Or.inl rfl⟩, rfl, rfl, rfl, by simp⟩
  | (d :: c :: x :: xs) :: rest =>
    simp only [Reader.readPrefixed, OptIt.nextFresh]
    by_cases hd : d ≠ pfx
    · simp only [if_pos hd]
      rw [if_neg (by simp; exact hd)]
      exact ⟨_, rfl, Or.inr ⟨_, _, rfl, Or.inl rfl⟩, rfl, rfl, rfl, by simp⟩
    · simp only [if_neg hd]
      rw [if_pos (by simp; simpa using hd)]
      rcases findChar_cut (d :: c :: x :: xs) with ⟨h1, h2⟩ | ⟨e, h1, h2, h3⟩
      · simp only [h1, h2]
        exact ⟨_, rfl, Or.inr ⟨_, _, rfl, Or.inl rfl⟩, rfl, rfl, rfl, by simp⟩
      · simp only [h1, h3]
        refine ⟨_, rfl, Or.inr ⟨_, _, rfl, Or.inr ⟨e, rfl, by omega⟩⟩, ?_, ?_, rfl, by simp⟩
        · simp [OptIt.reader, equalFlag]
        · simp [OptIt.valueState, equalFlag]

theorem OptIt.next_spec (it : OptIt) (h : it.Ok) :
    match it.reader.readPrefixed it.pfx with
    | none => ∃ it', it.next = .ok (none, it') ∧ it'.Ok ∧ it'.reader = it.reader ∧ it'.pfx = it.pfx
    | some x => ∃ it', it.next = .ok (some x.flag, it') ∧ it'.Ok ∧ it'.reader = x.afterFlag ∧
        it'.valueState = (x.value, x.afterValue) ∧ it'.pfx = it.pfx ∧ it'.pos ≠ .at 0 := by
  obtain ⟨args, pos, pfx⟩ := it
  have fresh : ∀ args', (OptIt.mk args pos pfx).reader = ⟨[], args'⟩ →
      (OptIt.mk args pos pfx).next = .ok (OptIt.nextFresh args' pfx) →
      match (OptIt.mk args pos pfx).reader.readPrefixed pfx with
      | none => ∃ it', (OptIt.mk args pos pfx).next = .ok (none, it') ∧ it'.Ok ∧
          it'.reader = (OptIt.mk args pos pfx).reader ∧ it'.pfx = pfx
      | some x => ∃ it', (OptIt.mk args pos pfx).next = .ok (some x.flag, it') ∧ it'.Ok ∧
          it'.reader = x.afterFlag ∧ it'.valueState = (x.value, x.afterValue) ∧ it'.pfx = pfx ∧
          it'.pos ≠ .at 0 := by
    intro args' h1 h2
    have := OptIt.nextFresh_spec args' pfx
    rw [h1, h2]
    revert this
    cases (Reader.mk [] args').readPrefixed pfx with
    | none =>
      rintro ⟨h3, h4⟩
      exact ⟨_, by rw [h4], Or.inl rfl, by simp [OptIt.reader, h3], rfl⟩
    | some x =>
      rintro ⟨it', h3, h4⟩
      exact ⟨it', by rw [h3], h4⟩
  rcases h with h | ⟨a, rest, h1, h2⟩
  · simp only at h
    subst h
    exact fresh args rfl rfl
  · simp only at h1 h2
    subst h1
    rcases h2 with h2 | ⟨p, h2, hp⟩
    · subst h2
      exact fresh rest rfl rfl
    · subst h2
      exact fresh rest rfl rfl

theorem OptIt.nextValue_spec (it : OptIt) (h : it.Ok) :
    ∃ it', it.nextValue = .ok (it.valueState.1, it') ∧ it'.Ok ∧ it'.pfx = it.pfx ∧
      (it'.reader = it.valueState.2 ∨
        it.valueState.1 = some [] ∧ it.pos = .npos ∧ it'.reader = ⟨[], [] :: it.valueState.2.rest⟩) := by
  obtain ⟨args, pos, pfx⟩ := it
  rcases h with h | ⟨a, rest, h1, h2⟩
  · simp only at h
    subst h
    cases args with
    | nil => exact ⟨_, rfl, Or.inl rfl, rfl, Or.inl rfl⟩
    | cons a rest =>
      exact ⟨⟨a :: rest, .npos, pfx⟩, by simp [OptIt.nextValue, OptIt.valueState],
        Or.inr ⟨_, _, rfl, Or.inl rfl⟩, rfl, Or.inl rfl⟩
  · simp only at h1 h2
    subst h1
    rcases h2 with h2 | ⟨p, h2, hp⟩
    · subst h2
      cases rest with
      | nil => exact ⟨_, rfl, Or.inl rfl, rfl, Or.inl rfl⟩
      | cons b rest =>
        cases b with
        | nil => exact ⟨_, rfl, Or.inl rfl, rfl, Or.inr ⟨rfl, rfl, rfl⟩⟩
        | cons b bs => exact ⟨_, rfl, Or.inr ⟨_, _, rfl, Or.inr ⟨bs.length, rfl, by simp⟩⟩, rfl, Or.inl rfl⟩
    · subst h2
      refine ⟨⟨a :: rest, .npos, pfx⟩, ?_, Or.inr ⟨_, _, rfl, Or.inl rfl⟩, rfl, Or.inl rfl⟩
      simp [OptIt.nextValue, OptIt.valueState, hp]

theorem OptIt.remaining_spec (it : OptIt) (h : it.Ok) :
    it.remainingArguments = .ok (it.reader.unread, it) := by
  obtain ⟨args, pos, pfx⟩ := it
  rcases h with h | ⟨a, rest, h1, h2⟩
  · simp only at h
    subst h
    rfl
  · simp only at h1 h2
    subst h1
    rcases h2 with h2 | ⟨p, h2, hp⟩ <;> subst h2 <;> rfl

theorem OptIt.insert_spec (it : OptIt) (h : it.Ok) (new : List Str) :
    ∃ it', it.insert new = .ok it' ∧ it'.Ok ∧ it'.reader = ⟨[], new ++ it.reader.unread⟩ ∧ it'.pfx = it.pfx := by
  obtain ⟨args, pos, pfx⟩ := it
  rcases h with h | ⟨a, rest, h1, h2⟩
  · simp only at h
    subst h
    exact ⟨_, rfl, Or.inl rfl, rfl, rfl⟩
  · simp only at h1 h2
    subst h1
    rcases h2 with h2 | ⟨p, h2, hp⟩
    · subst h2
      exact ⟨_, rfl, Or.inr ⟨_, _, rfl, Or.inl rfl⟩, rfl, rfl⟩
    · subst h2
      exact ⟨_, rfl, Or.inr ⟨_, _, rfl, Or.inr ⟨p, rfl, hp⟩⟩, rfl, rfl⟩

/-- The SLASH and DASH reader has no pending short flags. -/
theorem OptIt.reader_pending (it : OptIt) : it.reader.pending = [] := by
  unfold OptIt.reader; split <;> rfl

/-! ### Both -/

/-- What has not been read. -/
def Iter.reader : Iter → Reader
  | .std it => it.reader
  | .opt it => it.reader

/-- Invariant. -/
def Iter.Ok : Iter → Prop
  | .std it => it.Ok
  | .opt it => it.Ok

/-- The prefix of the style, `none` for STANDARD. -/
def Iter.pfx : Iter → Option UInt8
  | .std _ => none
  | .opt it => some it.pfx

/-- Value and state after reading a value. -/
def Iter.valueState : Iter → Option Str × Reader
  | .std it => it.valueState
  | .opt it => it.valueState

/-- `next` on any iterator. -/
theorem Iter.next_spec (it : Iter) (h : it.Ok) :
    match it.reader.read it.pfx with
    | none => ∃ it', it.next = .ok (none, it') ∧ it'.Ok ∧ it'.reader = it.reader ∧ it'.pfx = it.pfx
    | some x => ∃ it', it.next = .ok (some x.flag, it') ∧ it'.Ok ∧ it'.reader = x.afterFlag ∧
        it'.valueState = (x.value, x.afterValue) ∧ it'.pfx = it.pfx := by
  cases it with
  | std it =>
    have := it.next_spec h
    simp only [Iter.reader, Iter.pfx, Reader.read]
    revert this
    cases it.reader.readStandard with
    | none =>
      rintro ⟨it', h1, h2, h3⟩
      exact ⟨.std it', by simp [Iter.next, h1], h2, h3, rfl⟩
    | some x =>
      rintro ⟨it', h1, h2, h3, h4⟩
      exact ⟨.std it', by simp [Iter.next, h1], h2, h3, h4, rfl⟩
  | opt it =>
    have := it.next_spec h
    simp only [Iter.reader, Iter.pfx, Reader.read]
    revert this
    cases it.reader.readPrefixed it.pfx with
    | none =>
      rintro ⟨it', h1, h2, h3, h4⟩
      exact ⟨.opt it', by simp [Iter.next, h1], h2, h3, by simp [Iter.pfx, h4]⟩
    | some x =>
      rintro ⟨it', h1, h2, h3, h4, h5, _⟩
      exact ⟨.opt it', by simp [Iter.next, h1], h2, h3, h4, by simp [Iter.pfx, h5]⟩

/-- `next_value` on any iterator. The second case of the last part is the defect of the SLASH and
DASH iterator: an empty argument taken as a value is read again. -/
theorem Iter.nextValue_spec (it : Iter) (h : it.Ok) :
    ∃ it', it.nextValue = .ok (it.valueState.1, it') ∧ it'.Ok ∧ it'.pfx = it.pfx ∧
      (it'.reader = it.valueState.2 ∨
        it.pfx ≠ none ∧ it.valueState.1 = some [] ∧ it'.reader = ⟨[], [] :: it.valueState.2.rest⟩) := by
  cases it with
  | std it =>
    obtain ⟨it', h1, h2, h3, _⟩ := it.nextValue_spec h
    exact ⟨.std it', by simp [Iter.nextValue, h1, Iter.valueState], h2, rfl, Or.inl h3⟩
  | opt it =>
    obtain ⟨it', h1, h2, h3, h4⟩ := it.nextValue_spec h
    refine ⟨.opt it', by simp [Iter.nextValue, h1, Iter.valueState], h2, by simp [Iter.pfx, h3], ?_⟩
    rcases h4 with h4 | ⟨h4, _, h5⟩
    · exact Or.inl h4
    · exact Or.inr ⟨by simp [Iter.pfx], h4, h5⟩

/-- `remaining_arguments` on any iterator. -/
theorem Iter.remaining_spec (it : Iter) (h : it.Ok) :
    ∃ it', it.remainingArguments = .ok (it.reader.unread, it') ∧ it'.Ok ∧
      it'.reader = ⟨[], it.reader.unread⟩ ∧ it'.pfx = it.pfx := by
  cases it with
  | std it =>
    obtain ⟨it', h1, h2, h3⟩ := it.remaining_spec h
    exact ⟨.std it', by simp [Iter.remainingArguments, h1, Iter.reader], h2, h3, rfl⟩
  | opt it =>
    have h1 := it.remaining_spec h
    refine ⟨.opt it, by simp [Iter.remainingArguments, h1, Iter.reader], h, ?_, rfl⟩
    have := it.reader_pending
    simp only [Iter.reader, Reader.unread, this, if_true]
    rw [← this]

/-- `insert` on any iterator. -/
theorem Iter.insert_spec (it : Iter) (h : it.Ok) (new : List Str) :
    ∃ it', it.insert new = .ok it' ∧ it'.Ok ∧ it'.reader = ⟨[], new ++ it.reader.unread⟩ ∧
      it'.pfx = it.pfx := by
  cases it with
  | std it =>
    obtain ⟨it', h1, h2, h3⟩ := it.insert_spec h new
    exact ⟨.std it', by simp [Iter.insert, h1], h2, h3, rfl⟩
  | opt it =>
    obtain ⟨it', h1, h2, h3, h4⟩ := it.insert_spec h new
    exact ⟨.opt it', by simp [Iter.insert, h1], h2, h3, by simp [Iter.pfx, h4]⟩

end Argos
