import Verif.Model.Parser
import Verif.Proofs.Iterators

/-! # Reading makes the command line shorter; looking ahead always ends -/

namespace Argos
open Spec

theorem posWeight_rest (pos : Pos) (a : Str) (rest : List Str) : argsWeight rest ≤ posWeight pos (a :: rest) := by
  simp only [posWeight]; omega

theorem posWeight_zero (args : List Str) : args ≠ [] → posWeight (.at 0) args + 1 = argsWeight args := by
  cases args with
  | nil => simp
  | cons a rest => simp [posWeight, argsWeight]; omega

theorem OptIt.nextFresh_weight (args : List Str) (pfx : UInt8) :
    match OptIt.nextFresh args pfx with
    | (none, it) => args = [] ∧ posWeight it.pos it.args = 0
    | (some _, it) => it.args = args ∧ args ≠ [] ∧ posWeight it.pos it.args + 1 < argsWeight args := by
  unfold OptIt.nextFresh
  cases args with
  | nil => exact ⟨rfl, rfl⟩
  | cons a rest =>
    have hw : argsWeight (a :: rest) = a.length + 3 + argsWeight rest := by simp [argsWeight]
    rcases a with _ | ⟨a0, _ | ⟨a1, _ | ⟨x, xs⟩⟩⟩
    · exact ⟨rfl, by simp, by rw [hw]; simp only [posWeight]; omega⟩
    · exact ⟨rfl, by simp, by rw [hw]; simp only [posWeight]; omega⟩
    · exact ⟨rfl, by simp, by rw [hw]; simp only [posWeight]; omega⟩
    · simp only
      by_cases c1 : a0 ≠ pfx
      · rw [if_pos c1]
        exact ⟨rfl, by simp, by rw [hw]; simp only [posWeight]; omega⟩
      · rw [if_neg c1]
        cases findChar c!"=" (a0 :: a1 :: x :: xs) with
        | none => exact ⟨rfl, by simp, by rw [hw]; simp only [posWeight]; omega⟩
        | some e => exact ⟨rfl, by simp, by rw [hw]; simp only [posWeight]; omega⟩

theorem StdIt.nextFresh_weight' (args : List Str) :
    match StdIt.nextFresh args with
    | (none, it) => args = [] ∧ posWeight it.pos it.args = 0
    | (some _, it) => it.args = args ∧ args ≠ [] ∧ posWeight it.pos it.args + 1 < argsWeight args := by
  unfold StdIt.nextFresh
  cases args with
  | nil => exact ⟨rfl, rfl⟩
  | cons a rest =>
    have hw : argsWeight (a :: rest) = a.length + 3 + argsWeight rest := by simp [argsWeight]
    rcases a with _ | ⟨a0, _ | ⟨a1, _ | ⟨x, xs⟩⟩⟩
    · exact ⟨rfl, by simp, by rw [hw]; simp only [posWeight]; omega⟩
    · exact ⟨rfl, by simp, by rw [hw]; simp only [posWeight]; omega⟩
    · exact ⟨rfl, by simp, by rw [hw]; simp only [posWeight]; omega⟩
    · simp only
      by_cases c1 : a0 ≠ c!"-"
      · rw [if_pos c1]
        exact ⟨rfl, by simp, by rw [hw]; simp only [posWeight]; omega⟩
      · rw [if_neg c1]
        by_cases c2 : a1 ≠ c!"-"
        · rw [if_pos c2]
          exact ⟨rfl, by simp, by rw [hw]; simp only [posWeight]; omega⟩
        · rw [if_neg c2]
          cases findChar c!"=" (a0 :: a1 :: x :: xs) with
          | none => exact ⟨rfl, by simp, by rw [hw]; simp only [posWeight]; omega⟩
          | some e => exact ⟨rfl, by simp, by rw [hw]; simp only [posWeight]; omega⟩

/-- The arguments held by an iterator, with the current one first. -/
def Iter.args : Iter → List Str
  | .std it => it.args
  | .opt it => it.args

theorem Iter.current_ok (it : Iter) (h : it.args ≠ []) : ∃ a, it.current = .ok a := by
  cases it with
  | std it => cases hi : it.args with
    | nil => simp [Iter.args, hi] at h
    | cons a r => exact ⟨a, by simp [Iter.current, StdIt.current, hi]⟩
  | opt it => cases hi : it.args with
    | nil => simp [Iter.args, hi] at h
    | cons a r => exact ⟨a, by simp [Iter.current, OptIt.current, hi]⟩

theorem Iter.next_weight (it : Iter) {a : Option Str} {it' : Iter} (h : it.next = .ok (a, it')) :
    (a = none → it'.weight ≤ it.weight) ∧ (∀ x, a = some x → it'.weight < it.weight ∧ it'.args ≠ []) := by
  cases it with
  | std it =>
    simp only [Iter.next, Outcome.bind_eq_ok, Outcome.pure_eq, Outcome.ok.injEq, Prod.mk.injEq] at h
    obtain ⟨⟨a0, i0⟩, h1, h2, h3⟩ := h
    subst h2 h3
    have h := h1
    unfold StdIt.next at h
    simp only [Iter.weight, Iter.args]
    have fresh : ∀ (rest : List Str), StdIt.nextFresh rest = (a0, i0) → ∀ w, argsWeight rest ≤ w + 1 →
        (a0 = none → posWeight i0.pos i0.args ≤ w) ∧
        (∀ x, a0 = some x → posWeight i0.pos i0.args < w ∧ i0.args ≠ []) := by
      intro rest hr w hw
      have := StdIt.nextFresh_weight' rest
      rw [hr] at this
      cases a0 with
      | none => simp only at this; exact ⟨fun _ => by omega, fun _ h => by simp at h⟩
      | some x =>
        simp only at this
        exact ⟨fun h => by simp at h, fun _ _ => ⟨by omega, by rw [this.1]; exact this.2.1⟩⟩
    split at h
    · rename_i hp
      simp only [Outcome.ok.injEq] at h
      refine fresh _ h _ ?_
      rw [hp]
      cases hargs : it.args with
      | nil => simp [argsWeight]
      | cons x xs => have := posWeight_zero (x :: xs) (by simp); omega
    · rename_i p hp
      split at h
      · simp at h
      · rename_i x rest hargs
        have hle := posWeight_rest it.pos x rest
        rw [hargs]
        split at h
        · rename_i c hc
          split at h
          · simp at h
          · split at h
            · simp only [Outcome.ok.injEq, Prod.mk.injEq] at h
              obtain ⟨rfl, rfl⟩ := h
              have hlt : p + 1 < x.length := by
                rw [List.getElem?_eq_some_iff] at hc
                exact hc.1
              refine ⟨fun h => by simp at h, fun _ _ => ⟨?_, by simp⟩⟩
              rw [hp]
              by_cases hpx : p + 2 = x.length
              · rw [if_pos hpx]; simp only [posWeight]; omega
              · rw [if_neg hpx]; simp only [posWeight]; omega
            · simp only [Outcome.ok.injEq] at h
              exact fresh _ h _ (by omega)
        · simp only [Outcome.ok.injEq] at h
          exact fresh _ h _ (by omega)
    · rename_i hp
      split at h
      · simp at h
      · rename_i x rest hargs
        simp only [Outcome.ok.injEq] at h
        refine fresh _ h _ ?_
        rw [hargs]
        have := posWeight_rest it.pos x rest
        omega
  | opt it =>
    simp only [Iter.next, Outcome.bind_eq_ok, Outcome.pure_eq, Outcome.ok.injEq, Prod.mk.injEq] at h
    obtain ⟨⟨a0, i0⟩, h1, h2, h3⟩ := h
    subst h2 h3
    have h := h1
    unfold OptIt.next at h
    simp only [Iter.weight, Iter.args]
    have fresh : ∀ (rest : List Str), OptIt.nextFresh rest it.pfx = (a0, i0) → ∀ w, argsWeight rest ≤ w + 1 →
        (a0 = none → posWeight i0.pos i0.args ≤ w) ∧
        (∀ x, a0 = some x → posWeight i0.pos i0.args < w ∧ i0.args ≠ []) := by
      intro rest hr w hw
      have := OptIt.nextFresh_weight rest it.pfx
      rw [hr] at this
      cases a0 with
      | none => simp only at this; exact ⟨fun _ => by omega, fun _ h => by simp at h⟩
      | some x =>
        simp only at this
        exact ⟨fun h => by simp at h, fun _ _ => ⟨by omega, by rw [this.1]; exact this.2.1⟩⟩
    split at h
    · rename_i hp
      simp only [Outcome.ok.injEq] at h
      refine fresh _ h _ ?_
      rw [hp]
      cases hargs : it.args with
      | nil => simp [argsWeight]
      | cons x xs => have := posWeight_zero (x :: xs) (by simp); omega
    · split at h
      · simp at h
      · rename_i x rest hargs
        simp only [Outcome.ok.injEq] at h
        refine fresh _ h _ ?_
        rw [hargs]
        have := posWeight_rest it.pos x rest
        omega

theorem Iter.nextValue_weight (it : Iter) {a : Option Str} {it' : Iter} (h : it.nextValue = .ok (a, it')) :
    (a = none → it'.weight ≤ it.weight) ∧ (∀ x, a = some x → it'.weight < it.weight ∧ it'.args ≠ []) := by
  cases it with
  | std it =>
    simp only [Iter.nextValue, Outcome.bind_eq_ok, Outcome.pure_eq, Outcome.ok.injEq, Prod.mk.injEq] at h
    obtain ⟨⟨a0, i0⟩, h1, h2, h3⟩ := h
    subst h2 h3
    have h := h1
    unfold StdIt.nextValue at h
    simp only [Iter.weight, Iter.args]
    split at h
    · simp only [Outcome.ok.injEq, Prod.mk.injEq] at h
      obtain ⟨rfl, rfl⟩ := h
      exact ⟨fun _ => Nat.le_refl _, fun _ h => by simp at h⟩
    · rename_i x rest hargs
      rw [hargs]
      split at h
      · rename_i p hp
        split at h
        · simp only [Outcome.ok.injEq, Prod.mk.injEq] at h
          obtain ⟨rfl, rfl⟩ := h
          rw [hp]
          refine ⟨fun h => by simp at h, fun _ _ => ⟨?_, by simp⟩⟩
          cases p with
          | zero => simp only [posWeight]; omega
          | succ p => simp only [posWeight]; omega
        · simp at h
      · rename_i hp
        split at h
        · simp only [Outcome.ok.injEq, Prod.mk.injEq] at h
          obtain ⟨rfl, rfl⟩ := h
          exact ⟨fun _ => by simp [posWeight], fun _ h => by simp at h⟩
        · simp only [Outcome.ok.injEq, Prod.mk.injEq] at h
          obtain ⟨rfl, rfl⟩ := h
          rw [hp]
          refine ⟨fun h => by simp at h, fun _ _ => ⟨?_, by simp⟩⟩
          simp [posWeight, argsWeight]
          try omega
  | opt it =>
    simp only [Iter.nextValue, Outcome.bind_eq_ok, Outcome.pure_eq, Outcome.ok.injEq, Prod.mk.injEq] at h
    obtain ⟨⟨a0, i0⟩, h1, h2, h3⟩ := h
    subst h2 h3
    have h := h1
    unfold OptIt.nextValue at h
    simp only [Iter.weight, Iter.args]
    split at h
    · simp only [Outcome.ok.injEq, Prod.mk.injEq] at h
      obtain ⟨rfl, rfl⟩ := h
      exact ⟨fun _ => Nat.le_refl _, fun _ h => by simp at h⟩
    · rename_i x rest hargs
      rw [hargs]
      split at h
      · rename_i p hp
        split at h
        · simp only [Outcome.ok.injEq, Prod.mk.injEq] at h
          obtain ⟨rfl, rfl⟩ := h
          rw [hp]
          refine ⟨fun h => by simp at h, fun _ _ => ⟨?_, by simp⟩⟩
          cases p with
          | zero => simp only [posWeight]; omega
          | succ p => simp only [posWeight]; omega
        · simp at h
      · rename_i hp
        split at h
        · simp only [Outcome.ok.injEq, Prod.mk.injEq] at h
          obtain ⟨rfl, rfl⟩ := h
          exact ⟨fun _ => by simp [posWeight], fun _ h => by simp at h⟩
        · rename_i b r'
          simp only [Outcome.ok.injEq, Prod.mk.injEq] at h
          obtain ⟨rfl, rfl⟩ := h
          rw [hp]
          refine ⟨fun h => by simp at h, fun _ _ => ⟨?_, by simp⟩⟩
          cases hb : b.length with
          | zero => simp [posWeight, argsWeight, hb]; try omega
          | succ k => simp [posWeight, argsWeight, hb]; try omega

theorem Iter.next_ok (it : Iter) (h : it.Ok) : ∃ a it', it.next = .ok (a, it') ∧ it'.Ok ∧ it'.pfx = it.pfx := by
  have := it.next_spec h
  revert this
  cases it.reader.read it.pfx with
  | none => rintro ⟨it', h1, h2, _, h4⟩; exact ⟨_, _, h1, h2, h4⟩
  | some x => rintro ⟨it', h1, h2, _, _, h4⟩; exact ⟨_, _, h1, h2, h4⟩

theorem Iter.nextValue_ok (it : Iter) (h : it.Ok) :
    ∃ a it', it.nextValue = .ok (a, it') ∧ it'.Ok ∧ it'.pfx = it.pfx := by
  obtain ⟨it', h1, h2, h3, _⟩ := it.nextValue_spec h
  exact ⟨_, _, h1, h2, h3⟩

namespace Parser

theorem countArgsOnly_ok (s : PState) (lo : Nat) : ∀ (fuel : Nat) (it : Iter) (r : Nat), it.Ok → it.weight < fuel →
    ∃ n, countArgsOnly s lo fuel it r = .ok n := by
  intro fuel
  induction fuel with
  | zero => intro it r _ h; omega
  | succ fuel ih =>
    intro it r hok hw
    obtain ⟨a, it', h1, h2, _⟩ := it.nextValue_ok hok
    have hwt := it.nextValue_weight h1
    unfold countArgsOnly
    rw [h1]
    cases a with
    | none => exact ⟨r, rfl⟩
    | some a =>
      have hwt := hwt.2 a rfl
      simp only
      split
      · exact ⟨r, rfl⟩
      · exact ih it' (r + 1) h2 (by omega)

theorem countLoop_ok (s : PState) (lo : Nat) : ∀ (fuel : Nat) (it : Iter) (r : Nat), it.Ok → it.weight < fuel →
    ∃ n, countLoop s lo fuel it r = .ok n := by
  intro fuel
  induction fuel with
  | zero => intro it r _ h; omega
  | succ fuel ih =>
    intro it r hok hw
    obtain ⟨a, it', h1, h2, _⟩ := it.next_ok hok
    have hwt := it.next_weight h1
    unfold countLoop
    rw [h1]
    cases a with
    | none =>
      have hwt := hwt.1 rfl
      simp only
      exact countArgsOnly_ok s lo _ it' r h2 (by omega)
    | some a =>
      have hwt := hwt.2 a rfl
      simp only
      split
      · rename_i o ho
        by_cases harg : o.argument.isEmpty = true
        · simp only [harg, if_true]
          split
          · exact ⟨r, rfl⟩
          · exact ⟨r, rfl⟩
          · exact ⟨r, rfl⟩
          · exact countArgsOnly_ok s lo _ it' r h2 (by omega)
          · exact ih it' r h2 (by omega)
        · simp only [harg]
          obtain ⟨v, it2, g1, g2, _⟩ := it'.nextValue_ok h2
          have gw := it'.nextValue_weight g1
          have gw' : it2.weight ≤ it'.weight := by
            cases v with
            | none => exact gw.1 rfl
            | some x => have := gw.2 x rfl; omega
          rw [g1]
          simp only [Bool.false_eq_true, if_false]
          split
          · exact ⟨r, rfl⟩
          · exact ⟨r, rfl⟩
          · exact ⟨r, rfl⟩
          · exact countArgsOnly_ok s lo _ it2 r g2 (by omega)
          · exact ih it2 r g2 (by omega)
      · split
        · exact ih it' r h2 (by omega)
        · split
          · exact ⟨r, rfl⟩
          · exact ih it' (r + 1) h2 (by omega)

/-- Looking ahead always ends with a number. -/
theorem countArguments_ok (s : PState) (h : s.iter.Ok) : ∃ n, countArguments s = .ok n :=
  countLoop_ok s _ _ _ _ h (by omega)

end Parser
end Argos
