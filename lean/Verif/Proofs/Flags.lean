import Verif.Spec.Flags
import Verif.Proofs.Insert
import Verif.Proofs.ReorderParser

/-! # Several flags in one argument, or in an argument each -/

namespace Argos
open Spec

/-! ### Iterators that read the same -/

/-- An argument with short flags. -/
def Short (a : Str) : Prop := ∃ c, a[1]? = some c ∧ c ≠ c!"-"

/-- The iterators read the same from now on: they differ only in the part of the current argument that has been read. `P` holds for the
flags that haven't been read. -/
inductive Beside (P : Str → Prop) : Iter → Iter → Prop
  | refl (it : Iter) : Beside P it it
  | after (a b : Str) (rest : List Str) : Beside P (.std ⟨a :: rest, .npos⟩) (.std ⟨b :: rest, .npos⟩)
  | inside {a b : Str} {rest : List Str} {k l : Nat} : k + 2 ≤ a.length → l + 2 ≤ b.length → a.drop (k + 2) = b.drop (l + 2) → Short a → Short b →
      P (a.drop (k + 2)) → Beside P (.std ⟨a :: rest, .at (k + 2)⟩) (.std ⟨b :: rest, .at (l + 2)⟩)
  | afterOpt (a b : Str) (rest : List Str) (x : UInt8) : Beside P (.opt ⟨a :: rest, .npos, x⟩) (.opt ⟨b :: rest, .npos, x⟩)

theorem Beside.imp {P Q : Str → Prop} {i j : Iter} (h : Beside P i j) (hi : ∀ w, P w → Q w) : Beside Q i j := by
  cases h with
  | refl => exact .refl _
  | after => exact .after _ _ _
  | inside h1 h2 h3 h4 h5 h6 => exact .inside h1 h2 h3 h4 h5 (hi _ h6)
  | afterOpt => exact .afterOpt _ _ _ _

theorem Beside.nextValue {P Q : Str → Prop} {i j : Iter} (h : Beside P i j) :
    SameEnd (fun x y => x.1 = y.1 ∧ Beside Q x.2 y.2) i.nextValue j.nextValue := by
  cases h with
  | refl => exact (SameEnd.refl _).imp fun x y e => by subst e; exact ⟨rfl, .refl _⟩
  | after a b rest =>
    cases rest with
    | nil => exact ⟨rfl, .refl _⟩
    | cons c rest => exact ⟨rfl, .refl _⟩
  | @inside a b rest k l h1 h2 h3 h4 h5 h6 =>
    simp only [Iter.nextValue, StdIt.nextValue, if_pos h1, if_pos h2, Outcome.bind_ok]
    exact ⟨by simp [h3], .after _ _ _⟩
  | afterOpt a b rest x =>
    cases rest with
    | nil => exact ⟨rfl, .refl _⟩
    | cons c rest => exact ⟨rfl, .refl _⟩

/-- Dividing arguments with several flags. -/
theorem Beside.split {P : Str → Prop} (hP : ∀ w, P w → P []) {i j : StdIt} (h : Beside P (.std i) (.std j)) :
    (i.splitConcatenatedFlags = j.splitConcatenatedFlags ∧ i = j) ∨ ∃ a b rest pos pos', i.splitConcatenatedFlags = .ok ⟨a :: rest, pos⟩ ∧
      j.splitConcatenatedFlags = .ok ⟨b :: rest, pos'⟩ ∧ pos ≠ .at 0 ∧ pos' ≠ .at 0 ∧
        ∀ rest', Beside P (.std ⟨a :: rest', pos⟩) (.std ⟨b :: rest', pos'⟩) := by
  generalize hi : Iter.std i = x at h
  generalize hj : Iter.std j = y at h
  cases h with
  | afterOpt => cases hi
  | refl => subst hi; injection hj with hj; exact Or.inl ⟨by rw [hj], hj.symm⟩
  | after a b rest =>
    injection hi with hi; injection hj with hj
    subst hi; subst hj
    exact Or.inr ⟨a, b, rest, .npos, .npos, rfl, rfl, by simp, by simp, fun _ => .after _ _ _⟩
  | @inside a b rest k l h1 h2 h3 h4 h5 h6 =>
    injection hi with hi; injection hj with hj
    subst hi; subst hj
    refine Or.inr ?_
    obtain ⟨c, hc, hcd⟩ := h4
    obtain ⟨e, he, hed⟩ := h5
    have hlen : a.length - (k + 2) = b.length - (l + 2) := by
      have := congrArg List.length h3
      simpa using this
    simp only [StdIt.splitConcatenatedFlags]
    by_cases hk : k + 1 + 1 ≥ a.length
    · have hl : l + 1 + 1 ≥ b.length := by omega
      rw [if_pos hk, if_pos hl]
      exact ⟨a, b, rest, _, _, rfl, rfl, by simp, by simp, fun _ => .inside h1 h2 h3 ⟨c, hc, hcd⟩ ⟨e, he, hed⟩ h6⟩
    · have hl : ¬ l + 1 + 1 ≥ b.length := by omega
      rw [if_neg hk, if_neg hl, hc, he]
      simp only
      rw [if_neg hcd, if_neg hed]
      refine ⟨a.take (k + 2), b.take (l + 2), (c!"-" :: a.drop (k + 2)) :: rest, .at (k + 2), .at (l + 2), rfl, by rw [h3], by simp, by simp, fun _ => ?_⟩
      have e1 : (a.take (k + 2)).drop (k + 2) = [] := by simp
      have e2 : (b.take (l + 2)).drop (l + 2) = [] := by simp
      refine .inside (by simp; omega) (by simp; omega) (by rw [e1, e2]) ⟨c, ?_, hcd⟩ ⟨e, ?_, hed⟩ (by rw [e1]; exact hP _ h6)
      · rw [List.getElem?_take, if_pos (by omega)]; exact hc
      · rw [List.getElem?_take, if_pos (by omega)]; exact he

theorem Beside.remaining {P : Str → Prop} (hP : ∀ w, P w → P []) {i j : Iter} (h : Beside P i j) :
    SameEnd (fun x y => x.1 = y.1 ∧ Beside P x.2 y.2) i.remainingArguments j.remainingArguments := by
  have hrefl : ∀ i : Iter, SameEnd (fun x y => x.1 = y.1 ∧ Beside P x.2 y.2) i.remainingArguments i.remainingArguments := fun i =>
    (SameEnd.refl _).imp fun x y e => by subst e; exact ⟨rfl, .refl _⟩
  cases i with
  | opt i =>
    cases h with
    | refl => exact hrefl _
    | afterOpt a b rest x => exact ⟨rfl, .afterOpt _ _ _ _⟩
  | std i =>
    cases j with
    | opt j => cases h
    | std j =>
      rcases h.split hP with ⟨_, rfl⟩ | ⟨a, b, rest, pos, pos', e1, e2, hp, hp', hb⟩
      · exact hrefl _
      · simp only [Iter.remainingArguments, StdIt.remainingArguments, e1, e2, Outcome.bind_ok, if_neg hp, if_neg hp']
        exact ⟨rfl, hb rest⟩

theorem Beside.insert {P : Str → Prop} (hP : ∀ w, P w → P []) {i j : Iter} (h : Beside P i j) (new : List Str) :
    SameEnd (Beside P) (i.insert new) (j.insert new) := by
  have hrefl : ∀ i : Iter, SameEnd (Beside P) (i.insert new) (i.insert new) := fun i =>
    (SameEnd.refl _).imp fun x y e => by subst e; exact .refl _
  cases i with
  | opt i =>
    cases h with
    | refl => exact hrefl _
    | afterOpt a b rest x => exact Beside.afterOpt _ _ _ _
  | std i =>
    cases j with
    | opt j => cases h
    | std j =>
      rcases h.split hP with ⟨_, rfl⟩ | ⟨a, b, rest, pos, pos', e1, e2, hp, hp', hb⟩
      · exact hrefl _
      · simp only [Iter.insert, StdIt.insert, e1, e2, Outcome.bind_ok, if_neg hp, if_neg hp']
        exact hb _

theorem Beside.current {P : Str → Prop} {i j : Iter} (h : Beside P i j) : SameEnd (fun _ _ => True) i.current j.current := by
  cases h with
  | refl => exact (SameEnd.refl _).imp fun _ _ _ => trivial
  | after => trivial
  | inside => trivial
  | afterOpt => trivial

/-- What is read next is the same; unless it's one of the flags, the iterators agree afterwards. -/
theorem Beside.next {P : Str → Prop} {i j : Iter} (h : Beside P i j) :
    i.next = j.next ∨ ∃ c w i' j', P (c :: w) ∧ i.next = .ok (some [c!"-", c], i') ∧ j.next = .ok (some [c!"-", c], j') ∧
      Beside (fun v => v = w) i' j' := by
  cases h with
  | refl => exact Or.inl rfl
  | after => exact Or.inl rfl
  | afterOpt => exact Or.inl rfl
  | @inside a b rest k l h1 h2 h3 h4 h5 h6 =>
    obtain ⟨c, hc, hcd⟩ := h4
    obtain ⟨e, he, hed⟩ := h5
    have hlen : a.length - (k + 2) = b.length - (l + 2) := by
      have := congrArg List.length h3
      simpa using this
    by_cases hk : k + 2 < a.length
    · have hl : l + 2 < b.length := by omega
      refine Or.inr ⟨a[k + 2], a.drop (k + 3), ?_⟩
      have ea : a[k + 2]? = some a[k + 2] := by simp [hk]
      have eb : b[l + 2]? = some a[k + 2] := by
        have e1 : (a.drop (k + 2))[0]? = (b.drop (l + 2))[0]? := by rw [h3]
        simp only [List.getElem?_drop, Nat.add_zero] at e1
        rw [← e1, ea]
      have hd : a.drop (k + 3) = b.drop (l + 3) := by
        have := congrArg List.tail h3
        simpa [List.tail_drop] using this
      refine ⟨.std ⟨a :: rest, if k + 1 + 2 = a.length then .npos else .at (k + 1 + 2)⟩,
        .std ⟨b :: rest, if l + 1 + 2 = b.length then .npos else .at (l + 1 + 2)⟩, by rw [← List.drop_eq_getElem_cons hk]; exact h6, ?_, ?_, ?_⟩
      · simp only [Iter.next, StdIt.next, ea, hc, if_pos hcd, Outcome.bind_ok]; rfl
      · simp only [Iter.next, StdIt.next, eb, he, if_pos hed, Outcome.bind_ok]; rfl
      · by_cases hq : k + 1 + 2 = a.length
        · rw [if_pos hq, if_pos (show l + 1 + 2 = b.length by omega)]
          exact .after _ _ _
        · rw [if_neg hq, if_neg (show ¬ l + 1 + 2 = b.length by omega)]
          exact .inside (by omega) (by omega) hd ⟨c, hc, hcd⟩ ⟨e, he, hed⟩ rfl
    · left
      have ea : a[k + 2]? = none := by simp; omega
      have eb : b[l + 2]? = none := by simp; omega
      simp only [Iter.next, StdIt.next, ea, eb]

theorem Beside.weight {P : Str → Prop} {i j : Iter} (h : Beside P i j) : i.weight = j.weight := by
  cases h with
  | refl => rfl
  | after => rfl
  | afterOpt => rfl
  | @inside a b rest k l h1 h2 h3 h4 h5 h6 =>
    have hlen : a.length - (k + 2) = b.length - (l + 2) := by
      have := congrArg List.length h3
      simpa using this
    simp only [Iter.weight, posWeight]
    omega

/-! ### The iterators right after the first flag -/

/-- The first flag of `-pq…` has been read on one side, and the argument `-p` on the other. -/
inductive First (p q : UInt8) (qs : Str) : Iter → Iter → Prop
  | whole (rest : List Str) : First p q qs (.std ⟨(c!"-" :: p :: q :: qs) :: rest, .at 2⟩) (.std ⟨[c!"-", p] :: (c!"-" :: q :: qs) :: rest, .npos⟩)
  | divided (rest : List Str) : First p q qs (.std ⟨[c!"-", p] :: rest, .at 2⟩) (.std ⟨[c!"-", p] :: rest, .npos⟩)

theorem First.next {p q : UInt8} {qs : Str} (hp : p ≠ c!"-") (hq : q ≠ c!"-") {i j : Iter} (h : First p q qs i j) :
    i.next = j.next ∨ ∃ i' j', i.next = .ok (some [c!"-", q], i') ∧ j.next = .ok (some [c!"-", q], j') ∧ Beside (fun v => v = qs) i' j' := by
  cases h with
  | divided rest => exact Or.inl rfl
  | whole rest =>
    refine Or.inr ?_
    cases qs with
    | nil =>
      refine ⟨.std ⟨[c!"-", p, q] :: rest, .npos⟩, .std ⟨[c!"-", q] :: rest, .npos⟩, ?_, rfl, .after _ _ _⟩
      simp [Iter.next, StdIt.next, hp]
    | cons y ys =>
      refine ⟨.std ⟨(c!"-" :: p :: q :: y :: ys) :: rest, .at (1 + 2)⟩, .std ⟨(c!"-" :: q :: y :: ys) :: rest, .at (0 + 2)⟩, ?_, ?_, ?_⟩
      · simp [Iter.next, StdIt.next, hp]
      · simp [Iter.next, StdIt.next, StdIt.nextFresh, hq]
      · exact .inside (by simp) (by simp) rfl ⟨p, rfl, hp⟩ ⟨q, rfl, hq⟩ rfl

theorem First.insert {p q : UInt8} {qs : Str} (hp : p ≠ c!"-") {i j : Iter} (h : First p q qs i j) (new : List Str) :
    ∃ rest, i.insert new = .ok (.std ⟨[c!"-", p] :: rest, .at 2⟩) ∧ j.insert new = .ok (.std ⟨[c!"-", p] :: rest, .npos⟩) := by
  cases h with
  | divided rest => exact ⟨new ++ rest, rfl, rfl⟩
  | whole rest =>
    refine ⟨new ++ (c!"-" :: q :: qs) :: rest, ?_, rfl⟩
    simp [Iter.insert, StdIt.insert, StdIt.splitConcatenatedFlags, hp]

/-! ### Counting -/

namespace Parser
open ParserM

theorem countArgsOnly_beside {P : Str → Prop} (s : PState) (lo fuel : Nat) : ∀ {i j : Iter} (_ : Beside P i j) (r : Nat),
    countArgsOnly s lo fuel i r = countArgsOnly s lo fuel j r := by
  induction fuel with
  | zero => intros; rfl
  | succ fuel ih =>
    intro i j h r
    have hv := h.nextValue (Q := P)
    unfold countArgsOnly
    revert hv
    generalize i.nextValue = x
    generalize j.nextValue = y
    intro hv
    cases x <;> cases y <;> first | exact absurd hv id | skip
    · rename_i x y
      obtain ⟨x, i'⟩ := x
      obtain ⟨y, j'⟩ := y
      obtain ⟨rfl, hb⟩ := hv
      cases x with
      | none => rfl
      | some x => simp only [ih hb]
    · exact congrArg _ hv
    · rfl
    · exact congrArg _ hv
    · rfl
    · rfl

theorem countLoop_beside {P : Str → Prop} (s : PState) (lo fuel : Nat) : ∀ {i j : Iter} (_ : Beside P i j) (r : Nat),
    countLoop s lo fuel i r = countLoop s lo fuel j r := by
  induction fuel generalizing P with
  | zero => intros; rfl
  | succ fuel ih =>
    intro i j h r
    unfold countLoop
    rcases h.next with e | ⟨c, w, i', j', _, e1, e2, hb⟩
    · rw [e]
    · rw [e1, e2]
      simp only
      split
      · rename_i o ho
        by_cases hoa : o.argument.isEmpty = true
        · simp only [if_pos hoa, ih hb, countArgsOnly_beside s lo (fuel + 1) hb]
        · simp only [if_neg hoa]
          have hv := hb.nextValue (Q := fun _ => True)
          revert hv
          generalize i'.nextValue = x
          generalize j'.nextValue = y
          intro hv
          cases x <;> cases y <;> first | exact absurd hv id | skip
          · rename_i x y
            obtain ⟨x, i'⟩ := x
            obtain ⟨y, j'⟩ := y
            obtain ⟨rfl, hb⟩ := hv
            simp only [ih hb, countArgsOnly_beside s lo (fuel + 1) hb]
          · exact congrArg _ hv
          · rfl
          · exact congrArg _ hv
          · rfl
          · rfl
      · simp only [ih hb]

/-- Counting doesn't depend on the iterator and the output of the parser. -/
theorem countArgsOnly_any (s : PState) (i : Iter) (l : List Event) (lo fuel : Nat) (it : Iter) (r : Nat) :
    countArgsOnly { s with iter := i, log := l } lo fuel it r = countArgsOnly s lo fuel it r := by
  induction fuel generalizing it r with
  | zero => rfl
  | succ fuel ih =>
    have e : ∀ k arg, countStops { s with iter := i, log := l } lo k arg = countStops s lo k arg := fun _ _ => rfl
    simp only [countArgsOnly, e, ih]

theorem countLoop_any (s : PState) (i : Iter) (l : List Event) (lo fuel : Nat) (it : Iter) (r : Nat) :
    countLoop { s with iter := i, log := l } lo fuel it r = countLoop s lo fuel it r := by
  induction fuel generalizing it r with
  | zero => rfl
  | succ fuel ih =>
    have e : ∀ k arg, countStops { s with iter := i, log := l } lo k arg = countStops s lo k arg := fun _ _ => rfl
    simp only [countLoop, e, ih, countArgsOnly_any]

theorem countArguments_eq (s : PState) (i : Iter) (l : List Event) : countArguments { s with iter := i, log := l } =
    countLoop s (Counter.getMinMaxCount s.command.arguments).1 (i.weight + 1) i 0 := by
  unfold countArguments
  exact countLoop_any s i l _ _ _ _

theorem countArguments_beside {P : Str → Prop} {i j : Iter} (h : Beside P i j) (s : PState) (l l' : List Event) :
    countArguments { s with iter := i, log := l } = countArguments { s with iter := j, log := l' } := by
  rw [countArguments_eq, countArguments_eq, h.weight, countLoop_beside s _ _ h]

/-- More fuel makes no difference. -/
theorem countArgsOnly_fuel (s : PState) (lo fuel : Nat) : ∀ {it : Iter} {r n : Nat}, countArgsOnly s lo fuel it r = .ok n →
    countArgsOnly s lo (fuel + 1) it r = .ok n := by
  induction fuel with
  | zero => intro it r n h; simp [countArgsOnly] at h
  | succ fuel ih =>
    intro it r n h
    unfold countArgsOnly at h ⊢
    split at h
    · exact h
    · split at h
      · rename_i hc
        rw [if_pos hc]
        exact h
      · rename_i hc
        rw [if_neg hc]
        exact ih h
    all_goals simp at h

theorem countLoop_fuel (s : PState) (lo fuel : Nat) : ∀ {it : Iter} {r n : Nat}, countLoop s lo fuel it r = .ok n →
    countLoop s lo (fuel + 1) it r = .ok n := by
  induction fuel with
  | zero => intro it r n h; simp [countLoop] at h
  | succ fuel ih =>
    intro it r n h
    unfold countLoop at h ⊢
    cases hn : it.next with
    | ok p =>
      obtain ⟨a, it'⟩ := p
      rw [hn] at h
      cases a with
      | none => exact countArgsOnly_fuel s lo _ h
      | some a =>
        simp only at h ⊢
        split at h
        · rename_i o ho
          revert h
          generalize (if o.argument.isEmpty = true then (Outcome.ok it' : Outcome Iter) else _) = x
          intro h
          cases x with
          | ok it2 =>
            simp only at h ⊢
            split at h
            · exact h
            · exact h
            · exact h
            · exact countArgsOnly_fuel s lo _ h
            · exact ih h
          | _ => simp at h
        · rename_i ho
          split at h
          · rename_i hc
            rw [if_pos hc]; exact ih h
          · rename_i hc
            rw [if_neg hc]
            split at h
            · rename_i hd
              rw [if_pos hd]; exact h
            · rename_i hd
              rw [if_neg hd]; exact ih h
    | _ => rw [hn] at h; simp at h

theorem countArguments_first (p : UInt8) (rest : List Str) (s : PState) (l l' : List Event) :
    countArguments { s with iter := .std ⟨[c!"-", p] :: rest, .at 2⟩, log := l } = countArguments { s with iter := .std ⟨[c!"-", p] :: rest, .npos⟩, log := l' } := by
  rw [countArguments_eq, countArguments_eq]
  have hw : (Iter.std ⟨[c!"-", p] :: rest, .at 2⟩).weight = (Iter.std ⟨[c!"-", p] :: rest, .npos⟩).weight + 1 := by
    simp only [Iter.weight, posWeight]
    simp; omega
  obtain ⟨n, hn⟩ := countLoop_ok s (Counter.getMinMaxCount s.command.arguments).1 ((Iter.std ⟨[c!"-", p] :: rest, .npos⟩).weight + 1)
    (Iter.std ⟨[c!"-", p] :: rest, .npos⟩) 0 (Or.inr ⟨_, _, rfl, Or.inl rfl⟩) (by omega)
  rw [hw, hn]
  have e : ∀ fuel, countLoop s (Counter.getMinMaxCount s.command.arguments).1 (fuel + 1) (Iter.std ⟨[c!"-", p] :: rest, .at 2⟩) 0 =
      countLoop s (Counter.getMinMaxCount s.command.arguments).1 (fuel + 1) (Iter.std ⟨[c!"-", p] :: rest, .npos⟩) 0 := by
    intro fuel
    unfold countLoop
    rfl
  rw [e]
  exact countLoop_fuel s _ _ hn

end Parser
end Argos
