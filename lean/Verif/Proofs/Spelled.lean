import Verif.Proofs.FlagsParser
import Verif.Spec.Phrase

/-! # The spellings of an option and its value -/

namespace Argos

open Spec

theorem OptIt.next_nothing {it it' : OptIt} (h : it.remainingArguments = .ok ([], it')) (x : Str) (post : List Str) :
    (it.more (x :: post)).next = .ok (OptIt.nextFresh (x :: post) it.pfx) := by
  obtain ⟨args, pos, pf⟩ := it
  rcases OptIt.nothing h with ⟨h4, h5⟩ | ⟨a, h4, h5⟩ <;> simp only at h4 h5 <;> subst h4
  · subst h5; rfl
  · simp only [OptIt.more, OptIt.next, List.cons_append, List.nil_append]
    exact if_neg h5

theorem findChar_none {c : UInt8} {a : Str} (h : c ∉ a) : findChar c a = none := by
  induction a with
  | nil => rfl
  | cons x a ih =>
    simp only [List.mem_cons, not_or] at h
    simp only [findChar]
    rw [if_neg (fun e => h.1 e.symm), ih h.2]
    rfl

theorem findChar_first {c : UInt8} {a : Str} (h : c ∉ a) (b : Str) : findChar c (a ++ c :: b) = some a.length := by
  induction a with
  | nil => simp [findChar]
  | cons x a ih =>
    simp only [List.mem_cons, not_or] at h
    simp only [findChar, List.cons_append]
    rw [if_neg (fun e => h.1 e.symm), ih h.2]
    rfl

/-- The iterator after a flag has been read for which the value is `value`. -/
theorem _root_.Argos.Spelled.next {value : Str} {words : List Str} {flag : Str} (h : Spelled value words flag) (post : List Str) :
    ∃ it : StdIt, StdIt.nextFresh (words ++ post) = (some flag, it) ∧ (∃ a, it.nextValue = .ok (some value, ⟨a :: post, .npos⟩)) ∧
      isOption flag .standard = true := by
  cases h with
  | equals f hf =>
    have hn : findChar c!"=" (c!"-" :: c!"-" :: (f ++ c!"=" :: value)) = some (f.length + 2) := by
      have := findChar_first (c := c!"=") (a := c!"-" :: c!"-" :: f) (by simpa using hf) value
      simpa using this
    have e : (b!"--" ++ f ++ b!"=" ++ value) = c!"-" :: c!"-" :: (f ++ c!"=" :: value) := by simp
    have e' : (b!"--" ++ f ++ b!"=") = c!"-" :: c!"-" :: (f ++ [c!"="]) := by simp
    have et : (c!"-" :: c!"-" :: (f ++ c!"=" :: value)).take (f.length + 2 + 1) = c!"-" :: c!"-" :: (f ++ [c!"="]) := by
      simp [List.take_append, List.take_of_length_le]
    have ed : (c!"-" :: c!"-" :: (f ++ c!"=" :: value)).drop (f.length + 2 + 1) = value := by
      simp [List.drop_append]
    refine ⟨⟨(c!"-" :: c!"-" :: (f ++ c!"=" :: value)) :: post, .at (f.length + 2 + 1)⟩, ?_, ⟨c!"-" :: c!"-" :: (f ++ c!"=" :: value), ?_⟩, ?_⟩
    · rw [e, e', ← et]
      cases hx : f ++ c!"=" :: value with
      | nil => simp at hx
      | cons y ys =>
        rw [hx] at hn
        simp only [List.cons_append, List.nil_append, StdIt.nextFresh, hn]
        simp
    · simp only [StdIt.nextValue]
      rw [if_pos (by simp), ed]
    · rw [e']; rfl
  | long f hf =>
    have hn : findChar c!"=" (c!"-" :: c!"-" :: f) = none := findChar_none (by simpa using hf)
    refine ⟨⟨(c!"-" :: c!"-" :: f) :: value :: post, .npos⟩, ?_, ⟨value, rfl⟩, rfl⟩
    cases f with
    | nil => rfl
    | cons y ys =>
      show StdIt.nextFresh ((c!"-" :: c!"-" :: y :: ys) :: value :: post) = _
      simp only [StdIt.nextFresh, hn]
      simp
  | joined f hf hv =>
    cases value with
    | nil => exact absurd rfl hv
    | cons y ys =>
      refine ⟨⟨(c!"-" :: f :: y :: ys) :: post, .at 2⟩, ?_, ⟨c!"-" :: f :: y :: ys, ?_⟩, rfl⟩
      · simp [StdIt.nextFresh, hf]
      · simp [StdIt.nextValue]
  | short f => exact ⟨⟨[c!"-", f] :: value :: post, .npos⟩, rfl, ⟨value, rfl⟩, rfl⟩

namespace Parser

/-- Two ways to write an option. -/
theorem spelled_run {K : Prop} {env : Env} {d : ParserData} {s : PState} (hg : Good d s) (hm : s.mode = .argumentsAndOptions) {o : OptData} {f g : Str}
    {i j : Iter} {X Y : List Str} (hX : (s.more X).iter.next = .ok (some f, i)) (hY : (s.more Y).iter.next = .ok (some g, j))
    (hfo : isOption f s.settings.optionStyle = true) (hgo : isOption g s.settings.optionStyle = true)
    (hf : lookup s f = some o) (hg' : lookup s g = some o) (hh : Handles K (fun a b => a = i ∧ b = j) (fun _ => False) o f g) (fuel : Nat) :
    AgreeEnd K d.settings (run env fuel (s.more X)) (run env fuel (s.more Y)) := by
  have hset := hg.settings
  cases fuel with
  | zero => exact ⟨trivial, hset, _, s.log, rfl, fun _ => rfl⟩
  | succ fuel =>
    have t : ∀ {f : Str} {i : Iter} {X : List Str}, (s.more X).iter.next = .ok (some f, i) → isOption f s.settings.optionStyle = true →
        next env (s.more X) = processOption env f { s with iter := i } := by
      intro f i X h hfo
      rw [next_taken env (s.more X) _ _ (Or.inl ⟨hm, h⟩)]
      exact congrFun (if_pos ⟨hm, hfo⟩) _
    unfold lookup at hf hg'
    rw [hset] at hf hg'
    have hp := follows_option_any (K := K) (st := d.settings) (c := s.command) (m := .argumentsAndOptions) env o noneLeft hh hf hg'
      { s with iter := i } { s with iter := j } ⟨⟨hset, _, s.log, rfl, fun _ => rfl⟩, ⟨rfl, rfl⟩, rfl, hm⟩
    rw [← t hX hfo, ← t hY hgo] at hp
    obtain ⟨a1, a2, a3⟩ := hp
    refine run_from (R := Clear K d.settings) fuel (run_clear env fuel) a1 a2 fun a ha => ?_
    rcases a3 a ha with ⟨m', h, _⟩ | ⟨c', h⟩ <;> exact h.loose

/-- The flag is read as it is. -/
theorem whole_next {d : ParserData} {s : PState} (hg : Good d s) (hl : NothingLeft s.iter) {f : Str} (hf : WholeFlag d.settings.optionStyle f) (post : List Str) :
    (s.more (f :: post)).iter.next = .ok (some f, match s.iter with
      | .std _ => .std ⟨f :: post, .npos⟩
      | .opt it => .opt ⟨f :: post, .npos, it.pfx⟩) ∧ isOption f s.settings.optionStyle = true := by
  obtain ⟨⟨h1, h2⟩, h3, h4⟩ := hf
  have hpf := hg.pfx
  rw [hg.settings]
  obtain ⟨it', hl⟩ := hl
  obtain ⟨a0, a1, w, rfl⟩ : ∃ a0 a1 w, f = a0 :: a1 :: w := by
    cases f with
    | nil => simp at h1
    | cons a0 f =>
      cases f with
      | nil => simp at h1
      | cons a1 w => exact ⟨a0, a1, w, rfl⟩
  simp only [List.head?_cons, Option.some.injEq] at h2
  have hopt : isOption (a0 :: a1 :: w) d.settings.optionStyle = true := by
    subst h2
    cases d.settings.optionStyle <;> simp [isOption, flagChar]
  refine ⟨?_, hopt⟩
  cases hi : s.iter with
  | std it =>
    rw [hi] at hl hpf
    have hst : d.settings.optionStyle = .standard := by
      cases hs : d.settings.optionStyle <;> rw [hs] at hpf <;> simp [Iter.pfx, stylePrefix] at hpf ⊢
    rw [hst] at h2 h3
    obtain ⟨⟨b, i⟩, e1, e2⟩ := Outcome.bind_eq_ok.mp hl
    simp only [pure, Outcome.ok.injEq, Prod.mk.injEq] at e2
    obtain ⟨rfl, _⟩ := e2
    simp only [PState.more, hi, Iter.more, Iter.next, StdIt.next_nothing e1]
    cases w with
    | nil => rfl
    | cons w0 w =>
      have h3 := (h3 rfl).resolve_left (by simp)
      have h4 := findChar_none (h4.resolve_left (by simp))
      simp only [List.getElem?_cons_succ, List.getElem?_cons_zero, Option.some.injEq] at h3
      simp only [StdIt.nextFresh, h4]
      rw [h2, h3]
      rfl
  | opt it =>
    rw [hi] at hl
    obtain ⟨⟨b, i⟩, e1, e2⟩ := Outcome.bind_eq_ok.mp hl
    simp only [pure, Outcome.ok.injEq, Prod.mk.injEq] at e2
    obtain ⟨rfl, _⟩ := e2
    simp only [PState.more, hi, Iter.more, Iter.next, OptIt.next_nothing e1]
    cases w with
    | nil => rfl
    | cons w0 w =>
      have h4 := findChar_none (h4.resolve_left (by simp))
      simp only [OptIt.nextFresh, h4]
      split <;> rfl

/-- Flags for the same option. -/
theorem whole_run {env : Env} {d : ParserData} {s : PState} (hg : Good d s) (hm : s.mode = .argumentsAndOptions) (hl : NothingLeft s.iter) {o : OptData} {f g : Str}
    (hf : WholeFlag d.settings.optionStyle f) (hg' : WholeFlag d.settings.optionStyle g) (hfo : lookup s f = some o) (hgo : lookup s g = some o) (post : List Str)
    (fuel : Nat) : AgreeEnd (post ≠ [] ∨ ¬ NeedsValue o) d.settings (run env fuel (s.more (f :: post))) (run env fuel (s.more (g :: post))) := by
  obtain ⟨a1, a2⟩ := whole_next hg hl hf post
  obtain ⟨b1, b2⟩ := whole_next hg hl hg' post
  refine spelled_run hg hm a1 b1 a2 b2 hfo hgo ⟨fun hn => ?_, fun hn => ?_⟩ fuel
  · rintro i j ⟨ei, ej⟩
    rw [ei, ej]
    cases s.iter with
    | std it =>
      cases post with
      | nil => exact ⟨rfl, .refl _, fun _ h => absurd hn (h.resolve_left (by simp))⟩
      | cons b post => exact ⟨rfl, .refl _, by simp⟩
    | opt it =>
      cases post with
      | nil => exact ⟨rfl, .refl _, fun _ h => absurd hn (h.resolve_left (by simp))⟩
      | cons b post => exact ⟨rfl, .refl _, by simp⟩
  · rintro i j ⟨ei, ej⟩
    rw [ei, ej]
    cases s.iter with
    | std it => exact .after _ _ _
    | opt it => exact .afterOpt _ _ _ _

/-- Spellings of the same option with the same value. -/
theorem value_run {env : Env} {d : ParserData} (hst : d.settings.optionStyle = .standard) {s : PState} (hg : Good d s) (hm : s.mode = .argumentsAndOptions)
    (hl : NothingLeft s.iter) {o : OptData} (ho : NeedsValue o) {value : Str} {us vs : List Str} {f g : Str} (hf : Spelled value us f) (hg' : Spelled value vs g)
    (hfo : lookup s f = some o) (hgo : lookup s g = some o) (post : List Str) (fuel : Nat) :
    AgreeEnd True d.settings (run env fuel (s.more (us ++ post))) (run env fuel (s.more (vs ++ post))) := by
  obtain ⟨it', hl⟩ := hl
  obtain ⟨it, hit⟩ : ∃ it, s.iter = .std it := by
    have := hg.pfx
    rw [hst] at this
    cases hi : s.iter with
    | std it => exact ⟨it, rfl⟩
    | opt it => rw [hi] at this; simp [Iter.pfx, stylePrefix] at this
  rw [hit] at hl
  obtain ⟨⟨b, i⟩, h1, h2⟩ := Outcome.bind_eq_ok.mp hl
  simp only [pure, Outcome.ok.injEq, Prod.mk.injEq] at h2
  obtain ⟨rfl, _⟩ := h2
  have key : ∀ {us : List Str} {f : Str}, Spelled value us f → ∃ i : StdIt, (s.more (us ++ post)).iter.next = .ok (some f, .std i) ∧
      (∃ a, i.nextValue = .ok (some value, ⟨a :: post, .npos⟩)) ∧ isOption f s.settings.optionStyle = true := by
    intro us f h
    obtain ⟨i, e1, e2, e3⟩ := h.next post
    refine ⟨i, ?_, e2, by rw [hg.settings, hst]; exact e3⟩
    obtain ⟨u, us', rfl⟩ : ∃ u us', us = u :: us' := by cases h <;> exact ⟨_, _, rfl⟩
    simp only [List.cons_append] at e1 ⊢
    simp only [PState.more, hit, Iter.more, Iter.next, StdIt.next_nothing h1, e1]
    rfl
  obtain ⟨i, a1, ⟨a, a2⟩, a3⟩ := key hf
  obtain ⟨j, b1, ⟨b, b2⟩, b3⟩ := key hg'
  refine spelled_run hg hm a1 b1 a3 b3 hfo hgo ⟨fun _ => ?_, fun hn => absurd ho hn⟩ fuel
  rintro x y ⟨ei, ej⟩
  rw [ei, ej]
  simp only [Iter.nextValue, a2, b2]
  exact ⟨rfl, .after _ _ _, by simp⟩

end Parser
end Argos
