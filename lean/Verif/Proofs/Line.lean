import Verif.Proofs.Given
import Verif.Spec.Line

/-! # The command line is used up as the results say -/

namespace Argos
open Spec

theorem isOption_iff (a : Str) (style : OptionStyle) : isOption a style = true ↔ IsFlag style a := by
  have : (if style = .slash then c!"/" else c!"-") = flagChar style := by cases style <;> rfl
  unfold isOption IsFlag
  rw [this]
  match a with
  | [] => simp
  | [_] => simp
  | x :: _ :: _ => simp

/-- What `next_value` will return, in order, when it is called again and again. -/
def Iter.plainOf (it : Iter) : List Str := it.valueState.1.toList ++ it.valueState.2.rest

theorem StdIt.nextFresh_args {args : List Str} {f : Str} {it' : StdIt} (h : StdIt.nextFresh args = (some f, it')) : it'.args = args := by
  unfold StdIt.nextFresh at h
  split at h
  · simp at h
  · split at h
    · split at h
      · simp only [Prod.mk.injEq] at h; rw [← h.2]
      · split at h
        · simp only [Prod.mk.injEq] at h; rw [← h.2]
        · split at h <;> (simp only [Prod.mk.injEq] at h; rw [← h.2])
    · simp only [Prod.mk.injEq] at h; rw [← h.2]

theorem StdIt.next_current {it it' : StdIt} (h : it.Ok) {f : Str} (hn : it.next = .ok (some f, it')) (hp : it.reader.pending = []) :
    it'.args = it.reader.rest := by
  obtain ⟨args, pos⟩ := it
  unfold StdIt.next at hn
  match pos with
  | .at 0 =>
    simp only [Outcome.ok.injEq] at hn
    exact StdIt.nextFresh_args hn
  | .npos =>
    cases args with
    | nil => simp at hn
    | cons a rest =>
      simp only [Outcome.ok.injEq] at hn
      exact StdIt.nextFresh_args hn
  | .at (p + 1) =>
    cases args with
    | nil => simp at hn
    | cons a rest =>
      simp only at hn
      simp only [StdIt.reader] at hp ⊢
      cases hc : a[p + 1]? with
      | none =>
        rw [hc] at hn
        simp only [Outcome.ok.injEq] at hn
        rw [StdIt.nextFresh_args hn]
        split <;> rfl
      | some c =>
        rw [hc] at hn
        simp only at hn
        have hlt : p + 1 < a.length := by
          exact (List.getElem?_eq_some_iff.mp hc).1
        cases h1 : a[1]? with
        | none => rw [h1] at hn; simp at hn
        | some a1 =>
          rw [h1] at hn hp
          simp only at hn
          by_cases ha : a1 = c!"-"
          · rw [if_neg (by simpa using ha)] at hn
            simp only [Outcome.ok.injEq] at hn
            rw [StdIt.nextFresh_args hn]
            split <;> rfl
          · rw [if_neg (by simpa using ha)] at hp
            have := congrArg List.length hp
            simp at this
            omega

theorem Iter.standard {it : Iter} (h : it.pfx = none) : ∃ i, it = .std i := by
  cases it with
  | std i => exact ⟨i, rfl⟩
  | opt i => simp [Iter.pfx] at h

theorem stylePrefix_none {style : OptionStyle} (h : stylePrefix style = none) : style = .standard := by
  cases style <;> simp [stylePrefix] at h ⊢

theorem Iter.read_some {it it' : Iter} (h : it.Ok) {style : OptionStyle} (hp : it.pfx = stylePrefix style) {f : Str}
    (hn : it.next = .ok (some f, it')) :
    ∃ x, it.reader.readIn style = some x ∧ f = x.flag ∧ it'.Ok ∧ it'.pfx = stylePrefix style ∧ it'.reader = x.afterFlag ∧
      it'.valueState = (x.value, x.afterValue) := by
  have := it.next_spec h
  rw [hp] at this
  unfold Reader.readIn
  cases hr : it.reader.read (stylePrefix style) with
  | none =>
    rw [hr] at this
    obtain ⟨it2, h1, _⟩ := this
    rw [hn] at h1
    simp at h1
  | some x =>
    rw [hr] at this
    obtain ⟨it2, h1, h2, h3, h4, h5⟩ := this
    rw [hn] at h1
    simp only [Outcome.ok.injEq, Prod.mk.injEq, Option.some.injEq] at h1
    obtain ⟨rfl, rfl⟩ := h1
    exact ⟨x, rfl, rfl, h2, h5, h3, h4⟩

theorem Iter.read_none {it it' : Iter} (h : it.Ok) {style : OptionStyle} (hp : it.pfx = stylePrefix style) (hn : it.next = .ok (none, it')) :
    it.reader.readIn style = none := by
  have := it.next_spec h
  rw [hp] at this
  unfold Reader.readIn
  cases hr : it.reader.read (stylePrefix style) with
  | none => rfl
  | some x =>
    rw [hr] at this
    obtain ⟨it2, h1, _⟩ := this
    rw [hn] at h1
    simp at h1

theorem StdIt.valueState_pending (it : StdIt) : it.valueState.2.pending = [] := by
  unfold StdIt.valueState
  split <;> rfl

theorem Iter.value_read_standard {it it' : Iter} (h : it.Ok) (hp : it.pfx = none) {v : Option Str} (hn : it.nextValue = .ok (v, it')) :
    v = it.valueState.1 ∧ it'.Ok ∧ it'.pfx = none ∧ it'.reader = it.valueState.2 ∧ it.valueState.2.pending = [] ∧
      it'.plainOf = it.valueState.2.rest := by
  obtain ⟨i, rfl⟩ := Iter.standard hp
  obtain ⟨i', h1, h2, h3, h4⟩ := i.nextValue_spec h
  simp only [Iter.nextValue, h1, Outcome.bind_ok, Outcome.pure_eq, Outcome.ok.injEq, Prod.mk.injEq] at hn
  obtain ⟨rfl, rfl⟩ := hn
  refine ⟨rfl, h2, rfl, h3, i.valueState_pending, ?_⟩
  show i'.valueState.1.toList ++ i'.valueState.2.rest = i.valueState.2.rest
  rw [← h3]
  obtain ⟨args, pos⟩ := i'
  rcases h4 with h4 | h4
  · simp only at h4
    subst h4
    simp only [StdIt.valueState, StdIt.reader]
    cases args.tail <;> rfl
  · simp only at h4
    subst h4
    match pos with
    | .at 0 => rfl
    | .at (p + 1) => rfl
    | .npos => rfl

theorem OptIt.npos_empty {it : OptIt} (h : it.valueState.1 = some []) (hp : it.pos = .npos) : [] ∈ it.reader.rest := by
  obtain ⟨args, pos, pfx⟩ := it
  simp only at hp
  subst hp
  match args with
  | [] => simp [OptIt.valueState] at h
  | [a] => simp [OptIt.valueState] at h
  | a :: b :: l =>
    simp only [OptIt.valueState, OptIt.reader] at h ⊢
    simp_all

theorem Iter.value_read {it it' : Iter} (h : it.Ok) (hp : it.pfx = none ∨ [] ∉ it.reader.rest) {v : Option Str}
    (hn : it.nextValue = .ok (v, it')) : v = it.valueState.1 ∧ it'.Ok ∧ it'.reader = it.valueState.2 := by
  cases it with
  | std i =>
    obtain ⟨g1, g2, g3, g4, g5, g6⟩ := Iter.value_read_standard h rfl hn
    exact ⟨g1, g2, g4⟩
  | opt i =>
    have hp := hp.resolve_left (by simp [Iter.pfx])
    obtain ⟨i', h1, h2, h3, h4⟩ := i.nextValue_spec h
    simp only [Iter.nextValue, h1, Outcome.bind_ok, Outcome.pure_eq, Outcome.ok.injEq, Prod.mk.injEq] at hn
    obtain ⟨rfl, rfl⟩ := hn
    refine ⟨rfl, h2, ?_⟩
    rcases h4 with h4 | ⟨h4, h5, _⟩
    · exact h4
    · exact absurd (OptIt.npos_empty h4 h5) hp

theorem Iter.nextValue_fst {it it' : Iter} (h : it.Ok) {v : Option Str} (hn : it.nextValue = .ok (v, it')) : v = it.valueState.1 := by
  cases it with
  | std i => exact (Iter.value_read_standard h rfl hn).1
  | opt i =>
    obtain ⟨i', h1, _⟩ := i.nextValue_spec h
    simp only [Iter.nextValue, h1, Outcome.bind_ok, Outcome.pure_eq, Outcome.ok.injEq, Prod.mk.injEq] at hn
    exact hn.1.symm

theorem OptIt.nextFresh_args {args : List Str} {pfx : UInt8} {f : Str} {it' : OptIt} (h : OptIt.nextFresh args pfx = (some f, it')) :
    it'.args = args := by
  unfold OptIt.nextFresh at h
  split at h
  · simp at h
  · split at h
    · split at h
      · simp only [Prod.mk.injEq] at h; rw [← h.2]
      · split at h <;> (simp only [Prod.mk.injEq] at h; rw [← h.2])
    · simp only [Prod.mk.injEq] at h; rw [← h.2]

theorem OptIt.next_current {it it' : OptIt} {f : Str} (hn : it.next = .ok (some f, it')) : it'.args = it.reader.rest := by
  obtain ⟨args, pos, pfx⟩ := it
  unfold OptIt.next at hn
  simp only at hn
  by_cases h0 : pos = .at 0
  · subst h0
    rw [if_pos rfl, Outcome.ok.injEq] at hn
    exact OptIt.nextFresh_args hn
  · rw [if_neg h0] at hn
    cases args with
    | nil => simp at hn
    | cons a rest =>
      simp only [Outcome.ok.injEq] at hn
      rw [OptIt.nextFresh_args hn]
      unfold OptIt.reader
      split <;> simp_all

theorem Iter.next_current {it it' : Iter} (h : it.Ok) {f cur : Str} (hn : it.next = .ok (some f, it'))
    (hc : it'.current = .ok cur) (hr : it.reader.pending = []) : it.reader.rest.head? = some cur := by
  cases it with
  | std i =>
    simp only [Iter.next] at hn
    cases hi : i.next with
    | ok q =>
      rw [hi] at hn
      simp only [Outcome.bind_ok, Outcome.pure_eq, Outcome.ok.injEq, Prod.mk.injEq] at hn
      obtain ⟨h1, rfl⟩ := hn
      obtain ⟨q1, q2⟩ := q
      simp only at h1
      subst h1
      have := StdIt.next_current h hi hr
      show i.reader.rest.head? = _
      rw [← this]
      simp only [Iter.current, StdIt.current] at hc
      split at hc
      · simp at hc
      · rename_i e
        simp only [Outcome.ok.injEq] at hc
        rw [e, hc]
        rfl
    | _ => rw [hi] at hn; simp at hn
  | opt i =>
    simp only [Iter.next] at hn
    cases hi : i.next with
    | ok q =>
      rw [hi] at hn
      simp only [Outcome.bind_ok, Outcome.pure_eq, Outcome.ok.injEq, Prod.mk.injEq] at hn
      obtain ⟨h1, rfl⟩ := hn
      obtain ⟨q1, q2⟩ := q
      simp only at h1
      subst h1
      have := OptIt.next_current hi
      show i.reader.rest.head? = _
      rw [← this]
      simp only [Iter.current, OptIt.current] at hc
      split at hc
      · simp at hc
      · rename_i e
        simp only [Outcome.ok.injEq] at hc
        rw [e, hc]
        rfl
    | _ => rw [hi] at hn; simp at hn

theorem readStandard_pending {r : Reader} {x : Reading} (h : r.readStandard = some x) (hf : ¬ IsFlag .standard x.flag) :
    r.pending = [] ∧ r.rest.head? = some x.flag := by
  have short : ∀ (c : UInt8) (cs : Str) (rest : List Str), IsFlag .standard (shortFlag c cs rest).flag := by
    intro c cs rest
    unfold shortFlag
    split <;> exact ⟨by simp [wholeFlag], rfl⟩
  unfold Reader.readStandard at h
  split at h
  · simp only [Option.some.injEq] at h
    subst h
    exact absurd (short _ _ _) hf
  · simp at h
  · rename_i hp hr
    refine ⟨hp, ?_⟩
    rw [hr]
    split at h
    · split at h
      · simp only [Option.some.injEq] at h
        subst h
        rfl
      · rename_i d c x' xs hd
        have hd : d = c!"-" := by simpa using hd
        split at h
        · simp only [Option.some.injEq] at h
          subst h
          exact absurd (short _ _ _) hf
        · split at h
          · rename_i flag value hcut
            simp only [Option.some.injEq] at h
            subst h
            exfalso
            apply hf
            show IsFlag .standard flag
            have hb := findChar_cut (d :: c :: x' :: xs)
            rw [hcut] at hb
            rcases hb with ⟨_, h2⟩ | ⟨e, hfc, _, h2⟩
            · simp at h2
            · simp only [Option.some.injEq, Prod.mk.injEq] at h2
              have hne : e ≠ 0 := by
                rintro rfl
                subst hd
                unfold findChar at hfc
                rw [if_neg (by decide)] at hfc
                cases hq : findChar c!"=" (c :: x' :: xs) <;> simp [hq] at hfc
              obtain ⟨k, rfl⟩ := Nat.exists_eq_succ_of_ne_zero hne
              rw [h2.1]
              exact ⟨by simp, by simp [hd, flagChar]⟩
          · simp only [Option.some.injEq] at h
            subst h
            rfl
    · simp only [Option.some.injEq] at h
      subst h
      rfl

theorem readPrefixed_head {style : OptionStyle} {pfx : UInt8} (hs : stylePrefix style = some pfx) {r : Reader} {x : Reading}
    (h : r.readPrefixed pfx = some x) (hf : ¬ IsFlag style x.flag) : r.rest.head? = some x.flag := by
  have hpf : pfx = flagChar style ∧ pfx ≠ c!"=" := by
    cases style <;> simp [stylePrefix] at hs <;> subst hs <;> decide
  unfold Reader.readPrefixed at h
  split at h
  · simp at h
  · rename_i a rest hr
    rw [hr]
    split at h
    · rename_i ha
      split at h
      · rename_i flag value hcut
        simp only [Option.some.injEq] at h
        subst h
        exfalso
        apply hf
        show IsFlag style flag
        obtain ⟨y, ys, rfl⟩ : ∃ y ys, a = y :: ys := by
          cases a with
          | nil => simp at ha
          | cons y ys => exact ⟨y, ys, rfl⟩
        have hy : y = pfx := by simpa using ha.2
        have hb := findChar_cut (y :: ys)
        rw [hcut] at hb
        rcases hb with ⟨_, h2⟩ | ⟨e, hfc, hlt, h2⟩
        · simp at h2
        · simp only [Option.some.injEq, Prod.mk.injEq] at h2
          have hne : e ≠ 0 := by
            rintro rfl
            unfold findChar at hfc
            rw [if_neg (by rw [hy]; exact hpf.2)] at hfc
            cases hq : findChar c!"=" ys <;> simp [hq] at hfc
          obtain ⟨k, rfl⟩ := Nat.exists_eq_succ_of_ne_zero hne
          rw [h2.1]
          refine ⟨?_, by simp [hy, hpf.1]⟩
          simp only [List.length_take, List.length_cons] at hlt ⊢
          omega
      · simp only [Option.some.injEq] at h
        subst h
        rfl
    · simp only [Option.some.injEq] at h
      subst h
      rfl

theorem Iter.prefixed_pending {it : Iter} (h : it.pfx ≠ none) : it.reader.pending = [] := by
  cases it with
  | std i => simp [Iter.pfx] at h
  | opt i => exact i.reader_pending

theorem Iter.read_pending {it : Iter} {style : OptionStyle} (hp : it.pfx = stylePrefix style) {x : Reading}
    (h : it.reader.readIn style = some x) (hf : ¬ IsFlag style x.flag) : it.reader.pending = [] ∧ it.reader.rest.head? = some x.flag := by
  cases hs : stylePrefix style with
  | none =>
    have := stylePrefix_none hs
    subst this
    exact readStandard_pending h hf
  | some c =>
    unfold Reader.readIn at h
    rw [hs] at h
    exact ⟨Iter.prefixed_pending (by rw [hp, hs]; simp), readPrefixed_head hs h hf⟩

theorem readIn_rest {style : OptionStyle} {r : Reader} {x : Reading} (h : r.readIn style = some x) :
    x.afterFlag.rest <:+ r.rest ∧ x.afterValue.rest <:+ r.rest := by
  have whole : ∀ (f : Str) (rest : List Str), rest <:+ r.rest → (wholeFlag f rest).afterFlag.rest <:+ r.rest ∧
      (wholeFlag f rest).afterValue.rest <:+ r.rest := fun f rest h => ⟨h, (List.tail_suffix rest).trans h⟩
  have short : ∀ (c : UInt8) (cs : Str) (rest : List Str), rest <:+ r.rest → (shortFlag c cs rest).afterFlag.rest <:+ r.rest ∧
      (shortFlag c cs rest).afterValue.rest <:+ r.rest := by
    intro c cs rest h
    unfold shortFlag
    split
    · exact whole _ _ h
    · exact ⟨h, h⟩
  unfold Reader.readIn Reader.read at h
  split at h
  · unfold Reader.readStandard at h
    split at h
    · rename_i e
      simp only [Option.some.injEq] at h
      subst h
      exact short _ _ _ (List.suffix_refl _)
    · simp at h
    · rename_i a rest _ hr
      have hs : rest <:+ r.rest := by rw [hr]; exact List.suffix_cons ..
      split at h
      · split at h
        · simp only [Option.some.injEq] at h; subst h; exact whole _ _ hs
        · split at h
          · simp only [Option.some.injEq] at h; subst h; exact short _ _ _ hs
          · split at h
            · simp only [Option.some.injEq] at h; subst h; exact ⟨hs, hs⟩
            · simp only [Option.some.injEq] at h; subst h; exact whole _ _ hs
      · simp only [Option.some.injEq] at h; subst h; exact whole _ _ hs
  · unfold Reader.readPrefixed at h
    split at h
    · simp at h
    · rename_i a rest hr
      have hs : rest <:+ r.rest := by rw [hr]; exact List.suffix_cons ..
      split at h
      · split at h
        · simp only [Option.some.injEq] at h; subst h; exact ⟨hs, hs⟩
        · simp only [Option.some.injEq] at h; subst h; exact whole _ _ hs
      · simp only [Option.some.injEq] at h; subst h; exact whole _ _ hs

theorem leftBy_rest {style : OptionStyle} {r : Reader} {x : Reading} (h : r.readIn style = some x) (o : OptData) : (x.leftBy o).rest <:+ r.rest := by
  unfold Reading.leftBy
  split
  · exact (readIn_rest h).2
  · exact (readIn_rest h).1

namespace Parser

/-- What is left of the command line. -/
def lineOf (s : PState) : Line :=
  match s.mode with
  | .argumentsAndOptions => .mixed s.iter.reader
  | .argumentsOnly => .plain s.iter.plainOf
  | .done => .closed s.iter.reader.rest
  | .error => .closed []

theorem lineOf_mixed {s : PState} (h : s.mode = .argumentsAndOptions) : lineOf s = .mixed s.iter.reader := by simp [lineOf, h]
theorem lineOf_plain {s : PState} (h : s.mode = .argumentsOnly) : lineOf s = .plain s.iter.plainOf := by simp [lineOf, h]
theorem lineOf_done {s : PState} (h : s.mode = .done) : lineOf s = .closed s.iter.reader.rest := by simp [lineOf, h]

theorem takesValue_iff (o : OptData) : TakesValue o ↔ NeedsValue o := Iff.rfl

/-- Reading an option. -/
theorem option_read {env : Env} (hp : env.Passive) {d : ParserData} {s s2 s3 : PState}
    (hg : Good d s) (htm : (lineOf s).Tame d.settings.optionStyle) {o : OptData} {flag : Str} {it : Iter} {v : Str} {stored : Bool}
    {w : Option Str} (ht : Taken s (some flag) it)
    (hol : OptionLike s flag) (h1 : OpRun o flag { s with iter := it } (.ok (some (v, stored))) s2)
    (h2 : calls env o.callback ParserSettings.optionCallback (.opt o) o.valueId stored (some v) s2 = (.ok w, s3)) :
    w = some v ∧ lineOf s = .mixed s.iter.reader ∧ ∃ x, s.iter.reader.readIn d.settings.optionStyle = some x ∧
      IsFlag d.settings.optionStyle x.flag ∧ x.valueFor o = some v ∧
      s3.iter.reader = x.leftBy o ∧ (d.settings.optionStyle = .standard → s3.iter.plainOf = x.plainBy o) ∧ s3.mode = .argumentsAndOptions := by
  have hpfx := hg.pfx
  have hg' := (hg.taken ht).2.2
  have hg2 := hg'.opRun h1
  obtain ⟨rfl, k, rfl⟩ := calls_passive hp _ _ _ _ _ _ _ hg2.ne hg2.iterOk h2
  have hn : s.iter.next = .ok (some flag, it) := by
    rcases ht with ⟨_, h⟩ | ⟨h, _⟩
    · exact h
    · rw [OptionLike, h] at hol; simp at hol
  obtain ⟨x, e1, rfl, e3, e4, e5, e6⟩ := Iter.read_some hg.iterOk hpfx hn
  refine ⟨rfl, lineOf_mixed hol.1, x, e1, ?_, ?_⟩
  · have := hol.2
    rw [hg.settings] at this
    exact (isOption_iff _ _).mp this
  · unfold Reading.valueFor Reading.leftBy Reading.plainBy
    cases h1 with
    | plain hnt =>
      have hnt : ¬ NeedsValue o := hnt
      rw [if_neg hnt, if_neg hnt, if_neg hnt]
      simp only [storeState_iter, storeState_mode]
      exact ⟨trivial, e5, fun _ => by unfold Iter.plainOf; rw [e6], hol.1⟩
    | @value _ it2 htv hnv =>
      have htv : NeedsValue o := htv
      rw [if_pos htv, if_pos htv, if_pos htv]
      simp only [storeState_iter, storeState_mode]
      have htm' : it.pfx = none ∨ [] ∉ it.reader.rest := by
        rw [lineOf_mixed hol.1] at htm
        rcases htm with htm | htm
        · left; rw [e4, htm]; rfl
        · right
          rw [e5]
          exact fun hm => htm ((readIn_rest e1).1.subset hm)
      obtain ⟨g1, g2, g4⟩ := Iter.value_read e3 htm' hnv
      rw [e6] at g1 g4
      refine ⟨g1.symm, g4, ?_, hol.1⟩
      intro hstd
      have := (Iter.value_read_standard e3 (by rw [e4, hstd]; rfl) hnv).2.2.2.2.2
      rw [e6] at this
      exact this
    | noValue _ _ he => cases he

theorem current_std {s : PState} {d : ParserData} (hg : Good d s) {arg : Str} {it : Iter}
    (ht : Taken s (some arg) it) (hm : s.mode = .argumentsAndOptions) (hno : ¬ OptionLike s arg) :
    ∃ x, s.iter.reader.readIn d.settings.optionStyle = some x ∧ arg = x.flag ∧ ¬ IsFlag d.settings.optionStyle x.flag ∧
      it.reader = x.afterFlag ∧ ∀ cur, it.current = .ok cur → cur = x.flag := by
  have hpfx := hg.pfx
  have hn : s.iter.next = .ok (some arg, it) := by
    rcases ht with ⟨_, h⟩ | ⟨h, _⟩
    · exact h
    · rw [h] at hm; simp at hm
  obtain ⟨x, e1, rfl, e3, e4, e5, e6⟩ := Iter.read_some hg.iterOk hpfx hn
  have hnf : ¬ IsFlag d.settings.optionStyle x.flag := by
    intro hf
    apply hno
    refine ⟨hm, ?_⟩
    rw [hg.settings]
    exact (isOption_iff _ _).mpr hf
  refine ⟨x, e1, rfl, hnf, e5, ?_⟩
  intro cur hc
  obtain ⟨p1, p2⟩ := Iter.read_pending hpfx e1 hnf
  have := Iter.next_current hg.iterOk hn hc p1
  rw [p2] at this
  exact (Option.some.inj this).symm

theorem plain_read {s : PState} {d : ParserData} (hg : Good d s) (htm : (lineOf s).Tame d.settings.optionStyle) {arg : Str} {it : Iter}
    (ht : Taken s (some arg) it) (hm : s.mode = .argumentsOnly) :
    lineOf s = .plain (arg :: it.plainOf) ∧ it.reader = ⟨[], it.plainOf⟩ := by
  have hstd : d.settings.optionStyle = .standard := by rw [lineOf_plain hm] at htm; exact htm
  have hpfx : s.iter.pfx = none := by rw [hg.pfx, hstd]; rfl
  have hn : s.iter.nextValue = .ok (some arg, it) := by
    rcases ht with ⟨h, _⟩ | ⟨_, h⟩
    · rw [h] at hm; simp at hm
    · exact h
  obtain ⟨g1, g2, g3, g4, g5, g6⟩ := Iter.value_read_standard hg.iterOk hpfx hn
  refine ⟨?_, ?_⟩
  · rw [lineOf_plain hm, g6]
    unfold Iter.plainOf
    rw [← g1]
    rfl
  · rw [g4, g6, ← g5]

theorem Taken.modes {s : PState} {a : Option Str} {it : Iter} (h : Taken s a it) : s.mode = .argumentsAndOptions ∨ s.mode = .argumentsOnly := by
  rcases h with ⟨h, _⟩ | ⟨h, _⟩
  · exact Or.inl h
  · exact Or.inr h

theorem findMultiParent_none_iff (l : List PNode) :
    findMultiParent l = none ↔ ∀ c ∈ (l.map (·.command)).tail, c.multiCommand = false := by
  have go : ∀ l : List PNode, findMultiParent.go l = none ↔ ∀ c ∈ l.map (·.command), c.multiCommand = false := by
    intro l
    induction l with
    | nil => simp [findMultiParent.go]
    | cons p ps ih =>
      unfold findMultiParent.go
      cases hm : p.command.multiCommand with
      | true => simp [hm]
      | false => simp only [Bool.false_eq_true, if_false, ih]; simp [hm]
  cases l with
  | nil => simp [findMultiParent]
  | cons a rest => simpa [findMultiParent] using go rest

theorem _root_.Argos.Spec.Open.back_add_none {st : Open} (x : Occ) (h : st.back = none) : (st.add x).back = none := by
  have go : ∀ (rest : Open) (t t' : Tree (List Occ)), Open.back.go t rest = none → Open.back.go t' rest = none := by
    intro rest
    induction rest with
    | nil => intro t t' _; rfl
    | cons q rest ih =>
      obtain ⟨c, l, ts⟩ := q
      intro t t' h
      unfold Open.back.go at h ⊢
      split at h
      · simp at h
      · rename_i hc
        rw [if_neg hc]
        exact ih _ _ h
  match st, h with
  | [], _ => rfl
  | .node c l ts :: rest, h => exact go rest _ _ h

/-- The result doesn't lead to a state in which the SLASH and DASH styles insert arguments. -/
def Harmless (d : ParserData) (r : IterResult) : Prop :=
  d.settings.optionStyle = .standard ∨ ∀ o v, r = .option o v → o.type ≠ .lastOption ∧
    (o.type = .lastArgument → ∀ c : Command, c.Within d.command → c.multiCommand = false)

theorem Good.no_multi {d : ParserData} {s : PState} (hg : Good d s) (h : ∀ c : Command, c.Within d.command → c.multiCommand = false) :
    findMultiParent s.stack = none := by
  rw [findMultiParent_none_iff]
  intro c hc
  rw [← List.map_tail] at hc
  obtain ⟨m, hm, rfl⟩ := List.mem_map.mp hc
  exact h _ (hg.path.within m (List.mem_of_mem_tail hm))

/-- A step uses up the command line as its result says. -/
theorem Step.line {env : Env} (hp : env.Passive) {d : ParserData} {s s' : PState} (hg : Good d s) (htm : (lineOf s).Tame d.settings.optionStyle)
    {r : IterResult} {st : Open} (h : Step env s (.ok r) s') (hr : ¬ r.IsLast) (hok : Harmless d r) (ha : Agrees s.stack st) :
    Line.Step d.settings.optionStyle st (lineOf s) r (lineOf s') := by
  have herr : ∀ {msg t}, ErrorRun msg t IterResult.error (.ok r) s' → False := by
    intro msg t he
    cases he with
    | error _ _ => exact hr trivial
  cases h with
  | afterDone _ => exact absurd trivial hr
  | finished _ _ => exact absurd trivial hr
  | unfinished _ _ he => exact (herr he).elim
  | unknownOption _ _ _ _ _ he => exact (herr he).elim
  | @ignoredOption it flag cur ht hol hlk hcur hi hsw =>
    have hpfx := hg.pfx
    have hn : s.iter.next = .ok (some flag, it) := by
      rcases ht with ⟨_, h⟩ | ⟨h, _⟩
      · exact h
      · rw [OptionLike, h] at hol; simp at hol
    obtain ⟨x, e1, rfl, e3, e4, e5, e6⟩ := Iter.read_some hg.iterOk hpfx hn
    rw [lineOf_mixed hol.1, lineOf_mixed (s := { s with iter := it, stack := _ }) hol.1]
    simp only [e5]
    refine .unknownOption e1 ?_ (Iter.next_current hg.iterOk hn hcur)
    have := hol.2
    rw [hg.settings] at this
    exact (isOption_iff _ _).mp this
  | @option it flag o _ _ ht hol _ hrun =>
    cases hrun with
    | noValue _ _ he => exact (herr he).elim
    | normal h1 h2 hty =>
      obtain ⟨rfl, e1, x, e2, e3, e4, e5, e6, e7⟩ := option_read hp hg htm ht hol h1 h2
      rw [e1, lineOf_mixed e7, e5]
      exact .option e2 e3 e4 hty
    | lastOption h1 h2 hty =>
      obtain ⟨rfl, e1, x, e2, e3, e4, e5, e6, e7⟩ := option_read hp hg htm ht hol h1 h2
      have hstd := hok.resolve_right fun h => (h _ _ rfl).1 hty
      rw [e1, lineOf_plain rfl]
      simp only [e6 hstd]
      exact .lastOption e2 e3 e4 hty
    | @stopped s2 s3 v stored w it2 h1 h2 ho _ hre =>
      obtain ⟨rfl, e1, x, e2, e3, e4, e5, e6, e7⟩ := option_read hp hg htm ht hol h1 h2
      rw [e1, lineOf_done rfl]
      have : (copyState it2 (stopState o s3)).iter.reader.rest = (x.leftBy o).unread := by
        show it2.reader.rest = _
        rw [hre.reader, e5]
      rw [this]
      exact .stop e2 e3 e4 ho
    | lastFails _ _ _ _ he => exact (herr he).elim
    | @lastDone s2 s3 v stored w it2 h1 h2 hty _ hnm hre =>
      obtain ⟨rfl, e1, x, e2, e3, e4, e5, e6, e7⟩ := option_read hp hg htm ht hol h1 h2
      obtain ⟨_, e⟩ := option_passive hp hg ht h1 h2
      rw [findMultiParent_succ] at hnm
      simp only [Option.map_eq_none_iff] at hnm
      have h3 := agrees_occWrite ha o v
      rw [← e] at h3
      have h4 := agrees_back_none h3 hnm
      rw [e1, lineOf_done rfl]
      have : (copyState it2 (succState s3)).iter.reader.rest = (x.leftBy o).unread := by
        show it2.reader.rest = _
        rw [hre.reader, e5]
      rw [this]
      exact .lastArgument e2 e3 e4 hty h4
    | @lastMulti s2 s3 v stored w sub h1 h2 hty _ hfm =>
      obtain ⟨rfl, e1, x, e2, e3, e4, e5, e6, e7⟩ := option_read hp hg htm ht hol h1 h2
      obtain ⟨_, e⟩ := option_passive hp hg ht h1 h2
      have h3 := agrees_occWrite ha o v
      rw [← e] at h3
      have h3 := agrees_map raw_asSuccess h3
      obtain ⟨a, pre, p, ps, f1, rfl, f3, f4⟩ := findMultiParent_some hfm
      have f1' : s3.stack.map asSuccess = a :: pre ++ p :: ps := f1
      rw [f1'] at h3
      obtain ⟨st', h4, h5⟩ := agrees_back h3 f3 f4
      have hstd : d.settings.optionStyle = .standard := by
        refine hok.resolve_right fun h => ?_
        have := (near_option hg ht h1 h2).2.succ.no_multi ((h _ _ rfl).2 hty)
        rw [hfm] at this
        simp at this
      rw [e1, lineOf_plain rfl]
      have : (reactState (p :: ps).length (succState s3)).iter.plainOf = x.plainBy o := e6 hstd
      rw [this]
      exact .lastOfMany e2 e3 e4 hty h4
  | @command it arg cur c ht hno hc hf hcur =>
    rcases ht.modes with hm | hm
    · obtain ⟨x, e1, rfl, e3, e4, e5⟩ := current_std hg ht hm hno
      rw [lineOf_mixed hm, lineOf_mixed rfl, e5 _ hcur]
      have : (enterState c { s with iter := it }).iter.reader = x.afterFlag := e4
      rw [this]
      exact .command e1 e3
    · obtain ⟨e1, e2⟩ := plain_read hg htm ht hm
      rw [e1, lineOf_mixed rfl]
      have : (enterState c { s with iter := it }).iter.reader = ⟨[], it.plainOf⟩ := e2
      rw [this]
      exact .plainCommand
  | unknownCommand _ _ _ _ he => exact (herr he).elim
  | @argument it arg _ _ ht hno hce hrun =>
    cases hrun with
    | @sibling c size cur hf hcur =>
      rcases ht.modes with hm | hm
      · obtain ⟨x, e1, rfl, e3, e4, e5⟩ := current_std hg ht hm hno
        rw [lineOf_mixed hm, lineOf_mixed rfl, e5 _ hcur]
        have : (enterState c (reactState size { s with iter := it })).iter.reader = x.afterFlag := e4
        rw [this]
        exact .command e1 e3
      · obtain ⟨e1, e2⟩ := plain_read hg htm ht hm
        rw [e1, lineOf_mixed rfl]
        have : (enterState c (reactState size { s with iter := it })).iter.reader = ⟨[], it.plainOf⟩ := e2
        rw [this]
        exact .plainCommand
    | @argument a ct w _ _ hn hc =>
      have hg' := (hg.taken ht).2.2
      have hg2 := hg'.arg (v := arg) hn
      obtain ⟨rfl, k, rfl⟩ := calls_passive hp _ _ _ _ _ _ _ hg2.ne hg2.iterOk hc
      rcases ht.modes with hm | hm
      · obtain ⟨x, e1, rfl, e3, e4, e5⟩ := current_std hg ht hm hno
        rw [lineOf_mixed hm, lineOf_mixed (by exact hm)]
        have : (argState a ct x.flag { s with iter := it }).iter.reader = x.afterFlag := e4
        simp only [this]
        exact .argument e1 e3
      · obtain ⟨e1, e2⟩ := plain_read hg htm ht hm
        rw [e1, lineOf_plain (by exact hm)]
        exact .plainArgument
    | @ignored ct cur _ hn _ hcur =>
      rcases ht.modes with hm | hm
      · obtain ⟨x, e1, rfl, e3, e4, e5⟩ := current_std hg ht hm hno
        rw [lineOf_mixed hm, lineOf_mixed (by exact hm), e5 _ hcur]
        simp only [e4]
        exact .unknownArgument e1 e3
      · obtain ⟨e1, e2⟩ := plain_read hg htm ht hm
        rw [e1, lineOf_plain (by exact hm)]
        exact .unknownPlain
    | tooMany _ _ _ he => exact (herr he).elim

theorem _root_.Argos.Spec.Line.Step.tame {style : OptionStyle} {st : Open} {l l' : Line} {r : IterResult} (h : Line.Step style st l r l')
    (hl : l.Tame style) (hp : ∀ rest, l' = .plain rest → style = .standard) : l'.Tame style := by
  have sub : ∀ {r r' : Reader}, r'.rest <:+ r.rest → (Line.mixed r).Tame style → (Line.mixed r').Tame style := by
    intro r r' hs h
    exact h.imp id fun h hm => h (hs.subset hm)
  cases h with
  | option hx _ _ _ => exact sub (leftBy_rest hx _) hl
  | lastOption _ _ _ _ => exact hp _ rfl
  | stop _ _ _ _ => trivial
  | lastArgument _ _ _ _ _ => trivial
  | lastOfMany _ _ _ _ _ => exact hp _ rfl
  | argument hx _ => exact sub (readIn_rest hx).1 hl
  | plainArgument => exact hp _ rfl
  | command hx _ => exact sub (readIn_rest hx).1 hl
  | plainCommand => exact Or.inl hl
  | unknownOption hx _ _ => exact sub (readIn_rest hx).1 hl
  | unknownArgument hx _ => exact sub (readIn_rest hx).1 hl
  | unknownPlain => exact hp _ rfl

theorem Step.tame {env : Env} (hp : env.Passive) {d : ParserData} {s s' : PState} (hg : Good d s) (htm : (lineOf s).Tame d.settings.optionStyle)
    {r : IterResult} {st : Open} (h : Step env s (.ok r) s') (hr : ¬ r.IsLast) (hok : Harmless d r) (ha : Agrees s.stack st) :
    (lineOf s').Tame d.settings.optionStyle := by
  have hl := h.line hp hg htm hr hok ha
  refine hl.tame htm fun rest e => ?_
  have hm : s'.mode = .argumentsOnly := by
    unfold lineOf at e
    cases hm : s'.mode <;> simp [hm] at e
    rfl
  cases hl' : lineOf s with
  | plain _ => rw [hl'] at htm; exact htm
  | closed _ => rw [hl'] at hl; cases hl
  | mixed r0 =>
    rw [hl', e] at hl
    cases hl with
    | lastOption _ _ _ hty => exact hok.resolve_right fun h => (h _ _ rfl).1 hty
    | lastOfMany _ _ _ hty hb =>
      refine hok.resolve_right fun h => ?_
      have hnm := hg.no_multi ((h _ _ rfl).2 hty)
      have h1 := agrees_back_none ha hnm
      rw [Open.back_add_none _ h1] at hb
      cases hb

theorem _root_.Argos.Trace.line {env : Env} (hp : env.Passive) {d : ParserData} (hr : Ready d)
    {s s' : PState} {rs : List IterResult} (h : Trace env s rs s') (hg : Good d s) (htm : (lineOf s).Tame d.settings.optionStyle)
    (hl : ∀ r ∈ rs, ¬ r.IsLast) (hok : ∀ r ∈ rs, Harmless d r) {st : Open}
    (ha : Agrees s.stack st) : Line.Steps d.settings.optionStyle st (lineOf s) rs (lineOf s') ∧ (lineOf s').Tame d.settings.optionStyle := by
  induction h generalizing st with
  | nil => exact ⟨.nil, htm⟩
  | @cons _ _ _ r rs hn _ ih =>
    obtain ⟨hst, hg1⟩ := next_good hr hg hn
    have hr' := hl r (by simp)
    have hk := hok r (by simp)
    obtain ⟨i1, i2⟩ := ih hg1 (hst.tame hp hg htm hr' hk ha) (fun r hr => hl r (by simp [hr])) (fun r hr => hok r (by simp [hr]))
      (hst.agrees hp hg hr' ha)
    exact ⟨.cons (hst.line hp hg htm hr' hk ha) i1, i2⟩

theorem start_line (d : ParserData) (args : List Str) :
    lineOf (start d args).2 = .mixed ⟨[], args⟩ := by
  rw [(start_good d args).1]
  rw [lineOf_mixed rfl]
  show Line.mixed (Iter.make d.settings.optionStyle args).reader = _
  cases d.settings.optionStyle <;> rfl

theorem _root_.Argos.Spec.Faithful.keeps {d : ParserData} {args : List Str} {rs : List IterResult} (h : Faithful d args rs) {r : IterResult}
    (hr : r ∈ rs) : Harmless d r :=
  h.imp id fun h o v e => h.2 o v (e ▸ hr)

theorem _root_.Argos.Spec.Faithful.tame {d : ParserData} {args : List Str} {rs : List IterResult} (h : Faithful d args rs) :
    (Line.mixed ⟨[], args⟩).Tame d.settings.optionStyle := h.imp id fun h => h.1

/-- The command line is used up as the results say. -/
theorem _root_.Argos.Trace.start_line {env : Env} (hp : env.Passive) {d : ParserData} (hr : Ready d) {args : List Str} {s' : PState}
    {rs : List IterResult} (h : Trace env (start d args).2 rs s') (hf : Faithful d args rs) (hl : ∀ r ∈ rs, ¬ r.IsLast) :
    Line.Steps d.settings.optionStyle (Open.start d.command) (.mixed ⟨[], args⟩) rs (lineOf s') ∧ (lineOf s').Tame d.settings.optionStyle := by
  have := h.line hp hr (start_good d args).2 (by rw [Parser.start_line]; exact hf.tame) hl (fun r => hf.keeps) (agrees_start d args)
  rwa [Parser.start_line] at this

/-- When the end is reported, nothing is left that could be read. -/
theorem Step.line_done {env : Env} {d : ParserData} {s s' : PState} (hg : Good d s) (htm : (lineOf s).Tame d.settings.optionStyle)
    (h : Step env s (.ok .done) s') : (lineOf s).AtEnd d.settings.optionStyle ∧ (s.mode = .done ∨ (lineOf s).notRead = []) := by
  rcases h.done_cases with ⟨hm, rfl⟩ | ⟨it, ht, _, rfl⟩
  · rw [lineOf_done hm]
    exact ⟨trivial, Or.inl hm⟩
  · rcases ht with ⟨hm, h1⟩ | ⟨hm, h1⟩
    · rw [lineOf_mixed hm]
      exact ⟨Iter.read_none hg.iterOk hg.pfx h1, Or.inr rfl⟩
    · have hstd : d.settings.optionStyle = .standard := by rw [lineOf_plain hm] at htm; exact htm
      have hpfx : s.iter.pfx = none := by rw [hg.pfx, hstd]; rfl
      rw [lineOf_plain hm]
      refine ⟨?_, Or.inr rfl⟩
      obtain ⟨g1, g2, g3, g4, g5, g6⟩ := Iter.value_read_standard hg.iterOk hpfx h1
      show s.iter.plainOf = []
      unfold Iter.plainOf
      obtain ⟨i, hi⟩ := Iter.standard hpfx
      rw [hi] at g1 ⊢
      have key : ∀ j : StdIt, none = j.valueState.1 → j.valueState.1.toList ++ j.valueState.2.rest = [] := by
        intro j hj
        obtain ⟨args, pos⟩ := j
        match pos, args with
        | .npos, [] => rfl
        | .npos, [a] => rfl
        | .npos, a :: b :: l => simp [StdIt.valueState] at hj
        | .at p, a :: l => simp [StdIt.valueState] at hj
        | .at p, [] => rfl
      exact key i g1

end Parser
end Argos
