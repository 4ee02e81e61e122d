import Verif.Proofs.Floats
import Verif.Props.Results

/-!
# Conversion to floating-point numbers: C73
-/

namespace Argos

open Spec

theorem asFloat_eq {α : Type} (st : ParserSettings) (convert : FloatNum → Option α) (default : α) (v : ArgValue) :
    v.asFloat st convert default = v.asInteger st (parseFloat convert) default := rfl

theorem asFloats_eq {α : Type} (st : ParserSettings) (convert : FloatNum → Option α) (default : List α) (vs : ArgValues) :
    vs.asFloats st convert default = vs.asIntegers st (parseFloat convert) default := by
  have : ∀ l acc, vs.floatsLoop st convert l acc = vs.integersLoop st (parseFloat convert) l acc := by
    intro l
    induction l with
    | nil => intro acc; rfl
    | cons s l ih =>
      intro acc
      simp only [ArgValues.floatsLoop, ArgValues.integersLoop]
      cases parseFloat convert s with
      | none => rfl
      | some x => exact ih _
  simp only [ArgValues.asFloats, ArgValues.asIntegers, this]

theorem parseFloat_none {α : Type} (convert : FloatNum → Option α) (s : Str) :
    parseFloat convert s = none ↔ ∀ x, FloatLiteral s x → convert x = none := by
  constructor
  · intro h x hx
    cases hc : convert x with
    | none => rfl
    | some v =>
      rw [(parseFloat_iff convert s v).mpr ⟨x, hx, hc⟩] at h
      simp at h
  · intro h
    cases hp : parseFloat convert s with
    | none => rfl
    | some v =>
      obtain ⟨x, hx, hc⟩ := (parseFloat_iff convert s v).mp hp
      rw [h x hx] at hc
      simp at hc

/-- **C73**: `as_float` and `as_double` return a number exactly when the whole value is a floating-point literal and the number it stands
for is in the range of the type; the result is that number, rounded. Every other value is an error that is reported, and without a value
the default is returned. -/
theorem C73_value {α : Type} (st : ParserSettings) (convert : FloatNum → Option α) (default : α) (v : ArgValue) :
    (v.value = none → v.asFloat st convert default = (.ok default, none)) ∧
    (∀ s, v.value = some s →
      (∀ x, v.asFloat st convert default = (.ok x, none) ↔ ∃ num, FloatLiteral s num ∧ convert num = some x) ∧
      ((¬ ∃ num x, FloatLiteral s num ∧ convert num = some x) →
        v.asFloat st convert default = (errorEnd st, some ⟨b!"Invalid value: " ++ s ++ b!".", v.argumentId⟩))) := by
  obtain ⟨val, id, a⟩ := v
  refine ⟨?_, ?_⟩
  · rintro rfl; rfl
  · rintro s rfl
    constructor
    · intro x
      rw [← parseFloat_iff]
      simp only [ArgValue.asFloat]
      cases parseFloat convert s with
      | some y => simp
      | none =>
        constructor
        · intro h
          simp only [ArgValue.error, reportError, Prod.mk.injEq, reduceCtorEq, and_false] at h
        · intro h; simp at h
    · intro h
      have : parseFloat convert s = none := by
        rw [parseFloat_none]
        intro x hx
        cases hc : convert x with
        | none => rfl
        | some y => exact absurd ⟨x, y, hx, hc⟩ h
      simp only [ArgValue.asFloat, this]
      rfl

/-- **C73**: a string is at most one number. -/
theorem C73_unique {s : Str} {x y : FloatNum} (hx : FloatLiteral s x) (hy : FloatLiteral s y) : x = y := by
  have h1 := (strtodRaw_iff s x).mpr hx
  rw [(strtodRaw_iff s y).mpr hy] at h1
  simpa [eq_comm] using h1

/-- **C73**: everything that is an integer for `as_int` (in base 10) is a floating-point number for `as_double`, namely the same. -/
theorem C73_integers {s : Str} {neg : Bool} {n : Nat} (h : Literal 10 s neg n) : FloatLiteral s ⟨neg, .finite n⟩ := by
  obtain ⟨ws, sign, pfx, ds, rfl, h1, h2, h3, h4⟩ := h
  have hp : pfx = [] := by
    rcases h3 with h | ⟨h, _⟩
    · exact h
    · simp at h
  subst hp
  refine ⟨ws, sign, ds, by simp, h1, h2, ?_⟩
  have := Magnitude.decimal (m := ds) (ex := []) (x := n) (e := 0) ⟨ds, [], n, Or.inr ⟨rfl, rfl⟩, by simpa using h4, by simp [Rat.mul_one]⟩ (Or.inl ⟨rfl, rfl⟩)
  simpa [Rat.mul_one] using this

/-- **C73**: a number written with a point: the digits before the point, and those behind it. -/
theorem C73_decimals (n m k : Nat) (hm : (decimalNat m).length ≤ k) :
    FloatLiteral (decimalNat n ++ b!"." ++ (List.replicate (k - (decimalNat m).length) c!"0" ++ decimalNat m))
      ⟨false, .finite ((n : Rat) + (m : Rat) / 10 ^ k)⟩ := by
  refine ⟨[], [], _, rfl, by simp, by simp, ?_⟩
  have hlen : (List.replicate (k - (decimalNat m).length) c!"0" ++ decimalNat m).length = k := by simp; omega
  have fold : ∀ (ds : Str) (a : Nat), ds.foldl (fun a c => a * 10 + digitVal c) a = a * 10 ^ ds.length + ds.foldl (fun a c => a * 10 + digitVal c) 0 := by
    intro ds
    induction ds with
    | nil => simp
    | cons c ds ih =>
      intro a
      simp only [List.foldl_cons, List.length_cons]
      rw [ih (a * 10 + digitVal c), ih (0 * 10 + digitVal c), Nat.pow_succ]
      simp only [Nat.add_mul, Nat.mul_assoc, Nat.mul_comm 10]
      omega
  have zeros : ∀ j, (List.replicate j c!"0").foldl (fun a c => a * 10 + digitVal c) 0 = 0 := by
    intro j
    induction j with
    | zero => rfl
    | succ j ih => rw [List.replicate_succ, List.foldl_cons]; exact ih
  obtain ⟨n1, n2, n3⟩ := (numeral_iff 10 (by omega) _ _).mp (decimalNat_numeral n)
  obtain ⟨m1, m2, m3⟩ := (numeral_iff 10 (by omega) _ _).mp (decimalNat_numeral m)
  have hnum : Numeral 10 (decimalNat n ++ (List.replicate (k - (decimalNat m).length) c!"0" ++ decimalNat m)) (n * 10 ^ k + m) := by
    rw [numeral_iff 10 (by omega)]
    refine ⟨by simp [n1], ?_, ?_⟩
    · intro c hc
      rcases List.mem_append.mp hc with hc | hc
      · exact n2 c hc
      · rcases List.mem_append.mp hc with hc | hc
        · rw [(List.mem_replicate.mp hc).2]; decide
        · exact m2 c hc
    · rw [List.foldl_append, ← n3, fold, hlen, List.foldl_append, zeros, ← m3]
  have := Magnitude.decimal (ex := []) (x := (n : Rat) + (m : Rat) / 10 ^ k) (e := 0)
    ⟨_, _, _, Or.inl rfl, hnum, by
      rw [hlen, cast_ten, Rat.add_mul, Rat.div_def, Rat.mul_assoc, Rat.inv_mul_cancel _ (ten_pow_ne k), Rat.mul_one]
      simp [Rat.natCast_add, Rat.natCast_mul, Rat.natCast_pow]⟩ (Or.inl ⟨rfl, rfl⟩)
  simpa [Rat.mul_one] using this

/-- **C73**: `as_floats` and `as_doubles` return the default if there are no values, and all numbers in order if every value is a number
in the range; otherwise the first value that is none is reported. -/
theorem C73_values {α : Type} (st : ParserSettings) (convert : FloatNum → Option α) (default : List α) (vs : ArgValues) :
    (vs.values = [] ∧ vs.asFloats st convert default = (.ok default, none)) ∨
    (∃ xs, vs.values ≠ [] ∧ Each (fun (v : Str × Nat) x => ∃ num, FloatLiteral v.1 num ∧ convert num = some x) vs.values xs ∧
      vs.asFloats st convert default = (.ok xs, none)) ∨
    ∃ before s a after id, vs.values = before ++ (s, a) :: after ∧
      (∀ b ∈ before, ∃ num x, FloatLiteral b.1 num ∧ convert num = some x) ∧ (¬ ∃ num x, FloatLiteral s num ∧ convert num = some x) ∧
      vs.asFloats st convert default = (errorEnd st, some ⟨b!"Invalid value: " ++ s ++ b!".", id⟩) := by
  obtain ⟨l, vid⟩ := vs
  simp only [asFloats_eq]
  by_cases hne : l = []
  · subst hne
    exact Or.inl ⟨rfl, rfl⟩
  · right
    have hemp : (ArgValues.empty ⟨l, vid⟩) = false := by
      cases l with
      | nil => exact absurd rfl hne
      | cons _ _ => rfl
    simp only [ArgValues.asIntegers, hemp, Bool.false_eq_true, if_false]
    rcases integersLoop_cases st (parseFloat convert) ⟨l, vid⟩ (ArgValues.rawValues ⟨l, vid⟩) [] with ⟨xs, h1, h2⟩ | ⟨before, s, after, h1, h2, h3, h4⟩
    · refine Or.inl ⟨xs, hne, ?_, h2⟩
      simp only [ArgValues.rawValues] at h1
      clear h2 hemp hne
      induction l generalizing xs with
      | nil => cases h1; exact .nil
      | cons x l ih =>
        rw [List.map_cons] at h1
        cases h1 with
        | cons a b => exact .cons ((parseFloat_iff convert _ _).mp a) (ih _ b)
    · right
      obtain ⟨b', c', e, e1, e2⟩ := List.map_eq_append_iff.mp h1
      obtain ⟨⟨s', a⟩, c'', e3, e4, e5⟩ := List.map_eq_cons_iff.mp e2
      simp only at e4
      subst e4
      refine ⟨b', s', a, c'', _, ?_, ?_, ?_, h4⟩
      · rw [← e3]; exact e
      · intro b hb
        obtain ⟨x, hx⟩ := h2 b.1 (by rw [← e1]; exact List.mem_map.mpr ⟨b, hb, rfl⟩)
        obtain ⟨num, h5, h6⟩ := (parseFloat_iff convert _ _).mp hx
        exact ⟨num, x, h5, h6⟩
      · rintro ⟨num, x, h5, h6⟩
        rw [(parseFloat_iff convert s' x).mpr ⟨num, h5, h6⟩] at h3
        simp at h3

/-- **C73**: the error message for a value that is not a floating-point number names the argument or option that gave it. -/
theorem C73_reported {d0 d : ParserData} (h : finishInitialization d0 = .ok d) (hx : Exclusive d.command) {env : Env} (hp : env.Passive)
    {args : List Str} {rs : List IterResult} {n : PNode} (hr : Returns env d args rs .done n) {m : PNode} (hw : m.Within n)
    {name : Str} {v : ArgValue} (hv : m.value name = .ok v) {α : Type} (convert : FloatNum → Option α) (default : α)
    {s : Str} (hs : v.value = some s) (hno : ¬ ∃ num x, FloatLiteral s num ∧ convert num = some x) :
    ∃ r, v.asFloat d.settings convert default = (errorEnd d.settings, some r) ∧
      ∃ (t x : Tree (List Occ)), given d.command rs = some t ∧ x.Within t ∧ x.command = m.command ∧ ∃ occ ∈ x.data, ∃ w, Gives occ v.valueId s w ∧
        ∀ console texts, writeErrorMessageFor console texts d m.command r.message r.argumentId =
          writeErrorMessage console texts d m.command (calledFirst w ++ b!"Invalid value: " ++ s ++ b!".") := by
  have hnone : parseFloat convert s = none := by
    rw [parseFloat_none]
    intro x hx
    cases hc : convert x with
    | none => rfl
    | some y => exact absurd ⟨x, y, hx, hc⟩ hno
  rw [asFloat_eq]
  rcases C68_value h hx hp hr hw hv (parseFloat convert) default with ⟨h1, _⟩ | ⟨s', x, h1, h2, _⟩ | ⟨s', r, h1, _, h3, h4⟩
  · rw [h1] at hs; simp at hs
  · rw [hs] at h1
    simp only [Option.some.injEq] at h1
    subst h1
    rw [hnone] at h2; simp at h2
  · rw [hs] at h1
    simp only [Option.some.injEq] at h1
    subst h1
    exact ⟨r, h3, h4⟩

/-- A type with numbers up to 1000, which are not rounded. -/
def smallFloat (x : FloatNum) : Option (Option Rat) :=
  match x.mag with
  | .finite y => if y ≤ 1000 then some (some (if x.neg then -y else y)) else none
  | _ => some none

example :
    (ArgValue.asFloat {} smallFloat none ⟨some b!" -1.25e+2", 1, 1⟩) = (.ok (some (-125)), none) ∧
    (ArgValue.asFloat {} smallFloat none ⟨some b!"0x1.8P-1", 1, 1⟩) = (.ok (some (3 / 4)), none) ∧
    (ArgValue.asFloat {} smallFloat none ⟨some b!".5", 1, 1⟩) = (.ok (some (1 / 2)), none) ∧
    (ArgValue.asFloat {} smallFloat none ⟨some b!"NaN(x_1)", 1, 1⟩) = (.ok none, none) ∧
    (ArgValue.asFloat { autoExit := false } smallFloat none ⟨some b!"1e4", 1, 7⟩) = (.throw b!"Error while parsing arguments.", some ⟨b!"Invalid value: 1e4.", 7⟩) ∧
    (ArgValue.asFloat { autoExit := false } smallFloat none ⟨some b!"1e", 1, 7⟩) = (.throw b!"Error while parsing arguments.", some ⟨b!"Invalid value: 1e.", 7⟩) ∧
    (ArgValue.asFloat { autoExit := false } smallFloat none ⟨some b!"5 ", 1, 7⟩) = (.throw b!"Error while parsing arguments.", some ⟨b!"Invalid value: 5 .", 7⟩) := by
  decide +kernel

example :
    (ArgValues.asFloats {} smallFloat [] ⟨[(b!"1.5", 3), (b!"-Infinity", 4), (b!"2", 3)], 1⟩) = (.ok [some (3 / 2), none, some 2], none) ∧
    (ArgValues.asFloats { autoExit := false } smallFloat [] ⟨[(b!"1.5", 3), (b!"one", 3), (b!"two", 3)], 1⟩) =
      (.throw b!"Error while parsing arguments.", some ⟨b!"Invalid value: one.", 3⟩) := by
  decide +kernel

/-- A literal: the hypothesis of `C73_unique` and `C73_reported`. -/
example : FloatLiteral b!" -1.25e+2" ⟨true, .finite 125⟩ ∧ ¬ ∃ x, FloatLiteral b!"1.2.3" x := by
  constructor
  · exact (strtodRaw_iff _ _).mp (by decide +kernel)
  · rintro ⟨x, h⟩
    have h1 := (strtodRaw_iff _ _).mpr h
    have h2 : (strtodRaw b!"1.2.3").map (·.2) = some b!".3" := by decide +kernel
    rw [h1] at h2
    simp at h2

example : FloatLiteral b!" +42" ⟨false, .finite 42⟩ :=
  C73_integers (n := 42) ⟨b!" ", b!"+", [], b!"42", rfl, by decide, by simp, Or.inl rfl,
    Numeral.snoc (n := 4) (ds := b!"4") (Numeral.single (by left; rfl) (by decide)) (d := 2) (by left; rfl) (by decide)⟩

example : FloatLiteral b!"3.05" ⟨false, .finite (3 + 5 / 100)⟩ := by
  have := C73_decimals 3 5 2 (by decide +kernel)
  have e : (10 : Rat) ^ 2 = 100 := by decide +kernel
  rw [e] at this
  have e1 : decimalNat 3 = b!"3" := by decide +kernel
  have e2 : decimalNat 5 = b!"5" := by decide +kernel
  rw [e1, e2] at this
  exact this

/-- The error message that is written when the value of the name is read as a floating-point number. -/
def floatMessage (d : ParserData) (name : Str) (n : PNode) : Option Str :=
  match n.value name with
  | .ok v =>
    match (v.asFloat d.settings smallFloat none).2 with
    | some r =>
      match writeErrorMessageFor 60 (fun _ => []) d n.command r.message r.argumentId with
      | .ok f => some f.written
      | _ => none
    | none => none
  | _ => none

-- The conditions of `C73_reported` hold.
example : ∃ d, finishInitialization numbersData = .ok d ∧ Exclusive d.command ∧
    parseTo (floatMessage d b!"-n") Env.inert d [b!"-n", b!"1.5", b!"f"] 9 = some none ∧
    parseTo (floatMessage d b!"-n") Env.inert d [b!"-n", b!"1.5.2", b!"f"] 9 =
      some (some b!"cli: -n, --number: Invalid value: 1.5.2.\nUSAGE\n  cli [-n <N>] [-m <N>] <FILE>\n") := by
  have key : ∃ d, finishInitialization numbersData = .ok d ∧ (d.command.checkAll countsCheck 2 = true ∧
    parseTo (floatMessage d b!"-n") Env.inert d [b!"-n", b!"1.5", b!"f"] 9 = some none ∧
    parseTo (floatMessage d b!"-n") Env.inert d [b!"-n", b!"1.5.2", b!"f"] 9 =
      some (some b!"cli: -n, --number: Invalid value: 1.5.2.\nUSAGE\n  cli [-n <N>] [-m <N>] <FILE>\n")) := by
    refine Outcome.exists_ok ?_
    decide +kernel
  obtain ⟨d, hd, h1, h2⟩ := key
  exact ⟨d, hd, (countsCheck_sound h1).1, h2⟩

end Argos
