import Verif.Props.Iteration
import Verif.Proofs.Held

/-! # C96: values that have been taken stay while the iteration goes on

The values are the nodes of a `std::multimap` (ParsedArgumentsImpl.hpp:79), so a value or a `string_view` that a client has taken is
the entry at an index of the values of an argument or option. It stays valid and unchanged while `next()` goes on, unless an option
that assigns or clears is read for the same values. -/

namespace Argos
open Spec Parser

set_option synthInstance.maxSize 1000

/-- **C96**: the values that an object showed at some moment are still the first values it shows after any number of further calls
of `next()`, if none of these calls has reported an option that assigns or clears the same values. Missing: options given twice, see
`C96_violated`, and callbacks that change values. -/
theorem C96_kept_partial {d0 d : ParserData} (h : finishInitialization d0 = .ok d) {env : Env} (hp : env.Passive) {args : List Str}
    {reps0 reps : List IterReport} {h1 h2 : IterHandle} (ha : Advances env (IterHandle.make d args) reps0 h1)
    (hb : Advances env h1 reps h2) {p : NodeRef} {m : PNode} (hm : h1.look p = some m) (v : View)
    (hv : ∀ rep ∈ reps, ¬ ReportReplaces v.valueId rep) :
    ∃ m', h2.look p = some m' ∧ m'.command = m.command ∧
      ∀ (k : Nat) (x : Str × Nat), (m.valuesView v)[k]? = some x → (m'.valuesView v)[k]? = some x := by
  obtain ⟨m', occs, more, g1, g2, g3, g4, g5⟩ := advances_grow h hp ha hb (P := fun x => ¬ OccReplaces v.valueId x) (by
    intro r x hr hx
    have := hv _ hr
    cases r with
    | option o w =>
      simp only [addedBy, Option.some.injEq] at hx
      subst hx
      intro hc
      exact this ⟨o, rfl, hc⟩
    | argument a w => simp only [addedBy, Option.some.injEq] at hx; subst hx; exact fun h => h
    | unknown s => simp only [addedBy, Option.some.injEq] at hx; subst hx; exact fun h => h
    | _ => simp [addedBy] at hx) hm
  refine ⟨m', g1, g2, ?_⟩
  intro k x hx
  have hpre := valuesOf_prefix more g5 occs
  rw [← g3, ← g4] at hpre
  obtain ⟨tail, ht⟩ := hpre
  show (m'.values.getValues v.valueId)[k]? = some x
  have hx' : (m.values.getValues v.valueId)[k]? = some x := hx
  rw [← ht, List.getElem?_append_left (List.getElem?_eq_some_iff.mp hx').1]
  exact hx'

/-- **C96**: the values stay exactly the same as long as no option or argument is reported that they belong to. -/
theorem C96_unconcerned {d0 d : ParserData} (h : finishInitialization d0 = .ok d) {env : Env} (hp : env.Passive) {args : List Str}
    {reps0 reps : List IterReport} {h1 h2 : IterHandle} (ha : Advances env (IterHandle.make d args) reps0 h1)
    (hb : Advances env h1 reps h2) {p : NodeRef} {m : PNode} (hm : h1.look p = some m) (v : View)
    (hv : ∀ rep ∈ reps, ¬ ReportConcerns v.valueId rep) :
    ∃ m', h2.look p = some m' ∧ m'.command = m.command ∧ m'.valuesView v = m.valuesView v := by
  obtain ⟨m', occs, more, g1, g2, g3, g4, g5⟩ := advances_grow h hp ha hb (P := fun x => ¬ OccConcerns v.valueId x) (by
    intro r x hr hx
    have := hv _ hr
    cases r with
    | option o w =>
      simp only [addedBy, Option.some.injEq] at hx
      subst hx
      exact fun hc => this (Or.inl ⟨o, rfl, hc⟩)
    | argument a w =>
      simp only [addedBy, Option.some.injEq] at hx
      subst hx
      exact fun hc => this (Or.inr ⟨a, rfl, hc⟩)
    | unknown s => simp only [addedBy, Option.some.injEq] at hx; subst hx; exact fun h => h
    | _ => simp [addedBy] at hx) hm
  refine ⟨m', g1, g2, ?_⟩
  show m'.values.getValues v.valueId = m.values.getValues v.valueId
  rw [g3, g4, valuesOf_same more g5]

/-- **C96**: the same for the call of `next()` that returns false, at the end of the command line or because of an error: the values stay
unless an option of the command that is being read ends the command line (`LAST_ARGUMENT`) and assigns or clears them. Missing: these options,
see `C96_silent_violated`. -/
theorem C96_last_partial {d0 d : ParserData} (h : finishInitialization d0 = .ok d) {env : Env} (hp : env.Passive) {args : List Str}
    {reps : List IterReport} {rep : IterReport} {h1 h2 : IterHandle} (ha : Advances env (IterHandle.make d args) reps h1)
    (hn : h1.next env = (.ok rep, h2)) (hrep : rep.more = false) {p : NodeRef} {m : PNode} (hm : h1.look p = some m) (v : View)
    (hv : ∀ q n, h1.parsedArguments = .ok q → h1.look q = some n → ∀ o ∈ n.command.options, o.type = .lastArgument →
      o.valueId = v.valueId → o.operation = .append ∨ o.operation = .none) :
    ∃ m', h2.look p = some m' ∧ m'.command = m.command ∧
      ∀ (k : Nat) (x : Str × Nat), (m.valuesView v)[k]? = some x → (m'.valuesView v)[k]? = some x := by
  obtain ⟨q, n, m', occs, more, g1, g2, g3, g4, g5, g6, g7⟩ := last_grows h hp ha hn hrep hm
  refine ⟨m', g3, g4, ?_⟩
  intro k x hx
  have hpre := valuesOf_prefix (id := v.valueId) more (by
    intro y hy
    obtain ⟨o, w, rfl, ho, hty⟩ := g7 y hy
    rintro ⟨e1, e2⟩
    rcases hv q n g1 g2 o ho hty e1 with e | e <;> rw [e] at e2 <;> simp at e2) occs
  rw [← g5, ← g6] at hpre
  obtain ⟨tail, ht⟩ := hpre
  show (m'.values.getValues v.valueId)[k]? = some x
  have hx' : (m.values.getValues v.valueId)[k]? = some x := hx
  rw [← ht, List.getElem?_append_left (List.getElem?_eq_some_iff.mp hx').1]
  exact hx'

/-- **C96**: reaching the end of the command line without an error changes no value. -/
theorem C96_end {d0 d : ParserData} (h : finishInitialization d0 = .ok d) {env : Env} (hp : env.Passive) {args : List Str}
    {reps : List IterReport} {s s' : PState} (ha : Advances env (IterHandle.make d args) reps (some s))
    (hn : Parser.next env s = (.ok .done, s')) {p : NodeRef} {m : PNode} (hm : IterHandle.look (some s) p = some m) (v : View) :
    ∃ m', IterHandle.look (some s') p = some m' ∧ m'.command = m.command ∧ m'.valuesView v = m.valuesView v := by
  obtain ⟨m', g1, g2, g3⟩ := end_same h hp ha hn hm
  exact ⟨m', g1, g2, g3 _⟩

instance {α : Type} {x : Option α} {P : α → Prop} [DecidablePred P] : Decidable (∃ m, x = some m ∧ P m) :=
  match x with
  | some m => if hm : P m then .isTrue ⟨m, rfl, hm⟩ else .isFalse (by rintro ⟨m', e, h'⟩; cases e; exact hm h')
  | none => .isFalse (by rintro ⟨m, e, _⟩; cases e)

/-- Whether a report is about an option that assigns or clears the values `id`, for the examples. -/
def replacesB (id : Nat) (rep : IterReport) : Bool :=
  match rep.arg with
  | some (.option o) => decide (o.valueId = id) && (decide (o.operation = .assign) || decide (o.operation = .clear))
  | _ => false

theorem replacesB_sound {id : Nat} {rep : IterReport} (h : replacesB id rep = false) : ¬ ReportReplaces id rep := by
  rintro ⟨o, h1, h2, h3⟩
  unfold replacesB at h
  rw [h1] at h
  rcases h3 with h3 | h3 <;> simp [h2, h3] at h

/-- A run in which the theorem applies: the first file, taken before further files and `-v` are read. -/
example : ∃ d, finishInitialization cliData = .ok d ∧ Env.inert.Passive ∧ ∃ reps0 h1 reps h2 m a,
    Advances Env.inert (IterHandle.make d [b!"in", b!"f", b!"-v", b!"g"]) reps0 h1 ∧ Advances Env.inert h1 reps h2 ∧
    h1.look [] = some m ∧ a ∈ d.command.arguments ∧ reps.length = 2 ∧ (m.valuesView (.arg a))[0]? = some (b!"f", a.argumentId) ∧
    (∀ rep ∈ reps, ¬ ReportReplaces a.valueId rep) ∧ (∃ rep ∈ reps, ∃ o, rep.arg = some (.option o) ∧ o.operation = .assign) := by
  have key : ∃ d, finishInitialization cliData = .ok d ∧ ∃ p, advanceAll Env.inert 2 (IterHandle.make d [b!"in", b!"f", b!"-v", b!"g"]) = .ok p ∧
      ∃ q, advanceAll Env.inert 2 p.2 = .ok q ∧ q.1.length = 2 ∧ ∃ a ∈ d.command.arguments, ∃ m, p.2.look [] = some m ∧
      (m.valuesView (.arg a))[0]? = some (b!"f", a.argumentId) ∧ q.1.all (fun rep => !replacesB a.valueId rep) = true ∧
      q.1.any (fun rep => match rep.arg with | some (.option o) => decide (o.operation = .assign) | _ => false) = true := by
    decide +kernel
  obtain ⟨d, e1, ⟨reps0, h1⟩, e2, ⟨reps, h2⟩, e3, e4, a, e5, m, e6, e7, e8, e9⟩ := key
  refine ⟨d, e1, Env.inert_passive, reps0, h1, reps, h2, m, a, advanceAll_sound e2, advanceAll_sound e3, e6, e5, e4, e7, ?_, ?_⟩
  · intro rep hr
    have := List.all_eq_true.mp e8 rep hr
    exact replacesB_sound (by simpa using this)
  · obtain ⟨rep, hr, hx⟩ := List.any_eq_true.mp e9
    refine ⟨rep, hr, ?_⟩
    revert hx
    cases rep.arg with
    | none => simp
    | some y => cases y <;> simp

/-- A run that ends with an error: a file has been taken, then an option is not known. -/
example : ∃ d, finishInitialization cliData = .ok d ∧ ∃ reps h1 rep h2 m a,
    Advances Env.inert (IterHandle.make d [b!"in", b!"f", b!"--wrong"]) reps h1 ∧ h1.next Env.inert = (.ok rep, h2) ∧ rep.more = false ∧
    h1.look [] = some m ∧ a ∈ d.command.arguments ∧ (m.valuesView (.arg a))[0]? = some (b!"f", a.argumentId) ∧
    ∀ q n, h1.parsedArguments = .ok q → h1.look q = some n → ∀ o ∈ n.command.options, o.type ≠ .lastArgument := by
  have key : ∃ d, finishInitialization cliData = .ok d ∧ ∃ p, advanceAll Env.inert 2 (IterHandle.make d [b!"in", b!"f", b!"--wrong"]) = .ok p ∧
      ∃ rep, (p.2.next Env.inert).1 = .ok rep ∧ rep.more = false ∧ ∃ a ∈ d.command.arguments, ∃ m, p.2.look [] = some m ∧
      (m.valuesView (.arg a))[0]? = some (b!"f", a.argumentId) ∧
      Seen p.2 p.2.parsedArguments (fun n => ∀ o ∈ n.command.options, o.type ≠ .lastArgument) := by
    decide +kernel
  obtain ⟨d, e1, ⟨reps, h1⟩, e2, rep, e3, e4, a, e5, m, e6, e7, q, e8, n, e9, e10⟩ := key
  refine ⟨d, e1, reps, h1, rep, _, m, a, advanceAll_sound e2, Prod.ext e3 rfl, e4, e6, e5, e7, ?_⟩
  intro q' n' f1 f2
  have f3 : q' = q := by
    have := f1.symm.trans e8
    exact Outcome.ok.inj this
  subst f3
  have f4 : n' = n := Option.some.inj (f2.symm.trans e9)
  subst f4
  exact e10

/-- **C96** does not hold without the condition: the value of `-o` that was taken after `-o a` is another one after `-o b`. -/
theorem C96_violated : ∃ d, finishInitialization cliData = .ok d ∧ ∃ reps0 h1 reps h2,
    Advances Env.inert (IterHandle.make d [b!"-o", b!"a", b!"-o", b!"b"]) reps0 h1 ∧ Advances Env.inert h1 reps h2 ∧
    ∃ o ∈ d.command.options, ∃ m m', h1.look [] = some m ∧ h2.look [] = some m' ∧
      m.valuesView (.opt o) = [(b!"a", o.argumentId)] ∧ m'.valuesView (.opt o) = [(b!"b", o.argumentId)] := by
  have key : ∃ d, finishInitialization cliData = .ok d ∧ ∃ p, advanceAll Env.inert 1 (IterHandle.make d [b!"-o", b!"a", b!"-o", b!"b"]) = .ok p ∧
      ∃ q, advanceAll Env.inert 1 p.2 = .ok q ∧ ∃ o ∈ d.command.options, ∃ m, p.2.look [] = some m ∧ ∃ m', q.2.look [] = some m' ∧
      m.valuesView (.opt o) = [(b!"a", o.argumentId)] ∧ m'.valuesView (.opt o) = [(b!"b", o.argumentId)] := by
    decide +kernel
  obtain ⟨d, e1, ⟨reps0, h1⟩, e2, ⟨reps, h2⟩, e3, o, e4, m, e5, m', e6, e7, e8⟩ := key
  exact ⟨d, e1, reps0, h1, reps, h2, advanceAll_sound e2, advanceAll_sound e3, o, e4, m, m', e5, e6, e7, e8⟩

/-- Two options for one value. The second ends the command line. -/
def finalData : ParserData :=
  { command :=
      { name := b!"cli"
        options := [{ flags := [b!"-o"], argument := b!"FILE", alias_ := b!"out" },
          { flags := [b!"--final"], argument := b!"FILE", alias_ := b!"out", type := .lastArgument }]
        arguments := [{ name := b!"IN" }] }
    settings := { autoExit := false } }

/-- **C96** does not even hold when no option is reported at all: `--final` ends the command line, which is not complete. `next()`
returns false and gives no option, but the value of `-o` has been replaced by the one of `--final`. -/
theorem C96_silent_violated : ∃ d, finishInitialization finalData = .ok d ∧ ∃ reps h1 rep h2,
    Advances Env.inert (IterHandle.make d [b!"-o", b!"a", b!"--final=b"]) reps h1 ∧ h1.next Env.inert = (.ok rep, h2) ∧
    rep.arg.isNone = true ∧ rep.more = false ∧ ∃ o ∈ d.command.options, ∃ m m', h1.look [] = some m ∧ h2.look [] = some m' ∧
      m.valuesView (.opt o) = [(b!"a", o.argumentId)] ∧ ∃ a, m'.valuesView (.opt o) = [(b!"b", a)] ∧ a ≠ o.argumentId := by
  have key : ∃ d, finishInitialization finalData = .ok d ∧ ∃ p, advanceAll Env.inert 1 (IterHandle.make d [b!"-o", b!"a", b!"--final=b"]) = .ok p ∧
      ∃ rep, (p.2.next Env.inert).1 = .ok rep ∧ rep.arg.isNone = true ∧ rep.more = false ∧
      ∃ o ∈ d.command.options, ∃ m, p.2.look [] = some m ∧ ∃ m', (p.2.next Env.inert).2.look [] = some m' ∧
      m.valuesView (.opt o) = [(b!"a", o.argumentId)] ∧ (m'.valuesView (.opt o)).map (·.1) = [b!"b"] ∧
      (m'.valuesView (.opt o)).all (fun x => decide (x.2 ≠ o.argumentId)) = true := by
    decide +kernel
  obtain ⟨d, e1, ⟨reps, h1⟩, e2, rep, e3, e4, e5, o, e6, m, e7, m', e8, e9, e10, e11⟩ := key
  refine ⟨d, e1, reps, h1, rep, _, advanceAll_sound e2, Prod.ext e3 rfl, e4, e5, o, e6, m, m', e7, e8, e9, ?_⟩
  generalize m'.valuesView (.opt o) = l at e10 e11
  match l, e10, e11 with
  | [(b, a)], e10, e11 =>
    simp only [List.map_cons, List.map_nil, List.cons.injEq, and_true] at e10
    subst e10
    exact ⟨a, rfl, by simpa using e11⟩

end Argos
