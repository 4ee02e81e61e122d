import Verif.Proofs.InitTree
import Verif.Proofs.Iterators
import Verif.Model.Parser

/-!
# Flags and options: C07 to C12
-/

namespace Argos
open Spec

set_option synthInstance.maxSize 1000

/-- The parser used in the examples: three options, one with an argument, and a sub-command. -/
def demoData : ParserData :=
  { command :=
      { name := b!"demo"
        options := [{ flags := [b!"-f", b!"--file"], argument := b!"FILE" },
          { flags := [b!"--verbose"] }, { flags := [b!"--version-info"] }]
        commands := [{ name := b!"sub", options := [{ flags := [b!"-q"] }] }] }
    version := b!"1.0" }

/-- The computation ended with a normal return. -/
def Outcome.isOk {α : Type} : Outcome α → Bool
  | .ok _ => true
  | _ => false

theorem Outcome.isOk_iff {α : Type} (x : Outcome α) : x.isOk = true ↔ ∃ a, x = .ok a := by
  cases x <;> simp [Outcome.isOk]

example : (finishInitialization demoData).isOk = true := by decide

/-- The lookup that the parser performs for a flag typed while command `c` is active. -/
abbrev lookup (s : ParserSettings) (c : Command) (flag : Str) : Option OptData :=
  findOption c.optionIndex flag s.allowAbbreviatedOptions s.caseInsensitive

/-! ## C07 -/

/-- C07. With case-insensitivity and abbreviations off, a typed flag selects an option exactly when
it is one of its flags, or one of its flags followed by `=` while the option takes an argument and no
option has the flag with the `=`. -/
theorem C07_exact {d d' : ParserData} (h : finishInitialization d = .ok d')
    (hci : d.settings.caseInsensitive = false) (hab : d.settings.allowAbbreviatedOptions = false)
    {c : Command} (hc : c.Within d'.command) (q : Str) (o : OptData) :
    lookup d'.settings c q = some o ↔
      o ∈ c.options ∧ (q ∈ o.flags ∨
        ∃ f ∈ o.flags, q = f ++ b!"=" ∧ o.argument ≠ [] ∧ ∀ o' ∈ c.options, q ∉ o'.flags) := by
  have hs := (finishInitialization_ok h).1
  have hr := optionsReady h c hc
  have hi := hr.index
  have hl := hr.flags_ok
  unfold lookup
  rw [hs] at hi hl ⊢
  rw [hci] at hi
  rw [hci, hab, findOption_selects false false c.options c.optionIndex hi (by simp [RegularFlags])]
  have hsel : ∀ q o, Selects false false c.options q o ↔ o ∈ c.options ∧ q ∈ o.flags := by
    intro q o
    simp [Selects, SameFlag]
  simp only [hsel]
  constructor
  · rintro (h1 | ⟨r, rfl, _, h2, ⟨h3, h4⟩, h5⟩)
    · exact ⟨h1.1, Or.inl h1.2⟩
    · exact ⟨h3, Or.inr ⟨r, h4, rfl, h5, fun o' ho' hq => h2 o' ⟨ho', hq⟩⟩⟩
  · rintro ⟨h1, h2 | ⟨f, h2, rfl, h3, h4⟩⟩
    · exact Or.inl ⟨h1, h2⟩
    · exact Or.inr ⟨f, rfl, checkFlag_length _ f o (hl o h1 f h2),
        fun o' ho' => h4 o' ho'.1 ho'.2, ⟨h1, h2⟩, h3⟩

/-- Two different options never share a flag, so the selected option is unique. -/
theorem C07_unique {d d' : ParserData} (h : finishInitialization d = .ok d')
    (hci : d.settings.caseInsensitive = false)
    {c : Command} (hc : c.Within d'.command) {o₁ o₂ : OptData} (h₁ : o₁ ∈ c.options) (h₂ : o₂ ∈ c.options)
    {f : Str} (hf₁ : f ∈ o₁.flags) (hf₂ : f ∈ o₂.flags) : o₁ = o₂ := by
  have hs := (finishInitialization_ok h).1
  have hi := (optionsReady h c hc).index
  rw [hs, hci] at hi
  obtain ⟨_, _, hd⟩ := buildOptionIndex_ok _ _ _ (regular_keyOk false c.options (by simp [RegularFlags])) hi
  have := eq_of_key (fun a : Str × OptData => flagKey false a.1) hd
    ((mem_flagPairs c.options f o₁).mpr ⟨h₁, hf₁⟩) ((mem_flagPairs c.options f o₂).mpr ⟨h₂, hf₂⟩) rfl
  exact congrArg Prod.snd this

-- "--file=" and "-f" select the first option, "--fil" and "--verbose=" none.
example : ∃ d', finishInitialization demoData = .ok d' ∧
    (lookup d'.settings d'.command b!"--file=").map (·.flags) = some [b!"-f", b!"--file"] ∧
    (lookup d'.settings d'.command b!"-f").map (·.flags) = some [b!"-f", b!"--file"] ∧
    lookup d'.settings d'.command b!"--fil" = none ∧
    lookup d'.settings d'.command b!"--verbose=" = none := by
  refine ⟨_, rfl, ?_, ?_, ?_, ?_⟩ <;> decide

/-! ## C08 -/

/-- C08. With abbreviations on, a typed flag that equals some flag selects that flag's option;
otherwise it selects an option exactly when it is a prefix of exactly one defined flag. (A typed flag
ending in `=` is tried as it is first, then without the `=` for options that take an argument.) -/
theorem C08_abbreviations {d d' : ParserData} (h : finishInitialization d = .ok d')
    (hci : d.settings.caseInsensitive = false) (hab : d.settings.allowAbbreviatedOptions = true)
    {c : Command} (hc : c.Within d'.command) (q : Str) (o : OptData) :
    lookup d'.settings c q = some o ↔
      Selects false true c.options q o ∨
      (∃ r, q = r ++ b!"=" ∧ 2 ≤ r.length ∧ (∀ o', ¬ Selects false true c.options q o') ∧
        Selects false true c.options r o ∧ o.argument ≠ []) := by
  have hs := (finishInitialization_ok h).1
  have hi := (optionsReady h c hc).index
  unfold lookup
  rw [hs] at hi ⊢
  rw [hci] at hi
  rw [hci, hab, findOption_selects false true c.options c.optionIndex hi (by simp [RegularFlags])]

/-- A flag that is defined is never treated as an abbreviation of a longer one. -/
theorem C08_exact_first {d d' : ParserData} (h : finishInitialization d = .ok d')
    (hci : d.settings.caseInsensitive = false) (hab : d.settings.allowAbbreviatedOptions = true)
    {c : Command} (hc : c.Within d'.command) (o : OptData) (ho : o ∈ c.options) (f : Str) (hf : f ∈ o.flags) :
    lookup d'.settings c f = some o :=
  (C08_abbreviations h hci hab hc f o).mpr (Or.inl ⟨ho, Or.inl ⟨f, hf, by simp [SameFlag]⟩⟩)

/-- A typed flag without `=` that is a prefix of two different flags, and equal to none, selects
nothing. -/
theorem C08_ambiguous {d d' : ParserData} (h : finishInitialization d = .ok d')
    (hci : d.settings.caseInsensitive = false) (hab : d.settings.allowAbbreviatedOptions = true)
    {c : Command} (hc : c.Within d'.command) (q f g : Str) (hq : c!"=" ∉ q)
    (hf : f ∈ flagsOf c.options) (hg : g ∈ flagsOf c.options) (hfg : f ≠ g) (hqf : q <+: f) (hqg : q <+: g)
    (hno : q ∉ flagsOf c.options) : lookup d'.settings c q = none := by
  cases hl : lookup d'.settings c q with
  | none => rfl
  | some o =>
    exfalso
    rcases (C08_abbreviations h hci hab hc q o).mp hl with ⟨ho, ⟨f', hf', e⟩ | ⟨_, _, x, _, _, hu⟩⟩ | ⟨r, e, _⟩
    · simp [SameFlag] at e
      subst e
      exact hno ((mem_flagsOf _ _).mpr ⟨o, ho, hf'⟩)
    · exact hfg ((hu f hf (by simpa [IsAbbrev] using hqf)).trans (hu g hg (by simpa [IsAbbrev] using hqg)).symm)
    · exact hq (by rw [e]; simp)

-- "--verb" is unambiguous, "--ver" is not (--verbose, --version-info, --version).
example : ∃ d', finishInitialization { demoData with settings := { allowAbbreviatedOptions := true } } = .ok d' ∧
    (lookup d'.settings d'.command b!"--verb").map (·.flags) = some [b!"--verbose"] ∧
    lookup d'.settings d'.command b!"--ver" = none ∧
    (lookup d'.settings d'.command b!"--fi=").map (·.flags) = some [b!"-f", b!"--file"] ∧
    (lookup d'.settings d'.command b!"--version").map (·.flags) = some [b!"--version"] := by
  refine ⟨_, rfl, ?_, ?_, ?_, ?_⟩ <;> decide

/-! ## C09 -/

/-- C09, for flags made of regular characters (ASCII without `[ \ ] ^ _` and backtick): a typed flag
selects an option exactly when it differs from one of its flags (possibly followed by `=`) by nothing
but the case of letters. What is missing: flags with other characters, see `C09_violated`. -/
theorem C09_case_insensitive_partial {d d' : ParserData} (h : finishInitialization d = .ok d')
    (hci : d.settings.caseInsensitive = true) (hab : d.settings.allowAbbreviatedOptions = false)
    {c : Command} (hc : c.Within d'.command) (hreg : RegularFlags true c.options) (q : Str) (o : OptData) :
    lookup d'.settings c q = some o ↔
      o ∈ c.options ∧ ((∃ f ∈ o.flags, foldCase q = foldCase f) ∨
        ∃ f ∈ o.flags, foldCase q = foldCase (f ++ b!"=") ∧ o.argument ≠ [] ∧
          ∀ o' ∈ c.options, ∀ f' ∈ o'.flags, foldCase q ≠ foldCase f') := by
  have hs := (finishInitialization_ok h).1
  have hr := optionsReady h c hc
  have hi := hr.index
  have hl := hr.flags_ok
  unfold lookup
  rw [hs] at hi hl ⊢
  rw [hci] at hi
  rw [hci, hab, findOption_selects true false c.options c.optionIndex hi hreg]
  have hsel : ∀ q o, Selects true false c.options q o ↔
      o ∈ c.options ∧ ∃ f ∈ o.flags, foldCase q = foldCase f := by
    intro q o
    simp only [Selects, SameFlag, if_true, Bool.false_eq_true, false_and, or_false]
    constructor
    · rintro ⟨h1, f, h2, h3⟩; exact ⟨h1, f, h2, h3.symm⟩
    · rintro ⟨h1, f, h2, h3⟩; exact ⟨h1, f, h2, h3.symm⟩
  have hlen : ∀ a b : Str, foldCase a = foldCase b → a.length = b.length := by
    intro a b e
    simpa [foldCase] using congrArg List.length e
  simp only [hsel]
  constructor
  · rintro (h1 | ⟨r, rfl, _, h2, ⟨h3, f, h4, h4'⟩, h5⟩)
    · exact ⟨h1.1, Or.inl h1.2⟩
    · refine ⟨h3, Or.inr ⟨f, h4, ?_, h5, fun o' ho' f' hf' e => h2 o' ⟨ho', f', hf', e⟩⟩⟩
      have h6 : ∀ a b : Str, foldCase (a ++ b) = foldCase a ++ foldCase b := by
        intro a b; simp [foldCase]
      rw [h6, h6, h4']
  · rintro ⟨h1, h2 | ⟨f, h2, h2', h3, h4⟩⟩
    · exact Or.inl ⟨h1, h2⟩
    · have hl2 := checkFlag_length _ f o (hl o h1 f h2)
      have hq : q.length = f.length + 1 := by have := hlen _ _ h2'; simpa using this
      have hqne : q ≠ [] := by intro e; rw [e] at hq; simp at hq
      have hsplit := List.dropLast_concat_getLast hqne
      have h6 : ∀ a b : Str, foldCase (a ++ b) = foldCase a ++ foldCase b := by
        intro a b; simp [foldCase]
      rw [← hsplit, h6, h6] at h2'
      have hlen2 : (foldCase q.dropLast).length = (foldCase f).length := by simp [foldCase, hq]
      obtain ⟨e1, e2⟩ := List.append_inj h2' hlen2
      have e3 : q.getLast hqne = c!"=" := by
        simp only [foldCase, List.map_cons, List.map_nil, List.cons.injEq, and_true] at e2
        have e4 : foldByte c!"=" = 61 := by decide
        rw [e4] at e2
        unfold foldByte at e2
        have e5 : (q.getLast hqne).toNat = 61 := by split at e2 <;> omega
        exact UInt8.toNat_inj.mp (by rw [e5]; rfl)
      refine Or.inr ⟨q.dropLast, ?_, by simp [hq]; omega, ?_, ⟨h1, f, h2, e1⟩, h3⟩
      · rw [e3] at hsplit; exact hsplit.symm
      · rintro o' ⟨ho', f', hf', e⟩
        exact h4 o' ho' f' hf' e

/-- C09 with abbreviations, for regular flags. -/
theorem C09_abbreviations_partial {d d' : ParserData} (h : finishInitialization d = .ok d')
    (hci : d.settings.caseInsensitive = true) (hab : d.settings.allowAbbreviatedOptions = true)
    {c : Command} (hc : c.Within d'.command) (hreg : RegularFlags true c.options) (q : Str) (o : OptData) :
    lookup d'.settings c q = some o ↔
      Selects true true c.options q o ∨
      (∃ r, q = r ++ b!"=" ∧ 2 ≤ r.length ∧ (∀ o', ¬ Selects true true c.options q o') ∧
        Selects true true c.options r o ∧ o.argument ≠ []) := by
  have hs := (finishInitialization_ok h).1
  have hi := (optionsReady h c hc).index
  unfold lookup
  rw [hs] at hi ⊢
  rw [hci] at hi
  rw [hci, hab, findOption_selects true true c.options c.optionIndex hi hreg]

example : ∃ d', finishInitialization { demoData with settings := { caseInsensitive := true } } = .ok d' ∧
    RegularFlags true d'.command.options ∧
    (lookup d'.settings d'.command b!"--VerBose").map (·.flags) = some [b!"--verbose"] ∧
    (lookup d'.settings d'.command b!"-F").map (·.flags) = some [b!"-f", b!"--file"] := by
  refine ⟨_, rfl, ?_, ?_, ?_⟩ <;> decide

/-- The parser of `C09_violated`: case-insensitive flags `--DRYRUN` and `--DRY_RUN`. -/
def dryRunData : ParserData :=
  { command := { options := [{ flags := [b!"--DRYRUN"] }, { flags := [b!"--DRY_RUN"] }] }
    settings := { caseInsensitive := true, generateHelpOption := false } }

/-- C09 fails for flags with an underscore: the parser is accepted, but the lower-case spelling of
`--DRYRUN` is not found. -/
theorem C09_violated : ∃ (d d' : ParserData) (o : OptData) (f q : Str),
    finishInitialization d = .ok d' ∧ d.settings.caseInsensitive = true ∧ o ∈ d'.command.options ∧
    f ∈ o.flags ∧ foldCase q = foldCase f ∧ lookup d'.settings d'.command q = none := by
  refine ⟨dryRunData, _, { flags := [b!"--DRYRUN"], constant := b!"1", argumentId := 2, valueId := 1 },
    b!"--DRYRUN", b!"--dryrun", rfl, rfl, ?_, ?_, ?_, ?_⟩ <;> decide

/-! ## C10 -/

/-- C10, case-sensitive, and case-insensitive for regular flags: preparing the options of a command
throws if two flags are equal in the selected case mode and otherwise succeeds. What is missing:
case-insensitive flags with irregular characters, see `C10_violated`. -/
theorem C10_conflicts_partial (options : List OptData) (ci : Bool) (hreg : RegularFlags ci options) :
    (DistinctFlags ci options → ∃ index, buildOptionIndex options ci = .ok index) ∧
    (¬ DistinctFlags ci options → ∃ msg, buildOptionIndex options ci = .throw msg) := by
  obtain ⟨h1, h2⟩ := buildOptionIndex_spec ci options (regular_keyOk ci options hreg)
  rw [← distinct_pairs] at h1 h2
  refine ⟨fun hd => ?_, h2⟩
  obtain ⟨i, hi, _⟩ := h1 hd
  exact ⟨i, hi⟩

/-- C10 for whole parsers: in an accepted parser the flags of every command, including the
automatically added ones, are different. -/
theorem C10_accepted_distinct_partial {d d' : ParserData} (h : finishInitialization d = .ok d')
    {c : Command} (hc : c.Within d'.command) (hreg : RegularFlags d.settings.caseInsensitive c.options) :
    DistinctFlags d.settings.caseInsensitive c.options := by
  have hs := (finishInitialization_ok h).1
  have hi := (optionsReady h c hc).index
  rw [hs] at hi
  exact (distinct_pairs _ _).mpr (buildOptionIndex_ok _ _ _ (regular_keyOk _ _ hreg) hi).2.2

/-- Case-sensitive parsers: no restriction on the flags. -/
theorem C10_case_sensitive (options : List OptData) :
    ((flagsOf options).Nodup → ∃ index, buildOptionIndex options false = .ok index) ∧
    (¬ (flagsOf options).Nodup → ∃ msg, buildOptionIndex options false = .throw msg) := by
  have := C10_conflicts_partial options false (by simp [RegularFlags])
  simp only [DistinctFlags, SameFlag, Bool.false_eq_true, if_false] at this
  exact this

example : DistinctFlags false [{ flags := [b!"-a", b!"--all"] }, { flags := [b!"-A"] }] ∧
    ¬ DistinctFlags true [{ flags := [b!"-a", b!"--all"] }, { flags := [b!"-A"] }] := by
  constructor <;> (unfold DistinctFlags; decide)

/-- C10 fails for irregular characters: `--A` is defined twice, once in each of two options, and
accepted in case-insensitive mode, because a backtick separates the two when they are sorted. -/
theorem C10_violated : ∃ options : List OptData, ¬ DistinctFlags true options ∧
    ∃ index, buildOptionIndex options true = .ok index :=
  ⟨[{ flags := [b!"--A"] }, { flags := [b!"--`"] }, { flags := [b!"--A"] }],
    by unfold DistinctFlags; decide, (Outcome.isOk_iff _).mp (by decide)⟩

/-- Worse, for other irregular flags preparing the parser is undefined behaviour: the comparison
given to `std::sort` is not a strict weak order. -/
theorem C10_sort_violated : ∃ options : List OptData, DistinctFlags true options ∧
    buildOptionIndex options true = .ub :=
  ⟨[{ flags := [b!"--a"] }, { flags := [b!"--_"] }], by unfold DistinctFlags; decide, by decide⟩

/-! ## C11 -/

/-- The characters after the first two of an accepted flag of three or more characters. -/
theorem checkFlagWithEqual_true {f : Str} {o : OptData} (h : checkFlagWithEqual f o = .ok true) :
    findChar c!"=" f = none ∨ findChar c!"=" f = some (f.length - 1) := by
  unfold checkFlagWithEqual at h
  cases hf : findChar c!"=" f with
  | none => exact Or.inl rfl
  | some e =>
    rw [hf] at h
    simp only at h
    split at h
    · simp at h
    · rename_i he
      simp at he
      rw [he]
      exact Or.inr rfl

/-- C11. Every accepted flag is recognised as an option when it is typed as an argument, whatever
follows it, and selects the option that defines it. (Case-sensitive, or regular flags; what is missing:
see `C11_violated`.) -/
theorem C11_typable_partial {d d' : ParserData} (h : finishInitialization d = .ok d')
    {c : Command} (hc : c.Within d'.command) (hreg : RegularFlags d.settings.caseInsensitive c.options)
    {o : OptData} (ho : o ∈ c.options) {f : Str} (hf : f ∈ o.flags) (rest : List Str) :
    (∃ it, (Iter.make d.settings.optionStyle (f :: rest)).next = .ok (some f, it)) ∧
    isOption f d.settings.optionStyle = true ∧
    lookup d'.settings c f = some o := by
  have hs := (finishInitialization_ok h).1
  have hr := optionsReady h c hc
  have hi := hr.index
  have hck := hr.flags_ok o ho f hf
  rw [hs] at hi hck
  refine ⟨?_, ?_, ?_⟩
  · cases hst : d.settings.optionStyle with
    | standard =>
      rw [hst] at hck
      simp only [Iter.make, Iter.next, StdIt.next]
      match f, hck with
      | [], hck => simp [checkFlagStyle, checkStandardFlag, hasWhitespace] at hck
      | [_], hck => simp [checkFlagStyle, checkStandardFlag] at hck
      | [a, b], _ => exact ⟨_, rfl⟩
      | a :: b :: x :: xs, hck =>
        simp only [checkFlagStyle, checkStandardFlag] at hck
        split at hck
        · simp at hck
        split at hck
        · simp at hck
        split at hck
        · simp at hck
        rename_i ha hb
        simp only [StdIt.nextFresh, ha, hb, if_false]
        rcases checkFlagWithEqual_true hck with e | e
        · rw [e]; exact ⟨_, rfl⟩
        · rw [e]
          refine ⟨.std ⟨(a :: b :: x :: xs) :: rest, .at ((a :: b :: x :: xs).length - 1 + 1)⟩, ?_⟩
          have : (a :: b :: x :: xs).length - 1 + 1 = (a :: b :: x :: xs).length := by simp
          rw [this]
          simp
    | slash =>
      rw [hst] at hck
      simp only [Iter.make, Iter.next, OptIt.next]
      match f, hck with
      | [], hck => simp [checkFlagStyle, checkFlag] at hck
      | [_], hck => simp [checkFlagStyle, checkFlag] at hck
      | [a, b], _ => exact ⟨_, rfl⟩
      | a :: b :: x :: xs, hck =>
        simp only [checkFlagStyle, checkFlag] at hck
        split at hck
        · simp at hck
        split at hck
        · simp at hck
        split at hck
        · rename_i hx; simp at hx
        rename_i ha _ _
        simp only [OptIt.nextFresh, ha, if_false, if_true]
        rcases checkFlagWithEqual_true hck with e | e
        · rw [e]; exact ⟨_, rfl⟩
        · rw [e]
          refine ⟨.opt ⟨(a :: b :: x :: xs) :: rest, .at ((a :: b :: x :: xs).length - 1 + 1), c!"/"⟩, ?_⟩
          have : (a :: b :: x :: xs).length - 1 + 1 = (a :: b :: x :: xs).length := by simp
          rw [this]
          simp
    | dash =>
      rw [hst] at hck
      simp only [Iter.make, Iter.next, OptIt.next]
      match f, hck with
      | [], hck => simp [checkFlagStyle, checkFlag] at hck
      | [_], hck => simp [checkFlagStyle, checkFlag] at hck
      | [a, b], _ => exact ⟨_, rfl⟩
      | a :: b :: x :: xs, hck =>
        simp only [checkFlagStyle, checkFlag] at hck
        split at hck
        · simp at hck
        split at hck
        · simp at hck
        split at hck
        · rename_i hx; simp at hx
        rename_i ha _ _
        simp only [OptIt.nextFresh, ha, if_false, if_true]
        rcases checkFlagWithEqual_true hck with e | e
        · rw [e]; exact ⟨_, rfl⟩
        · rw [e]
          refine ⟨.opt ⟨(a :: b :: x :: xs) :: rest, .at ((a :: b :: x :: xs).length - 1 + 1), c!"-"⟩, ?_⟩
          have : (a :: b :: x :: xs).length - 1 + 1 = (a :: b :: x :: xs).length := by simp
          rw [this]
          simp
  · cases hst : d.settings.optionStyle <;> rw [hst] at hck
    all_goals
      match f, hck with
      | [], hck => simp [checkFlagStyle, checkStandardFlag, checkFlag, hasWhitespace] at hck
      | [_], hck => simp [checkFlagStyle, checkStandardFlag, checkFlag] at hck
      | [a, b], hck =>
        simp only [checkFlagStyle, checkStandardFlag, checkFlag] at hck
        split at hck
        · simp at hck
        · simp_all [isOption]
      | a :: b :: x :: xs, hck =>
        simp only [checkFlagStyle, checkStandardFlag, checkFlag] at hck
        repeat (split at hck; · simp at hck)
        simp_all [isOption]
  · unfold lookup
    rw [hs]
    exact (findOption_selects _ _ c.options c.optionIndex hi hreg f o).mpr
      (Or.inl ⟨ho, Or.inl ⟨f, hf, (sameFlag_key _ _ _).mpr rfl⟩⟩)

/-- Validation ends normally or with an exception. -/
theorem validate_total (o : OptData) (style : OptionStyle) :
    (∃ o', validateAndUpdate o style = .ok o') ∨ ∃ msg, validateAndUpdate o style = .throw msg := by
  have hcf : ∀ f, (∃ b, checkFlagStyle style f o = .ok b) ∨ ∃ m, checkFlagStyle style f o = .throw m := by
    intro f
    have hwe : (∃ b, checkFlagWithEqual f o = .ok b) ∨ ∃ m, checkFlagWithEqual f o = .throw m := by
      unfold checkFlagWithEqual
      repeat (first | exact Or.inl ⟨_, rfl⟩ | exact Or.inr ⟨_, rfl⟩ | split)
    cases style <;> simp only [checkFlagStyle, checkStandardFlag, checkFlag]
    all_goals
      repeat (first | exact Or.inl ⟨_, rfl⟩ | exact Or.inr ⟨_, rfl⟩ | exact hwe | split)
  have hcfs : ∀ fs, (∃ b, checkFlags style o fs = .ok b) ∨ ∃ m, checkFlags style o fs = .throw m := by
    intro fs
    induction fs with
    | nil => exact Or.inl ⟨_, rfl⟩
    | cons f fs ih =>
      unfold checkFlags
      rcases hcf f with ⟨b, e⟩ | ⟨m, e⟩
      · rw [e, Outcome.bind_ok]
        split
        · exact ih
        · exact Or.inr ⟨_, rfl⟩
      · rw [e]; exact Or.inr ⟨_, rfl⟩
  unfold validateAndUpdate
  split
  · exact Or.inr ⟨_, rfl⟩
  · rcases hcfs o.flags with ⟨b, e⟩ | ⟨m, e⟩
    · rw [e, Outcome.bind_ok]
      split
      · exact Or.inr ⟨_, rfl⟩
      · cases o.operation <;> simp only
        · repeat (first | exact Or.inl ⟨_, rfl⟩ | exact Or.inr ⟨_, rfl⟩ | split)
        · repeat (first | exact Or.inl ⟨_, rfl⟩ | exact Or.inr ⟨_, rfl⟩ | split)
        · repeat (first | exact Or.inl ⟨_, rfl⟩ | exact Or.inr ⟨_, rfl⟩ | split)
        · split <;> (split <;> first | exact Or.inl ⟨_, rfl⟩ | exact Or.inr ⟨_, rfl⟩)
    · rw [e]; exact Or.inr ⟨_, rfl⟩

/-- C11, the other direction: an option with a flag that no command line can produce as an option is
rejected with an exception. -/
theorem C11_rejected (style : OptionStyle) (o : OptData) (f : Str) (hf : f ∈ o.flags)
    (h : ∀ args it, (Iter.make style args).next = .ok (some f, it) → isOption f style = false) :
    ∃ msg, validateAndUpdate o style = .throw msg := by
  rcases validate_total o style with ⟨o', e⟩ | h'
  · exfalso
    -- a parser with this option alone
    obtain ⟨_, hne, hck, hv⟩ := validateAndUpdate_ok o style o' e
    let o1 : OptData := { flags := [f], argument := o.argument }
    have hck1 : checkFlagStyle style f o1 = .ok true := hck f hf
    let d : ParserData :=
      { command := { options := [o1] }, settings := { optionStyle := style, generateHelpOption := false } }
    have hok : ∃ d', finishInitialization d = .ok d' ∧ ∃ o2 ∈ d'.command.options, f ∈ o2.flags := by
      have hval : ∃ opts, validateAll style [o1] = .ok opts := by
        have : checkFlags style o1 [f] = .ok () := (checkFlags_ok style o1 [f]).mpr (by simpa using hck1)
        have h2 : ∃ o2, validateAndUpdate o1 style = .ok o2 := by
          unfold validateAndUpdate
          simp only [o1] at this ⊢
          rw [if_neg (by simp), this]
          simp only [Outcome.bind_ok, List.isEmpty_nil, Bool.not_true, Bool.and_false, Bool.false_eq_true,
            if_false]
          split <;> exact ⟨_, rfl⟩
        obtain ⟨o2, h2⟩ := h2
        exact ⟨[o2], by simp [validateAll, h2]⟩
      obtain ⟨opts, hval⟩ := hval
      obtain ⟨c', x, y, hfs⟩ := finishSelf_intro (s := d.settings) (fn := []) (c := d.command) (a := 0) (b := 0)
        hval (req := some false) rfl (by simp [RegularFlags, d]) (by simp [DistinctFlags, flagsOf, d, o1])
      have hfc := finishCommand_intro hfs (cmds := []) rfl
      refine ⟨{ d with command := { c' with commands := [] } }, ?_, ?_⟩
      · unfold finishInitialization
        have : addVersionOption d.command.options d.command.currentSection d.version d.settings = d.command.options := rfl
        simp only [this]
        show (finishCommand d.settings [] 0 0 d.command >>= fun c' => pure { d with command := c' }) = _
        rw [hfc]
        rfl
      · obtain ⟨opts', g1, _, ⟨_, g2, _, _⟩, _⟩ := finishSelf_ok hfs
        have e1 := flagsOf_map_core (validateAll_ok _ _ _ g1).1
        have e2 : flagsOf c'.options = flagsOf (addHelpOption opts' d.command.currentSection d.settings) := by
          rw [g2]; exact flagsOf_map_core (map_core_of_noIds (setOptIds_noIds _ _ _))
        have e3 : addHelpOption opts' d.command.currentSection d.settings = opts' := rfl
        have : f ∈ flagsOf c'.options := by rw [e2, e3, e1]; simp [flagsOf, d, o1]
        obtain ⟨o2, ho2, hf2⟩ := (mem_flagsOf _ _).mp this
        exact ⟨o2, ho2, hf2⟩
    obtain ⟨d', hd, o2, ho2, hf2⟩ := hok
    obtain ⟨⟨it, h1⟩, h2, _⟩ := C11_typable_partial hd (.self) (by simp [RegularFlags, d]) ho2 hf2 []
    have := h [f] it h1
    rw [h2] at this
    simp at this
  · exact h'

-- Flags that cannot be typed: rejected. Flags of each style: accepted.
example : (validateAndUpdate { flags := [b!"-abc"] } .standard).isOk = false ∧
    (validateAndUpdate { flags := [b!"--a=b"], argument := b!"X" } .standard).isOk = false ∧
    (validateAndUpdate { flags := [b!"--ab="], argument := b!"X" } .standard).isOk = true ∧
    (validateAndUpdate { flags := [b!"/abc"] } .slash).isOk = true ∧
    (validateAndUpdate { flags := [b!"-abc"] } .dash).isOk = true := by decide

example : ∃ d', finishInitialization demoData = .ok d' ∧
    RegularFlags d'.settings.caseInsensitive d'.command.options ∧
    ∃ o ∈ d'.command.options, b!"--file" ∈ o.flags := by
  refine ⟨_, rfl, ?_, ?_⟩
  · decide
  · exact ⟨_, List.mem_cons_self, by decide⟩

/-- C11 fails in case-insensitive mode for irregular flags: the flag `--A` is accepted, but typing it
selects nothing, because the index has it behind the backtick that it is neither less nor greater
than. -/
theorem C11_violated : ∃ (d d' : ParserData) (o : OptData) (f : Str),
    finishInitialization d = .ok d' ∧ o ∈ d'.command.options ∧ f ∈ o.flags ∧
    lookup d'.settings d'.command f = none := by
  refine ⟨{ command := { options := [{ flags := [b!"--`"] }, { flags := [b!"--A"] }] }
            settings := { caseInsensitive := true, generateHelpOption := false } }, _,
    { flags := [b!"--A"], constant := b!"1", argumentId := 3, valueId := 2 }, b!"--A", rfl, ?_, ?_, ?_⟩ <;> decide

/-! ## C12 -/

/-- C12. The options of the top-level command after initialisation are the client's, in their order,
followed by at most one version and at most one help option, each only when asked for, and none of
their flags equals a flag of the client. No help option is added if the client has one. -/
theorem C12_added {d d' : ParserData} (h : finishInitialization d = .ok d') :
    ∃ v hp : List OptData,
      d'.command.options.map OptData.core = (d.command.options ++ v ++ hp).map OptData.core ∧
      v.length ≤ 1 ∧ hp.length ≤ 1 ∧
      (d.version = [] → v = []) ∧ (d.settings.generateHelpOption = false → hp = []) ∧
      ((∃ o ∈ d.command.options, o.type = .help) → hp = []) ∧
      (∀ o ∈ v, o.type = .stop ∧ o.flags = [versionFlagOf d.settings.optionStyle]) ∧
      (∀ o ∈ hp, o.type = .help ∧ o.flags ≠ [] ∧ ∀ f ∈ o.flags, f ∈ helpFlagsOf d.settings.optionStyle) ∧
      (∀ f ∈ flagsOf (v ++ hp), ∀ g ∈ flagsOf d.command.options,
        ¬ SameFlag d.settings.caseInsensitive g f) := by
  obtain ⟨_, _, _, fn, c, h1, hc⟩ := finishInitialization_ok h
  obtain ⟨c1, x, y, cmds, h2, _, h3⟩ := finishCommand_ok h1
  obtain ⟨opts, g1, _, ⟨_, g2, _, _⟩, _⟩ := finishSelf_ok h2
  have hco : c.options = addVersionOption d.command.options d.command.currentSection d.version d.settings := by
    rw [hc]
  have e1 := (validateAll_ok _ _ _ g1).1
  have hm : d'.command.options.map OptData.core =
      (addHelpOption opts c.currentSection d.settings).map OptData.core := by
    rw [h3]
    simp only
    rw [g2]; exact map_core_of_noIds (setOptIds_noIds _ _ _)
  -- the version part
  obtain ⟨v, hv1, hv2, hv3, hv4, hv5⟩ : ∃ v, c.options = d.command.options ++ v ∧ v.length ≤ 1 ∧
      (d.version = [] → v = []) ∧ (∀ o ∈ v, o.type = .stop ∧ o.flags = [versionFlagOf d.settings.optionStyle]) ∧
      (∀ f ∈ flagsOf v, ∀ g ∈ flagsOf d.command.options, ¬ SameFlag d.settings.caseInsensitive g f) := by
    rw [hco]
    rcases addVersionOption_cases d.command.options d.command.currentSection d.version d.settings with e | ⟨h1, h2, e⟩
    · rw [e]; exact ⟨[], by simp, by simp, by simp, by simp, by simp [flagsOf]⟩
    · rw [e]
      refine ⟨_, rfl, by simp, fun h => absurd h h1, by simp, ?_⟩
      intro f hf g hg
      simp only [flagsOf, List.flatMap_cons, List.flatMap_nil, List.append_nil, List.mem_cons,
        List.not_mem_nil, or_false] at hf
      subst hf
      exact hasFlag_false h2 g hg
  -- the help part
  have hsub : ∀ g ∈ flagsOf d.command.options, g ∈ flagsOf opts := by
    intro g hg
    rw [flagsOf_map_core e1, hv1, flagsOf_append]
    exact List.mem_append.mpr (Or.inl hg)
  rcases addHelpOption_cases opts c.currentSection d.settings with e | ⟨k1, k2, k3, e⟩
  · refine ⟨v, [], ?_, hv2, by simp, hv3, by simp, by simp, hv4, by simp, ?_⟩
    · rw [hm, e, e1, hv1, List.append_nil]
    · rw [List.append_nil]; exact hv5
  · let ho : OptData :=
      { flags := helpFlags opts d.settings.optionStyle d.settings.caseInsensitive, type := .help,
        help := .text b!"Display this help text.", constant := b!"1", section_ := c.currentSection }
    refine ⟨v, [ho], ?_, hv2, by simp, hv3, by simp [k1], ?_, hv4, ?_, ?_⟩
    · rw [hm, e, List.map_append, e1, hv1]
      simp [ho]
    · rintro ⟨o, ho, ht⟩
      exfalso
      simp only [hasHelpOption, List.any_eq_false, decide_eq_true_eq] at k2
      have : o.core ∈ opts.map OptData.core := by
        rw [e1, hv1]; exact List.mem_map_of_mem (List.mem_append.mpr (Or.inl ho))
      obtain ⟨o2, ho2, e2⟩ := List.mem_map.mp this
      apply k2 o2 ho2
      have e3 : o2.type = o.type := (congrArg OptData.type e2 : o2.core.type = o.core.type)
      rw [e3, ht]
    · intro o ho
      simp only [List.mem_singleton] at ho
      subst ho
      exact ⟨rfl, k3, fun f hf => ((helpFlags_new opts _ _).1 f hf).1⟩
    · intro f hf g hg
      rw [flagsOf_append] at hf
      rcases List.mem_append.mp hf with hf | hf
      · exact hv5 f hf g hg
      · simp only [flagsOf, List.flatMap_cons, List.flatMap_nil, List.append_nil] at hf
        exact ((helpFlags_new opts _ _).1 f hf).2 g (hsub g hg)

/-- C12 for sub-commands: the client's options followed by at most one help option with new flags. -/
theorem C12_added_sub {d d' : ParserData} (h : finishInitialization d = .ok d') {i : Nat} {p : List Nat}
    {c' : Command} (hc' : d'.command.at (i :: p) = some c') :
    ∃ c hp, d.command.at (i :: p) = some c ∧
      c'.options.map OptData.core = (c.options ++ hp).map OptData.core ∧ hp.length ≤ 1 ∧
      (d.settings.generateHelpOption = false → hp = []) ∧
      ((∃ o ∈ c.options, o.type = .help) → hp = []) ∧
      (∀ o ∈ hp, o.type = .help ∧ o.flags ≠ [] ∧ ∀ f ∈ o.flags, f ∈ helpFlagsOf d.settings.optionStyle) ∧
      (∀ f ∈ flagsOf hp, ∀ g ∈ flagsOf c.options, ¬ SameFlag d.settings.caseInsensitive g f) := by
  obtain ⟨_, _, _, fn, c0, h1, hc0⟩ := finishInitialization_ok h
  obtain ⟨c, fn', a', b', hat, hfin, _, _⟩ := (finishCommand_at d.settings (i :: p) h1).1 c' hc'
  obtain ⟨c1, x, y, cmds, h2, _, h3⟩ := finishCommand_ok hfin
  obtain ⟨opts, g1, _, ⟨_, g2, _, _⟩, _⟩ := finishSelf_ok h2
  have e1 := (validateAll_ok _ _ _ g1).1
  have hat' : d.command.at (i :: p) = some c := by
    rw [hc0] at hat
    simpa only [Command.at] using hat
  have hm : c'.options.map OptData.core =
      (addHelpOption opts c.currentSection d.settings).map OptData.core := by
    rw [h3]
    simp only
    rw [g2]; exact map_core_of_noIds (setOptIds_noIds _ _ _)
  rcases addHelpOption_cases opts c.currentSection d.settings with e | ⟨k1, k2, k3, e⟩
  · refine ⟨c, [], hat', ?_, by simp, by simp, by simp, by simp, by simp [flagsOf]⟩
    rw [hm, e, e1, List.append_nil]
  · let ho : OptData :=
      { flags := helpFlags opts d.settings.optionStyle d.settings.caseInsensitive, type := .help,
        help := .text b!"Display this help text.", constant := b!"1", section_ := c.currentSection }
    refine ⟨c, [ho], hat', ?_, by simp, by simp [k1], ?_, ?_, ?_⟩
    · rw [hm, e, List.map_append, e1]
      simp [ho]
    · rintro ⟨o, ho, ht⟩
      exfalso
      simp only [hasHelpOption, List.any_eq_false, decide_eq_true_eq] at k2
      have : o.core ∈ opts.map OptData.core := by
        rw [e1]; exact List.mem_map_of_mem ho
      obtain ⟨o2, ho2, e2⟩ := List.mem_map.mp this
      apply k2 o2 ho2
      have e3 : o2.type = o.type := (congrArg OptData.type e2 : o2.core.type = o.core.type)
      rw [e3, ht]
    · intro o ho
      simp only [List.mem_singleton] at ho
      subst ho
      exact ⟨rfl, k3, fun f hf => ((helpFlags_new opts _ _).1 f hf).1⟩
    · intro f hf g hg
      simp only [flagsOf, List.flatMap_cons, List.flatMap_nil, List.append_nil] at hf
      refine ((helpFlags_new opts _ _).1 f hf).2 g ?_
      rw [flagsOf_map_core e1]
      exact hg

/-- C12. A configuration that is accepted without automatic options is accepted with them. (Case
sensitive, or regular flags; what is missing: see `C12_violated`.) -/
theorem C12_accepted_partial (d : ParserData)
    (hreg : ∀ c : Command, c.Within d.command → RegularFlags d.settings.caseInsensitive c.options)
    (h : ∃ d₀, finishInitialization
      { d with version := [], settings := { d.settings with generateHelpOption := false } } = .ok d₀) :
    ∃ d', finishInitialization d = .ok d' := by
  obtain ⟨d0, h⟩ := h
  obtain ⟨_, _, _, fn, c, h1, hc⟩ := finishInitialization_ok h
  have hc' : c = d.command := by
    rw [hc]; simp only [addVersionOption, List.isEmpty_nil, if_true]
    cases d.command; rfl
  rw [hc'] at h1
  simp only at h1
  -- with the version option
  obtain ⟨c1, x, y, cmds, k1, k2, _⟩ := finishCommand_ok h1
  have hd := finishSelf_distinct (s := { d.settings with generateHelpOption := false }) (hreg _ .self) k1
  obtain ⟨opts, g1, g2, _⟩ := finishSelf_ok k1
  let c2 : Command := { d.command with
    options := addVersionOption d.command.options d.command.currentSection d.version d.settings }
  obtain ⟨opts2, g3⟩ := validateAll_addVersion (s := d.settings) (sec := d.command.currentSection)
    (v := d.version) g1
  obtain ⟨c3, x3, y3, m1⟩ := finishSelf_intro (s := d.settings) (c := c2)
    (fn := if c2.fullName.isEmpty then c2.name else c2.fullName) (a := 0) (b := 0) g3 g2
    (regular_addVersion (hreg _ .self)) (distinct_addVersion rfl hd)
  obtain ⟨cmds', m2⟩ := finishCommands_help d.settings _ rfl d.command.name c2.name x y x3 y3 d.command.commands cmds k2
    (fun c hc x hx => hreg x (.sub hc hx))
  have m3 := finishCommand_intro m1 (cmds := cmds') m2
  refine ⟨{ d with command := { c3 with commands := cmds' } }, ?_⟩
  unfold finishInitialization
  simp only
  show (finishCommand d.settings (if c2.fullName.isEmpty then c2.name else c2.fullName) 0 0 c2 >>= _) = _
  rw [m3]
  rfl

example : (∀ c : Command, c.Within demoData.command → RegularFlags demoData.settings.caseInsensitive c.options) ∧
    (finishInitialization { demoData with
        version := []
        settings := { demoData.settings with generateHelpOption := false } }).isOk = true := by
  refine ⟨?_, by decide⟩
  intro c _ h
  simp [demoData] at h

/-- C12 fails in case-insensitive mode: an option `--_x` is fine by itself, but together with the
automatic `--help` the sort is undefined behaviour. -/
theorem C12_violated : ∃ d : ParserData,
    (∃ d₀, finishInitialization
      { d with version := [], settings := { d.settings with generateHelpOption := false } } = .ok d₀) ∧
    finishInitialization d = .ub :=
  ⟨{ command := { options := [{ flags := [b!"--_x"] }] }, settings := { caseInsensitive := true } },
    (Outcome.isOk_iff _).mp (by decide), rfl⟩

end Argos
