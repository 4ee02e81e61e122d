import Verif.Proofs.Grammar
import Verif.Props.Lookup
import Verif.Props.Outcome
import Verif.Props.Ahead
import Verif.Props.Occurrences

/-! # The accepted command lines: C57 -/

set_option synthInstance.maxSize 1000

namespace Argos
open Spec Parser

theorem names_of {d0 d : ParserData} (h : finishInitialization d0 = .ok d) {c : Command} (hc : c.Within d.command)
    (hf : RegularFlags d.settings.caseInsensitive c.options) (q : Str) (o : OptData) :
    findOption c.optionIndex q d.settings.allowAbbreviatedOptions d.settings.caseInsensitive = some o ↔
      Names d.settings.caseInsensitive d.settings.allowAbbreviatedOptions c q o :=
  findOption_selects _ _ c.options c.optionIndex (optionsReady h c hc).index hf q o

theorem subs_of (ci : Bool) (c : Command) (q : Str) (c' : Command) : findCommand c.commands q ci = some c' ↔ NamesCommand ci c q c' := by
  have : ∀ x : Command, areEqual x.name q ci = decide (SameFlag ci x.name q) := by
    intro x
    rw [Bool.eq_iff_iff, decide_eq_true_iff, sameFlag_key, areEqual_key]
  unfold findCommand NamesCommand
  simp only [this]

theorem rules_of {d0 d : ParserData} (h : finishInitialization d0 = .ok d) (ho : Ordinary d) :
    Rules d (Names d.settings.caseInsensitive d.settings.allowAbbreviatedOptions) (NamesCommand d.settings.caseInsensitive) where
  names := fun c hc q o => names_of h hc (ho.flags c hc) q o
  subs := fun c _ q c' => subs_of _ c q c'
  styled := by
    refine ho.style.imp id fun h c hc q o hn => h c hc o ?_
    rcases hn with hn | ⟨_, _, _, _, hn, _⟩
    · exact hn.1
    · exact hn.1
  single := ho.single
  options := ho.options
  arguments := ho.arguments

theorem foldByte_flagChar {style : OptionStyle} {x : UInt8} (h : foldByte x = foldByte (flagChar style)) : x = flagChar style :=
  foldByte_punct (by cases style <;> simp [flagChar]) h.symm

theorem single_flag {ci : Bool} {options : List OptData} (hd : DistinctFlags ci options) {f : Str} (hf : f ∈ flagsOf options)
    (h : ∀ g ∈ flagsOf options, g = f) : (flagsOf options).length = 1 := by
  unfold DistinctFlags at hd
  match flagsOf options, hd, hf, h with
  | [_], _, _, _ => rfl
  | a :: b :: l, hd, _, h =>
    have h1 := h a (by simp)
    have h2 := h b (by simp)
    rw [List.pairwise_cons] at hd
    refine absurd ?_ (hd.1 b (by simp))
    rw [h1, h2]
    unfold SameFlag
    split <;> rfl

/-- A flag on the command line that selects an option looks like an option, except for a single character that abbreviates the only flag. -/
theorem selects_isFlag {style : OptionStyle} {ci ab : Bool} {options : List OptData} (hf : ∀ o ∈ options, ∀ f ∈ o.flags, IsFlag style f)
    (hd : DistinctFlags ci options) {q : Str} {o : OptData} (h : Selects ci ab options q o)
    (hab : ab = false ∨ (flagsOf options).length ≠ 1 ∨ 2 ≤ q.length) : IsFlag style q := by
  obtain ⟨ho, ⟨f, hfm, hs⟩ | ⟨hab', hno, f, hfm, ha, hu⟩⟩ := h
  · obtain ⟨h1, h2⟩ := hf o ho f hfm
    match f, h1, h2 with
    | x :: y :: f, _, h2 =>
      simp only [List.head?_cons, Option.some.injEq] at h2
      cases ci with
      | false =>
        simp only [SameFlag, Bool.false_eq_true, if_false] at hs
        subst hs
        exact ⟨by simp, by simp [h2]⟩
      | true =>
        simp only [SameFlag, if_true, foldCase, List.map_cons] at hs
        match q, hs with
        | [], hs => simp at hs
        | [_], hs => simp at hs
        | a :: b :: q, hs =>
          simp only [List.map_cons, List.cons.injEq] at hs
          exact ⟨by simp, by simp [← foldByte_flagChar (h2 ▸ hs.1.symm)]⟩
  · -- an abbreviation
    have hhead : ∀ g ∈ flagsOf options, ∃ y g', g = flagChar style :: y :: g' := by
      intro g hg
      obtain ⟨o', ho', hg'⟩ := List.mem_flatMap.mp hg
      obtain ⟨h1, h2⟩ := hf o' ho' g hg'
      match g, h1, h2 with
      | x :: y :: g, _, h2 =>
        simp only [List.head?_cons, Option.some.injEq] at h2
        exact ⟨y, g, by rw [h2]⟩
    have hfl : f ∈ flagsOf options := List.mem_flatMap.mpr ⟨o, ho, hfm⟩
    have hq : ∀ x q', q = x :: q' → x = flagChar style := by
      rintro x q' rfl
      obtain ⟨y, g', rfl⟩ := hhead f hfl
      unfold IsAbbrev at ha
      split at ha
      · simp only [foldCase, List.map_cons, List.cons_prefix_cons] at ha
        exact foldByte_flagChar ha.1
      · simp only [List.cons_prefix_cons] at ha
        exact ha.1
    match q, hq with
    | x :: y :: q', hq => exact ⟨by simp, by simp [hq x _ rfl]⟩
    | [], hq => exact absurd hab (by
        rintro (h | h | h)
        · rw [hab'] at h; simp at h
        · exact h (single_flag hd hfl fun g hg => hu g hg (by unfold IsAbbrev; split <;> simp [foldCase]))
        · simp at h)
    | [x], hq => exact absurd hab (by
        rintro (h | h | h)
        · rw [hab'] at h; simp at h
        · refine h (single_flag hd hfl fun g hg => hu g hg ?_)
          obtain ⟨y, g', rfl⟩ := hhead g hg
          rw [hq x _ rfl]
          unfold IsAbbrev
          split <;> simp [foldCase]
        · simp at h)

theorem reckonable_of {d0 d : ParserData} (h : finishInitialization d0 = .ok d)
    (hreg : ∀ c : Command, c.Within d.command → RegularFlags d.settings.caseInsensitive c.options) (hf : Predictable d) {c : Command}
    (hc : c.Within d.command) : Reckonable d (Names d.settings.caseInsensitive d.settings.allowAbbreviatedOptions) c where
  options := by
    intro hr q o hn
    obtain ⟨h1, h3⟩ := hf c hc ((requires_iff _).mp hr)
    have hor := optionsReady h c hc
    have hfl : ∀ o ∈ c.options, ∀ f ∈ o.flags, IsFlag d.settings.optionStyle f := fun o ho f hf =>
      (isOption_iff _ _).mp (checkFlagStyle_isOption (hor.flags_ok o ho f hf))
    have hd : DistinctFlags d.settings.caseInsensitive c.options := by
      have hs := (finishInitialization_ok h).1
      have := C10_accepted_distinct_partial h hc (hs ▸ hreg c hc)
      rwa [← hs] at this
    rcases hn with hn | ⟨f, rfl, hlen, _, hn, _⟩
    · exact ⟨h3 o hn.1, selects_isFlag hfl hd hn (h1.imp id Or.inl)⟩
    · refine ⟨h3 o hn.1, ?_⟩
      obtain ⟨g1, g2⟩ := selects_isFlag hfl hd hn (Or.inr (Or.inr hlen))
      refine ⟨by simp; omega, ?_⟩
      rw [List.head?_append, g2]
      rfl

theorem countable_of {d0 d : ParserData} (h : finishInitialization d0 = .ok d)
    (hreg : ∀ c : Command, c.Within d.command → RegularFlags d.settings.caseInsensitive c.options) (hf : Foreseeable d) {c : Command}
    (hc : c.Within d.command) : Countable d (Names d.settings.caseInsensitive d.settings.allowAbbreviatedOptions) c where
  toReckonable := reckonable_of h hreg hf.1 hc
  last := fun hr => hf.2 c hc ((requires_iff _).mp hr)

/-- What `parse` gets is determined. -/
theorem Parses.unique {env : Env} {d : ParserData} {args : List Str} {rs rs' : List IterResult} {last last' : IterResult} {s s' : PState}
    (h : Parses env d args rs last s) (h' : Parses env d args rs' last' s') : rs = rs' ∧ last = last' := by
  obtain ⟨⟨s1, t1, n1⟩, b1, l1⟩ := h
  obtain ⟨⟨s2, t2, n2⟩, b2, l2⟩ := h'
  generalize (start d args).2 = s0 at t1 t2
  induction t1 generalizing rs' with
  | nil =>
    cases t2 with
    | nil => rw [n1] at n2; cases n2; exact ⟨rfl, rfl⟩
    | cons hn _ => rw [n1] at hn; cases hn; exact absurd l1 (b2 _ (by simp))
  | cons hn _ ih =>
    cases t2 with
    | nil => rw [n2] at hn; cases hn; exact absurd l2 (b1 _ (by simp))
    | cons hn' ht' =>
      rw [hn] at hn'
      cases hn'
      obtain ⟨rfl, rfl⟩ := ih (fun r hr => b1 r (by simp [hr])) n1 (fun r hr => b2 r (by simp [hr])) ht'
      exact ⟨rfl, rfl⟩

/-- **C57**, one direction (what holds): when `parse` succeeds and no option has ended parsing, the command line is well-formed
and the results are what is written on it; callbacks may do anything but insert arguments and write values. Missing: empty arguments in
the SLASH and DASH styles, see `C57_empty_violated`. -/
theorem C57_sound_partial {d0 d : ParserData} (h : finishInitialization d0 = .ok d) (ho : Ordinary d) {env : Env} (hp : env.Passive)
    {args : List Str} (hne : d0.settings.optionStyle = .standard ∨ [] ∉ args)
    {rs : List IterResult} {n : PNode} (hr : Returns env d args rs .done n) (hns : NoStop rs) :
    d.Accepts args (rs.map forgetText) := by
  obtain ⟨s', ⟨⟨s, ht, hd⟩, hl, _⟩, _⟩ := hr
  have hg := (start_good d args).2
  have hcm : (start d args).2.command = d.command := by rw [(start_good d args).1]; rfl
  have := sound hp (rules_of h ho) (ready_of_init h) ho.exclusive ho.counts ht hg
    (by rw [start_line, (finishInitialization_ok h).1]; exact hne) hl hns hd (by rw [(start_good d args).1]; rfl)
    (occs := d.command.options.map .initial) (argsGiven_map_initial _) (rest := []) (by rw [hcm]; exact agrees_start d args)
    (by rw [hcm]; exact start_counted d args)
  rw [hcm, start_line] at this
  exact this

/-- **C57**, the other direction, exactly: every well-formed command line that serves the last argument is accepted, with the results that are
written on it. -/
theorem complete_served {d0 d : ParserData} (h : finishInitialization d0 = .ok d) (ho : Ordinary d) (hf : Predictable d) {env : Env}
    (hsi : env.Silent) {args : List Str} (hne : d0.settings.optionStyle = .standard ∨ [] ∉ args) (hsz : args.length ≤ sizeMax) {rs : List IterResult} (ha : d.Accepts args rs)
    (hsv : Served d.command rs) :
    ∃ rs' n, Returns env d args rs' .done n ∧ NoStop rs' ∧ rs'.map forgetText = rs ∧ n.code = .success := by
  have hrd := ready_of_init h
  have hg := (start_good d args).2
  have hsg := (start_good d args).1
  have hcm : (start d args).2.command = d.command := by rw [hsg]; rfl
  obtain ⟨rs', s1, s', h1, h2, h3⟩ := complete (s := (start d args).2) (s0 := startState d args) hsi (rules_of h ho) hrd ho.counts
    (fun c hc => reckonable_of h ho.flags hf hc) ha hsv hg (by rw [start_line, (finishInitialization_ok h).1]; exact hne) hcm (start_line d args) (by rw [hsg]; rfl)
    (by simpa [lineSize] using hsz) (agrees_start d args) (by rw [hsg]; exact ⟨rfl, rfl, rfl⟩) (by rw [hsg]) (by rw [hsg])
  obtain ⟨g1, g2⟩ := forgetText_results (rs := rs') (by rw [h3]; exact ha.results)
  have hgs := h1.good hrd hg
  have hgs' := (next_good hrd hgs h2).2
  obtain ⟨k, ks, hk, _⟩ := hgs'.head
  have hret : Returns env d args rs' .done _ := ⟨s', ⟨⟨s1, h1, h2⟩, g1, trivial⟩, topLevel_eq hk⟩
  exact ⟨rs', _, hret, g2, h3, (C23_success h hret g2).1⟩

theorem lastCommand_within {style : OptionStyle} {names : Command → Str → OptData → Prop} {subs : Command → Str → Command → Prop}
    (hsub : ∀ c q c', subs c q c' → c' ∈ c.commands) {root c : Command} {inits : List Occ} {l : Line} {rs : List IterResult}
    (h : Accepts style names subs c inits l rs) (hc : c.Within root) : (lastCommand c rs).Within root := by
  induction h with
  | @last c inits l l' ps ks _ _ hal _ =>
    have := (report_last c ps (handedOut c.arguments ks) (handedOut_length hal) []).1
    simp only [List.append_nil, lastCommand] at this
    rw [this]
    exact hc
  | @sub c c' inits l l1 l2 ps rs hw hen _ ih =>
    have hmem : c' ∈ c.commands := by
      cases hen with
      | command _ _ _ h => exact hsub _ _ _ h
      | plainCommand _ h => exact hsub _ _ _ h
    have key : ∀ (ps : List Piece), lastCommand c (report ps [] ++ .command c' [] :: rs) = lastCommand c' rs := by
      intro ps
      induction ps with
      | nil => rfl
      | cons p ps ih =>
        cases p with
        | option o v => exact ih
        | argument v => rfl
    rw [key]
    exact ih (Command.Within.trans (.sub hmem .self) hc)

/-- **C57**, the other direction (what holds): every well-formed command line is accepted, with the results that are
written on it. Missing: parsers for which the arguments must be counted beforehand and aren't counted correctly, see `C57_violated`
(`C57_exact_partial` covers optional last arguments),
and empty arguments in the SLASH and DASH styles, see `C57_empty_violated`. -/
theorem C57_complete_partial {d0 d : ParserData} (h : finishInitialization d0 = .ok d) (ho : Ordinary d) (hf : Foreseeable d) {env : Env}
    (hsi : env.Silent) {args : List Str} (hne : d0.settings.optionStyle = .standard ∨ [] ∉ args) (hsz : args.length ≤ sizeMax) {rs : List IterResult} (ha : d.Accepts args rs) :
    ∃ rs' n, Returns env d args rs' .done n ∧ NoStop rs' ∧ rs'.map forgetText = rs ∧ n.code = .success :=
  complete_served h ho hf.1 hsi hne hsz ha fun hn => Or.inl (hf.2 _ (lastCommand_within (fun _ _ _ e => List.mem_of_find?_eq_some e) ha .self) hn)

/-- **C57**: a command line has one meaning at most. -/
theorem C57_unique {d0 d : ParserData} (h : finishInitialization d0 = .ok d) (ho : Ordinary d) {args : List Str} {rs rs' : List IterResult}
    (h1 : d.Accepts args rs) (h2 : d.Accepts args rs') : rs = rs' := by
  refine Accepts.unique (d := d) (fun c hc => (rules_of h ho).functional hc) ?_ ?_ .self h1 h2
  · intro c q c1 c2 e1 e2
    unfold NamesCommand at e1 e2
    rw [e1] at e2
    exact Option.some.inj e2
  · intro c q c' e
    exact List.mem_of_find?_eq_some e

theorem parse_verdict {d0 d : ParserData} (h : finishInitialization d0 = .ok d)
    (hno : ∀ c : Command, c.Within d.command → ∀ o ∈ c.options, ¬ EndsParsing o) (hae : d0.settings.autoExit = false) {env : Env}
    (hsi : env.Silent) {args : List Str} {fuel : Nat} (hfu : cmdSize args + 1 < fuel) :
    ∃ n s' rs last, parse env d args fuel = (.ok (some n), s') ∧ Returns env d args rs last n ∧ NoStop rs ∧
      ((last = .done ∧ n.code = .success) ∨ (last = .error ∧ n.code = .failure)) := by
  have hrd := ready_of_init h
  have hsg := (start_good d args).1
  have hq : ∀ cb k v x n, (env.callback cb k v x n).newArguments = [] := fun cb k v x n => (hsi cb k v x n).1
  obtain ⟨n, s', hp⟩ : ∃ n s', parse env d args fuel = (.ok (some n), s') := by
    have e1 := C21_terminates h hq args fuel hfu
    have e2 := C22_parse h env args fuel
    have e3 := C28_parse_off h hae env args fuel
    have e4 : ∀ m, (parse env d args fuel).1 ≠ .throw m := by
      intro m
      have := run_no_throw (m := m) hsi hrd fuel (start_good d args).2 (by rw [hsg]; simp [startState])
      unfold parse
      rw [hsg] at this ⊢
      simp only at this ⊢
      generalize run env fuel _ = q at this
      obtain ⟨o, s⟩ := q
      cases o <;> simp_all
    generalize hq : parse env d args fuel = q at e1 e2 e3 e4
    obtain ⟨o, s'⟩ := q
    cases o with
    | ok t =>
      obtain ⟨rfl, rs, last, hpp⟩ := parse_parses hq
      have hg' : Good d s' := by
        obtain ⟨⟨s, ht, hn⟩, _, _⟩ := hpp
        exact (next_good hrd (ht.good hrd (start_good d args).2) hn).2
      obtain ⟨k, ks, hk, _⟩ := hg'.head
      rw [topLevel_eq hk]
      exact ⟨_, _, rfl⟩
    | throw m => exact absurd rfl (e4 m)
    | exit c => exact absurd rfl (e3 c)
    | ub => exact absurd rfl e2.1
    | outOfRange => exact absurd rfl e2.2
    | diverges => exact absurd rfl e1
  obtain ⟨rs, last, hpp, htl⟩ := parse_returns hp
  have hret : Returns env d args rs last n := ⟨s', hpp, htl⟩
  have hns : NoStop rs := by
    obtain ⟨⟨s, ht, _⟩, _, _⟩ := hpp
    intro o v hm ho
    have key : ∀ {s s1 : PState} {rs : List IterResult}, Trace env s rs s1 → Good d s → .option o v ∈ rs → False := by
      intro s s1 rs ht
      induction ht with
      | nil => intro _ h; simp at h
      | @cons s s2 s1 r rs hn _ ih =>
        intro hg hm
        obtain ⟨hst, hg2⟩ := next_good hrd hg hn
        simp only [List.mem_cons] at hm
        rcases hm with rfl | hm
        · exact hno _ hg.within o (hst.option_of hrd hg) ho
        · exact ih hg2 hm
    exact key ht (start_good d args).2 hm
  have hlast : last = .done ∨ last = .error := by
    have := hpp.last
    cases last <;> simp_all [IterResult.IsLast]
  refine ⟨n, s', rs, last, hp, hret, hns, ?_⟩
  rcases hlast with rfl | rfl
  · exact Or.inl ⟨rfl, (C23_success h hret hns).1⟩
  · exact Or.inr ⟨rfl, (C23_failure h hret).mpr rfl⟩

/-- **C57** (what holds): for a parser without options that end parsing, and with `auto_exit` off, `parse` returns, the code is
`SUCCESS` exactly when the command line is well-formed and `FAILURE` otherwise. -/
theorem C57_verdict_partial {d0 d : ParserData} (h : finishInitialization d0 = .ok d) (ho : Ordinary d) (hf : Foreseeable d)
    (hno : ∀ c : Command, c.Within d.command → ∀ o ∈ c.options, ¬ EndsParsing o) (hae : d0.settings.autoExit = false) {env : Env}
    (hsi : env.Silent) {args : List Str} (hne : d0.settings.optionStyle = .standard ∨ [] ∉ args) (hsz : args.length ≤ sizeMax) {fuel : Nat} (hfu : cmdSize args + 1 < fuel) :
    ∃ n s', parse env d args fuel = (.ok (some n), s') ∧ (n.code = .success ↔ ∃ rs, d.Accepts args rs) ∧
      (n.code = .failure ↔ ¬ ∃ rs, d.Accepts args rs) := by
  obtain ⟨n, s', rs, last, hp, hret, hns, hv⟩ := parse_verdict h hno hae hsi hfu
  refine ⟨n, s', hp, ?_⟩
  have hacc : (∃ rs, d.Accepts args rs) ↔ last = .done := by
    constructor
    · rintro ⟨rs1, ha⟩
      obtain ⟨rs2, n2, hr2, _, _, hc2⟩ := C57_complete_partial h ho hf hsi hne hsz ha
      obtain ⟨s1, hp1, _⟩ := hret
      obtain ⟨s2, hp2, _⟩ := hr2
      exact (hp1.unique hp2).2
    · rintro rfl
      exact ⟨_, C57_sound_partial h ho hsi.passive hne hret hns⟩
  rcases hv with ⟨rfl, hs⟩ | ⟨rfl, hs⟩
  · exact ⟨iff_of_true hs (hacc.mpr rfl), iff_of_false (by rw [hs]; simp) (fun h => h (hacc.mpr rfl))⟩
  · have hn : ¬ ∃ rs, d.Accepts args rs := fun h => by have := hacc.mp h; simp at this
    exact ⟨iff_of_false (by rw [hs]; simp) hn, iff_of_true hs hn⟩

/-- When `parse` succeeds, the last argument is served. -/
theorem returns_served {d0 d : ParserData} (h : finishInitialization d0 = .ok d) (ho : Ordinary d) (hf : Predictable d) {env : Env} (hp : env.Passive)
    {args : List Str} (hne : d0.settings.optionStyle = .standard ∨ [] ∉ args) (hsz : args.length ≤ sizeMax)
    {rs : List IterResult} {n : PNode} (hr : Returns env d args rs .done n) (hns : NoStop rs) : Served d.command rs := by
  obtain ⟨s2, ⟨⟨s1, ht, hd⟩, hl, _⟩, _⟩ := hr
  have hg := (start_good d args).2
  have hsg := (start_good d args).1
  have hcm : (start d args).2.command = d.command := by rw [hsg]; rfl
  have := sound_served hp (rules_of h ho) (ready_of_init h) ho.exclusive ho.counts (fun c hc => reckonable_of h ho.flags hf hc) ht hg
    (s0 := startState d args) (by rw [start_line, (finishInitialization_ok h).1]; exact hne) hl hns hd (by rw [hsg]; rfl)
    (occs := d.command.options.map .initial) (argsGiven_map_initial _) (rest := []) (by rw [hcm]; exact agrees_start d args)
    (by rw [hcm]; exact start_counted d args) (by rw [start_line]; simpa [lineSize] using hsz) (by rw [hsg]; exact ⟨rfl, rfl, rfl⟩) (by rw [hsg]) (by rw [hsg]; rfl)
  rwa [hcm] at this

/-- **C57**, exactly: whatever the last argument's counts are, `parse` returns with the code `SUCCESS` exactly when the command line is
well-formed and, if the arguments have to be counted beforehand, the last argument is mandatory or gets a value. Missing: parsers whose options confuse the count
(see `C55_violated`), and what is missing in `C57_verdict_partial`. -/
theorem C57_exact_partial {d0 d : ParserData} (h : finishInitialization d0 = .ok d) (ho : Ordinary d) (hf : Predictable d)
    (hno : ∀ c : Command, c.Within d.command → ∀ o ∈ c.options, ¬ EndsParsing o) (hae : d0.settings.autoExit = false) {env : Env}
    (hsi : env.Silent) {args : List Str} (hne : d0.settings.optionStyle = .standard ∨ [] ∉ args) (hsz : args.length ≤ sizeMax) {fuel : Nat} (hfu : cmdSize args + 1 < fuel) :
    ∃ n s', parse env d args fuel = (.ok (some n), s') ∧ (n.code = .success ↔ ∃ rs, d.Accepts args rs ∧ Served d.command rs) ∧
      (n.code = .failure ↔ ¬ ∃ rs, d.Accepts args rs ∧ Served d.command rs) := by
  obtain ⟨n, s', rs, last, hp, hret, hns, hv⟩ := parse_verdict h hno hae hsi hfu
  refine ⟨n, s', hp, ?_⟩
  have hacc : (∃ rs, d.Accepts args rs ∧ Served d.command rs) ↔ last = .done := by
    constructor
    · rintro ⟨rs1, ha, hsv⟩
      obtain ⟨rs2, n2, hr2, _, _, hc2⟩ := complete_served h ho hf hsi hne hsz ha hsv
      obtain ⟨s1, hp1, _⟩ := hret
      obtain ⟨s2, hp2, _⟩ := hr2
      exact (hp1.unique hp2).2
    · rintro rfl
      exact ⟨_, C57_sound_partial h ho hsi.passive hne hret hns, (served_forget _ _).mpr (returns_served h ho hf hsi.passive hne hsz hret hns)⟩
  rcases hv with ⟨rfl, hs⟩ | ⟨rfl, hs⟩
  · exact ⟨iff_of_true hs (hacc.mpr rfl), iff_of_false (by rw [hs]; simp) (fun h => h (hacc.mpr rfl))⟩
  · have hn : ¬ ∃ rs, d.Accepts args rs ∧ Served d.command rs := fun h => by have := hacc.mp h; simp at this
    exact ⟨iff_of_false (by rw [hs]; simp) hn, iff_of_true hs hn⟩

/-! ### Concrete cases -/

/-- The conditions of `Ordinary` on one command, decided by evaluation. -/
def ordinaryCommand (style : OptionStyle) (ci : Bool) (c : Command) : Bool :=
  (decide (style = .standard) || c.options.all fun o => decide (o.type ≠ .lastOption)) && !c.multiCommand &&
    decide (RegularFlags ci c.options) && countsCheck c

/-- `Ordinary`, decided by evaluation. -/
def ordinaryCheck (depth : Nat) (d : ParserData) : Bool :=
  !d.settings.ignoreUndefinedOptions && !d.settings.ignoreUndefinedArguments &&
    d.command.checkAll (ordinaryCommand d.settings.optionStyle d.settings.caseInsensitive) depth

theorem Command.checkAll_mono {p q : Command → Bool} (hpq : ∀ c, p c = true → q c = true) :
    ∀ {depth : Nat} {root : Command}, root.checkAll p depth = true → root.checkAll q depth = true := by
  intro depth
  induction depth with
  | zero => intro root h; simp [Command.checkAll] at h
  | succ k ih =>
    intro root h
    simp only [Command.checkAll, Bool.and_eq_true, List.all_eq_true] at h ⊢
    exact ⟨hpq _ h.1, fun x hx => ih (h.2 x hx)⟩

theorem ordinaryCheck_sound {depth : Nat} {d : ParserData} (h : ordinaryCheck depth d = true) : Ordinary d := by
  simp only [ordinaryCheck, Bool.and_eq_true, Bool.not_eq_true'] at h
  obtain ⟨⟨h2, h3⟩, h4⟩ := h
  have hc : ∀ c : Command, c.Within d.command → (((d.settings.optionStyle = .standard ∨ ∀ o ∈ c.options, o.type ≠ .lastOption) ∧
      c.multiCommand = false) ∧ RegularFlags d.settings.caseInsensitive c.options) ∧ countsCheck c = true := by
    intro c hc
    have := Command.checkAll_sound h4 hc
    simpa only [ordinaryCommand, Bool.and_eq_true, Bool.or_eq_true, List.all_eq_true, decide_eq_true_eq, Bool.not_eq_true'] using this
  have hcc := countsCheck_sound (Command.checkAll_mono (q := countsCheck) (fun c hp => by
    simp only [ordinaryCommand, Bool.and_eq_true] at hp; exact hp.2) h4)
  refine ⟨?_, h2, h3, fun c h => (hc c h).1.1.2, fun c h => (hc c h).1.2, hcc.2, hcc.1⟩
  by_cases hs : d.settings.optionStyle = .standard
  · exact Or.inl hs
  · exact Or.inr fun c h => (hc c h).1.1.1.resolve_left hs

/-- The condition of `Predictable` on one command, decided by evaluation. -/
def predictableCommand (ab : Bool) (c : Command) : Bool :=
  (!ab || decide ((flagsOf c.options).length ≠ 1)) && c.options.all fun o => decide ((NeedsValue o ↔ o.argument ≠ []) ∧ o.type ≠ .exit)

theorem predictableCommand_sound {ab : Bool} {c : Command} (h : predictableCommand ab c = true) :
    (ab = false ∨ (flagsOf c.options).length ≠ 1) ∧ ∀ o ∈ c.options, (NeedsValue o ↔ o.argument ≠ []) ∧ o.type ≠ .exit := by
  simpa only [predictableCommand, Bool.and_eq_true, Bool.or_eq_true, List.all_eq_true, decide_eq_true_eq, Bool.not_eq_true'] using h

/-- `Predictable`, decided by evaluation. -/
def predictableCheck (depth : Nat) (d : ParserData) : Bool :=
  d.command.checkAll (predictableCommand d.settings.allowAbbreviatedOptions) depth

theorem predictableCheck_sound {depth : Nat} {d : ParserData} (h : predictableCheck depth d = true) : Predictable d :=
  fun _ hc _ => predictableCommand_sound (Command.checkAll_sound h hc)

/-- `Foreseeable`, decided by evaluation. -/
def foreseeableCheck (depth : Nat) (d : ParserData) : Bool :=
  d.command.checkAll (fun c => c.arguments.dropLast.all (fun a => decide (a.minCount = a.maxCount)) ||
    (c.arguments.getLast?.any (fun a => decide (0 < a.minCount)) && predictableCommand d.settings.allowAbbreviatedOptions c)) depth

theorem foreseeableCheck_sound {depth : Nat} {d : ParserData} (h : foreseeableCheck depth d = true) : Foreseeable d := by
  have key : ∀ c : Command, c.Within d.command → NeedsCount c → (∃ a, c.arguments.getLast? = some a ∧ 0 < a.minCount) ∧
      predictableCommand d.settings.allowAbbreviatedOptions c = true := by
    intro c hc hn
    have := Command.checkAll_sound h hc
    simp only [Bool.or_eq_true, Bool.and_eq_true, List.all_eq_true, decide_eq_true_eq] at this
    rcases this with h1 | ⟨h2, h3⟩
    · obtain ⟨b, a, e, he, hne, hmm⟩ := hn
      refine absurd (h1 a ?_) hmm
      rw [he, List.dropLast_append_of_ne_nil (by simp), List.dropLast_cons_of_ne_nil hne]
      simp
    · refine ⟨?_, h3⟩
      rw [Option.any_eq_true] at h2
      obtain ⟨a, e1, e2⟩ := h2
      exact ⟨a, e1, by simpa using e2⟩
  exact ⟨fun c hc hn => predictableCommand_sound (key c hc hn).2, fun c hc hn => (key c hc hn).1⟩

/-- No option ends parsing, decided by evaluation. -/
def endlessCheck (depth : Nat) (d : ParserData) : Bool :=
  d.command.checkAll (fun c => c.options.all fun o => decide (o.type ≠ .help ∧ o.type ≠ .exit ∧ o.type ≠ .stop)) depth

theorem endlessCheck_sound {depth : Nat} {d : ParserData} (h : endlessCheck depth d = true) :
    ∀ c : Command, c.Within d.command → ∀ o ∈ c.options, ¬ EndsParsing o := by
  intro c hc o ho he
  have := Command.checkAll_sound h hc
  simp only [List.all_eq_true, decide_eq_true_eq] at this
  obtain ⟨h1, h2, h3⟩ := this o ho
  rcases he with e | e | e
  · exact h1 e
  · exact h2 e
  · exact h3 e

/-- Options and a sub-command with arguments that have to be counted, and a mandatory option. -/
def grammarData : ParserData :=
  { command :=
      { name := b!"fs"
        options := [{ flags := [b!"-v", b!"--verbose"], constant := b!"1" }, { flags := [b!"-l", b!"--log"], argument := b!"FILE" }]
        commands := [
          { name := b!"cp"
            options := [{ flags := [b!"--mode"], argument := b!"MODE", optional := false }]
            arguments := [{ name := b!"FROM", minCount := 1, maxCount := 3 }, { name := b!"TO" }] },
          { name := b!"ls", arguments := [{ name := b!"DIR", minCount := 0, maxCount := 2 }] }] }
    settings := { autoExit := false, generateHelpOption := false } }

theorem silent_inert : Env.inert.Silent := fun _ _ _ _ _ => ⟨rfl, rfl, rfl⟩

-- The hypotheses of the theorems hold for `grammarData`; by `C57_verdict_partial` and the runs, the first three lines are well-formed
-- (concatenated flags with a value, a counted argument) and the others aren't (MODE missing, TO missing, unknown option, too many).
example : ∃ d, finishInitialization grammarData = .ok d ∧ (Ordinary d ∧ Foreseeable d) ∧
    (∃ rs, d.Accepts [b!"-vlx", b!"cp", b!"a", b!"--mode=m", b!"b", b!"c"] rs) ∧ (∃ rs, d.Accepts [b!"ls"] rs) ∧
    (∃ rs, d.Accepts [b!"--log", b!"x", b!"ls", b!"d"] rs) ∧ (¬ ∃ rs, d.Accepts [b!"cp", b!"a", b!"b"] rs) ∧
    (¬ ∃ rs, d.Accepts [b!"cp", b!"--mode=m", b!"a"] rs) ∧ (¬ ∃ rs, d.Accepts [b!"ls", b!"-x"] rs) ∧
    (¬ ∃ rs, d.Accepts [b!"ls", b!"a", b!"b", b!"c"] rs) := by
  have key : ∃ d, finishInitialization grammarData = .ok d ∧ ((ordinaryCheck 3 d = true ∧ foreseeableCheck 3 d = true) ∧ endlessCheck 3 d = true) ∧
      ([[b!"-vlx", b!"cp", b!"a", b!"--mode=m", b!"b", b!"c"], [b!"ls"], [b!"--log", b!"x", b!"ls", b!"d"]].all
        (fun args => decide (parseCode Env.inert d args 99 = some .success)) = true) ∧
      ([[b!"cp", b!"a", b!"b"], [b!"cp", b!"--mode=m", b!"a"], [b!"ls", b!"-x"], [b!"ls", b!"a", b!"b", b!"c"]].all
        (fun args => decide (parseCode Env.inert d args 99 = some .failure)) = true) := by
    refine Outcome.exists_ok ?_
    decide +kernel
  obtain ⟨d, hd, ⟨⟨h1, h2⟩, h3⟩, h4, h5⟩ := key
  have ho := ordinaryCheck_sound h1
  have hf := foreseeableCheck_sound h2
  have hv := fun args (hs : args.length ≤ sizeMax) (hfu : cmdSize args + 1 < 99) =>
    C57_verdict_partial hd ho hf (endlessCheck_sound h3) rfl silent_inert (Or.inl rfl) hs hfu
  have hcode : ∀ {args n s'}, parse Env.inert d args 99 = (.ok (some n), s') → parseCode Env.inert d args 99 = some n.code := by
    intro args n s' h; simp [parseCode, parseTo, h]
  simp only [List.all_cons, List.all_nil, Bool.and_true, Bool.and_eq_true, decide_eq_true_eq] at h4 h5
  have yes : ∀ args, args.length ≤ sizeMax → cmdSize args + 1 < 99 → parseCode Env.inert d args 99 = some .success → ∃ rs, d.Accepts args rs := by
    intro args a1 a2 a3
    obtain ⟨n, s', e1, e2, _⟩ := hv args a1 a2
    rw [hcode e1] at a3
    exact e2.mp (Option.some.inj a3)
  have no : ∀ args, args.length ≤ sizeMax → cmdSize args + 1 < 99 → parseCode Env.inert d args 99 = some .failure → ¬ ∃ rs, d.Accepts args rs := by
    intro args a1 a2 a3
    obtain ⟨n, s', e1, _, e2⟩ := hv args a1 a2
    rw [hcode e1] at a3
    exact e2.mp (Option.some.inj a3)
  exact ⟨d, hd, ⟨ho, hf⟩, yes _ (by decide) (by decide) h4.1, yes _ (by decide) (by decide) h4.2.1, yes _ (by decide) (by decide) h4.2.2,
    no _ (by decide) (by decide) h5.1, no _ (by decide) (by decide) h5.2.1, no _ (by decide) (by decide) h5.2.2.1,
    no _ (by decide) (by decide) h5.2.2.2⟩

/-- An argument with a variable count before an optional one. -/
def gapData : ParserData :=
  { command := { name := b!"cli", arguments := [{ name := b!"A", minCount := 1, maxCount := 2 }, { name := b!"B", minCount := 0, maxCount := 1 }] }
    settings := { autoExit := false, generateHelpOption := false } }

-- `C57_exact_partial` for `gapData`: its last argument is optional and has to be served.
example : ∃ d, finishInitialization gapData = .ok d ∧ (Ordinary d ∧ Predictable d) ∧
    (∃ rs, d.Accepts [b!"a", b!"b", b!"c"] rs ∧ Served d.command rs) ∧ ¬ ∃ rs, d.Accepts [b!"a", b!"b"] rs ∧ Served d.command rs := by
  have key : ∃ d, finishInitialization gapData = .ok d ∧ ((ordinaryCheck 3 d = true ∧ predictableCheck 3 d = true) ∧ endlessCheck 3 d = true) ∧
      parseCode Env.inert d [b!"a", b!"b", b!"c"] 99 = some .success ∧ parseCode Env.inert d [b!"a", b!"b"] 99 = some .failure := by
    refine Outcome.exists_ok ?_
    decide +kernel
  obtain ⟨d, hd, ⟨⟨h1, h2⟩, h3⟩, h4, h5⟩ := key
  have hv := fun args (hs : args.length ≤ sizeMax) (hfu : cmdSize args + 1 < 99) =>
    C57_exact_partial hd (ordinaryCheck_sound h1) (predictableCheck_sound h2) (endlessCheck_sound h3) rfl silent_inert (Or.inl rfl) hs hfu
  have hcode : ∀ {args n s'}, parse Env.inert d args 99 = (.ok (some n), s') → parseCode Env.inert d args 99 = some n.code := by
    intro args n s' h; simp [parseCode, parseTo, h]
  refine ⟨d, hd, ⟨ordinaryCheck_sound h1, predictableCheck_sound h2⟩, ?_, ?_⟩
  · obtain ⟨n, s', e1, e2, _⟩ := hv [b!"a", b!"b", b!"c"] (by decide) (by decide)
    rw [hcode e1] at h4
    exact e2.mp (Option.some.inj h4)
  · obtain ⟨n, s', e1, _, e2⟩ := hv [b!"a", b!"b"] (by decide) (by decide)
    rw [hcode e1] at h5
    exact e2.mp (Option.some.inj h5)

/-- **C57** is violated in one direction: A takes one or two values and B none or one, so a single value is well-formed (it is A's), but
`parse` fails. (The look-ahead count of `C55_violated` is another cause.) -/
theorem C57_violated : ∃ d, finishInitialization gapData = .ok d ∧ Ordinary d ∧ (∃ rs, d.Accepts [b!"a"] rs) ∧
    parseCode Env.inert d [b!"a"] 9 = some .failure := by
  have key : ∃ d, finishInitialization gapData = .ok d ∧ (ordinaryCheck 2 d = true ∧
      (d.command.arguments.map (fun a => (a.minCount, a.maxCount)) = [(1, 2), (0, 1)] ∧ d.command.options.length = 0 ∧
        d.command.commands.length = 0 ∧ d.command.requireSubcommand ≠ some true)) ∧ parseCode Env.inert d [b!"a"] 9 = some .failure := by
    refine Outcome.exists_ok ?_
    decide +kernel
  obtain ⟨d, hd, ⟨h1, h2, h3, h4, h5⟩, h6⟩ := key
  have h0 : d.settings.optionStyle = .standard := by rw [(finishInitialization_ok hd).1]; rfl
  refine ⟨d, hd, ordinaryCheck_sound h1, ⟨report [.argument b!"a"] (handedOut d.command.arguments [1, 0]), ?_⟩, h6⟩
  rw [List.length_eq_zero_iff] at h3 h4
  refine Accepts.last (ps := [.argument b!"a"]) (ks := [1, 0])
    (.cons (.argument (x := wholeFlag b!"a" []) (by rw [h0]; rfl) (by rw [h0]; decide) h4) .nil) ?_ ?_ ?_
  · simp [Line.AtEnd, wholeFlag, h0, Reader.readIn, Reader.read, stylePrefix, Reader.readStandard]
  · have h7 : ∃ a b, d.command.arguments = [a, b] := by
      have hlen : d.command.arguments.length = 2 := by simpa using congrArg List.length h2
      generalize d.command.arguments = as at hlen
      obtain _ | ⟨a, _ | ⟨b, _ | ⟨_, _⟩⟩⟩ := as <;> simp at hlen
      exact ⟨a, b, rfl⟩
    obtain ⟨a, b, ha⟩ := h7
    rw [ha] at h2 ⊢
    · simp only [List.map_cons, List.map_nil, List.cons.injEq, Prod.mk.injEq, and_true] at h2
      obtain ⟨⟨e1, e2⟩, e3, e4⟩ := h2
      refine ⟨rfl, rfl, ?_, ?_⟩
      · intro i hi hi'
        match i, hi with
        | 0, _ => simp; omega
        | 1, _ => simp; omega
      · intro i j hj hj' hij hlt
        match j, hj with
        | 0, _ => omega
        | 1, _ => simp at hlt
  · exact ⟨by rw [h3]; simp, h5⟩

/-- The option is named by a flag exactly as declared (abbreviations and the case of letters don't matter for it). -/
theorem names_exact {ci ab : Bool} {c : Command} {f : Str} {o : OptData} (ho : o ∈ c.options) (hf : f ∈ o.flags) : Names ci ab c f o :=
  Or.inl ⟨ho, Or.inl ⟨f, hf, by cases ci <;> simp [SameFlag]⟩⟩

/-- An option with a value in the DASH style. -/
def dashData : ParserData :=
  { command := { name := b!"cli", options := [{ flags := [b!"-file"], argument := b!"FILE" }] }
    settings := { optionStyle := .dash, autoExit := false, generateHelpOption := false } }

-- The hypotheses of `C57_verdict_partial` in the DASH style.
example : ∃ d, finishInitialization dashData = .ok d ∧ (Ordinary d ∧ Foreseeable d) ∧ dashData.settings.optionStyle = .dash ∧
    (∃ rs, d.Accepts [b!"-file", b!"a", b!"-file=b"] rs) ∧ ¬ ∃ rs, d.Accepts [b!"-fileb"] rs := by
  have key : ∃ d, finishInitialization dashData = .ok d ∧ ((ordinaryCheck 3 d = true ∧ foreseeableCheck 3 d = true) ∧ endlessCheck 3 d = true) ∧
      parseCode Env.inert d [b!"-file", b!"a", b!"-file=b"] 99 = some .success ∧ parseCode Env.inert d [b!"-fileb"] 99 = some .failure := by
    refine Outcome.exists_ok ?_
    decide +kernel
  obtain ⟨d, hd, ⟨⟨h1, h2⟩, h3⟩, h4, h5⟩ := key
  have ho := ordinaryCheck_sound h1
  have hf := foreseeableCheck_sound h2
  have hv := fun args hne (hs : args.length ≤ sizeMax) (hfu : cmdSize args + 1 < 99) =>
    C57_verdict_partial hd ho hf (endlessCheck_sound h3) rfl silent_inert hne hs hfu
  have hcode : ∀ {args n s'}, parse Env.inert d args 99 = (.ok (some n), s') → parseCode Env.inert d args 99 = some n.code := by
    intro args n s' h; simp [parseCode, parseTo, h]
  refine ⟨d, hd, ⟨ho, hf⟩, rfl, ?_, ?_⟩
  · obtain ⟨n, s', e1, e2, _⟩ := hv [b!"-file", b!"a", b!"-file=b"] (Or.inr (by decide)) (by decide) (by decide)
    rw [hcode e1] at h4
    exact e2.mp (Option.some.inj h4)
  · obtain ⟨n, s', e1, _, e2⟩ := hv [b!"-fileb"] (Or.inr (by decide)) (by decide) (by decide)
    rw [hcode e1] at h5
    exact e2.mp (Option.some.inj h5)

/-- **C57** is violated by an empty value in the SLASH and DASH styles: `-file ""` is well-formed, but the empty argument is read a second
time, as a positional argument, and there is none. -/
theorem C57_empty_violated : ∃ d, finishInitialization dashData = .ok d ∧ Ordinary d ∧ Foreseeable d ∧
    (∃ rs, d.Accepts [b!"-file", b!""] rs) ∧ parseCode Env.inert d [b!"-file", b!""] 9 = some .failure := by
  have key : ∃ d, finishInitialization dashData = .ok d ∧ (ordinaryCheck 2 d = true ∧ foreseeableCheck 2 d = true ∧
      (d.command.options.length = 1 ∧ (d.command.options.all fun o => decide (b!"-file" ∈ o.flags ∧ NeedsValue o ∧ o.type = .normal ∧ o.optional = true)) = true) ∧
      d.command.arguments.length = 0 ∧ d.command.commands.length = 0 ∧ d.command.requireSubcommand ≠ some true) ∧
      parseCode Env.inert d [b!"-file", b!""] 9 = some .failure := by
    refine Outcome.exists_ok ?_
    decide +kernel
  obtain ⟨d, hd, ⟨h1, h2, ⟨h3, h4⟩, h5, h6, h7⟩, h8⟩ := key
  have h0 : d.settings.optionStyle = .dash := by rw [(finishInitialization_ok hd).1]; rfl
  rw [List.length_eq_zero_iff] at h5 h6
  obtain ⟨o, ho⟩ := List.length_eq_one_iff.mp h3
  simp only [ho, List.all_cons, List.all_nil, Bool.and_true, decide_eq_true_eq] at h4
  obtain ⟨f1, f2, f3, f4⟩ := h4
  refine ⟨d, hd, ordinaryCheck_sound h1, foreseeableCheck_sound h2, ⟨report [.option o []] (handedOut d.command.arguments []), ?_⟩, h8⟩
  have hl : Reading.leftBy (wholeFlag b!"-file" [b!""]) o = ⟨[], []⟩ := by simp [Reading.leftBy, f2, wholeFlag]
  refine Accepts.last (ps := [.option o []]) (ks := [])
    (.cons (.option (x := wholeFlag b!"-file" [b!""]) (by rw [h0]; rfl) (by rw [h0]; decide) (names_exact (by rw [ho]; simp) f1)
      (by simp [Reading.valueFor, f2, wholeFlag]) f3) .nil) ?_ ?_ ?_
  · rw [hl, h0]; rfl
  · rw [h5]
    exact ⟨rfl, rfl, fun i h => by simp at h, fun i j h => by simp at h⟩
  · refine ⟨?_, h7⟩
    intro o' ho' hop
    rw [ho, List.mem_singleton] at ho'
    rw [ho', f4] at hop
    cases hop

/-! ### Spellings -/

/-- **C57**: several flags in one argument mean the same as each of them in an argument of its own, if the first one takes no
value and the second isn't `-`. -/
theorem C57_concatenated {d0 d : ParserData} (h : finishInitialization d0 = .ok d) (hor : Ordinary d)
    (hstd : d0.settings.optionStyle = .standard) {p q : UInt8} {qs : Str} {o : OptData}
    (hp : p ≠ c!"-") (hq : q ≠ c!"-")
    (hn : Names d.settings.caseInsensitive d.settings.allowAbbreviatedOptions d.command [c!"-", p] o) (hv : ¬ NeedsValue o) (ht : o.type = .normal)
    (rest : List Str) (rs : List IterResult) :
    d.Accepts ((c!"-" :: p :: q :: qs) :: rest) rs ↔ d.Accepts ([c!"-", p] :: (c!"-" :: q :: qs) :: rest) rs := by
  have hf := (rules_of h hor).functional (c := d.command) .self
  have hset : d.settings.optionStyle = .standard := by rw [(finishInitialization_ok h).1, hstd]
  have h1 : Written .standard (Names d.settings.caseInsensitive d.settings.allowAbbreviatedOptions) d.command (.mixed ⟨[], (c!"-" :: p :: q :: qs) :: rest⟩)
      (.option o []) (.mixed ⟨q :: qs, rest⟩) := by
    have hr : Reader.readStandard ⟨[], (c!"-" :: p :: q :: qs) :: rest⟩ = some (shortFlag p (q :: qs) rest) := by
      simp [Reader.readStandard, hp]
    have hl : Reading.leftBy (shortFlag p (q :: qs) rest) o = ⟨q :: qs, rest⟩ := by simp [Reading.leftBy, hv, shortFlag]
    rw [← hl]
    refine .option hr ?_ ?_ ?_ ht
    · simp [shortFlag, IsFlag, flagChar]
    · simpa [shortFlag] using hn
    · simp [Reading.valueFor, hv]
  have h2 : Written .standard (Names d.settings.caseInsensitive d.settings.allowAbbreviatedOptions) d.command (.mixed ⟨[], [c!"-", p] :: (c!"-" :: q :: qs) :: rest⟩)
      (.option o []) (.mixed ⟨[], (c!"-" :: q :: qs) :: rest⟩) := by
    have hr : Reader.readStandard ⟨[], [c!"-", p] :: (c!"-" :: q :: qs) :: rest⟩ = some (wholeFlag [c!"-", p] ((c!"-" :: q :: qs) :: rest)) := by
      simp [Reader.readStandard]
    have hl : Reading.leftBy (wholeFlag [c!"-", p] ((c!"-" :: q :: qs) :: rest)) o = ⟨[], (c!"-" :: q :: qs) :: rest⟩ := by
      simp [Reading.leftBy, hv, wholeFlag]
    rw [← hl]
    refine .option hr ?_ ?_ ?_ ht
    · simp [wholeFlag, IsFlag, flagChar]
    · simpa [wholeFlag] using hn
    · simp [Reading.valueFor, hv]
  have hsf : SameFirst d (Names d.settings.caseInsensitive d.settings.allowAbbreviatedOptions) (NamesCommand d.settings.caseInsensitive) d.command
      (.mixed ⟨q :: qs, rest⟩) (.mixed ⟨[], (c!"-" :: q :: qs) :: rest⟩) := sameFirst_of_read (by rw [hset]; exact read_pending hq rest)
  rw [← hset] at h1 h2
  exact ⟨accepts_step hf h1 h2 hsf, accepts_step hf h2 h1 hsf.symm⟩

/-- **C57**: the value of a short flag may be written in the same argument or in the next one. -/
theorem C57_short_value {d0 d : ParserData} (h : finishInitialization d0 = .ok d) (hor : Ordinary d)
    (hstd : d0.settings.optionStyle = .standard) {p : UInt8} {v : Str} {o : OptData}
    (hp : p ≠ c!"-") (hne : v ≠ [])
    (hn : Names d.settings.caseInsensitive d.settings.allowAbbreviatedOptions d.command [c!"-", p] o) (hv : NeedsValue o) (ht : o.type = .normal)
    (rest : List Str) (rs : List IterResult) :
    d.Accepts ((c!"-" :: p :: v) :: rest) rs ↔ d.Accepts ([c!"-", p] :: v :: rest) rs := by
  have hf := (rules_of h hor).functional (c := d.command) .self
  have hset : d.settings.optionStyle = .standard := by rw [(finishInitialization_ok h).1, hstd]
  have h1 : Written .standard (Names d.settings.caseInsensitive d.settings.allowAbbreviatedOptions) d.command (.mixed ⟨[], (c!"-" :: p :: v) :: rest⟩)
      (.option o v) (.mixed ⟨[], rest⟩) := by
    have hr : Reader.readStandard ⟨[], (c!"-" :: p :: v) :: rest⟩ = some (shortFlag p v rest) := by
      cases v with
      | nil => exact absurd rfl hne
      | cons x xs => simp [Reader.readStandard, hp]
    have hl : Reading.leftBy (shortFlag p v rest) o = ⟨[], rest⟩ := by simp [Reading.leftBy, hv, shortFlag, hne]
    rw [← hl]
    refine .option hr ?_ ?_ ?_ ht
    · simp [shortFlag, IsFlag, flagChar, hne]
    · simpa [shortFlag, hne] using hn
    · simp [Reading.valueFor, hv, shortFlag, hne]
  have h2 : Written .standard (Names d.settings.caseInsensitive d.settings.allowAbbreviatedOptions) d.command (.mixed ⟨[], [c!"-", p] :: v :: rest⟩)
      (.option o v) (.mixed ⟨[], rest⟩) := by
    have hr : Reader.readStandard ⟨[], [c!"-", p] :: v :: rest⟩ = some (wholeFlag [c!"-", p] (v :: rest)) := by
      simp [Reader.readStandard]
    have hl : Reading.leftBy (wholeFlag [c!"-", p] (v :: rest)) o = ⟨[], rest⟩ := by
      simp [Reading.leftBy, hv, wholeFlag]
    rw [← hl]
    refine .option hr ?_ ?_ ?_ ht
    · simp [wholeFlag, IsFlag, flagChar]
    · simpa [wholeFlag] using hn
    · simp [Reading.valueFor, hv, wholeFlag]
  have hsf : SameFirst d (Names d.settings.caseInsensitive d.settings.allowAbbreviatedOptions) (NamesCommand d.settings.caseInsensitive) d.command
      (.mixed ⟨[], rest⟩) (.mixed ⟨[], rest⟩) := sameFirst_of_read rfl
  rw [← hset] at h1 h2
  exact ⟨accepts_step hf h1 h2 hsf, accepts_step hf h2 h1 hsf.symm⟩

/-- **C57**: the value of a long flag may be written after `=` or in the next argument, if no flag begins with the flag and `=`. -/
theorem C57_equals {d0 d : ParserData} (h : finishInitialization d0 = .ok d) (hor : Ordinary d)
    (hstd : d0.settings.optionStyle = .standard) {f v : Str} {o : OptData}
    (h3 : 3 ≤ f.length) (hd : f.take 2 = b!"--") (he : c!"=" ∉ f)
    (hn : Names d.settings.caseInsensitive d.settings.allowAbbreviatedOptions d.command f o) (hv : NeedsValue o) (ha : o.argument ≠ [])
    (hno : ∀ o', ¬ Selects d.settings.caseInsensitive d.settings.allowAbbreviatedOptions d.command.options (f ++ b!"=") o') (ht : o.type = .normal)
    (rest : List Str) (rs : List IterResult) :
    d.Accepts ((f ++ b!"=" ++ v) :: rest) rs ↔ d.Accepts (f :: v :: rest) rs := by
  have hf := (rules_of h hor).functional (c := d.command) .self
  have hset : d.settings.optionStyle = .standard := by rw [(finishInitialization_ok h).1, hstd]
  have hsel : Selects d.settings.caseInsensitive d.settings.allowAbbreviatedOptions d.command.options f o := by
    rcases hn with hn | ⟨g, hg, _⟩
    · exact hn
    · exact absurd (by rw [hg]; simp) he
  obtain ⟨x, xs, rfl⟩ : ∃ x xs, f = c!"-" :: c!"-" :: x :: xs := by
    match f, h3, hd with
    | a :: b :: x :: xs, _, hd =>
      have : a = c!"-" ∧ b = c!"-" := by simpa using hd
      exact ⟨x, xs, by rw [this.1, this.2]⟩
  have hcut0 : cutAfterEqual (c!"-" :: c!"-" :: x :: xs) = none := by
    have e1 : ∀ f : Str, c!"=" ∉ f → f.dropWhile (· != c!"=") = [] := by
      intro f he
      induction f with
      | nil => rfl
      | cons y ys ih =>
        have hy : y ≠ c!"=" := fun e => he (by simp [e])
        rw [List.dropWhile_cons_of_pos (by simpa using hy)]
        exact ih fun hm => he (List.mem_cons_of_mem _ hm)
    unfold cutAfterEqual
    rw [e1 _ he]
  have hcut : ∀ f : Str, c!"=" ∉ f → cutAfterEqual (f ++ b!"=" ++ v) = some (f ++ b!"=", v) := by
    intro f he
    have e1 : (f ++ b!"=" ++ v).dropWhile (· != c!"=") = c!"=" :: v := by
      rw [List.append_assoc, List.dropWhile_append_of_pos]
      · rfl
      · intro y hy
        rw [bne_iff_ne]
        rintro rfl
        exact he hy
    have e2 : (f ++ b!"=" ++ v).takeWhile (· != c!"=") = f := by
      rw [List.append_assoc, List.takeWhile_append_of_pos]
      · show f ++ [] = f
        simp
      · intro y hy
        rw [bne_iff_ne]
        rintro rfl
        exact he hy
    unfold cutAfterEqual
    rw [e1, e2]
  have h1 : Written .standard (Names d.settings.caseInsensitive d.settings.allowAbbreviatedOptions) d.command
      (.mixed ⟨[], ((c!"-" :: c!"-" :: x :: xs) ++ b!"=" ++ v) :: rest⟩) (.option o v) (.mixed ⟨[], rest⟩) := by
    have hr : Reader.readStandard ⟨[], ((c!"-" :: c!"-" :: x :: xs) ++ b!"=" ++ v) :: rest⟩ =
        some (equalFlag ((c!"-" :: c!"-" :: x :: xs) ++ b!"=") v rest) := by
      have := hcut _ he
      simp only [List.cons_append] at this ⊢
      simp only [Reader.readStandard, this, ne_eq, not_true_eq_false, if_false]
    have hl : Reading.leftBy (equalFlag ((c!"-" :: c!"-" :: x :: xs) ++ b!"=") v rest) o = ⟨[], rest⟩ := by simp [Reading.leftBy, hv, equalFlag]
    rw [← hl]
    refine .option hr ?_ ?_ ?_ ht
    · simp [equalFlag, IsFlag, flagChar]
    · exact Or.inr ⟨_, rfl, by simp, hno, hsel, ha⟩
    · simp [Reading.valueFor, hv, equalFlag]
  have h2 : Written .standard (Names d.settings.caseInsensitive d.settings.allowAbbreviatedOptions) d.command
      (.mixed ⟨[], (c!"-" :: c!"-" :: x :: xs) :: v :: rest⟩) (.option o v) (.mixed ⟨[], rest⟩) := by
    have hr : Reader.readStandard ⟨[], (c!"-" :: c!"-" :: x :: xs) :: v :: rest⟩ = some (wholeFlag (c!"-" :: c!"-" :: x :: xs) (v :: rest)) := by
      simp [Reader.readStandard, hcut0]
    have hl : Reading.leftBy (wholeFlag (c!"-" :: c!"-" :: x :: xs) (v :: rest)) o = ⟨[], rest⟩ := by
      simp [Reading.leftBy, hv, wholeFlag]
    rw [← hl]
    refine .option hr ?_ ?_ ?_ ht
    · simp [wholeFlag, IsFlag, flagChar]
    · exact hn
    · simp [Reading.valueFor, hv, wholeFlag]
  have hsf : SameFirst d (Names d.settings.caseInsensitive d.settings.allowAbbreviatedOptions) (NamesCommand d.settings.caseInsensitive) d.command
      (.mixed ⟨[], rest⟩) (.mixed ⟨[], rest⟩) := sameFirst_of_read rfl
  rw [← hset] at h1 h2
  exact ⟨accepts_step hf h1 h2 hsf, accepts_step hf h2 h1 hsf.symm⟩

/-- **C57**: in the SLASH and DASH styles, the value of a flag may be written after `=` or in the next argument, if no flag begins with the
flag and `=`. -/
theorem C57_equals_prefixed {d0 d : ParserData} (h : finishInitialization d0 = .ok d) (hor : Ordinary d)
    (hpf : d0.settings.optionStyle ≠ .standard) {f v : Str} {o : OptData}
    (hfl : IsFlag d0.settings.optionStyle f) (he : c!"=" ∉ f)
    (hn : Names d.settings.caseInsensitive d.settings.allowAbbreviatedOptions d.command f o) (hv : NeedsValue o) (ha : o.argument ≠ [])
    (hno : ∀ o', ¬ Selects d.settings.caseInsensitive d.settings.allowAbbreviatedOptions d.command.options (f ++ b!"=") o') (ht : o.type = .normal)
    (rest : List Str) (rs : List IterResult) :
    d.Accepts ((f ++ b!"=" ++ v) :: rest) rs ↔ d.Accepts (f :: v :: rest) rs := by
  have hf := (rules_of h hor).functional (c := d.command) .self
  rw [← (finishInitialization_ok h).1] at hpf hfl
  obtain ⟨c, hc⟩ : ∃ c, stylePrefix d.settings.optionStyle = some c := by
    cases hq : stylePrefix d.settings.optionStyle with
    | none => exact absurd (stylePrefix_none hq) hpf
    | some c => exact ⟨c, rfl⟩
  obtain ⟨_, hcc, _⟩ := stylePrefix_char hc
  have hread : ∀ r : Reader, r.readIn d.settings.optionStyle = r.readPrefixed c := by intro r; simp [Reader.readIn, Reader.read, hc]
  have hsel : Selects d.settings.caseInsensitive d.settings.allowAbbreviatedOptions d.command.options f o := by
    rcases hn with hn | ⟨g, hg, _⟩
    · exact hn
    · exact absurd (by rw [hg]; simp) he
  have hcut0 := cutAfterEqual_absent he
  have hcut : cutAfterEqual (f ++ b!"=" ++ v) = some (f ++ b!"=", v) := by
    have e1 : (f ++ b!"=" ++ v).dropWhile (· != c!"=") = c!"=" :: v := by
      rw [List.append_assoc, List.dropWhile_append_of_pos]
      · rfl
      · intro y hy
        rw [bne_iff_ne]
        rintro rfl
        exact he hy
    have e2 : (f ++ b!"=" ++ v).takeWhile (· != c!"=") = f := by
      rw [List.append_assoc, List.takeWhile_append_of_pos]
      · show f ++ [] = f
        simp
      · intro y hy
        rw [bne_iff_ne]
        rintro rfl
        exact he hy
    unfold cutAfterEqual
    rw [e1, e2]
  obtain ⟨hlen, hhd⟩ := hfl
  have hhd' : ∀ w : Str, (f ++ w).head? = some (flagChar d.settings.optionStyle) := by
    intro w
    rw [List.head?_append, hhd]; rfl
  have h1 : Written d.settings.optionStyle (Names d.settings.caseInsensitive d.settings.allowAbbreviatedOptions) d.command
      (.mixed ⟨[], (f ++ b!"=" ++ v) :: rest⟩) (.option o v) (.mixed ⟨[], rest⟩) := by
    have hr : Reader.readIn d.settings.optionStyle ⟨[], (f ++ b!"=" ++ v) :: rest⟩ = some (equalFlag (f ++ b!"=") v rest) := by
      rw [hread]
      unfold Reader.readPrefixed
      simp only
      rw [if_pos ⟨by simp only [List.length_append, List.length_cons, List.length_nil]; omega, by rw [List.append_assoc, hhd', hcc]⟩, hcut]
    have hl : Reading.leftBy (equalFlag (f ++ b!"=") v rest) o = ⟨[], rest⟩ := by simp [Reading.leftBy, hv, equalFlag]
    rw [← hl]
    refine .option hr ?_ ?_ ?_ ht
    · exact ⟨by simp only [equalFlag, List.length_append]; omega, hhd' _⟩
    · exact Or.inr ⟨_, rfl, hlen, hno, hsel, ha⟩
    · simp [Reading.valueFor, hv, equalFlag]
  have h2 : Written d.settings.optionStyle (Names d.settings.caseInsensitive d.settings.allowAbbreviatedOptions) d.command
      (.mixed ⟨[], f :: v :: rest⟩) (.option o v) (.mixed ⟨[], rest⟩) := by
    have hr : Reader.readIn d.settings.optionStyle ⟨[], f :: v :: rest⟩ = some (wholeFlag f (v :: rest)) := by
      rw [hread]
      unfold Reader.readPrefixed
      simp only [hcut0]
      split <;> rfl
    have hl : Reading.leftBy (wholeFlag f (v :: rest)) o = ⟨[], rest⟩ := by
      simp [Reading.leftBy, hv, wholeFlag]
    rw [← hl]
    refine .option hr ?_ ?_ ?_ ht
    · exact ⟨hlen, hhd⟩
    · exact hn
    · simp [Reading.valueFor, hv, wholeFlag]
  have hsf : SameFirst d (Names d.settings.caseInsensitive d.settings.allowAbbreviatedOptions) (NamesCommand d.settings.caseInsensitive) d.command
      (.mixed ⟨[], rest⟩) (.mixed ⟨[], rest⟩) := sameFirst_of_read rfl
  exact ⟨accepts_step hf h1 h2 hsf, accepts_step hf h2 h1 hsf.symm⟩

-- The hypotheses hold for `dashData`.
example : ∃ d, finishInitialization dashData = .ok d ∧ ∀ (v : Str) (rest : List Str) (rs : List IterResult),
    d.Accepts ((b!"-file" ++ b!"=" ++ v) :: rest) rs ↔ d.Accepts (b!"-file" :: v :: rest) rs := by
  have key : ∃ d, finishInitialization dashData = .ok d ∧ (ordinaryCheck 3 d = true ∧
      d.settings.caseInsensitive = false ∧ d.settings.allowAbbreviatedOptions = false ∧
      (d.command.options.any fun o => decide (b!"-file" ∈ o.flags ∧ NeedsValue o ∧ o.type = .normal ∧ o.argument ≠ [])) = true ∧
      (d.command.options.all fun o => decide (b!"-file=" ∉ o.flags)) = true) := by
    refine Outcome.exists_ok ?_
    decide +kernel
  obtain ⟨d, hd, h1, hci, hab, h3, h4⟩ := key
  have ho := ordinaryCheck_sound h1
  simp only [List.any_eq_true, decide_eq_true_eq] at h3
  obtain ⟨o2, m2, f2, n2, t2, a2⟩ := h3
  refine ⟨d, hd, fun v rest rs => ?_⟩
  refine C57_equals_prefixed hd ho (by decide) (by decide) (by decide) (names_exact m2 f2) n2 a2 ?_ t2 rest rs
  rintro o' ⟨m, hs⟩
  rw [hci, hab] at hs
  simp only [List.all_eq_true, decide_eq_true_eq] at h4
  rcases hs with ⟨f, hf, e⟩ | ⟨e, _⟩
  · simp only [SameFlag, Bool.false_eq_true, if_false] at e
    exact h4 o' m (by rw [e] at hf; exact hf)
  · cases e

-- The hypotheses hold for `grammarData`: `-vl…` is `-v -l…`, `-lx` is `-l x` and `--log=x` is `--log x`, whatever follows.
example : ∃ d, finishInitialization grammarData = .ok d ∧ ∀ (v : Str) (rest : List Str) (rs : List IterResult),
    (d.Accepts ((b!"-vl" ++ v) :: rest) rs ↔ d.Accepts (b!"-v" :: (b!"-l" ++ v) :: rest) rs) ∧
    (v ≠ [] → (d.Accepts ((b!"-l" ++ v) :: rest) rs ↔ d.Accepts (b!"-l" :: v :: rest) rs)) ∧
    (d.Accepts ((b!"--log" ++ b!"=" ++ v) :: rest) rs ↔ d.Accepts (b!"--log" :: v :: rest) rs) := by
  have key : ∃ d, finishInitialization grammarData = .ok d ∧ (ordinaryCheck 3 d = true ∧
      d.settings.caseInsensitive = false ∧ d.settings.allowAbbreviatedOptions = false ∧
      (d.command.options.any fun o => decide (b!"-v" ∈ o.flags ∧ ¬ NeedsValue o ∧ o.type = .normal)) = true ∧
      (d.command.options.any fun o => decide (b!"-l" ∈ o.flags ∧ b!"--log" ∈ o.flags ∧ NeedsValue o ∧ o.type = .normal ∧ o.argument ≠ [])) = true ∧
      (d.command.options.all fun o => decide (b!"--log=" ∉ o.flags)) = true) := by
    refine Outcome.exists_ok ?_
    decide +kernel
  obtain ⟨d, hd, h1, hci, hab, h2, h3, h4⟩ := key
  have ho := ordinaryCheck_sound h1
  simp only [List.any_eq_true, decide_eq_true_eq] at h2 h3
  obtain ⟨o1, m1, f1, n1, t1⟩ := h2
  obtain ⟨o2, m2, f2, g2, n2, t2, a2⟩ := h3
  refine ⟨d, hd, fun v rest rs => ⟨?_, ?_, ?_⟩⟩
  · exact C57_concatenated hd ho rfl (by decide) (by decide) (names_exact m1 f1) n1 t1 rest rs
  · intro hv
    exact C57_short_value hd ho rfl (by decide) hv (names_exact m2 f2) n2 t2 rest rs
  · refine C57_equals hd ho rfl (by decide) rfl (by decide) (names_exact m2 g2) n2 a2 ?_ t2 rest rs
    rintro o' ⟨m, hs⟩
    rw [hci, hab] at hs
    simp only [List.all_eq_true, decide_eq_true_eq] at h4
    rcases hs with ⟨f, hf, e⟩ | ⟨e, _⟩
    · simp only [SameFlag, Bool.false_eq_true, if_false] at e
      exact h4 o' m (by rw [e] at hf; exact hf)
    · cases e

end Argos
