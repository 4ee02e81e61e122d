import Verif.Proofs.Spelled
import Verif.Props.Flags
import Verif.Props.Phrase

/-!
# C02 and C63, parse level: the spelling of an option doesn't matter
-/

namespace Argos

open Spec Parser

/-- **C02**: after `pre` has been read, an option that takes a value comes, in one of the forms `--flag=V`, `--flag V`, `-fV`, `-f V`. In all forms, and
with all flags for which the parser finds this option, everything (the outcome, the parsed arguments, the output, the calls of callbacks) is the same,
whatever the callbacks do. Missing: commands that need the number of arguments in advance, for which it can be false, see `C02_count_violated`. -/
theorem C02_parse_partial {d0 d : ParserData} (h : finishInitialization d0 = .ok d) (hnc : ∀ c : Command, c.Within d.command → ¬ NeedsCount c)
    (hst : d.settings.optionStyle = .standard) {env : Env} {pre : List Str} {rs : List IterResult} {s : PState}
    -- `pre` has been read and options are allowed
    (ht : Trace env (start d pre).2 rs s) (hrs : ∀ x ∈ rs, ¬ x.IsLast) (hm : s.mode = .argumentsAndOptions) (hl : NothingLeft s.iter)
    {o : OptData} (ho : NeedsValue o) {value : Str} {us vs : List Str} {f g : Str} (hu : Spelled value us f) (hv : Spelled value vs g)
    (hf : Parser.lookup s f = some o) (hg : Parser.lookup s g = some o) (post : List Str) {fuel : Nat} (hfu : rs.length ≤ fuel) :
    (parse env d (pre ++ (us ++ post)) fuel).1 = (parse env d (pre ++ (vs ++ post)) fuel).1 ∧
    ∃ it, (parse env d (pre ++ (vs ++ post)) fuel).2 = { (parse env d (pre ++ (us ++ post)) fuel).2 with iter := it } := by
  obtain ⟨h1, _, i, l, h2, h3⟩ := parse_more (K := True) (ready_of_init h) (notCounted hnc) ht hrs (Or.inl hm)
    (fun hgood => value_run hst hgood hm hl ho hu hv hf hg post) fuel hfu
  refine ⟨h1.eq, i, h2.trans ?_⟩
  rw [h3 trivial]

/-- All forms are phrases for the option and its value. -/
theorem C02_says {d : ParserData} (hst : d.settings.optionStyle = .standard) {c : Command} {o : OptData} (ho : NeedsValue o) (ht : o.type = .normal) {value : Str}
    {us : List Str} {f : Str} (hu : Spelled value us f) (hn : Names d.settings.caseInsensitive d.settings.allowAbbreviatedOptions c f o) :
    d.Says c us (.option o value) := by
  have hwhole : ∀ g : Str, c!"=" ∉ g → WholeFlag d.settings.optionStyle (b!"--" ++ g) := by
    intro g hg
    rw [hst]
    refine ⟨⟨by simp, rfl⟩, fun _ => Or.inr rfl, Or.inr ?_⟩
    simpa using hg
  cases hu with
  | equals g hg =>
    by_cases h0 : g = []
    · subst h0
      intro rest
      have hl : (equalFlag b!"--=" value rest).leftBy o = ⟨[], rest⟩ := by simp [Reading.leftBy, ho, equalFlag]
      rw [← hl, hst]
      refine .option (x := equalFlag b!"--=" value rest) ?_ ⟨by simp [equalFlag], rfl⟩ hn (by simp [Reading.valueFor, ho, equalFlag]) ht
      simp [Reader.readIn, Reader.read, stylePrefix, Reader.readStandard, cutAfterEqual, equalFlag]
    · refine C62_equals (hwhole g hg) ?_ hn ho ht
      cases g with
      | nil => exact absurd rfl h0
      | cons x g => simp
  | long g hg => exact C62_flag_value (hwhole g hg) hn ho ht
  | joined p hp hv => exact C62_short_value hst hp hv hn ho ht
  | short p => exact C62_flag_value (by rw [hst]; exact ⟨⟨by simp, rfl⟩, fun _ => Or.inl rfl, Or.inl rfl⟩) hn ho ht

/-- **C02** for commands that need the number of arguments in advance as well: if `parse` succeeds with one form, it succeeds with the others, with the same
results and the same values. Missing: callbacks, failures, and parsers that count the arguments wrongly (these are covered by
`C02_parse_partial`, if no arguments have to be counted). -/
theorem C02_counted_partial {d0 d : ParserData} (h : finishInitialization d0 = .ok d) (ho : Ordinary d) (hf : Predictable d) (hst : d.settings.optionStyle = .standard)
    (hst0 : d0.settings.optionStyle = .standard) {env : Env}
    (hsi : env.Silent) {pre rest : List Str} {c : Command} (hl : d.LeadsTo pre c) {ws : List Phrase} (hw : ∀ w ∈ ws, d.Says c w.1 w.2) {o : OptData}
    (hv : NeedsValue o) (hty : o.type = .normal) {value : Str} {us vs : List Str} {f g : Str} (hus : Spelled value us f) (hvs : Spelled value vs g)
    (hfo : Names d.settings.caseInsensitive d.settings.allowAbbreviatedOptions c f o)
    (hgo : Names d.settings.caseInsensitive d.settings.allowAbbreviatedOptions c g o)
    (hszu : (pre ++ (wordsOf ws ++ (us ++ rest))).length ≤ sizeMax) (hszv : (pre ++ (wordsOf ws ++ (vs ++ rest))).length ≤ sizeMax)
    {rs : List IterResult} {n : PNode} (hr : Returns env d (pre ++ (wordsOf ws ++ (us ++ rest))) rs .done n) (hns : NoStop rs) :
    ∃ rs' n', Returns env d (pre ++ (wordsOf ws ++ (vs ++ rest))) rs' .done n' ∧ rs'.map forgetText = rs.map forgetText ∧ n'.code = .success ∧
      n'.tree = n.tree := by
  have hfn := fun (c : Command) (hc : c.Within d.command) => (rules_of h ho).functional hc
  have hacc := C57_sound_partial h ho hsi.passive (Or.inl hst0) hr hns
  have hsv := (served_forget _ _).mpr (returns_served h ho hf hsi.passive (Or.inl hst0) hszu hr hns)
  have su := C02_says hst hv hty hus hfo
  have sv := C02_says hst hv hty hvs hgo
  obtain ⟨rs1, hacc, rfl⟩ := accepts_within Eq (fun before rs rs' h => by rw [h]) hfn (namesCommand_functional _) (namesCommand_mem _) hl .self
    (fun hc inits rs hh => ⟨rs, accepts_alike (hfn c hc) hw (says_alike (hfn c hc) su sv rest) hh, rfl⟩) hacc
  obtain ⟨rs2, n2, hr2, hn2, hm2, hc2⟩ := complete_served h ho hf hsi (Or.inl hst0) hszv hacc hsv
  refine ⟨rs2, n2, hr2, hm2, hc2, ?_⟩
  obtain ⟨t, ht, hnt⟩ := C32_values h hsi.passive hr
  obtain ⟨t', ht', hnt'⟩ := C32_values h hsi.passive hr2
  have e1 := (sameEffect_forget rs).given d.command
  have e3 := (sameEffect_forget rs2).given d.command
  rw [hm2] at e3
  rw [← e3, ht, ht'] at e1
  simp only [Option.map_some, Option.some.injEq] at e1
  rw [hnt, hnt', e1]

/-- After phrases, the flags of one argument or of two: the option is written, and the same can follow. -/
theorem bunched_line {d : ParserData} (hst : d.settings.optionStyle = .standard) {c : Command} {p q : UInt8} {qs : Str} (hp : p ≠ c!"-") (hq : q ≠ c!"-")
    {o : OptData} (hn : Names d.settings.caseInsensitive d.settings.allowAbbreviatedOptions c [c!"-", p] o) (hv : ¬ NeedsValue o) (hty : o.type = .normal)
    {us : List Str} (hu : Bunched p (q :: qs) us) (rest : List Str) :
    ∃ r : Reader, Written d.settings.optionStyle (Names d.settings.caseInsensitive d.settings.allowAbbreviatedOptions) c (.mixed ⟨[], us ++ rest⟩) (.option o [])
      (.mixed r) ∧ r.readIn d.settings.optionStyle = Reader.readIn d.settings.optionStyle ⟨q :: qs, rest⟩ := by
  rw [hst]
  cases hu with
  | together =>
    refine ⟨⟨q :: qs, rest⟩, ?_, rfl⟩
    have hl : Reading.leftBy (shortFlag p (q :: qs) rest) o = ⟨q :: qs, rest⟩ := by simp [Reading.leftBy, hv, shortFlag]
    rw [← hl]
    refine .option (x := shortFlag p (q :: qs) rest) ?_ ?_ ?_ ?_ hty
    · simp [Reader.readIn, Reader.read, stylePrefix, Reader.readStandard, hp]
    · simp [shortFlag, IsFlag, flagChar]
    · simpa [shortFlag] using hn
    · simp [Reading.valueFor, hv]
  | apart =>
    refine ⟨⟨[], (c!"-" :: q :: qs) :: rest⟩, ?_, (read_pending hq rest).symm⟩
    have hl : Reading.leftBy (wholeFlag [c!"-", p] ((c!"-" :: q :: qs) :: rest)) o = ⟨[], (c!"-" :: q :: qs) :: rest⟩ := by
      simp [Reading.leftBy, hv, wholeFlag]
    rw [← hl]
    refine .option (x := wholeFlag [c!"-", p] ((c!"-" :: q :: qs) :: rest)) ?_ ?_ ?_ ?_ hty
    · simp [Reader.readIn, Reader.read, stylePrefix, Reader.readStandard]
    · simp [wholeFlag, IsFlag, flagChar]
    · simpa [wholeFlag] using hn
    · simp [Reading.valueFor, hv]

/-- **C01** for commands that need the number of arguments in advance as well: if `parse` succeeds when the flags are in one argument, it succeeds when they are in
two, and the other way around, with the same results and the same values. Missing: callbacks, failures, and parsers that count the arguments
wrongly, for which it can be false, see `C01_count_violated`. -/
theorem C01_counted_partial {d0 d : ParserData} (h : finishInitialization d0 = .ok d) (ho : Ordinary d) (hf : Predictable d)
    (hst : d0.settings.optionStyle = .standard) {env : Env} (hsi : env.Silent) {pre rest : List Str} {c : Command} (hl : d.LeadsTo pre c) {ws : List Phrase}
    (hw : ∀ w ∈ ws, d.Says c w.1 w.2) {p q : UInt8} {qs : Str} (hp : p ≠ c!"-") (hq : q ≠ c!"-") {o : OptData}
    (hn : Names d.settings.caseInsensitive d.settings.allowAbbreviatedOptions c [c!"-", p] o) (hv : ¬ NeedsValue o) (hty : o.type = .normal)
    {us vs : List Str} (hus : Bunched p (q :: qs) us) (hvs : Bunched p (q :: qs) vs)
    (hszu : (pre ++ (wordsOf ws ++ (us ++ rest))).length ≤ sizeMax) (hszv : (pre ++ (wordsOf ws ++ (vs ++ rest))).length ≤ sizeMax)
    {rs : List IterResult} {n : PNode} (hr : Returns env d (pre ++ (wordsOf ws ++ (us ++ rest))) rs .done n) (hns : NoStop rs) :
    ∃ rs' n', Returns env d (pre ++ (wordsOf ws ++ (vs ++ rest))) rs' .done n' ∧ rs'.map forgetText = rs.map forgetText ∧ n'.code = .success ∧
      n'.tree = n.tree := by
  have hst' : d.settings.optionStyle = .standard := by rw [(finishInitialization_ok h).1]; exact hst
  have hfn := fun (c : Command) (hc : c.Within d.command) => (rules_of h ho).functional hc
  have hacc := C57_sound_partial h ho hsi.passive (Or.inl hst) hr hns
  have hsv := (served_forget _ _).mpr (returns_served h ho hf hsi.passive (Or.inl hst) hszu hr hns)
  obtain ⟨ru, hu1, hu2⟩ := bunched_line hst' hp hq hn hv hty hus rest
  obtain ⟨rv, hv1, hv2⟩ := bunched_line hst' hp hq hn hv hty hvs rest
  obtain ⟨rs1, hacc, rfl⟩ := accepts_within Eq (fun before rs rs' h => by rw [h]) hfn (namesCommand_functional _) (namesCommand_mem _) hl .self
    (fun hc inits rs hh => ⟨rs, accepts_after (hfn c hc) ((says_all hw _).append (.cons hu1 .nil)) ((says_all hw _).append (.cons hv1 .nil))
      (sameFirst_of_read (hu2.trans hv2.symm)) hh, rfl⟩) hacc
  obtain ⟨rs2, n2, hr2, hn2, hm2, hc2⟩ := complete_served h ho hf hsi (Or.inl hst) hszv hacc hsv
  refine ⟨rs2, n2, hr2, hm2, hc2, ?_⟩
  obtain ⟨t, ht, hnt⟩ := C32_values h hsi.passive hr
  obtain ⟨t', ht', hnt'⟩ := C32_values h hsi.passive hr2
  have e1 := (sameEffect_forget rs).given d.command
  have e3 := (sameEffect_forget rs2).given d.command
  rw [hm2] at e3
  rw [← e3, ht, ht'] at e1
  simp only [Option.map_some, Option.some.injEq] at e1
  rw [hnt, hnt', e1]

/-- **C63** for any callbacks and any outcome: after `pre` has been read, one of two flags comes for which the parser finds the same option. The outcome, the
parsed arguments and the calls of callbacks are the same. The output is the same as well, unless the option's value is missing: then the message contains the
flag. Missing: commands that need the number of arguments in advance (for those see `C63_parse_partial`). -/
theorem C63_any_partial {d0 d : ParserData} (h : finishInitialization d0 = .ok d) (hnc : ∀ c : Command, c.Within d.command → ¬ NeedsCount c)
    {env : Env} {pre : List Str} {rs : List IterResult} {s : PState}
    (ht : Trace env (start d pre).2 rs s) (hrs : ∀ x ∈ rs, ¬ x.IsLast) (hm : s.mode = .argumentsAndOptions) (hl : NothingLeft s.iter)
    {o : OptData} {f g : Str} (hwf : WholeFlag d.settings.optionStyle f) (hwg : WholeFlag d.settings.optionStyle g)
    (hf : Parser.lookup s f = some o) (hg : Parser.lookup s g = some o) (post : List Str) {fuel : Nat} (hfu : rs.length ≤ fuel) :
    (parse env d (pre ++ f :: post) fuel).1 = (parse env d (pre ++ g :: post) fuel).1 ∧
    ∃ it log, (parse env d (pre ++ g :: post) fuel).2 = { (parse env d (pre ++ f :: post) fuel).2 with iter := it, log := log } ∧
      (post ≠ [] ∨ ¬ NeedsValue o → log = (parse env d (pre ++ f :: post) fuel).2.log) := by
  obtain ⟨h1, _, i, l, h2, h3⟩ := parse_more (K := post ≠ [] ∨ ¬ NeedsValue o) (ready_of_init h) (notCounted hnc) ht hrs (Or.inl hm)
    (fun hgood => whole_run hgood hm hl hwf hwg hf hg post) fuel hfu
  exact ⟨h1.eq, i, l, h2, h3⟩

/-- The conditions for `pre`, decided by evaluation; there are `n` results for it. -/
def spelledCheck (env : Env) (d : ParserData) (pre : List Str) (n : Nat) (f g : Str) (value : Bool) : Bool :=
  match firstResults env n (start d pre).2 with
  | none => false
  | some (_, s) => decide (s.mode = .argumentsAndOptions) && (match s.iter.remainingArguments with
      | .ok (l, _) => l.isEmpty
      | _ => false) &&
    (match Parser.lookup s f, Parser.lookup s g with
      | some o, some o' => decide (o = o') && (!value || decide (NeedsValue o))
      | _, _ => false)

theorem spelledCheck_sound {env : Env} {d : ParserData} {pre : List Str} {n : Nat} {f g : Str} {value : Bool} (h : spelledCheck env d pre n f g value = true) :
    ∃ rs s o, Trace env (start d pre).2 rs s ∧ (∀ x ∈ rs, ¬ x.IsLast) ∧ s.mode = .argumentsAndOptions ∧ NothingLeft s.iter ∧
      Parser.lookup s f = some o ∧ Parser.lookup s g = some o ∧ (value = true → NeedsValue o) ∧ rs.length = n := by
  unfold spelledCheck at h
  split at h
  · simp at h
  · rename_i rs s h1
    obtain ⟨a1, a2, a3⟩ := firstResults_sound n h1
    simp only [Bool.and_eq_true, decide_eq_true_eq] at h
    obtain ⟨⟨b1, b2⟩, b3⟩ := h
    split at b3
    · rename_i o o' e1 e2
      simp only [Bool.and_eq_true, decide_eq_true_eq] at b3
      obtain ⟨rfl, b4⟩ := b3
      refine ⟨rs, s, o, a1, a2, b1, ?_, e1, e2, ?_, a3⟩
      · split at b2
        · rename_i l it hr
          have : l = [] := by simpa using b2
          subst this
          exact ⟨it, hr⟩
        · simp at b2
      · intro hv
        subst hv
        simpa using b4
    · simp at b3

/-- An option with a value and several flags; it has a callback. -/
def formsData : ParserData :=
  { command :=
      { name := b!"cc"
        options := [{ flags := [b!"-o", b!"--output=", b!"--out"], argument := b!"FILE", operation := .append, callback := some 0 },
          { flags := [b!"-v", b!"--verbose"], operation := .assign, constant := b!"1" }]
        arguments := [{ name := b!"F", minCount := 0, maxCount := 9 }] }
    settings := { autoExit := false, generateHelpOption := false } }

-- A concrete case: the callback inserts an argument while the option is read; `-oa` and `--output=a`, `--out a`, `-o a`.
example : ∃ d, finishInitialization formsData = .ok d ∧
    (Command.checkAll (fun c => !Counter.requiresArgumentCount c.arguments) 5 d.command = true ∧ d.settings.optionStyle = .standard ∧
     spelledCheck (Env.inert.inserting 0 [b!"x"]) d [b!"-v"] 1 b!"-o" b!"--output=" true = true ∧
     spelledCheck (Env.inert.inserting 0 [b!"x"]) d [b!"-v"] 1 b!"-o" b!"--out" true = true ∧
     spelledCheck Env.inert d [b!"f"] 1 b!"-v" b!"--verbose" false = true ∧
     (∀ l ∈ [[b!"-oa"], [b!"--output=a"], [b!"--out", b!"a"], [b!"-o", b!"a"]],
       parseTo (fun n => (n.code, n.values.map (·.2.1))) (Env.inert.inserting 0 [b!"x"]) d ([b!"-v"] ++ (l ++ [b!"y"])) 9 =
         some (.success, [b!"x", b!"y", b!"a", b!"1"]))) := by
  refine Outcome.exists_ok ?_
  decide +kernel

example {d : ParserData} (hd : finishInitialization formsData = .ok d)
    (h1 : Command.checkAll (fun c => !Counter.requiresArgumentCount c.arguments) 5 d.command = true) (hst : d.settings.optionStyle = .standard) {env : Env}
    (h2 : spelledCheck env d [b!"-v"] 1 b!"-o" b!"--output=" true = true) (post : List Str) :
    (parse env d ([b!"-v"] ++ ([b!"-oa"] ++ post)) 99).1 = (parse env d ([b!"-v"] ++ ([b!"--output=a"] ++ post)) 99).1 := by
  obtain ⟨rs, s, o, c1, c2, c3, c4, c5, c6, c7, c8⟩ := spelledCheck_sound h2
  refine (C02_parse_partial hd ?_ hst c1 c2 c3 c4 (c7 rfl) (value := b!"a") (.joined c!"o" (by decide) (by decide)) (.equals b!"output" (by decide)) c5 c6 post
    (by omega)).1
  intro c hc hn
  have := Command.checkAll_sound h1 hc
  rw [(requires_iff _).mpr hn] at this
  simp at this

example {d : ParserData} (hd : finishInitialization formsData = .ok d)
    (h1 : Command.checkAll (fun c => !Counter.requiresArgumentCount c.arguments) 5 d.command = true) (hst : d.settings.optionStyle = .standard) {env : Env}
    (h2 : spelledCheck env d [b!"f"] 1 b!"-v" b!"--verbose" false = true) (post : List Str) :
    (parse env d ([b!"f"] ++ b!"-v" :: post) 99).1 = (parse env d ([b!"f"] ++ b!"--verbose" :: post) 99).1 := by
  obtain ⟨rs, s, o, c1, c2, c3, c4, c5, c6, c7, c8⟩ := spelledCheck_sound h2
  refine (C63_any_partial hd ?_ c1 c2 c3 c4 (by rw [hst]; decide) (by rw [hst]; decide) c5 c6 post (by omega)).1
  intro c hc hn
  have := Command.checkAll_sound h1 hc
  rw [(requires_iff _).mpr hn] at this
  simp at this

-- Arguments that have to be counted: `a -v -mx b`, `a -v -m x b`, `a -v --mode x b` and `a -v --mode=x b`.
example : ∃ d, finishInitialization orderData = .ok d ∧ Ordinary d ∧ Predictable d ∧ d.settings.optionStyle = .standard ∧ NeedsCount d.command ∧
    d.LeadsTo [] d.command ∧ ∃ ws : List Phrase, (∀ u ∈ ws, d.Says d.command u.1 u.2) ∧ wordsOf ws = [b!"a", b!"-v"] ∧
    (∃ o, NeedsValue o ∧ o.type = .normal ∧ ∀ f ∈ [b!"-m", b!"--mode", b!"--mode="],
      Names d.settings.caseInsensitive d.settings.allowAbbreviatedOptions d.command f o) ∧
    ∀ l ∈ [[b!"-mx"], [b!"-m", b!"x"], [b!"--mode", b!"x"], [b!"--mode=x"]], parseCode Env.inert d (wordsOf ws ++ (l ++ [b!"b"])) 9 = some .success := by
  have key : ∃ d, finishInitialization orderData = .ok d ∧ ((ordinaryCheck 2 d = true ∧ predictableCheck 2 d = true) ∧
      (d.command.options.map (fun o => (o.flags, decide (NeedsValue o), o.type)) = [([b!"-v", b!"--verbose"], false, .normal), ([b!"-m", b!"--mode"], true, .normal)]) ∧
        d.command.commands.length = 0 ∧ d.settings.optionStyle = .standard ∧ d.settings.caseInsensitive = false ∧ d.settings.allowAbbreviatedOptions = false) ∧
      Counter.requiresArgumentCount d.command.arguments = true ∧ d.command.options.map (fun o => decide (o.argument = [])) = [true, false] ∧
      ∀ l ∈ [[b!"-mx"], [b!"-m", b!"x"], [b!"--mode", b!"x"], [b!"--mode=x"]], parseCode Env.inert d ([b!"a", b!"-v"] ++ (l ++ [b!"b"])) 9 = some .success := by
    refine Outcome.exists_ok ?_
    decide +kernel
  obtain ⟨d, hd, ⟨⟨h1, h2⟩, h3, h5, h6, h8, h9⟩, h10, h11, h7⟩ := key
  rw [List.length_eq_zero_iff] at h5
  obtain ⟨o1, o2, ho⟩ := two_of_length (l := d.command.options) (by simpa using congrArg List.length h3)
  simp only [ho, List.map_cons, List.map_nil, List.cons.injEq, Prod.mk.injEq, and_true, decide_eq_false_iff_not, decide_eq_true_eq] at h3 h11
  obtain ⟨⟨e1, e2, e3⟩, f1, f2, f3⟩ := h3
  have m1 : o1 ∈ d.command.options := by simp [ho]
  have m2 : o2 ∈ d.command.options := by simp [ho]
  refine ⟨d, hd, ordinaryCheck_sound h1, predictableCheck_sound h2, h6, (requires_iff _).mp h10, .here, [([b!"a"], .argument b!"a"), ([b!"-v"], .option o1 [])], ?_, rfl,
    ⟨o2, f2, f3, ?_⟩, h7⟩
  · simp only [List.mem_cons, List.not_mem_nil, or_false]
    rintro u (rfl | rfl)
    · exact C62_argument (by rw [h6]; decide) h5
    · exact C62_flag (by rw [h6]; decide) (names_flag m1 (by simp [e1])) e2 e3
  · simp only [List.mem_cons, List.not_mem_nil, or_false]
    rintro f (rfl | rfl | rfl)
    · exact names_flag m2 (by simp [f1])
    · exact names_flag m2 (by simp [f1])
    · rw [h8, h9]
      refine Or.inr ⟨b!"--mode", rfl, by decide, ?_, ⟨m2, Or.inl ⟨b!"--mode", by simp [f1], by simp [SameFlag]⟩⟩, h11.2⟩
      rintro o' ⟨hm, ⟨f, hf, hx⟩ | ⟨hx, _⟩⟩
      · simp only [ho, List.mem_cons, List.not_mem_nil, or_false] at hm
        rcases hm with rfl | rfl
        · simp only [e1, List.mem_cons, List.not_mem_nil, or_false] at hf
          rcases hf with rfl | rfl <;> simp [SameFlag] at hx
        · simp only [f1, List.mem_cons, List.not_mem_nil, or_false] at hf
          rcases hf with rfl | rfl <;> simp [SameFlag] at hx
      · simp at hx

-- Arguments that have to be counted: `a -vmx b` and `a -v -mx b`.
example : ∃ d, finishInitialization orderData = .ok d ∧ Ordinary d ∧ Predictable d ∧ NeedsCount d.command ∧ d.LeadsTo [] d.command ∧
    (∃ ws : List Phrase, (∀ u ∈ ws, d.Says d.command u.1 u.2) ∧ wordsOf ws = [b!"a"]) ∧
    (∃ o, ¬ NeedsValue o ∧ o.type = .normal ∧ Names d.settings.caseInsensitive d.settings.allowAbbreviatedOptions d.command [c!"-", c!"v"] o) ∧
    Bunched c!"v" b!"mx" [b!"-vmx"] ∧ Bunched c!"v" b!"mx" [b!"-v", b!"-mx"] ∧
    ∀ l ∈ [[b!"-vmx"], [b!"-v", b!"-mx"]], parseCode Env.inert d ([b!"a"] ++ (l ++ [b!"b"])) 9 = some .success := by
  have key : ∃ d, finishInitialization orderData = .ok d ∧ ((ordinaryCheck 2 d = true ∧ predictableCheck 2 d = true) ∧
      (d.command.options.map (fun o => (o.flags, decide (NeedsValue o), o.type)) = [([b!"-v", b!"--verbose"], false, .normal), ([b!"-m", b!"--mode"], true, .normal)]) ∧
        d.command.commands.length = 0 ∧ d.settings.optionStyle = .standard) ∧ Counter.requiresArgumentCount d.command.arguments = true ∧
      ∀ l ∈ [[b!"-vmx"], [b!"-v", b!"-mx"]], parseCode Env.inert d ([b!"a"] ++ (l ++ [b!"b"])) 9 = some .success := by
    refine Outcome.exists_ok ?_
    decide +kernel
  obtain ⟨d, hd, ⟨⟨h1, h2⟩, h3, h5, h6⟩, h10, h7⟩ := key
  rw [List.length_eq_zero_iff] at h5
  obtain ⟨o1, o2, ho⟩ := two_of_length (l := d.command.options) (by simpa using congrArg List.length h3)
  simp only [ho, List.map_cons, List.map_nil, List.cons.injEq, Prod.mk.injEq, and_true, decide_eq_false_iff_not, decide_eq_true_eq] at h3
  obtain ⟨⟨e1, e2, e3⟩, _⟩ := h3
  refine ⟨d, hd, ordinaryCheck_sound h1, predictableCheck_sound h2, (requires_iff _).mp h10, .here, ⟨[([b!"a"], .argument b!"a")], ?_, rfl⟩,
    ⟨o1, e2, e3, names_flag (by simp [ho]) (by simp [e1])⟩, .together, .apart, h7⟩
  simp only [List.mem_cons, List.not_mem_nil, or_false]
  rintro u rfl
  exact C62_argument (by rw [h6]; decide) h5

/-- An option that takes no value although it has an argument, and arguments that have to be counted. -/
def swallowData : ParserData :=
  { command :=
      { name := b!"cp"
        options := [{ flags := [b!"-n"], argument := b!"N", operation := .none }, { flags := [b!"-m"], argument := b!"MODE" }]
        arguments := [{ name := b!"FROM", minCount := 1, maxCount := 3 }, { name := b!"TO" }] }
    settings := { autoExit := false, generateHelpOption := false } }

/-- **C02** is violated if the arguments are counted wrongly: `-n` takes no value, but when the arguments are counted it does, namely `-m`, and the value of
`-m` is counted as an argument. -/
theorem C02_count_violated : ∃ d, finishInitialization swallowData = .ok d ∧
    (parseCode Env.inert d [b!"-n", b!"-mx", b!"a", b!"b"] 9 = some .success ∧ parseCode Env.inert d [b!"-n", b!"-m", b!"x", b!"a", b!"b"] 9 = some .failure) := by
  refine Outcome.exists_ok ?_
  decide +kernel

/-- **C01** is violated if the arguments are counted wrongly: `-n` takes no value, but when the arguments are counted it does, namely all flags in the next argument,
and the value of `-m` is counted as an argument unless `-m` is in another one. -/
theorem C01_count_violated : ∃ d, finishInitialization { swallowData with command := { swallowData.command with
      options := swallowData.command.options ++ [{ flags := [b!"-q"], operation := .none }] } } = .ok d ∧
    (parseCode Env.inert d [b!"-n", b!"-qm", b!"x", b!"a", b!"b"] 9 = some .failure ∧
     parseCode Env.inert d [b!"-n", b!"-q", b!"-m", b!"x", b!"a", b!"b"] 9 = some .success) := by
  refine Outcome.exists_ok ?_
  decide +kernel

end Argos
