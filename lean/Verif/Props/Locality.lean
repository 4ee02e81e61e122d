import Verif.Proofs.Locality
import Verif.Proofs.Say
import Verif.Props.Ahead
import Verif.Props.Phrase

/-! # One more option: C90 -/

set_option synthInstance.maxSize 1000

namespace Argos
open Spec Parser

/-- From the grammar to `parse`, for lines of which one has one more option. -/
theorem parse_toward {d0 d : ParserData} (h : finishInitialization d0 = .ok d) (ho : Ordinary d) (hf : Predictable d) {env : Env}
    (hsi : env.Silent) {x y : List Str} (hx : d0.settings.optionStyle = .standard ∨ [] ∉ x) (hy : d0.settings.optionStyle = .standard ∨ [] ∉ y)
    (hszx : x.length ≤ sizeMax) (hsz : y.length ≤ sizeMax) {R : List IterResult → List IterResult → Prop} (hR : ∀ rs rs', R rs rs' → SameEnding rs rs')
    (hxy : ∀ rs, d.Accepts x rs → ∃ rs', d.Accepts y rs' ∧ R rs rs') {rs : List IterResult} {n : PNode} (hr : Returns env d x rs .done n) (hns : NoStop rs) :
    ∃ rs' n' t t', Returns env d y rs' .done n' ∧ NoStop rs' ∧ n'.code = .success ∧ R (rs.map forgetText) (rs'.map forgetText) ∧
      given d.command (rs.map forgetText) = some t ∧ given d.command (rs'.map forgetText) = some t' ∧ n.tree = t.map valuesOf ∧ n'.tree = t'.map valuesOf := by
  obtain ⟨rs1, h1, h2⟩ := hxy _ (C57_sound_partial h ho hsi.passive hx hr hns)
  obtain ⟨rs2, n2, hr2, hn2, hm2, hc2⟩ := complete_served h ho hf hsi hy hsz h1
    ((hR _ _ h2).served ((served_forget _ _).mpr (returns_served h ho hf hsi.passive hx hszx hr hns)))
  obtain ⟨t, ht, hnt⟩ := C32_values h hsi.passive hr
  obtain ⟨t', ht', hnt'⟩ := C32_values h hsi.passive hr2
  exact ⟨rs2, n2, t, t', hr2, hn2, hc2, by rw [hm2]; exact h2, by rw [given_forget]; exact ht, by rw [given_forget]; exact ht', hnt, hnt'⟩

/-- **C90** (what holds): if a command line succeeds, it still does with one more option that a command understands, anywhere among the options and
arguments of that command. There is one more result, and all values are the same except the option's own in that command. Missing: parsers that
count the arguments wrongly, see `C90_count_violated`, options that remove the values of mandatory options, and empty arguments in the SLASH and
DASH styles, see `C57_empty_violated`. -/
theorem C90_added_partial {d0 d : ParserData} (h : finishInitialization d0 = .ok d) (ho : Ordinary d) (hf : Predictable d) {env : Env}
    (hsi : env.Silent) {pre rest ws : List Str} {c : Command} (hl : d.LeadsTo pre c)
    {us : List Phrase} (hu : ∀ u ∈ us, d.Says c u.1 u.2) {o : OptData} {v : Str} (hw : d.Says c ws (.option o v)) (hk : KeepsMandatory c o)
    (hne : d0.settings.optionStyle = .standard ∨ [] ∉ pre ++ (wordsOf us ++ (ws ++ rest)))
    (hsz : (pre ++ (wordsOf us ++ (ws ++ rest))).length ≤ sizeMax) {rs : List IterResult} {n : PNode}
    (hr : Returns env d (pre ++ (wordsOf us ++ rest)) rs .done n) (hns : NoStop rs) :
    ∃ rs' n', Returns env d (pre ++ (wordsOf us ++ (ws ++ rest))) rs' .done n' ∧ NoStop rs' ∧ n'.code = .success ∧
      (∃ before after, rs.map forgetText = before ++ after ∧ rs'.map forgetText = before ++ .option o (some v) :: after) ∧
      TreeAlike (SameButFor c o.valueId) n.tree n'.tree := by
  have hfn := fun (c : Command) (hc : c.Within d.command) => (rules_of h ho).functional hc
  have ht : o.type = .normal := says_simple (u := (ws, .option o v)) hw
  obtain ⟨rs', n', t, t', h1, h2, h3, h4, h5, h6, h7, h8⟩ := parse_toward h ho hf hsi (R := fun rs rs' => OneMore d.command c o v rs rs')
    (hne.imp id fun hm => by simp only [List.mem_append, not_or] at hm ⊢; exact ⟨hm.1, hm.2.1, hm.2.2.2⟩) hne
    (by simp only [List.length_append] at hsz ⊢; omega) hsz (fun _ _ hh => hh.ending)
    (fun rs ha => accepts_toward (fun root => OneMore root c o v) OneMore.toward hfn (namesCommand_functional _) (namesCommand_mem _) hl .self
      (fun hc inits rs hh => (accepts_more (hfn c hc) hu hw).1 rs hk hh) ha) hr hns
  refine ⟨rs', n', h1, h2, h3, ?_, ?_⟩
  · obtain ⟨b, a, e1, e2, _⟩ := h4
    exact ⟨b, a, e1, e2⟩
  · rw [h7, h8]
    exact h4.values ht ho.single h5 h6

/-- **C90** (what holds): if a command line succeeds, it still does without one of its options, unless a mandatory option has the same value, and all
values are the same except the option's own. Missing: see `C90_added_partial`. -/
theorem C90_removed_partial {d0 d : ParserData} (h : finishInitialization d0 = .ok d) (ho : Ordinary d) (hf : Predictable d) {env : Env}
    (hsi : env.Silent) {pre rest ws : List Str} {c : Command} (hl : d.LeadsTo pre c)
    {us : List Phrase} (hu : ∀ u ∈ us, d.Says c u.1 u.2) {o : OptData} {v : Str} (hw : d.Says c ws (.option o v)) (hk : Dispensable c o)
    (hne : d0.settings.optionStyle = .standard ∨ [] ∉ pre ++ (wordsOf us ++ (ws ++ rest)))
    (hsz : (pre ++ (wordsOf us ++ (ws ++ rest))).length ≤ sizeMax) {rs' : List IterResult} {n' : PNode}
    (hr : Returns env d (pre ++ (wordsOf us ++ (ws ++ rest))) rs' .done n') (hns : NoStop rs') :
    ∃ rs n, Returns env d (pre ++ (wordsOf us ++ rest)) rs .done n ∧ NoStop rs ∧ n.code = .success ∧
      (∃ before after, rs.map forgetText = before ++ after ∧ rs'.map forgetText = before ++ .option o (some v) :: after) ∧
      TreeAlike (SameButFor c o.valueId) n.tree n'.tree := by
  have hfn := fun (c : Command) (hc : c.Within d.command) => (rules_of h ho).functional hc
  have ht : o.type = .normal := says_simple (u := (ws, .option o v)) hw
  obtain ⟨rs, n, t', t, h1, h2, h3, h4, h5, h6, h7, h8⟩ := parse_toward h ho hf hsi (R := fun rs' rs => OneMore d.command c o v rs rs') hne
    (hne.imp id fun hm => by simp only [List.mem_append, not_or] at hm ⊢; exact ⟨hm.1, hm.2.1, hm.2.2.2⟩)
    hsz (by simp only [List.length_append] at hsz ⊢; omega) (fun _ _ hh => hh.ending.symm)
    (fun rs ha => accepts_toward (fun root rs' rs => OneMore root c o v rs rs') (fun root c1 b x y => OneMore.toward root c1 b y x) hfn
      (namesCommand_functional _) (namesCommand_mem _) hl .self
      (fun hc inits rs hh => (accepts_more (hfn c hc) hu hw).2 rs hk hh) ha) hr hns
  refine ⟨rs, n, h1, h2, h3, ?_, ?_⟩
  · obtain ⟨b, a, e1, e2, _⟩ := h4
    exact ⟨b, a, e1, e2⟩
  · rw [h7, h8]
    exact h4.values ht ho.single h6 h5

/-- **C90** (what holds), for the values of the main command: asking for the value of any option or argument other than the added one gives the same answer. -/
theorem C90_value_partial {d0 d : ParserData} (h : finishInitialization d0 = .ok d) (ho : Ordinary d) (hf : Predictable d) {env : Env}
    (hsi : env.Silent) {rest ws : List Str} {us : List Phrase} (hu : ∀ u ∈ us, d.Says d.command u.1 u.2) {o : OptData} {v : Str}
    (hw : d.Says d.command ws (.option o v)) (hk : KeepsMandatory d.command o) (hne : d0.settings.optionStyle = .standard ∨ [] ∉ wordsOf us ++ (ws ++ rest))
    (hsz : (wordsOf us ++ (ws ++ rest)).length ≤ sizeMax) {rs : List IterResult} {n : PNode} (hr : Returns env d (wordsOf us ++ rest) rs .done n) (hns : NoStop rs) :
    ∃ rs' n', Returns env d (wordsOf us ++ (ws ++ rest)) rs' .done n' ∧ n'.code = .success ∧
      ∀ i, i ≠ o.valueId → n'.values.getValues i = n.values.getValues i := by
  obtain ⟨rs', n', h1, _, h2, _, h3⟩ := C90_added_partial h ho hf hsi (pre := []) .here hu hw hk hne hsz hr hns
  refine ⟨rs', n', h1, h2, fun i hi => ?_⟩
  obtain ⟨c, i1, v1, _, _, _, s1⟩ := n
  obtain ⟨c', i2, v2, _, _, _, s2⟩ := n'
  simp only [PNode.tree] at h3
  cases h3 with
  | node ha _ => exact (ha i fun hh => hi hh.2).symm

/-! ### Concrete cases -/

-- `a b` and `a -m x b`: the arguments have the same values.
example : ∃ d, finishInitialization orderData = .ok d ∧ Ordinary d ∧ Predictable d ∧ ∃ (us : List Phrase) (o : OptData),
    (∀ u ∈ us, d.Says d.command u.1 u.2) ∧ d.Says d.command [b!"-m", b!"x"] (.option o b!"x") ∧ KeepsMandatory d.command o ∧ Dispensable d.command o ∧
    o.valueId = 4 ∧ wordsOf us = [b!"a"] ∧
    parseTo (fun n => (n.code, [1, 2, 3, 4].map fun i => (n.values.getValues i).map (·.1))) Env.inert d [b!"a", b!"b"] 9 =
      some (.success, [[b!"a"], [b!"b"], [], []]) ∧
    parseTo (fun n => (n.code, [1, 2, 3, 4].map fun i => (n.values.getValues i).map (·.1))) Env.inert d [b!"a", b!"-m", b!"x", b!"b"] 9 =
      some (.success, [[b!"a"], [b!"b"], [], [b!"x"]]) := by
  have key : ∃ d, finishInitialization orderData = .ok d ∧ ((ordinaryCheck 2 d = true ∧ predictableCheck 2 d = true) ∧
      (d.command.options.any (fun o => decide (b!"-m" ∈ o.flags ∧ NeedsValue o ∧ o.type = .normal ∧ o.valueId = 4 ∧
        ∀ x ∈ d.command.options, x.optional = false → x.valueId ≠ o.valueId))) = true ∧ d.command.commands.length = 0 ∧ d.settings.optionStyle = .standard) ∧
      parseTo (fun n => (n.code, [1, 2, 3, 4].map fun i => (n.values.getValues i).map (·.1))) Env.inert d [b!"a", b!"b"] 9 =
        some (.success, [[b!"a"], [b!"b"], [], []]) ∧
      parseTo (fun n => (n.code, [1, 2, 3, 4].map fun i => (n.values.getValues i).map (·.1))) Env.inert d [b!"a", b!"-m", b!"x", b!"b"] 9 =
        some (.success, [[b!"a"], [b!"b"], [], [b!"x"]]) := by
    refine Outcome.exists_ok ?_
    decide +kernel
  obtain ⟨d, hd, ⟨⟨h1, h2⟩, h3, h4, h5⟩, h6⟩ := key
  rw [List.length_eq_zero_iff] at h4
  simp only [List.any_eq_true, decide_eq_true_eq] at h3
  obtain ⟨o, ho, f1, f2, f3, f4, f5⟩ := h3
  refine ⟨d, hd, ordinaryCheck_sound h1, predictableCheck_sound h2, [([b!"a"], .argument b!"a")], o, ?_,
    C62_flag_value (by rw [h5]; decide) (names_flag ho f1) f2 f3, Or.inr f5, f5, f4, rfl, h6⟩
  intro u hu
  rw [List.mem_singleton] at hu
  subst hu
  exact C62_argument (by rw [h5]; decide) h4

/-- **C90** is violated by a parser that counts its arguments wrongly: `--odd` takes no value but is counted as if it did, so that
`a b` is accepted and `--odd a b` is rejected, although no option is mandatory. -/
theorem C90_count_violated : ∃ d, finishInitialization aheadData = .ok d ∧ Ordinary d ∧
    (∃ o : OptData, d.Says d.command [b!"--odd"] (.option o []) ∧ Dispensable d.command o ∧ KeepsMandatory d.command o) ∧
    parseCode Env.inert d [b!"a", b!"b"] 9 = some .success ∧ parseCode Env.inert d [b!"--odd", b!"a", b!"b"] 9 = some .failure := by
  have key : ∃ d, finishInitialization aheadData = .ok d ∧ (ordinaryCheck 2 d = true ∧
      (d.command.options.any (fun o => decide (b!"--odd" ∈ o.flags ∧ ¬ NeedsValue o ∧ o.type = .normal ∧ ∀ x ∈ d.command.options, x.optional = false → x.valueId ≠ o.valueId))) = true ∧
        d.settings.optionStyle = .standard) ∧
      parseCode Env.inert d [b!"a", b!"b"] 9 = some .success ∧ parseCode Env.inert d [b!"--odd", b!"a", b!"b"] 9 = some .failure := by
    refine Outcome.exists_ok ?_
    decide +kernel
  obtain ⟨d, hd, ⟨h1, h2, h4⟩, h5⟩ := key
  simp only [List.any_eq_true, decide_eq_true_eq] at h2
  obtain ⟨o, ho, f1, f2, f3, f4⟩ := h2
  exact ⟨d, hd, ordinaryCheck_sound h1, ⟨o, C62_flag (by rw [h4]; decide) (names_flag ho f1) f2 f3, f4, Or.inr f4⟩, h5⟩

end Argos
