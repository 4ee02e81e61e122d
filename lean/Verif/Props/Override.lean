import Verif.Proofs.Override
import Verif.Props.Phrase
import Verif.Props.Ahead
import Verif.Props.Locality
import Verif.Proofs.Say

/-! # Of several assignments the last one counts: C98, C90 -/

set_option synthInstance.maxSize 1000

namespace Argos
open Spec Parser

/-- **C98**, the principle behind it: phrases with as many arguments can be exchanged anywhere on the line if, whatever values there are before, they lead
to the same values. Missing: as for `C98_parse_partial`. -/
theorem C98_exchange_partial {d0 d : ParserData} (h : finishInitialization d0 = .ok d) (ho : Ordinary d) (hf : Predictable d) {env : Env}
    (hsi : env.Silent) {pre rest : List Str} {c : Command} (hl : d.LeadsTo pre c)
    {us vs : List Phrase} (hu : ∀ u ∈ us, d.Says c u.1 u.2) (hv : ∀ v ∈ vs, d.Says c v.1 v.2)
    (hn : argPieces (us.map (·.2)) = argPieces (vs.map (·.2)))
    (hval : ∀ as : List ArgData, (∀ a ∈ as, a ∈ c.arguments) → as.length = argPieces (us.map (·.2)) → ∀ l id,
      valuesOf (l ++ (report (us.map (·.2)) as).filterMap occOf) id = valuesOf (l ++ (report (vs.map (·.2)) as).filterMap occOf) id)
    (hne : d0.settings.optionStyle = .standard ∨ [] ∉ pre ++ (wordsOf us ++ (wordsOf vs ++ rest)))
    (hszu : (pre ++ (wordsOf us ++ rest)).length ≤ sizeMax) (hsz : (pre ++ (wordsOf vs ++ rest)).length ≤ sizeMax) {rs : List IterResult} {n : PNode}
    (hr : Returns env d (pre ++ (wordsOf us ++ rest)) rs .done n) (hns : NoStop rs) :
    ∃ rs' n', Returns env d (pre ++ (wordsOf vs ++ rest)) rs' .done n' ∧ NoStop rs' ∧ n'.code = .success ∧ n'.tree = n.tree := by
  have hfn := fun (c : Command) (hc : c.Within d.command) => (rules_of h ho).functional hc
  refine parse_same h ho hf hsi (hne.imp id fun hm => ?_) (hne.imp id fun hm => ?_) hszu hsz ?_ hr hns
  · simp only [List.mem_append, not_or] at hm ⊢; exact ⟨hm.1, hm.2.1, hm.2.2.2⟩
  · simp only [List.mem_append, not_or] at hm ⊢; exact ⟨hm.1, hm.2.2.1, hm.2.2.2⟩
  · intro rs ha
    exact accepts_within SameOutcome SameOutcome.after hfn (namesCommand_functional _) (namesCommand_mem _) hl .self
      (fun hc _ _ hh => accepts_exchange (hfn c hc) hu hv hn hval hh) ha

/-- The phrases, without and with the option that is overridden. -/
theorem overridden_phrases {d : ParserData} {c : Command} {us us2 : List Phrase} (hu : ∀ u ∈ us, d.Says c u.1 u.2) (hu2 : ∀ u ∈ us2, d.Says c u.1 u.2)
    {ws ws2 : List Str} {o o2 : OptData} {v v2 : Str} (hw : d.Says c ws (.option o v)) (hw2 : d.Says c ws2 (.option o2 v2)) :
    (∀ u ∈ us ++ (us2 ++ [(ws2, Piece.option o2 v2)]), d.Says c u.1 u.2) ∧
      ∀ u ∈ us ++ (ws, Piece.option o v) :: (us2 ++ [(ws2, Piece.option o2 v2)]), d.Says c u.1 u.2 := by
  constructor
  · intro u hm
    simp only [List.mem_append, List.mem_singleton] at hm
    rcases hm with hm | hm | rfl
    · exact hu u hm
    · exact hu2 u hm
    · exact hw2
  · intro u hm
    simp only [List.mem_append, List.mem_cons, List.not_mem_nil, or_false] at hm
    rcases hm with hm | rfl | hm | rfl
    · exact hu u hm
    · exact hw
    · exact hu2 u hm
    · exact hw2

theorem wordsOf_pair (us us2 : List Phrase) (ws ws2 rest : List Str) (p p2 : Piece) :
    wordsOf (us ++ (us2 ++ [(ws2, p2)])) ++ rest = wordsOf us ++ (wordsOf us2 ++ (ws2 ++ rest)) ∧
      wordsOf (us ++ (ws, p) :: (us2 ++ [(ws2, p2)])) ++ rest = wordsOf us ++ (ws ++ (wordsOf us2 ++ (ws2 ++ rest))) := by
  simp [wordsOf]

/-- **C98** (what holds): an option whose value is replaced by a later option of the same command can be left out of a successful command line, or added
to one: `parse` succeeds as well, and all values of all commands are the same, whatever options and arguments are between the two options, before
them and after them. Options that add to their values are different, see `C98_append_kept`. Missing: parsers that count the arguments wrongly, see
`C98_count_violated`, and empty arguments in the SLASH and DASH styles, see `C57_empty_violated`. -/
theorem C98_parse_partial {d0 d : ParserData} (h : finishInitialization d0 = .ok d) (ho : Ordinary d) (hf : Predictable d) {env : Env}
    (hsi : env.Silent) {pre rest ws ws2 : List Str} {c : Command} (hl : d.LeadsTo pre c)
    {us us2 : List Phrase} (hu : ∀ u ∈ us, d.Says c u.1 u.2) (hu2 : ∀ u ∈ us2, d.Says c u.1 u.2) {o o2 : OptData} {v v2 : Str}
    (hw : d.Says c ws (.option o v)) (hw2 : d.Says c ws2 (.option o2 v2)) (hov : Overrides o2 o)
    (hne : d0.settings.optionStyle = .standard ∨ [] ∉ pre ++ (wordsOf us ++ (ws ++ (wordsOf us2 ++ (ws2 ++ rest)))))
    (hsz : (pre ++ (wordsOf us ++ (ws ++ (wordsOf us2 ++ (ws2 ++ rest))))).length ≤ sizeMax) :
    (∀ rs n, Returns env d (pre ++ (wordsOf us ++ (ws ++ (wordsOf us2 ++ (ws2 ++ rest))))) rs .done n → NoStop rs →
      ∃ rs' n', Returns env d (pre ++ (wordsOf us ++ (wordsOf us2 ++ (ws2 ++ rest)))) rs' .done n' ∧ NoStop rs' ∧ n'.code = .success ∧ n'.tree = n.tree) ∧
    ∀ rs n, Returns env d (pre ++ (wordsOf us ++ (wordsOf us2 ++ (ws2 ++ rest)))) rs .done n → NoStop rs →
      ∃ rs' n', Returns env d (pre ++ (wordsOf us ++ (ws ++ (wordsOf us2 ++ (ws2 ++ rest))))) rs' .done n' ∧ NoStop rs' ∧ n'.code = .success ∧
        n'.tree = n.tree := by
  obtain ⟨h1, h2⟩ := overridden_phrases hu hu2 hw hw2
  obtain ⟨e1, e2⟩ := wordsOf_pair us us2 ws ws2 rest (.option o v) (.option o2 v2)
  have hn : argPieces ((us ++ (us2 ++ [(ws2, Piece.option o2 v2)])).map (·.2)) =
      argPieces ((us ++ (ws, Piece.option o v) :: (us2 ++ [(ws2, Piece.option o2 v2)])).map (·.2)) := by
    simp [argPieces]
  have hval : ∀ as : List ArgData, as.length = argPieces ((us ++ (us2 ++ [(ws2, Piece.option o2 v2)])).map (·.2)) → ∀ l id,
      valuesOf (l ++ (report ((us ++ (us2 ++ [(ws2, Piece.option o2 v2)])).map (·.2)) as).filterMap occOf) id =
      valuesOf (l ++ (report ((us ++ (ws, Piece.option o v) :: (us2 ++ [(ws2, Piece.option o2 v2)])).map (·.2)) as).filterMap occOf) id := by
    intro as hlen l id
    simp only [List.map_append, List.map_cons, List.map_nil] at hlen ⊢
    refine overridden_report hov v v2 _ _ as ?_ l id
    rw [hlen]
    simp [argPieces]
  have hne1 : ∀ {a b : List Str}, (∀ s, s ∈ a ∨ s ∈ b → s ∈ wordsOf us ++ (ws ++ (wordsOf us2 ++ (ws2 ++ rest)))) →
      d0.settings.optionStyle = .standard ∨ [] ∉ pre ++ (a ++ b) := by
    intro a b hab
    refine hne.imp id fun hm => ?_
    simp only [List.mem_append] at hm ⊢
    rintro (hh | hh)
    · exact hm (Or.inl hh)
    · exact hm (Or.inr (by simpa using hab [] hh))
  have hm1 : ∀ s, s ∈ wordsOf (us ++ (us2 ++ [(ws2, Piece.option o2 v2)])) ++ rest → s ∈ wordsOf us ++ (ws ++ (wordsOf us2 ++ (ws2 ++ rest))) := by
    intro s hs
    rw [e1] at hs
    simp only [List.mem_append] at hs ⊢
    rcases hs with hs | hs | hs
    · exact Or.inl hs
    · exact Or.inr (Or.inr (Or.inl hs))
    · exact Or.inr (Or.inr (Or.inr hs))
  have hm2 : ∀ s, s ∈ wordsOf (us ++ (ws, Piece.option o v) :: (us2 ++ [(ws2, Piece.option o2 v2)])) ++ rest →
      s ∈ wordsOf us ++ (ws ++ (wordsOf us2 ++ (ws2 ++ rest))) := by
    intro s hs
    rwa [e2] at hs
  have hsz' : (pre ++ (wordsOf us ++ (wordsOf us2 ++ (ws2 ++ rest)))).length ≤ sizeMax := by
    simp only [List.length_append] at hsz ⊢
    omega
  rw [← e1] at hsz'
  have hszx := hsz
  rw [← e2] at hszx
  constructor
  · intro rs n hr hns
    rw [← e2] at hr
    rw [← e1]
    refine C98_exchange_partial h ho hf hsi hl h2 h1 hn.symm (fun as _ hlen l id => (hval as (hlen.trans hn.symm) l id).symm) (hne1 ?_) hszx hsz' hr hns
    rintro s (hs | hs)
    · exact hm2 s (List.mem_append_left _ hs)
    · exact hm1 s hs
  · intro rs n hr hns
    rw [← e1] at hr
    rw [← e2]
    refine C98_exchange_partial h ho hf hsi hl h1 h2 hn (fun as _ hlen l id => hval as hlen l id) (hne1 ?_) hsz' hszx hr hns
    rintro s (hs | hs)
    · exact hm1 s (List.mem_append_left _ hs)
    · exact hm2 s hs

-- `-m x a -v -m y b` and `a -v -m y b`: the mode is `y`.
example : ∃ d, finishInitialization orderData = .ok d ∧ Ordinary d ∧ Predictable d ∧ ∃ (us2 : List Phrase) (o : OptData),
    (∀ u ∈ us2, d.Says d.command u.1 u.2) ∧ d.Says d.command [b!"-m", b!"x"] (.option o b!"x") ∧ d.Says d.command [b!"-m", b!"y"] (.option o b!"y") ∧
    Overrides o o ∧ wordsOf us2 = [b!"a", b!"-v"] ∧
    parseTo (fun n => (n.code, [1, 2, 3, 4].map fun i => (n.values.getValues i).map (·.1))) Env.inert d [b!"-m", b!"x", b!"a", b!"-v", b!"-m", b!"y", b!"b"] 9 =
      some (.success, [[b!"a"], [b!"b"], [b!"1"], [b!"y"]]) ∧
    parseTo (fun n => (n.code, [1, 2, 3, 4].map fun i => (n.values.getValues i).map (·.1))) Env.inert d [b!"a", b!"-v", b!"-m", b!"y", b!"b"] 9 =
      some (.success, [[b!"a"], [b!"b"], [b!"1"], [b!"y"]]) := by
  have key : ∃ d, finishInitialization orderData = .ok d ∧ ((ordinaryCheck 2 d = true ∧ predictableCheck 2 d = true) ∧
      (d.command.options.map (fun o => (o.flags, decide (NeedsValue o), o.type, decide (Overrides o o))) =
        [([b!"-v", b!"--verbose"], false, .normal, false), ([b!"-m", b!"--mode"], true, .normal, true)]) ∧
        d.command.commands.length = 0 ∧ d.settings.optionStyle = .standard) ∧
      parseTo (fun n => (n.code, [1, 2, 3, 4].map fun i => (n.values.getValues i).map (·.1))) Env.inert d [b!"-m", b!"x", b!"a", b!"-v", b!"-m", b!"y", b!"b"] 9 =
        some (.success, [[b!"a"], [b!"b"], [b!"1"], [b!"y"]]) ∧
      parseTo (fun n => (n.code, [1, 2, 3, 4].map fun i => (n.values.getValues i).map (·.1))) Env.inert d [b!"a", b!"-v", b!"-m", b!"y", b!"b"] 9 =
        some (.success, [[b!"a"], [b!"b"], [b!"1"], [b!"y"]]) := by
    refine Outcome.exists_ok ?_
    decide +kernel
  obtain ⟨d, hd, ⟨⟨h1, h2⟩, h3, h5, h6⟩, h7⟩ := key
  rw [List.length_eq_zero_iff] at h5
  obtain ⟨o1, o2, ho⟩ := two_of_length (l := d.command.options) (by simpa using congrArg List.length h3)
  simp only [ho, List.map_cons, List.map_nil, List.cons.injEq, Prod.mk.injEq, and_true, decide_eq_false_iff_not, decide_eq_true_eq] at h3
  obtain ⟨⟨e1, e2, e3, e4⟩, f1, f2, f3, f4⟩ := h3
  have m1 : o1 ∈ d.command.options := by simp [ho]
  have m2 : o2 ∈ d.command.options := by simp [ho]
  refine ⟨d, hd, ordinaryCheck_sound h1, predictableCheck_sound h2, [([b!"a"], .argument b!"a"), ([b!"-v"], .option o1 [])], o2, ?_,
    C62_flag_value (by rw [h6]; decide) (names_flag m2 (by simp [f1])) f2 f3, C62_flag_value (by rw [h6]; decide) (names_flag m2 (by simp [f1])) f2 f3, f4, rfl, h7⟩
  simp only [List.mem_cons, List.not_mem_nil, or_false]
  rintro u (rfl | rfl)
  · exact C62_argument (by rw [h6]; decide) h5
  · exact C62_flag (by rw [h6]; decide) (names_flag m1 (by simp [e1])) e2 e3

/-- **C98** is only about options that assign or clear: of options that add to their values, all count. -/
theorem C98_append_kept : ∃ d, finishInitialization orderData = .ok d ∧
    parseTo (fun n => (n.code, (n.values.getValues 3).map (·.1))) Env.inert d [b!"-v", b!"a", b!"-v", b!"b"] 9 = some (.success, [b!"1", b!"1"]) ∧
    parseTo (fun n => (n.code, (n.values.getValues 3).map (·.1))) Env.inert d [b!"a", b!"-v", b!"b"] 9 = some (.success, [b!"1"]) := by
  refine Outcome.exists_ok ?_
  decide +kernel

/-- **C98** is violated by a parser that counts its arguments wrongly: `--odd` removes the value of `--file` and takes no value, but it is counted as if it
did, so that `a b --file x` is accepted and `--odd a b --file x` is rejected. -/
theorem C98_count_violated : ∃ d, finishInitialization aheadData = .ok d ∧ Ordinary d ∧
    (∃ o o2 : OptData, d.Says d.command [b!"--odd"] (.option o []) ∧ d.Says d.command [b!"--file", b!"x"] (.option o2 b!"x") ∧ Overrides o2 o) ∧
    parseCode Env.inert d [b!"a", b!"b", b!"--file", b!"x"] 9 = some .success ∧
    parseCode Env.inert d [b!"--odd", b!"a", b!"b", b!"--file", b!"x"] 9 = some .failure := by
  have key : ∃ d, finishInitialization aheadData = .ok d ∧ (ordinaryCheck 2 d = true ∧
      (d.command.options.any (fun o => decide (b!"--odd" ∈ o.flags ∧ ¬ NeedsValue o ∧ o.type = .normal) &&
        d.command.options.any (fun o2 => decide (b!"--file" ∈ o2.flags ∧ NeedsValue o2 ∧ o2.type = .normal ∧ Overrides o2 o)))) = true ∧
        d.settings.optionStyle = .standard) ∧
      parseCode Env.inert d [b!"a", b!"b", b!"--file", b!"x"] 9 = some .success ∧
      parseCode Env.inert d [b!"--odd", b!"a", b!"b", b!"--file", b!"x"] 9 = some .failure := by
    refine Outcome.exists_ok ?_
    decide +kernel
  obtain ⟨d, hd, ⟨h1, h2, h4⟩, h5⟩ := key
  simp only [List.any_eq_true, Bool.and_eq_true, decide_eq_true_eq] at h2
  obtain ⟨o, ho, ⟨f1, f2, f3⟩, o2, ho2, g1, g2, g3, g4⟩ := h2
  exact ⟨d, hd, ordinaryCheck_sound h1, ⟨o, o2, C62_flag (by rw [h4]; decide) (names_flag ho f1) f2 f3,
    C62_flag_value (by rw [h4]; decide) (names_flag ho2 g1) g2 g3, g4⟩, h5⟩

/-- **C98** (what holds), for any number of options: a command line can be exchanged for one with the same arguments in the same order that has, for each
value, the same options from the last one that replaces all values on; all values of all commands are the same. Options of both lines that come before
that don't count, and the order of options for different values doesn't either (C62). Missing: as for `C98_parse_partial`. -/
theorem C98_final_partial {d0 d : ParserData} (h : finishInitialization d0 = .ok d) (ho : Ordinary d) (hf : Predictable d) {env : Env}
    (hsi : env.Silent) {pre rest : List Str} {c : Command} (hl : d.LeadsTo pre c)
    {us vs : List Phrase} (hu : ∀ u ∈ us, d.Says c u.1 u.2) (hv : ∀ v ∈ vs, d.Says c v.1 v.2)
    (hsf : SameFinal (us.map (·.2)) (vs.map (·.2))) (how : OwnValues c (us.map (·.2)))
    (hne : d0.settings.optionStyle = .standard ∨ [] ∉ pre ++ (wordsOf us ++ (wordsOf vs ++ rest)))
    (hszu : (pre ++ (wordsOf us ++ rest)).length ≤ sizeMax) (hsz : (pre ++ (wordsOf vs ++ rest)).length ≤ sizeMax) {rs : List IterResult} {n : PNode}
    (hr : Returns env d (pre ++ (wordsOf us ++ rest)) rs .done n) (hns : NoStop rs) :
    ∃ rs' n', Returns env d (pre ++ (wordsOf vs ++ rest)) rs' .done n' ∧ NoStop rs' ∧ n'.code = .success ∧ n'.tree = n.tree :=
  C98_exchange_partial h ho hf hsi hl hu hv (by rw [argPieces_texts, argPieces_texts, hsf.arguments])
    (fun _ has hlen l id => final_values hsf how has hlen l id) hne hszu hsz hr hns

/-- **C98** (what holds): in particular, `values(name)` is the same for every name. -/
theorem C98_values_partial {d0 d : ParserData} (h : finishInitialization d0 = .ok d) (ho : Ordinary d) (hf : Predictable d) {env : Env}
    (hsi : env.Silent) (hstd : d0.settings.optionStyle = .standard) {rest : List Str}
    {us vs : List Phrase} (hu : ∀ u ∈ us, d.Says d.command u.1 u.2) (hv : ∀ v ∈ vs, d.Says d.command v.1 v.2)
    (hsf : SameFinal (us.map (·.2)) (vs.map (·.2))) (how : OwnValues d.command (us.map (·.2)))
    (hszu : (wordsOf us ++ rest).length ≤ sizeMax) (hsz : (wordsOf vs ++ rest).length ≤ sizeMax) {rs : List IterResult} {n : PNode}
    (hr : Returns env d (wordsOf us ++ rest) rs .done n) (hns : NoStop rs) :
    ∃ rs' n', Returns env d (wordsOf vs ++ rest) rs' .done n' ∧ n'.code = .success ∧ ∀ name, n'.valuesOf name = n.valuesOf name := by
  obtain ⟨rs', n', h1, _, h2, h3⟩ := C98_final_partial h ho hf hsi (pre := []) .here hu hv hsf how (Or.inl hstd) hszu hsz hr hns
  exact ⟨rs', n', h1, h2, valuesOf_of_tree h hr h1 h3⟩

/-- **C98**, the value itself: if of the options given for a value the last one assigns, its text is the only value, whatever has been given before. -/
theorem C98_value {d0 d : ParserData} (h : finishInitialization d0 = .ok d) (ho : Ordinary d) {env : Env} (hp : env.Passive) {us : List Phrase}
    (hu : ∀ u ∈ us, d.Says d.command u.1 u.2) (how : OwnValues d.command (us.map (·.2))) {o : OptData} {v : Str} {id : Nat}
    (he : effective (optionsFor id (us.map (·.2))) = [(o, v)]) (hop : o.operation = .assign)
    (hne : d0.settings.optionStyle = .standard ∨ [] ∉ wordsOf us) {rs : List IterResult} {n : PNode}
    (hr : Returns env d (wordsOf us) rs .done n) (hns : NoStop rs) :
    n.values.getValues id = [(if o.constant = [] then v else o.constant, o.argumentId)] := by
  have hfn := fun (c : Command) (hc : c.Within d.command) => (rules_of h ho).functional hc
  have hacc := C57_sound_partial h ho hp hne hr hns
  have hw := says_all hu []
  rw [List.append_nil] at hw
  have hend : (Line.mixed ⟨[], []⟩).AtEnd d.settings.optionStyle := by
    cases hst : d.settings.optionStyle <;> rfl
  have hsu : ∀ p ∈ us.map (·.2), p.Simple := by
    intro p hp
    obtain ⟨u, hm, rfl⟩ := List.mem_map.mp hp
    exact says_simple (hu u hm)
  obtain ⟨t, ht, hnt⟩ := C32_values h hp hr
  rw [← given_forget] at ht
  generalize rs.map forgetText = rs0 at hacc ht
  cases hacc with
  | sub hw' hen _ =>
    obtain ⟨_, rfl⟩ := hw'.unique (hfn _ .self) hw (fun p l' h => hen.not_written h) (fun p l' h => h.not_end hend)
    exact absurd hend hen.not_end
  | @last _ _ _ _ _ ks hw' he' hal _ =>
    obtain ⟨rfl, _⟩ := hw'.unique (hfn _ .self) hw (fun p l' h => h.not_end he') (fun p l' h => h.not_end hend)
    have hmem : ∀ a ∈ handedOut d.command.arguments ks, a ∈ d.command.arguments := by
      intro a ham
      simp only [handedOut, List.mem_flatMap] at ham
      obtain ⟨p, hp, hr⟩ := ham
      rw [(List.mem_replicate.mp hr).2]
      exact (List.of_mem_zip hp).1
    have hid : ∀ a ∈ handedOut d.command.arguments ks, a.valueId ≠ id := by
      intro a ham hai
      have : (o, v) ∈ optionsFor id (us.map (·.2)) := effective_mem (by rw [he]; simp)
      simp only [optionsFor, List.mem_filterMap] at this
      obtain ⟨p, hpm, hpe⟩ := this
      cases p with
      | argument v => simp at hpe
      | option o' v' =>
        simp only at hpe
        split at hpe
        · rename_i hc
          exact how o' v' hpm hc.1 a (hmem a ham) (by rw [hai, hc.2])
        · simp at hpe
    unfold given Open.after Open.start at ht
    rw [foldl_report _ _ hsu] at ht
    simp only [Open.close, Open.close.go, Option.some.injEq] at ht
    subst ht
    obtain ⟨c, i, vs, _, _, _, _⟩ := n
    simp only [PNode.tree, Tree.map, Tree.node.injEq] at hnt
    have hv := congrFun hnt.2.1 id
    show Values.getValues vs id = _
    rw [hv, effective_values _ (handedOut_length hal) hid, he]
    have hoi : o.valueId = id := optionsFor_id (x := (o, v)) (effective_mem (by rw [he]; simp))
    simp [optionWrites, Occ.writes, hop, Write.run, hoi]

-- `-m x a -m y -v b -m z` and `a -v --mode z b`: what counts is the same.
example : ∃ d, finishInitialization orderData = .ok d ∧ Ordinary d ∧ Predictable d ∧ ∃ us vs : List Phrase,
    (∀ u ∈ us, d.Says d.command u.1 u.2) ∧ (∀ v ∈ vs, d.Says d.command v.1 v.2) ∧ SameFinal (us.map (·.2)) (vs.map (·.2)) ∧
    ¬ SameContent (us.map (·.2)) (vs.map (·.2)) ∧ OwnValues d.command (us.map (·.2)) ∧
    (∃ o, effective (optionsFor 4 (us.map (·.2))) = [(o, b!"z")] ∧ o.operation = .assign) ∧
    wordsOf us = [b!"-m", b!"x", b!"a", b!"-m", b!"y", b!"-v", b!"b", b!"-m", b!"z"] ∧ wordsOf vs = [b!"a", b!"-v", b!"--mode", b!"z", b!"b"] ∧
    parseTo (fun n => (n.code, [1, 2, 3, 4].map fun i => (n.values.getValues i).map (·.1))) Env.inert d (wordsOf us) 9 =
      some (.success, [[b!"a"], [b!"b"], [b!"1"], [b!"z"]]) := by
  have key : ∃ d, finishInitialization orderData = .ok d ∧ ((ordinaryCheck 2 d = true ∧ predictableCheck 2 d = true) ∧
      (d.command.options.map (fun o => (o.flags, decide (NeedsValue o), o.type, o.valueId)) =
        [([b!"-v", b!"--verbose"], false, .normal, 3), ([b!"-m", b!"--mode"], true, .normal, 4)] ∧
        d.command.options.map (fun o => o.operation) = [.append, .assign] ∧
        d.command.arguments.map (fun a => a.valueId) = [1, 2]) ∧ d.command.commands.length = 0 ∧ d.settings.optionStyle = .standard) ∧
      parseTo (fun n => (n.code, [1, 2, 3, 4].map fun i => (n.values.getValues i).map (·.1))) Env.inert d
        [b!"-m", b!"x", b!"a", b!"-m", b!"y", b!"-v", b!"b", b!"-m", b!"z"] 9 = some (.success, [[b!"a"], [b!"b"], [b!"1"], [b!"z"]]) := by
    refine Outcome.exists_ok ?_
    decide +kernel
  obtain ⟨d, hd, ⟨⟨h1, h2⟩, ⟨h3, h8, h4⟩, h5, h6⟩, h7⟩ := key
  rw [List.length_eq_zero_iff] at h5
  obtain ⟨o1, o2, ho⟩ := two_of_length (l := d.command.options) (by simpa using congrArg List.length h3)
  simp only [ho, List.map_cons, List.map_nil, List.cons.injEq, Prod.mk.injEq, and_true, decide_eq_false_iff_not, decide_eq_true_eq] at h3 h8
  obtain ⟨⟨e1, e2, e3, e4⟩, f1, f2, f3, f4⟩ := h3
  obtain ⟨e5, f5⟩ := h8
  have m1 : o1 ∈ d.command.options := by simp [ho]
  have m2 : o2 ∈ d.command.options := by simp [ho]
  have n1 : d.Says d.command [b!"-v"] (.option o1 []) := C62_flag (by rw [h6]; decide) (names_flag m1 (by simp [e1])) e2 e3
  have n2 : ∀ f v, f = b!"-m" ∨ f = b!"--mode" → d.Says d.command [f, v] (.option o2 v) := fun f v hf =>
    C62_flag_value (by rw [h6]; rcases hf with rfl | rfl <;> decide) (names_flag m2 (by rw [f1]; rcases hf with rfl | rfl <;> simp)) f2 f3
  have n3 : ∀ v, v = b!"a" ∨ v = b!"b" → d.Says d.command [v] (.argument v) := fun v hv =>
    C62_argument (by rw [h6]; rcases hv with rfl | rfl <;> decide) h5
  refine ⟨d, hd, ordinaryCheck_sound h1, predictableCheck_sound h2,
    [([b!"-m", b!"x"], .option o2 b!"x"), ([b!"a"], .argument b!"a"), ([b!"-m", b!"y"], .option o2 b!"y"), ([b!"-v"], .option o1 []), ([b!"b"], .argument b!"b"),
      ([b!"-m", b!"z"], .option o2 b!"z")],
    [([b!"a"], .argument b!"a"), ([b!"-v"], .option o1 []), ([b!"--mode", b!"z"], .option o2 b!"z"), ([b!"b"], .argument b!"b")],
    ?_, ?_, ⟨rfl, ?_⟩, ?_, ?_, ⟨o2, by simp [optionsFor, e4, f4, f5, effective], f5⟩, rfl, rfl, h7⟩
  · simp only [List.mem_cons, List.not_mem_nil, or_false]
    rintro u (rfl | rfl | rfl | rfl | rfl | rfl)
    · exact n2 _ _ (by simp)
    · exact n3 _ (by simp)
    · exact n2 _ _ (by simp)
    · exact n1
    · exact n3 _ (by simp)
    · exact n2 _ _ (by simp)
  · simp only [List.mem_cons, List.not_mem_nil, or_false]
    rintro u (rfl | rfl | rfl | rfl)
    · exact n3 _ (by simp)
    · exact n1
    · exact n2 _ _ (by simp)
    · exact n3 _ (by simp)
  · intro id
    simp only [optionsFor, List.map_cons, List.map_nil, List.filterMap_cons, List.filterMap_nil, e4, f4, e5, f5]
    by_cases g1 : 3 = id
    · subst g1
      simp
    · by_cases g2 : 4 = id
      · subst g2
        simp [effective, f5]
      · simp [g1, g2]
  · intro hh
    have := congrArg List.length (hh.options 4)
    simp [optionsFor, e4, f4, f5] at this
  · intro o v hm _ a ha
    have : a.valueId = 1 ∨ a.valueId = 2 := by
      have := List.mem_map_of_mem (f := fun a => a.valueId) ha
      rw [h4] at this
      simpa using this
    simp only [List.map_cons, List.map_nil, List.mem_cons, Piece.option.injEq, List.not_mem_nil, or_false, reduceCtorEq, false_or] at hm
    rcases hm with ⟨rfl, _⟩ | ⟨rfl, _⟩ | ⟨rfl, _⟩ | ⟨rfl, _⟩ <;> omega

/-! ### Options without an operation: C90 -/

/-- **C90** (what holds), for options with the operation NONE: such an option can be added anywhere or be left out, and all values of all commands are
the same, the option's own too. Missing: see `C90_added_partial`. -/
theorem C90_none_partial {d0 d : ParserData} (h : finishInitialization d0 = .ok d) (ho : Ordinary d) (hf : Predictable d) {env : Env}
    (hsi : env.Silent) {pre rest ws : List Str} {c : Command} (hl : d.LeadsTo pre c)
    {us : List Phrase} (hu : ∀ u ∈ us, d.Says c u.1 u.2) {o : OptData} {v : Str} (hw : d.Says c ws (.option o v)) (hop : o.operation = .none)
    (hne : d0.settings.optionStyle = .standard ∨ [] ∉ pre ++ (wordsOf us ++ (ws ++ rest)))
    (hsz : (pre ++ (wordsOf us ++ (ws ++ rest))).length ≤ sizeMax) :
    (∀ rs n, Returns env d (pre ++ (wordsOf us ++ (ws ++ rest))) rs .done n → NoStop rs →
      ∃ rs' n', Returns env d (pre ++ (wordsOf us ++ rest)) rs' .done n' ∧ NoStop rs' ∧ n'.code = .success ∧ n'.tree = n.tree) ∧
    ∀ rs n, Returns env d (pre ++ (wordsOf us ++ rest)) rs .done n → NoStop rs →
      ∃ rs' n', Returns env d (pre ++ (wordsOf us ++ (ws ++ rest))) rs' .done n' ∧ NoStop rs' ∧ n'.code = .success ∧ n'.tree = n.tree := by
  have hu' : ∀ u ∈ us ++ [(ws, Piece.option o v)], d.Says c u.1 u.2 := by
    intro u hm
    simp only [List.mem_append, List.mem_singleton] at hm
    rcases hm with hm | rfl
    · exact hu u hm
    · exact hw
  have e : wordsOf (us ++ [(ws, Piece.option o v)]) = wordsOf us ++ ws := by simp [wordsOf]
  have hn : argPieces (us.map (·.2)) = argPieces ((us ++ [(ws, Piece.option o v)]).map (·.2)) := by simp [argPieces]
  have hval : ∀ as : List ArgData, as.length = argPieces (us.map (·.2)) → ∀ l id,
      valuesOf (l ++ (report (us.map (·.2)) as).filterMap occOf) id =
      valuesOf (l ++ (report ((us ++ [(ws, Piece.option o v)]).map (·.2)) as).filterMap occOf) id := by
    intro as hlen l id
    rw [List.map_append, report_append _ _ as (by omega), List.take_of_length_le (by omega)]
    simp only [List.map_cons, List.map_nil, report, List.filterMap_append, List.filterMap_cons, List.filterMap_nil, occOf]
    refine valuesOf_congr rfl ?_
    simp [Occ.writes, hop]
  have hsz' : (pre ++ (wordsOf us ++ rest)).length ≤ sizeMax := by
    simp only [List.length_append] at hsz ⊢
    omega
  have hszx : (pre ++ (wordsOf (us ++ [(ws, Piece.option o v)]) ++ rest)).length ≤ sizeMax := by rwa [e, List.append_assoc]
  have hm : ∀ {a b : List Str}, (∀ s, s ∈ a ++ b → s ∈ wordsOf us ++ (ws ++ rest)) → d0.settings.optionStyle = .standard ∨ [] ∉ pre ++ (a ++ b) := by
    intro a b hab
    refine hne.imp id fun hm hh => hm ?_
    rcases List.mem_append.mp hh with hh | hh
    · exact List.mem_append_left _ hh
    · exact List.mem_append_right _ (hab [] hh)
  constructor
  · intro rs n hr hns
    rw [← List.append_assoc (wordsOf us), ← e] at hr
    refine C98_exchange_partial h ho hf hsi hl hu' hu hn.symm (fun as _ hlen l id => (hval as (hlen.trans hn.symm) l id).symm) (hm ?_) hszx hsz' hr hns
    intro s hs
    rw [e] at hs
    simp only [List.mem_append] at hs ⊢
    rcases hs with (hs | hs) | hs | hs <;> simp [hs]
  · intro rs n hr hns
    rw [← List.append_assoc (wordsOf us), ← e]
    refine C98_exchange_partial h ho hf hsi hl hu hu' hn (fun as _ hlen l id => hval as hlen l id) (hm ?_) hsz' hszx hr hns
    intro s hs
    rw [e] at hs
    simp only [List.mem_append] at hs ⊢
    rcases hs with hs | (hs | hs) | hs <;> simp [hs]

/-- A mandatory option, and an option without an operation. -/
def idleData : ParserData :=
  { command :=
      { name := b!"cp"
        options := [{ flags := [b!"-m"], argument := b!"MODE", optional := false }, { flags := [b!"-q"], operation := .none }]
        arguments := [{ name := b!"FILE" }] }
    settings := { autoExit := false, generateHelpOption := false } }

-- `-m x -q a` and `-m x a`; `-q` alone isn't enough.
example : ∃ d, finishInitialization idleData = .ok d ∧ Ordinary d ∧ Predictable d ∧ ∃ (us : List Phrase) (o : OptData),
    (∀ u ∈ us, d.Says d.command u.1 u.2) ∧ d.Says d.command [b!"-q"] (.option o []) ∧ o.operation = .none ∧
    wordsOf us = [b!"-m", b!"x"] ∧
    parseTo (fun n => (n.code, (n.values.getValues 2).map (·.1))) Env.inert d [b!"-m", b!"x", b!"-q", b!"a"] 9 = some (.success, [b!"x"]) ∧
    parseTo (fun n => (n.code, (n.values.getValues 2).map (·.1))) Env.inert d [b!"-m", b!"x", b!"a"] 9 = some (.success, [b!"x"]) ∧
    parseCode Env.inert d [b!"-q", b!"a"] 9 = some .failure := by
  have key : ∃ d, finishInitialization idleData = .ok d ∧ ((ordinaryCheck 2 d = true ∧ predictableCheck 2 d = true) ∧
      (d.command.options.map (fun o => (o.flags, decide (NeedsValue o), o.type, o.valueId)) = [([b!"-m"], true, .normal, 2), ([b!"-q"], false, .normal, 0)] ∧
        d.command.options.map (fun o => (o.operation, o.optional)) = [(.assign, false), (.none, true)]) ∧
        d.settings.optionStyle = .standard) ∧
      parseTo (fun n => (n.code, (n.values.getValues 2).map (·.1))) Env.inert d [b!"-m", b!"x", b!"-q", b!"a"] 9 = some (.success, [b!"x"]) ∧
      parseTo (fun n => (n.code, (n.values.getValues 2).map (·.1))) Env.inert d [b!"-m", b!"x", b!"a"] 9 = some (.success, [b!"x"]) ∧
      parseCode Env.inert d [b!"-q", b!"a"] 9 = some .failure := by
    refine Outcome.exists_ok ?_
    decide +kernel
  obtain ⟨d, hd, ⟨⟨h1, h2⟩, ⟨h3, h4⟩, h6⟩, h7⟩ := key
  obtain ⟨o1, o2, ho⟩ := two_of_length (l := d.command.options) (by simpa using congrArg List.length h3)
  simp only [ho, List.map_cons, List.map_nil, List.cons.injEq, Prod.mk.injEq, and_true, decide_eq_false_iff_not, decide_eq_true_eq] at h3 h4
  obtain ⟨⟨e1, e2, e3, e4⟩, f1, f2, f3, f4⟩ := h3
  have m1 : o1 ∈ d.command.options := by simp [ho]
  have m2 : o2 ∈ d.command.options := by simp [ho]
  refine ⟨d, hd, ordinaryCheck_sound h1, predictableCheck_sound h2, [([b!"-m", b!"x"], .option o1 b!"x")], o2, ?_,
    C62_flag (by rw [h6]; decide) (names_flag m2 (by simp [f1])) f2 f3, h4.2.1, rfl, h7⟩
  intro u hu
  rw [List.mem_singleton] at hu
  subst hu
  exact C62_flag_value (by rw [h6]; decide) (names_flag m1 (by simp [e1])) e2 e3

end Argos
