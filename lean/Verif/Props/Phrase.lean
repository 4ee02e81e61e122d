import Verif.Proofs.Phrase
import Verif.Props.Grammar

/-! # The order and the spelling of options: C62, C63 -/

set_option synthInstance.maxSize 1000

namespace Argos
open Spec Parser

theorem _root_.Argos.Spec.SameContent.symm {ps qs : List Piece} (h : SameContent ps qs) : SameContent qs ps :=
  ⟨h.arguments.symm, fun id => (h.options id).symm⟩

theorem _root_.Argos.Spec.SameContent.own {c : Command} {ps qs : List Piece} (h : SameContent ps qs) (ho : OwnValues c ps) : OwnValues c qs := by
  intro o v hm hop a ha
  have : (o, v) ∈ optionsFor o.valueId qs := by
    simp only [optionsFor, List.mem_filterMap]
    exact ⟨_, hm, by simp [hop]⟩
  rw [← h.options] at this
  simp only [optionsFor, List.mem_filterMap] at this
  obtain ⟨p, hp, he⟩ := this
  cases p with
  | argument v => simp at he
  | option o' v' =>
    simp only at he
    split at he
    · simp only [Option.some.injEq, Prod.mk.injEq] at he
      obtain ⟨rfl, rfl⟩ := he
      exact ho _ _ hp hop a ha
    · simp at he

theorem namesCommand_functional (ci : Bool) : ∀ c q c1 c2, NamesCommand ci c q c1 → NamesCommand ci c q c2 → c1 = c2 := by
  intro c q c1 c2 e1 e2
  unfold NamesCommand at e1 e2
  rw [e1] at e2
  exact Option.some.inj e2

theorem namesCommand_mem (ci : Bool) : ∀ c q c', NamesCommand ci c q c' → c' ∈ c.commands :=
  fun _ _ _ e => List.mem_of_find?_eq_some e

/-- The words of a line that is changed in one place. -/
theorem sameEffect_forget (rs : List IterResult) : SameEffect rs (rs.map forgetText) := by
  intro st
  have : ∀ (rs : List IterResult) (st : Open), (rs.map forgetText).foldl Open.step st = rs.foldl Open.step st := by
    intro rs
    induction rs with
    | nil => intro st; rfl
    | cons r rs ih =>
      intro st
      rw [List.map_cons, List.foldl_cons, List.foldl_cons, ih]
      cases r <;> rfl
  rw [this]

/-- From the grammar to `parse`. -/
theorem parse_same {d0 d : ParserData} (h : finishInitialization d0 = .ok d) (ho : Ordinary d) (hf : Predictable d) {env : Env}
    (hsi : env.Silent) {x y : List Str} (hx : d0.settings.optionStyle = .standard ∨ [] ∉ x) (hy : d0.settings.optionStyle = .standard ∨ [] ∉ y)
    (hszx : x.length ≤ sizeMax) (hsz : y.length ≤ sizeMax) (hxy : ∀ rs, d.Accepts x rs → ∃ rs', d.Accepts y rs' ∧ SameOutcome rs rs')
    {rs : List IterResult} {n : PNode} (hr : Returns env d x rs .done n) (hns : NoStop rs) :
    ∃ rs' n', Returns env d y rs' .done n' ∧ NoStop rs' ∧ n'.code = .success ∧ n'.tree = n.tree := by
  have hacc := C57_sound_partial h ho hsi.passive hx hr hns
  obtain ⟨rs1, h1, h2, h3⟩ := hxy _ hacc
  obtain ⟨rs2, n2, hr2, hn2, hm2, hc2⟩ := complete_served h ho hf hsi hy hsz h1
    (h3.served ((served_forget _ _).mpr (returns_served h ho hf hsi.passive hx hszx hr hns)))
  refine ⟨rs2, n2, hr2, hn2, hc2, ?_⟩
  obtain ⟨t, ht, hnt⟩ := C32_values h hsi.passive hr
  obtain ⟨t', ht', hnt'⟩ := C32_values h hsi.passive hr2
  have e1 := (sameEffect_forget rs).given d.command
  have e2 := h2.given d.command
  have e3 := (sameEffect_forget rs2).given d.command
  rw [hm2] at e3
  rw [← e1, ← e3, ht, ht'] at e2
  simp only [Option.map_some, Option.some.injEq] at e2
  rw [hnt, hnt', e2]

/-- **C62**, in terms of the grammar: phrases with the same arguments in the same order, and with the same options in the same order for
each value, can be exchanged. -/
theorem C62_accepts {d0 d : ParserData} (h : finishInitialization d0 = .ok d) (ho : Ordinary d) {pre rest : List Str} {c : Command} (hl : d.LeadsTo pre c)
    {us vs : List Phrase} (hu : ∀ u ∈ us, d.Says c u.1 u.2) (hv : ∀ v ∈ vs, d.Says c v.1 v.2)
    (hsc : SameContent (us.map (·.2)) (vs.map (·.2))) (how : OwnValues c (us.map (·.2))) :
    (∃ rs, d.Accepts (pre ++ (wordsOf us ++ rest)) rs) ↔ ∃ rs, d.Accepts (pre ++ (wordsOf vs ++ rest)) rs := by
  have key : ∀ {us vs : List Phrase}, (∀ u ∈ us, d.Says c u.1 u.2) → (∀ v ∈ vs, d.Says c v.1 v.2) → SameContent (us.map (·.2)) (vs.map (·.2)) →
      OwnValues c (us.map (·.2)) → (∃ rs, d.Accepts (pre ++ (wordsOf us ++ rest)) rs) → ∃ rs, d.Accepts (pre ++ (wordsOf vs ++ rest)) rs := by
    rintro us vs hu hv hsc how ⟨rs, ha⟩
    have hfn := fun (c : Command) (hc : c.Within d.command) => (rules_of h ho).functional hc
    obtain ⟨rs', h1, _⟩ := accepts_within SameOutcome SameOutcome.after hfn (namesCommand_functional _) (namesCommand_mem _) hl .self
      (fun hc _ _ hh => accepts_phrases (hfn c hc) hu hv hsc how hh) ha
    exact ⟨rs', h1⟩
  exact ⟨key hu hv hsc how, key hv hu hsc.symm (hsc.own how)⟩

/-- **C62** (what holds): if `parse` succeeds on a command line, it succeeds on every command line with the same content, and
all commands have the same values. Missing: parsers that count the arguments wrongly, see `C62_violated`, and empty
arguments in the SLASH and DASH styles, see `C57_empty_violated`. -/
theorem C62_parse_partial {d0 d : ParserData} (h : finishInitialization d0 = .ok d) (ho : Ordinary d) (hf : Predictable d) {env : Env}
    (hsi : env.Silent) {pre rest : List Str} {c : Command} (hl : d.LeadsTo pre c)
    {us vs : List Phrase} (hu : ∀ u ∈ us, d.Says c u.1 u.2) (hv : ∀ v ∈ vs, d.Says c v.1 v.2)
    (hsc : SameContent (us.map (·.2)) (vs.map (·.2))) (how : OwnValues c (us.map (·.2)))
    (hne : d0.settings.optionStyle = .standard ∨ [] ∉ pre ++ (wordsOf us ++ (wordsOf vs ++ rest)))
    (hszu : (pre ++ (wordsOf us ++ rest)).length ≤ sizeMax) (hsz : (pre ++ (wordsOf vs ++ rest)).length ≤ sizeMax) {rs : List IterResult} {n : PNode}
    (hr : Returns env d (pre ++ (wordsOf us ++ rest)) rs .done n) (hns : NoStop rs) :
    ∃ rs' n', Returns env d (pre ++ (wordsOf vs ++ rest)) rs' .done n' ∧ NoStop rs' ∧ n'.code = .success ∧ n'.tree = n.tree := by
  have hfn := fun (c : Command) (hc : c.Within d.command) => (rules_of h ho).functional hc
  refine parse_same h ho hf hsi (hne.imp id fun hm => ?_) (hne.imp id fun hm => ?_) hszu hsz ?_ hr hns
  · simp only [List.mem_append, not_or] at hm ⊢; exact ⟨hm.1, hm.2.1, hm.2.2.2⟩
  · simp only [List.mem_append, not_or] at hm ⊢; exact ⟨hm.1, hm.2.2.1, hm.2.2.2⟩
  · intro rs ha
    exact accepts_within SameOutcome SameOutcome.after hfn (namesCommand_functional _) (namesCommand_mem _) hl .self
      (fun hc _ _ hh => accepts_phrases (hfn c hc) hu hv hsc how hh) ha

/-- The values by name are determined by the tree of values. -/
theorem valuesOf_of_tree {env : Env} {d0 d : ParserData} (h : finishInitialization d0 = .ok d) {x y : List Str} {rs rs' : List IterResult}
    {last last' : IterResult} {n n' : PNode} (hr : Returns env d x rs last n) (hr' : Returns env d y rs' last' n') (ht : n'.tree = n.tree)
    (name : Str) : n'.valuesOf name = n.valuesOf name := by
  have e1 := (hr.treeOk (ready_of_init h)).self.ids
  have e2 := (hr'.treeOk (ready_of_init h)).self.ids
  unfold PNode.valuesOf
  obtain ⟨c, i, v, _, _, _, _⟩ := n
  obtain ⟨c', i', v', _, _, _, _⟩ := n'
  simp only [PNode.tree, Tree.node.injEq] at ht
  rw [e1, e2, ht.1]
  have h2 := fun id => congrFun ht.2.1 id
  simp only [h2]

/-- **C62** (what holds): in particular, `values(name)` is the same for every name. -/
theorem C62_values_partial {d0 d : ParserData} (h : finishInitialization d0 = .ok d) (ho : Ordinary d) (hf : Predictable d) {env : Env}
    (hsi : env.Silent) (hstd : d0.settings.optionStyle = .standard) {rest : List Str}
    {us vs : List Phrase} (hu : ∀ u ∈ us, d.Says d.command u.1 u.2) (hv : ∀ v ∈ vs, d.Says d.command v.1 v.2)
    (hsc : SameContent (us.map (·.2)) (vs.map (·.2))) (how : OwnValues d.command (us.map (·.2)))
    (hszu : (wordsOf us ++ rest).length ≤ sizeMax) (hsz : (wordsOf vs ++ rest).length ≤ sizeMax) {rs : List IterResult} {n : PNode}
    (hr : Returns env d (wordsOf us ++ rest) rs .done n) (hns : NoStop rs) :
    ∃ rs' n', Returns env d (wordsOf vs ++ rest) rs' .done n' ∧ n'.code = .success ∧ ∀ name, n'.valuesOf name = n.valuesOf name := by
  obtain ⟨rs', n', h1, _, h2, h3⟩ := C62_parse_partial h ho hf hsi (pre := []) .here hu hv hsc how (Or.inl hstd) hszu hsz hr hns
  exact ⟨rs', n', h1, h2, valuesOf_of_tree h hr h1 h3⟩

/-! ### Ways to write a phrase -/

/-- An argument is a phrase. -/
theorem C62_argument {d : ParserData} {c : Command} {v : Str} (hv : ¬ IsFlag d.settings.optionStyle v) (hc : c.commands = []) :
    d.Says c [v] (.argument v) :=
  fun rest => .argument (x := wholeFlag v rest) (read_text hv rest) hv hc

/-- A flag is a phrase, if the option takes no value. -/
theorem C62_flag {d : ParserData} {c : Command} {f : Str} {o : OptData} (hw : WholeFlag d.settings.optionStyle f)
    (hn : Names d.settings.caseInsensitive d.settings.allowAbbreviatedOptions c f o) (hv : ¬ NeedsValue o) (ht : o.type = .normal) :
    d.Says c [f] (.option o []) := by
  intro rest
  have hl : (wholeFlag f rest).leftBy o = ⟨[], rest⟩ := by simp [Reading.leftBy, hv, wholeFlag]
  rw [← hl]
  exact .option (x := wholeFlag f rest) (readIn_whole hw rest) hw.1 hn (by simp [Reading.valueFor, hv]) ht

/-- A flag and its value are a phrase. -/
theorem C62_flag_value {d : ParserData} {c : Command} {f v : Str} {o : OptData} (hw : WholeFlag d.settings.optionStyle f)
    (hn : Names d.settings.caseInsensitive d.settings.allowAbbreviatedOptions c f o) (hv : NeedsValue o) (ht : o.type = .normal) :
    d.Says c [f, v] (.option o v) := by
  intro rest
  have hl : (wholeFlag f (v :: rest)).leftBy o = ⟨[], rest⟩ := by simp [Reading.leftBy, hv, wholeFlag]
  rw [← hl]
  exact .option (x := wholeFlag f (v :: rest)) (readIn_whole hw (v :: rest)) hw.1 hn (by simp [Reading.valueFor, hv, wholeFlag]) ht

/-- A flag with `=` and its value is a phrase. -/
theorem C62_equals {d : ParserData} {c : Command} {f v : Str} {o : OptData} (hw : WholeFlag d.settings.optionStyle f) (h3 : 3 ≤ f.length)
    (hn : Names d.settings.caseInsensitive d.settings.allowAbbreviatedOptions c (f ++ b!"=") o) (hv : NeedsValue o) (ht : o.type = .normal) :
    d.Says c [f ++ b!"=" ++ v] (.option o v) := by
  intro rest
  have hl : (equalFlag (f ++ b!"=") v rest).leftBy o = ⟨[], rest⟩ := by simp [Reading.leftBy, hv, equalFlag]
  rw [← hl]
  refine .option (x := equalFlag (f ++ b!"=") v rest) (readIn_equals hw h3 v rest) ?_ hn (by simp [Reading.valueFor, hv, equalFlag]) ht
  obtain ⟨⟨h1, h2⟩, _, _⟩ := hw
  refine ⟨by simp [equalFlag]; omega, ?_⟩
  simp only [equalFlag, List.head?_append, h2, Option.some_or]

/-- A short flag with its value in the same argument is a phrase. -/
theorem C62_short_value {d : ParserData} (hstd : d.settings.optionStyle = .standard) {c : Command} {p : UInt8} {v : Str} {o : OptData} (hp : p ≠ c!"-")
    (hne : v ≠ []) (hn : Names d.settings.caseInsensitive d.settings.allowAbbreviatedOptions c [c!"-", p] o) (hv : NeedsValue o) (ht : o.type = .normal) :
    d.Says c [c!"-" :: p :: v] (.option o v) := by
  intro rest
  rw [hstd]
  have hr : Reader.readStandard ⟨[], (c!"-" :: p :: v) :: rest⟩ = some (shortFlag p v rest) := by
    cases v with
    | nil => exact absurd rfl hne
    | cons x xs => simp [Reader.readStandard, hp]
  have hl : (shortFlag p v rest).leftBy o = ⟨[], rest⟩ := by simp [Reading.leftBy, hv, shortFlag, hne]
  rw [← hl]
  refine .option (x := shortFlag p v rest) hr ?_ ?_ (by simp [Reading.valueFor, hv, shortFlag, hne]) ht
  · simp [shortFlag, hne, IsFlag, flagChar]
  · simpa [shortFlag, hne] using hn

/-! ### Concrete cases -/

/-- Options, and arguments that have to be counted. -/
def orderData : ParserData :=
  { command :=
      { name := b!"cp"
        options := [{ flags := [b!"-v", b!"--verbose"], constant := b!"1", operation := .append }, { flags := [b!"-m", b!"--mode"], argument := b!"MODE" }]
        arguments := [{ name := b!"FROM", minCount := 1, maxCount := 3 }, { name := b!"TO" }] }
    settings := { autoExit := false, generateHelpOption := false } }

theorem names_flag {ci ab : Bool} {c : Command} {f : Str} {o : OptData} (ho : o ∈ c.options) (hf : f ∈ o.flags) : Names ci ab c f o := by
  refine Or.inl ⟨ho, Or.inl ⟨f, hf, ?_⟩⟩
  unfold SameFlag
  split <;> rfl

theorem two_of_length {α : Type} {l : List α} (h : l.length = 2) : ∃ a b, l = [a, b] := by
  match l, h with
  | [a, b], _ => exact ⟨a, b, rfl⟩

-- `-v a --mode x b -v` and `a -m x -v b --verbose`: in each line, the two `-v` and the two arguments are in the same order.
example : ∃ d, finishInitialization orderData = .ok d ∧ Ordinary d ∧ Predictable d ∧ ∃ us vs : List Phrase,
    (∀ u ∈ us, d.Says d.command u.1 u.2) ∧ (∀ v ∈ vs, d.Says d.command v.1 v.2) ∧ SameContent (us.map (·.2)) (vs.map (·.2)) ∧
    OwnValues d.command (us.map (·.2)) ∧ wordsOf us = [b!"-v", b!"a", b!"--mode", b!"x", b!"b", b!"-v"] ∧ wordsOf vs = [b!"a", b!"-m", b!"x", b!"-v", b!"b", b!"--verbose"] ∧
    parseCode Env.inert d (wordsOf us) 9 = some .success := by
  have key : ∃ d, finishInitialization orderData = .ok d ∧ ((ordinaryCheck 2 d = true ∧ predictableCheck 2 d = true) ∧
      (d.command.options.map (fun o => (o.flags, decide (NeedsValue o), o.type, o.valueId)) =
        [([b!"-v", b!"--verbose"], false, .normal, 3), ([b!"-m", b!"--mode"], true, .normal, 4)] ∧
        d.command.arguments.map (fun a => a.valueId) = [1, 2]) ∧ d.command.commands.length = 0 ∧ d.settings.optionStyle = .standard) ∧
      parseCode Env.inert d [b!"-v", b!"a", b!"--mode", b!"x", b!"b", b!"-v"] 9 = some .success := by
    refine Outcome.exists_ok ?_
    decide +kernel
  obtain ⟨d, hd, ⟨⟨h1, h2⟩, ⟨h3, h4⟩, h5, h6⟩, h7⟩ := key
  rw [List.length_eq_zero_iff] at h5
  obtain ⟨o1, o2, ho⟩ := two_of_length (l := d.command.options) (by simpa using congrArg List.length h3)
  simp only [ho, List.map_cons, List.map_nil, List.cons.injEq, Prod.mk.injEq, and_true, decide_eq_false_iff_not, decide_eq_true_eq] at h3
  obtain ⟨⟨e1, e2, e3, e4⟩, f1, f2, f3, f4⟩ := h3
  have m1 : o1 ∈ d.command.options := by simp [ho]
  have m2 : o2 ∈ d.command.options := by simp [ho]
  have n1 : ∀ f, f = b!"-v" ∨ f = b!"--verbose" → d.Says d.command [f] (.option o1 []) := fun f hf =>
    C62_flag (by rw [h6]; rcases hf with rfl | rfl <;> decide) (names_flag m1 (by rw [e1]; rcases hf with rfl | rfl <;> simp)) e2 e3
  have n2 : ∀ f, f = b!"-m" ∨ f = b!"--mode" → d.Says d.command [f, b!"x"] (.option o2 b!"x") := fun f hf =>
    C62_flag_value (by rw [h6]; rcases hf with rfl | rfl <;> decide) (names_flag m2 (by rw [f1]; rcases hf with rfl | rfl <;> simp)) f2 f3
  have n3 : ∀ v, v = b!"a" ∨ v = b!"b" → d.Says d.command [v] (.argument v) := fun v hv =>
    C62_argument (by rw [h6]; rcases hv with rfl | rfl <;> decide) h5
  refine ⟨d, hd, ordinaryCheck_sound h1, predictableCheck_sound h2,
    [([b!"-v"], .option o1 []), ([b!"a"], .argument b!"a"), ([b!"--mode", b!"x"], .option o2 b!"x"), ([b!"b"], .argument b!"b"), ([b!"-v"], .option o1 [])],
    [([b!"a"], .argument b!"a"), ([b!"-m", b!"x"], .option o2 b!"x"), ([b!"-v"], .option o1 []), ([b!"b"], .argument b!"b"), ([b!"--verbose"], .option o1 [])],
    ?_, ?_, ⟨rfl, ?_⟩, ?_, rfl, rfl, h7⟩
  · simp only [List.mem_cons, List.not_mem_nil, or_false]
    rintro u (rfl | rfl | rfl | rfl | rfl)
    · exact n1 _ (by simp)
    · exact n3 _ (by simp)
    · exact n2 _ (by simp)
    · exact n3 _ (by simp)
    · exact n1 _ (by simp)
  · simp only [List.mem_cons, List.not_mem_nil, or_false]
    rintro u (rfl | rfl | rfl | rfl | rfl)
    · exact n3 _ (by simp)
    · exact n2 _ (by simp)
    · exact n1 _ (by simp)
    · exact n3 _ (by simp)
    · exact n1 _ (by simp)
  · intro id
    simp only [optionsFor, List.map_cons, List.map_nil, List.filterMap_cons, List.filterMap_nil, e4, f4]
    by_cases g1 : o1.operation ≠ .none ∧ 3 = id <;> by_cases g2 : o2.operation ≠ .none ∧ 4 = id <;> simp [g1, g2]
    omega
  · intro o v hm _ a ha
    have : a.valueId = 1 ∨ a.valueId = 2 := by
      have := List.mem_map_of_mem (f := fun a => a.valueId) ha
      rw [h4] at this
      simpa using this
    simp only [List.map_cons, List.map_nil, List.mem_cons, Piece.option.injEq, List.not_mem_nil, or_false, reduceCtorEq, false_or] at hm
    rcases hm with ⟨rfl, _⟩ | ⟨rfl, _⟩ | ⟨rfl, _⟩ <;> omega

/-- **C62** is violated by a parser that counts its arguments wrongly: `--odd` takes no value but is counted as if it did, so that
`a b --odd` is accepted and `--odd a b` is rejected. -/
theorem C62_violated : ∃ d, finishInitialization aheadData = .ok d ∧ Ordinary d ∧ (∃ us vs : List Phrase,
    (∀ u ∈ us, d.Says d.command u.1 u.2) ∧ (∀ v ∈ vs, d.Says d.command v.1 v.2) ∧ SameContent (us.map (·.2)) (vs.map (·.2)) ∧
    OwnValues d.command (us.map (·.2)) ∧ wordsOf us = [b!"a", b!"b", b!"--odd"] ∧ wordsOf vs = [b!"--odd", b!"a", b!"b"]) ∧
    parseCode Env.inert d [b!"a", b!"b", b!"--odd"] 9 = some .success ∧ parseCode Env.inert d [b!"--odd", b!"a", b!"b"] 9 = some .failure := by
  have key : ∃ d, finishInitialization aheadData = .ok d ∧ (ordinaryCheck 2 d = true ∧
      (d.command.options.any (fun o => decide (b!"--odd" ∈ o.flags ∧ ¬ NeedsValue o ∧ o.type = .normal ∧ ∀ a ∈ d.command.arguments, a.valueId ≠ o.valueId))) = true ∧
        d.command.commands.length = 0 ∧ d.settings.optionStyle = .standard) ∧
      parseCode Env.inert d [b!"a", b!"b", b!"--odd"] 9 = some .success ∧ parseCode Env.inert d [b!"--odd", b!"a", b!"b"] 9 = some .failure := by
    refine Outcome.exists_ok ?_
    decide +kernel
  obtain ⟨d, hd, ⟨h1, h2, h3, h4⟩, h5⟩ := key
  rw [List.length_eq_zero_iff] at h3
  simp only [List.any_eq_true, decide_eq_true_eq] at h2
  obtain ⟨o, ho, f1, f2, f3, f4⟩ := h2
  have n1 : d.Says d.command [b!"--odd"] (.option o []) := C62_flag (by rw [h4]; decide) (names_flag ho f1) f2 f3
  have n3 : ∀ v, v = b!"a" ∨ v = b!"b" → d.Says d.command [v] (.argument v) := fun v hv =>
    C62_argument (by rw [h4]; rcases hv with rfl | rfl <;> decide) h3
  refine ⟨d, hd, ordinaryCheck_sound h1,
    ⟨[([b!"a"], .argument b!"a"), ([b!"b"], .argument b!"b"), ([b!"--odd"], .option o [])],
      [([b!"--odd"], .option o []), ([b!"a"], .argument b!"a"), ([b!"b"], .argument b!"b")], ?_, ?_, ⟨rfl, fun id => ?_⟩, ?_, rfl, rfl⟩, h5⟩
  · simp only [List.mem_cons, List.not_mem_nil, or_false]
    rintro u (rfl | rfl | rfl)
    · exact n3 _ (by simp)
    · exact n3 _ (by simp)
    · exact n1
  · simp only [List.mem_cons, List.not_mem_nil, or_false]
    rintro u (rfl | rfl | rfl)
    · exact n1
    · exact n3 _ (by simp)
    · exact n3 _ (by simp)
  · simp only [optionsFor, List.map_cons, List.map_nil, List.filterMap_cons, List.filterMap_nil]
  · intro o' v hm _ a ha
    simp only [List.map_cons, List.map_nil, List.mem_cons, Piece.option.injEq, List.not_mem_nil, or_false, reduceCtorEq, false_or] at hm
    rw [hm.1]
    exact f4 a ha

/-! ### C63 -/

/-- **C63**, in terms of the grammar: flags that select the same option can be exchanged, wherever they stand on the line, and the results are
the same. -/
theorem C63_accepts {d0 d : ParserData} (h : finishInitialization d0 = .ok d) (ho : Ordinary d) {pre rest : List Str} {c : Command} (hl : d.LeadsTo pre c)
    {us : List Phrase} (hu : ∀ u ∈ us, d.Says c u.1 u.2) {f g : Str} (hf : WholeFlag d.settings.optionStyle f) (hg : WholeFlag d.settings.optionStyle g)
    {o : OptData} (hfo : Names d.settings.caseInsensitive d.settings.allowAbbreviatedOptions c f o)
    (hgo : Names d.settings.caseInsensitive d.settings.allowAbbreviatedOptions c g o) (rs : List IterResult) :
    d.Accepts (pre ++ (wordsOf us ++ f :: rest)) rs ↔ d.Accepts (pre ++ (wordsOf us ++ g :: rest)) rs := by
  have hfn := fun (c : Command) (hc : c.Within d.command) => (rules_of h ho).functional hc
  have key : ∀ {f g : Str}, WholeFlag d.settings.optionStyle f → WholeFlag d.settings.optionStyle g →
      Names d.settings.caseInsensitive d.settings.allowAbbreviatedOptions c f o → Names d.settings.caseInsensitive d.settings.allowAbbreviatedOptions c g o →
      d.Accepts (pre ++ (wordsOf us ++ f :: rest)) rs → d.Accepts (pre ++ (wordsOf us ++ g :: rest)) rs := by
    intro f g hf hg hfo hgo ha
    obtain ⟨rs', h1, rfl⟩ := accepts_within Eq (fun before rs rs' h => by rw [h]) hfn (namesCommand_functional _) (namesCommand_mem _) hl .self
      (fun hc inits rs hh => ⟨rs, accepts_alike (hfn c hc) hu (sameFirst_flag hf.1 hg.1 (fun o' =>
        ⟨fun e => hfn c hc f o' o e hfo ▸ hgo, fun e => hfn c hc g o' o e hgo ▸ hfo⟩) (readIn_whole hf rest) (readIn_whole hg rest)) hh, rfl⟩) ha
    exact h1
  exact ⟨key hf hg hfo hgo, key hg hf hgo hfo⟩

/-- **C63** (what holds): if `parse` succeeds, it succeeds as well with another flag, abbreviation or upper and lower case spelling that selects
the same option, with the same results and values. Missing: flags the library's case-insensitive order can't handle, see `C63_violated`, and
parsers for which the arguments must be counted beforehand but that aren't `Predictable` (not known to be wrong). -/
theorem C63_parse_partial {d0 d : ParserData} (h : finishInitialization d0 = .ok d) (ho : Ordinary d) (hf : Predictable d) {env : Env}
    (hsi : env.Silent) {pre rest : List Str} {c : Command} (hl : d.LeadsTo pre c) {us : List Phrase} (hu : ∀ u ∈ us, d.Says c u.1 u.2) {f g : Str}
    (hwf : WholeFlag d.settings.optionStyle f) (hwg : WholeFlag d.settings.optionStyle g)
    {o : OptData} (hfo : Names d.settings.caseInsensitive d.settings.allowAbbreviatedOptions c f o)
    (hgo : Names d.settings.caseInsensitive d.settings.allowAbbreviatedOptions c g o)
    (hne : d0.settings.optionStyle = .standard ∨ [] ∉ pre ++ (wordsOf us ++ rest))
    (hsz : (pre ++ (wordsOf us ++ g :: rest)).length ≤ sizeMax) {rs : List IterResult} {n : PNode}
    (hr : Returns env d (pre ++ (wordsOf us ++ f :: rest)) rs .done n) (hns : NoStop rs) :
    ∃ rs' n', Returns env d (pre ++ (wordsOf us ++ g :: rest)) rs' .done n' ∧ rs'.map forgetText = rs.map forgetText ∧ n'.code = .success ∧
      n'.tree = n.tree := by
  have hnil : ∀ {x : Str}, WholeFlag d.settings.optionStyle x → [] ≠ x := by
    rintro x hx rfl
    have := hx.1.1
    simp at this
  have hne1 : ∀ {x : Str}, WholeFlag d.settings.optionStyle x → d0.settings.optionStyle = .standard ∨ [] ∉ pre ++ (wordsOf us ++ x :: rest) := by
    intro x hx
    refine hne.imp id fun hm => ?_
    simp only [List.mem_append, List.mem_cons, not_or] at hm ⊢
    exact ⟨hm.1, hm.2.1, hnil hx, hm.2.2⟩
  have hacc := C57_sound_partial h ho hsi.passive (hne1 hwf) hr hns
  have hsv := (served_forget _ _).mpr (returns_served h ho hf hsi.passive (hne1 hwf) (by simpa using hsz) hr hns)
  rw [C63_accepts h ho hl hu hwf hwg hfo hgo] at hacc
  obtain ⟨rs2, n2, hr2, hn2, hm2, hc2⟩ := complete_served h ho hf hsi (hne1 hwg) hsz hacc hsv
  refine ⟨rs2, n2, hr2, hm2, hc2, ?_⟩
  obtain ⟨t, ht, hnt⟩ := C32_values h hsi.passive hr
  obtain ⟨t', ht', hnt'⟩ := C32_values h hsi.passive hr2
  have e1 := (sameEffect_forget rs).given d.command
  have e3 := (sameEffect_forget rs2).given d.command
  rw [hm2] at e3
  rw [← e3, ht, ht'] at e1
  simp only [Option.map_some, Option.some.injEq] at e1
  rw [hnt, hnt', e1]

/-- The parser of the example: the options can be abbreviated, in upper and lower case, and the arguments have to be counted. -/
def spellingData : ParserData :=
  { command := orderData.command
    settings := { orderData.settings with caseInsensitive := true, allowAbbreviatedOptions := true } }

-- `a -v --MOD x b` can be written `a -v -m x b` as well.
example : ∃ d, finishInitialization spellingData = .ok d ∧ Ordinary d ∧ Predictable d ∧ d.LeadsTo [] d.command ∧ ∃ us : List Phrase,
    (∀ u ∈ us, d.Says d.command u.1 u.2) ∧ wordsOf us = [b!"a", b!"-v"] ∧ WholeFlag d.settings.optionStyle b!"--MOD" ∧ WholeFlag d.settings.optionStyle b!"-m" ∧
    (∃ o, Names d.settings.caseInsensitive d.settings.allowAbbreviatedOptions d.command b!"--MOD" o ∧
      Names d.settings.caseInsensitive d.settings.allowAbbreviatedOptions d.command b!"-m" o) ∧
    parseCode Env.inert d (wordsOf us ++ b!"--MOD" :: [b!"x", b!"b"]) 9 = some .success ∧
    parseCode Env.inert d (wordsOf us ++ b!"-m" :: [b!"x", b!"b"]) 9 = some .success := by
  have key : ∃ d, finishInitialization spellingData = .ok d ∧ ((ordinaryCheck 2 d = true ∧ predictableCheck 2 d = true) ∧
      (d.command.options.map (fun o => (o.flags, decide (NeedsValue o), o.type)) = [([b!"-v", b!"--verbose"], false, .normal), ([b!"-m", b!"--mode"], true, .normal)]) ∧
        d.command.commands.length = 0 ∧ d.settings.optionStyle = .standard ∧ d.settings.caseInsensitive = true ∧ d.settings.allowAbbreviatedOptions = true) ∧
      parseCode Env.inert d [b!"a", b!"-v", b!"--MOD", b!"x", b!"b"] 9 = some .success ∧ parseCode Env.inert d [b!"a", b!"-v", b!"-m", b!"x", b!"b"] 9 = some .success := by
    refine Outcome.exists_ok ?_
    decide +kernel
  obtain ⟨d, hd, ⟨⟨h1, h2⟩, h3, h5, h6, h8, h9⟩, h7⟩ := key
  rw [List.length_eq_zero_iff] at h5
  obtain ⟨o1, o2, ho⟩ := two_of_length (l := d.command.options) (by simpa using congrArg List.length h3)
  simp only [ho, List.map_cons, List.map_nil, List.cons.injEq, Prod.mk.injEq, and_true, decide_eq_false_iff_not, decide_eq_true_eq] at h3
  obtain ⟨⟨e1, e2, e3⟩, f1, f2, f3⟩ := h3
  have m1 : o1 ∈ d.command.options := by simp [ho]
  have m2 : o2 ∈ d.command.options := by simp [ho]
  have hfl : flagsOf d.command.options = [b!"-v", b!"--verbose", b!"-m", b!"--mode"] := by simp [flagsOf, ho, e1, f1]
  refine ⟨d, hd, ordinaryCheck_sound h1, predictableCheck_sound h2, .here, [([b!"a"], .argument b!"a"), ([b!"-v"], .option o1 [])], ?_, rfl,
    by rw [h6]; decide, by rw [h6]; decide, ⟨o2, ?_, names_flag m2 (by simp [f1])⟩, h7.1, h7.2⟩
  · simp only [List.mem_cons, List.not_mem_nil, or_false]
    rintro u (rfl | rfl)
    · exact C62_argument (by rw [h6]; decide) h5
    · exact C62_flag (by rw [h6]; decide) (names_flag m1 (by simp [e1])) e2 e3
  · rw [h8, h9]
    refine Or.inl ⟨m2, Or.inr ⟨rfl, ?_, b!"--mode", by simp [f1], ?_, ?_⟩⟩ <;> (try rw [hfl]) <;> decide +kernel

/-- `dryRunData` without leaving the program. -/
def drySpellingData : ParserData := { dryRunData with settings := { dryRunData.settings with autoExit := false } }

/-- **C63** is violated when the case of letters doesn't matter and a flag has a character that the library's order can't handle: the lower case
spelling of `--DRYRUN` isn't recognised. -/
theorem C63_violated : ∃ d, finishInitialization drySpellingData = .ok d ∧
    ((∃ o ∈ d.command.options, b!"--DRYRUN" ∈ o.flags ∧ SameFlag d.settings.caseInsensitive b!"--DRYRUN" b!"--dryrun" ∧
      WholeFlag d.settings.optionStyle b!"--DRYRUN" ∧ WholeFlag d.settings.optionStyle b!"--dryrun") ∧
    parseCode Env.inert d [b!"--DRYRUN"] 9 = some .success) ∧ parseCode Env.inert d [b!"--dryrun"] 9 = some .failure := by
  refine Outcome.exists_ok ?_
  decide +kernel

end Argos
