import Verif.Proofs.Print
import Verif.Props.Origin
import Verif.Props.HelpFor
import Verif.Props.Strings
import Verif.Proofs.Faults

/-! # What clients see in the results: C67, C68, C69, C70 -/

set_option synthInstance.maxSize 1000

namespace Argos
open Spec Parser

/-! ## C67 -/

/-- **C67** (what holds): by going from view to view one reaches exactly the commands that were declared, and the view of a command shows
what was declared: its name, its sections, its arguments and options in their order with all that was said about them, then the options
that the parser has added. Missing: the help text, see `C67_violated`. -/
theorem C67_views_partial (texts : Nat → Str) {d0 d : ParserData} (h : finishInitialization d0 = .ok d) (p : List Nat) :
    ((d0.command.at p).isSome = true ↔ (viewAt texts d.command p).isSome = true) ∧
    ∀ x v, d0.command.at p = some x → viewAt texts d.command p = some v →
      CmdShown texts (decide (p = []) && decide (d0.version ≠ [])) d0.settings.generateHelpOption x (v.info texts) := by
  obtain ⟨_, _, _, fn, c, hc, hce⟩ := finishInitialization_ok h
  have hsub : ∀ i q, c.at (i :: q) = d0.command.at (i :: q) := by
    intro i q
    have : c.commands = d0.command.commands := by rw [hce]
    simp only [Command.at, this]
  have hnil : ∀ e : Command, e.at [] = some e := fun _ => rfl
  rw [viewAt_eq]
  obtain ⟨k1, k2⟩ := finishCommand_at d0.settings p hc
  cases p with
  | nil =>
    refine ⟨by simp [hnil], ?_⟩
    intro x v hx hv
    rw [hnil, Option.some.injEq] at hx hv
    subst hx hv
    refine finishCommand_shown texts hc d0.command ?_ _ ?_
    · rcases addVersionOption_cases d0.command.options d0.command.currentSection d0.version d0.settings with e | ⟨_, _, e⟩
      · refine ⟨[], ?_, by simp, by simp⟩
        rw [hce, e, List.append_nil]
      · rw [e] at hce
        refine ⟨_, hce, by simp, ?_⟩
        intro o ho
        rw [List.mem_singleton] at ho
        subst ho
        exact ⟨rfl, rfl, rfl, rfl⟩
    · intro hne
      rcases addVersionOption_cases d0.command.options d0.command.currentSection d0.version d0.settings with e | ⟨e, _⟩
      · refine absurd ?_ hne
        rw [hce, e]
        cases d0.command
        rfl
      · simp [e]
  | cons i q =>
    rw [hsub i q] at k1 k2
    constructor
    · constructor
      · intro hs
        obtain ⟨x, hx⟩ := Option.isSome_iff_exists.mp hs
        obtain ⟨x', hx'⟩ := k2 x hx
        rw [hx']; rfl
      · intro hs
        obtain ⟨x', hx'⟩ := Option.isSome_iff_exists.mp hs
        obtain ⟨x, _, _, _, hx, _⟩ := k1 x' hx'
        rw [hx]; rfl
    · intro x v hx hv
      obtain ⟨y, fn', a', b', hy, hf, _⟩ := k1 v hv
      rw [hx, Option.some.injEq] at hy
      subst hy
      refine finishCommand_shown texts hf x ⟨[], ?_, by simp, by simp⟩ _ (fun hne => absurd rfl hne)
      cases x
      simp

/-- **C67**: each of the results of a parsing shows one of these commands (the outermost the main command), and its functions
`all_arguments` etc. show what the view of the command shows. -/
theorem C67_results (texts : Nat → Str) {d0 d : ParserData} (h : finishInitialization d0 = .ok d) {env : Env} {args : List Str} {rs : List IterResult}
    {last : IterResult} {n : PNode} (hr : Returns env d args rs last n) :
    viewAt texts d.command [] = some n.commandView ∧
    ∀ m : PNode, m.Within n → (∃ p, viewAt texts d.command p = some m.commandView) ∧ m.name = (m.commandView.info texts).name ∧
      m.allArguments = (m.commandView.info texts).arguments ∧ m.allOptions = (m.commandView.info texts).options ∧
      m.allSubcommands = (m.commandView.info texts).subcommands := by
  refine ⟨by rw [viewAt_eq]; exact congrArg some (hr.command (ready_of_init h)).symm, ?_⟩
  intro m hm
  refine ⟨?_, rfl, rfl, rfl, rfl⟩
  obtain ⟨p, hp⟩ := Command.at_of_within (hr.within (ready_of_init h) hm)
  exact ⟨p, by rw [viewAt_eq]; exact hp⟩

/-- A program with texts, sections, hidden items and sub-commands. -/
def viewsData : ParserData :=
  { command :=
      { name := b!"git"
        texts := [(.about, .text b!"A tool."), (.help, .callback 1)]
        options := [{ flags := [b!"-v"], help := .callback 0, section_ := b!"MISC", visibility := ⟨false, true⟩, id := 7 },
          { flags := [b!"-C"], argument := b!"DIR", alias_ := b!"dir", initialValue := b!"." }]
        commands := [
          { name := b!"add", id := 3, arguments := [{ name := b!"FILE", help := .text b!"A file.", minCount := 0, maxCount := 5, id := 2 }] },
          { name := b!"log", texts := [(.help, .text b!"Shows the log.")], options := [{ flags := [b!"-n"], argument := b!"N", operation := .append }] }] }
    version := b!"1"
    settings := { autoExit := false } }

-- What the views show: the main command, an option of it, and the argument of its first sub-command.
example : ∃ d, finishInitialization viewsData = .ok d ∧
    parseTo (fun n => let v := n.commandView.info fun i => if i = 0 then b!"Verbose." else b!"?"
      (v.name, v.help, v.requireSubcommand, v.options.map (·.flags), v.subcommands.map (·.name))) Env.inert d [b!"add", b!"a"] 9 =
      some (b!"git", b!"A tool.", true, [[b!"-v"], [b!"-C"], [b!"--version"], [b!"-h", b!"--help"]], [b!"add", b!"log"]) ∧
    parseTo (fun n => n.allOptions.head?.map (OptData.info fun i => if i = 0 then b!"Verbose." else b!"?")) Env.inert d [b!"add", b!"a"] 9 =
      some (some { help := b!"Verbose.", section_ := b!"MISC", alias_ := [], operation := .assign, visibility := ⟨false, true⟩, id := 7, valueId := 1,
                   flags := [b!"-v"], argument := [], initialValue := [], constant := b!"1", type := .normal, optional := true, argumentId := 2 }) ∧
    parseTo (fun n => n.subs.map fun m => m.allArguments.map (ArgData.info fun _ => [])) Env.inert d [b!"add", b!"a"] 9 =
      some [[{ help := b!"A file.", section_ := [], alias_ := [], visibility := .normal, id := 2, name := b!"FILE", optional := true, count := (0, 5),
               valueId := 5, argumentId := 7 }]] := by
  refine Outcome.exists_ok ?_
  decide +kernel

/-- **C67** is violated by the help text of commands: the view shows the introduction ("about") instead, or nothing. -/
theorem C67_violated : ∃ d, finishInitialization viewsData = .ok d ∧
    parseTo (fun n => n.allSubcommands.map fun c => (c.name, c.texts, (c.info fun _ => []).help)) Env.inert d [b!"log"] 9 =
      some [(b!"add", [], []), (b!"log", [(.help, .text b!"Shows the log.")], [])] := by
  refine Outcome.exists_ok ?_
  decide +kernel

/-! ## C68 -/

theorem nameOfId_of_view {d0 d : ParserData} (hd : finishInitialization d0 = .ok d) {cmd : Command} (hcmd : cmd.Within d.command) {a : Nat} {w : View}
    (h : getArgumentView cmd a = some w) : nameOfId cmd a = .ok (separated b!", " (namesOfView w)) := by
  rw [nameOfId_view, h]
  cases w with
  | arg a => rfl
  | opt o =>
    have ho : o ∈ cmd.options := by
      unfold getArgumentView at h
      split at h
      · simp at h
      · rw [Option.map_eq_some_iff] at h
        obtain ⟨o', ho, e⟩ := h
        simp only [View.opt.injEq] at e
        subst e
        exact List.mem_of_find?_eq_some ho
    obtain ⟨hne, _⟩ := flagged_of_init hd hcmd o ho
    cases hf : o.flags with
    | nil => exact absurd hf hne
    | cons s ss => simp only [optionNames, hf, foldl_separated, namesOfView]

theorem writeErrorMessageFor_view {d0 d : ParserData} (hd : finishInitialization d0 = .ok d) {cmd : Command} (hcmd : cmd.Within d.command) {a : Nat} {w : View}
    (h : getArgumentView cmd a = some w) (console : Nat) (texts : Nat → Str) (msg : Str) :
    writeErrorMessageFor console texts d cmd msg a = writeErrorMessage console texts d cmd (calledFirst w ++ msg) := by
  unfold writeErrorMessageFor
  rw [nameOfId_of_view hd hcmd h]
  simp only [Outcome.bind_ok, calledFirst]
  by_cases hn : separated b!", " (namesOfView w) = []
  · rw [if_neg (fun hc => hc hn), if_pos hn]; rfl
  · rw [if_pos hn, if_neg hn]

theorem writeErrorMessageFor_zero {d0 d : ParserData} (hd : finishInitialization d0 = .ok d) {cmd : Command} (hcmd : cmd.Within d.command)
    (console : Nat) (texts : Nat → Str) (msg : Str) :
    writeErrorMessageFor console texts d cmd msg 0 = writeErrorMessage console texts d cmd msg := by
  unfold writeErrorMessageFor
  rw [nameOfId_view, (C20_view hd hcmd).2.2]
  rfl

/-- **C68**: converting a single value gives the default if there is no value and the number if there is one; otherwise the error message
says which value is wrong, and names the argument or option that gave the value. -/
theorem C68_value {d0 d : ParserData} (h : finishInitialization d0 = .ok d) (hx : Exclusive d.command) {env : Env} (hp : env.Passive)
    {args : List Str} {rs : List IterResult} {n : PNode} (hr : Returns env d args rs .done n) {m : PNode} (hw : m.Within n)
    {name : Str} {v : ArgValue} (hv : m.value name = .ok v) {α : Type} (parse : Str → Option α) (default : α) :
    (v.value = none ∧ v.asInteger d.settings parse default = (.ok default, none)) ∨
    (∃ s x, v.value = some s ∧ parse s = some x ∧ v.asInteger d.settings parse default = (.ok x, none)) ∨
    ∃ s r, v.value = some s ∧ parse s = none ∧ v.asInteger d.settings parse default = (errorEnd d.settings, some r) ∧
      ∃ (t x : Tree (List Occ)), given d.command rs = some t ∧ x.Within t ∧ x.command = m.command ∧ ∃ occ ∈ x.data, ∃ w, Gives occ v.valueId s w ∧
        ∀ console texts, writeErrorMessageFor console texts d m.command r.message r.argumentId =
          writeErrorMessage console texts d m.command (calledFirst w ++ b!"Invalid value: " ++ s ++ b!".") := by
  obtain ⟨val, id, a⟩ := v
  cases val with
  | none => exact Or.inl ⟨rfl, rfl⟩
  | some s =>
    right
    simp only [ArgValue.asInteger]
    cases hs : parse s with
    | some x => exact Or.inl ⟨s, x, rfl, hs, rfl⟩
    | none =>
      refine Or.inr ⟨s, ⟨invalidValue s, a⟩, rfl, hs, rfl, ?_⟩
      obtain ⟨t, x, h1, h2, h3, occ, ho, w, hg, hvw⟩ := C59_value h hx hp hr hw hv
      refine ⟨t, x, h1, h2, h3, occ, ho, w, hg, ?_⟩
      intro console texts
      rw [writeErrorMessageFor_view h (hr.within (ready_of_init h) hw) hvw]
      simp only [invalidValue, List.append_assoc]

theorem reported_for {d0 d : ParserData} (h : finishInitialization d0 = .ok d) (hx : Exclusive d.command) {env : Env} (hp : env.Passive)
    {args : List Str} {rs : List IterResult} {n : PNode} (hr : Returns env d args rs .done n) {m : PNode} (hw : m.Within n)
    {id : Nat} (hne : m.values.getValues id ≠ []) (msg : Str) :
    ReportedFor d m.command (m.values.getValues id) msg ⟨msg, commonArgumentId (m.values.getValues id)⟩ := by
  have hwc := hr.within (ready_of_init h) hw
  have hviews := (C59_views h hx hp hr hw id).2
  generalize m.values.getValues id = vs at *
  by_cases hall : ∀ v ∈ vs, v.2 = (vs.head hne).2
  · left
    obtain ⟨w, _, hvw, hwa⟩ := hviews (vs.head hne).1 (vs.head hne).2 (List.head_mem hne)
    refine ⟨w, fun v hv => by rw [hall v hv]; exact hvw, ?_⟩
    intro console texts
    have e : commonArgumentId vs = (vs.head hne).2 := by
      cases vs with
      | nil => exact absurd rfl hne
      | cons x xs =>
        obtain ⟨s, a⟩ := x
        simp only [List.head_cons] at hall ⊢
        simp only [commonArgumentId]
        rw [if_pos]
        rw [List.all_eq_true]
        intro v hv
        simpa using hall v (by simp [hv])
    simp only [e]
    exact writeErrorMessageFor_view h hwc hvw console texts msg
  · right
    have hex : ∃ v ∈ vs, v.2 ≠ (vs.head hne).2 := by
      apply Classical.byContradiction
      intro hc
      exact hall fun v hv => Classical.byContradiction fun he => hc ⟨v, hv, he⟩
    obtain ⟨v, hv, hva⟩ := hex
    refine ⟨⟨v, hv, vs.head hne, List.head_mem hne, ?_⟩, ?_⟩
    · obtain ⟨w, _, e1, e2⟩ := hviews v.1 v.2 hv
      obtain ⟨w', _, e1', e2'⟩ := hviews (vs.head hne).1 (vs.head hne).2 (List.head_mem hne)
      rw [e1, e1']
      intro he
      injection he with he
      subst he
      exact hva (e2.symm.trans e2')
    · intro console texts
      have e : commonArgumentId vs = 0 := by
        apply Classical.byContradiction
        intro hc
        obtain ⟨_, h2⟩ := (C59_common vs _ hc).mp rfl
        exact hva ((h2 v hv).trans (h2 _ (List.head_mem hne)).symm)
      simp only [e]
      exact writeErrorMessageFor_zero h hwc console texts msg

theorem integersLoop_cases {α : Type} (st : ParserSettings) (parse : Str → Option α) (vs : ArgValues) (l : List Str) (acc : List α) :
    (∃ xs, Each (fun s x => parse s = some x) l xs ∧ vs.integersLoop st parse l acc = (.ok (acc ++ xs), none)) ∨
    ∃ before s after, l = before ++ s :: after ∧ (∀ b ∈ before, ∃ x, parse b = some x) ∧ parse s = none ∧
      vs.integersLoop st parse l acc = (errorEnd st, some ⟨b!"Invalid value: " ++ s ++ b!".", commonArgumentId vs.values⟩) := by
  induction l generalizing acc with
  | nil => exact Or.inl ⟨[], .nil, by simp [ArgValues.integersLoop]⟩
  | cons s l ih =>
    simp only [ArgValues.integersLoop]
    cases hs : parse s with
    | none => exact Or.inr ⟨[], s, l, rfl, by simp, hs, rfl⟩
    | some x =>
      rcases ih (acc ++ [x]) with ⟨xs, h1, h2⟩ | ⟨before, s', after, h1, h2, h3, h4⟩
      · exact Or.inl ⟨x :: xs, .cons hs h1, by simp only [h2]; simp⟩
      · refine Or.inr ⟨s :: before, s', after, by rw [h1]; rfl, ?_, h3, h4⟩
        intro b hb
        rcases List.mem_cons.mp hb with rfl | hb
        · exact ⟨x, hs⟩
        · exact h2 b hb

/-- **C68**: converting several values gives the default if there are none and all their numbers in order if all are numbers; otherwise the error
message says which is the first wrong value, and names the argument or option that gave the values if it is the same for all. -/
theorem C68_values {d0 d : ParserData} (h : finishInitialization d0 = .ok d) (hx : Exclusive d.command) {env : Env} (hp : env.Passive)
    {args : List Str} {rs : List IterResult} {n : PNode} (hr : Returns env d args rs .done n) {m : PNode} (hw : m.Within n)
    {name : Str} {vs : ArgValues} (hv : m.argValues name = .ok vs) {α : Type} (parse : Str → Option α) (default : List α) :
    (vs.values = [] ∧ vs.asIntegers d.settings parse default = (.ok default, none)) ∨
    (∃ xs, vs.values ≠ [] ∧ Each (fun (v : Str × Nat) x => parse v.1 = some x) vs.values xs ∧ vs.asIntegers d.settings parse default = (.ok xs, none)) ∨
    ∃ before s a after r, vs.values = before ++ (s, a) :: after ∧ (∀ b ∈ before, ∃ x, parse b.1 = some x) ∧ parse s = none ∧
      vs.asIntegers d.settings parse default = (errorEnd d.settings, some r) ∧
      ReportedFor d m.command vs.values (b!"Invalid value: " ++ s ++ b!".") r := by
  have he : ∃ id, vs = ⟨m.values.getValues id, id⟩ := by
    simp only [PNode.argValues] at hv
    rw [Outcome.bind_eq_ok] at hv
    obtain ⟨id, _, h2⟩ := hv
    exact ⟨id, by simpa [eq_comm] using h2⟩
  obtain ⟨id, rfl⟩ := he
  by_cases hne : m.values.getValues id = []
  · left
    exact ⟨hne, by simp [ArgValues.asIntegers, ArgValues.empty, hne]⟩
  · right
    have hemp : (m.values.getValues id).isEmpty = false := by
      cases hl : m.values.getValues id with
      | nil => exact absurd hl hne
      | cons _ _ => rfl
    simp only [ArgValues.asIntegers, ArgValues.empty, hemp, Bool.false_eq_true, if_false]
    rcases integersLoop_cases d.settings parse ⟨m.values.getValues id, id⟩ (ArgValues.rawValues ⟨m.values.getValues id, id⟩) [] with ⟨xs, h1, h2⟩ | ⟨before, s, after, h1, h2, h3, h4⟩
    · refine Or.inl ⟨xs, hne, ?_, h2⟩
      simp only [ArgValues.rawValues] at h1
      clear h2 hemp hne
      generalize m.values.getValues id = l at h1
      induction l generalizing xs with
      | nil => cases h1; exact .nil
      | cons x l ih =>
        rw [List.map_cons] at h1
        cases h1 with
        | cons a b => exact .cons a (ih _ b)
    · right
      obtain ⟨b', c', e, e1, e2⟩ := List.map_eq_append_iff.mp h1
      obtain ⟨⟨s', a⟩, c'', e3, e4, e5⟩ := List.map_eq_cons_iff.mp e2
      simp only at e4
      subst e4
      refine ⟨b', s', a, c'', _, ?_, ?_, h3, h4, reported_for h hx hp hr hw hne _⟩
      · rw [← e3]; exact e
      · intro b hb
        exact h2 b.1 (by rw [← e1]; exact List.mem_map.mpr ⟨b, hb, rfl⟩)

/-- The message about a value that has too few parts. -/
def partsMessage (verb s : Str) (min : Nat) (sep : UInt8) : Str :=
  b!"Invalid value: \"" ++ s ++ b!"\". Must " ++ verb ++ b!" at least " ++ decimalNat min ++ b!" values separated by \"" ++ [sep] ++ b!"\"."

theorem tooFewParts_eq (verb s : Str) (min : Nat) (sep : UInt8) : tooFewParts verb s min sep = partsMessage verb s min sep := by
  unfold tooFewParts partsMessage
  rw [natToStr_eq]

/-- **C68**: splitting a value gives its parts; an error message says that the value has too few, exactly when it has, and names the argument
or option that gave the value. -/
theorem C68_split {d0 d : ParserData} (h : finishInitialization d0 = .ok d) (hx : Exclusive d.command) {env : Env} (hp : env.Passive)
    {args : List Str} {rs : List IterResult} {n : PNode} (hr : Returns env d args rs .done n) {m : PNode} (hw : m.Within n)
    {name : Str} {v : ArgValue} (hv : m.value name = .ok v) (sep : UInt8) (min max : Nat) (hmax : 1 ≤ max) :
    (v.value = none ∧ v.split d.settings sep min max = (.ok ⟨[], v.valueId⟩, none)) ∨
    (∃ s parts, v.value = some s ∧ IsSplit s sep max parts ∧ min ≤ parts.length ∧
      v.split d.settings sep min max = (.ok ⟨parts.map (·, v.argumentId), v.valueId⟩, none)) ∨
    ∃ s r, v.value = some s ∧ Nat.min max (s.count sep + 1) < min ∧ v.split d.settings sep min max = (errorEnd d.settings, some r) ∧
      ∃ (t x : Tree (List Occ)), given d.command rs = some t ∧ x.Within t ∧ x.command = m.command ∧ ∃ occ ∈ x.data, ∃ w, Gives occ v.valueId s w ∧
        ∀ console texts, writeErrorMessageFor console texts d m.command r.message r.argumentId =
          writeErrorMessage console texts d m.command (calledFirst w ++ partsMessage b!"have" s min sep) := by
  have e : predSize max = max - 1 := by unfold predSize; rw [if_neg (by omega)]
  obtain ⟨val, id, a⟩ := v
  cases val with
  | none => exact Or.inl ⟨rfl, rfl⟩
  | some s =>
    right
    obtain ⟨hs1, hs2⟩ := C41_split_string s sep max hmax
    simp only [ArgValue.split, e]
    by_cases hlt : (splitString s sep (max - 1)).length < min
    · rw [if_pos hlt]
      refine Or.inr ⟨s, ⟨tooFewParts b!"have" s min sep, a⟩, rfl, by rw [hs2] at hlt; exact hlt, rfl, ?_⟩
      obtain ⟨t, x, h1, h2, h3, occ, ho, w, hg, hvw⟩ := C59_value h hx hp hr hw hv
      refine ⟨t, x, h1, h2, h3, occ, ho, w, hg, ?_⟩
      intro console texts
      rw [writeErrorMessageFor_view h (hr.within (ready_of_init h) hw) hvw, tooFewParts_eq]
    · rw [if_neg hlt]
      exact Or.inl ⟨s, _, rfl, hs1, by omega, rfl⟩

theorem valuesSplitLoop_cases (st : ParserSettings) (sep : UInt8) (min max : Nat) (hmax : 1 ≤ max) (vs : ArgValues) (l acc : List (Str × Nat)) :
    (∃ partss, Each (fun (v : Str × Nat) ps => IsSplit v.1 sep max ps ∧ min ≤ ps.length) l partss ∧
      vs.splitLoop st sep min max l acc = (.ok ⟨acc ++ (l.zip partss).flatMap (fun (v, ps) => ps.map (·, v.2)), vs.valueId⟩, none)) ∨
    ∃ before s a after, l = before ++ (s, a) :: after ∧ (∀ b ∈ before, min ≤ Nat.min max (b.1.count sep + 1)) ∧ Nat.min max (s.count sep + 1) < min ∧
      vs.splitLoop st sep min max l acc = (errorEnd st, some ⟨partsMessage b!"be" s min sep, commonArgumentId vs.values⟩) := by
  have e : predSize max = max - 1 := by unfold predSize; rw [if_neg (by omega)]
  induction l generalizing acc with
  | nil => exact Or.inl ⟨[], .nil, by simp [ArgValues.splitLoop]⟩
  | cons v l ih =>
    obtain ⟨s, a⟩ := v
    obtain ⟨hs1, hs2⟩ := C41_split_string s sep max hmax
    simp only [ArgValues.splitLoop, e]
    by_cases hlt : (splitString s sep (max - 1)).length < min
    · rw [if_pos hlt]
      refine Or.inr ⟨[], s, a, l, rfl, by simp, by rw [hs2] at hlt; exact hlt, ?_⟩
      rw [tooFewParts_eq]
      rfl
    · rw [if_neg hlt]
      rcases ih (acc ++ (splitString s sep (max - 1)).map (·, a)) with ⟨ps, h1, h2⟩ | ⟨before, s', a', after, h1, h2, h3, h4⟩
      · refine Or.inl ⟨_ :: ps, .cons ⟨hs1, by omega⟩ h1, ?_⟩
        rw [h2]
        simp
      · refine Or.inr ⟨(s, a) :: before, s', a', after, by rw [h1]; rfl, ?_, h3, h4⟩
        intro b hb
        rcases List.mem_cons.mp hb with rfl | hb
        · have : min ≤ (splitString s sep (max - 1)).length := by omega
          rw [hs2] at this
          exact this
        · exact h2 b hb

/-- **C68**: splitting several values gives all parts of all of them in order; an error message says which is the first that has too few parts,
and names the argument or option that gave the values if it is the same for all. -/
theorem C68_split_values {d0 d : ParserData} (h : finishInitialization d0 = .ok d) (hx : Exclusive d.command) {env : Env} (hp : env.Passive)
    {args : List Str} {rs : List IterResult} {n : PNode} (hr : Returns env d args rs .done n) {m : PNode} (hw : m.Within n)
    {name : Str} {vs : ArgValues} (hv : m.argValues name = .ok vs) (sep : UInt8) (min max : Nat) (hmax : 1 ≤ max) :
    (∃ partss, Each (fun (v : Str × Nat) ps => IsSplit v.1 sep max ps ∧ min ≤ ps.length) vs.values partss ∧
      vs.split d.settings sep min max = (.ok ⟨(vs.values.zip partss).flatMap (fun (v, ps) => ps.map (·, v.2)), vs.valueId⟩, none)) ∨
    ∃ before s a after r, vs.values = before ++ (s, a) :: after ∧ (∀ b ∈ before, min ≤ Nat.min max (b.1.count sep + 1)) ∧
      Nat.min max (s.count sep + 1) < min ∧ vs.split d.settings sep min max = (errorEnd d.settings, some r) ∧
      ReportedFor d m.command vs.values (partsMessage b!"be" s min sep) r := by
  have he : ∃ id, vs = ⟨m.values.getValues id, id⟩ := by
    simp only [PNode.argValues] at hv
    rw [Outcome.bind_eq_ok] at hv
    obtain ⟨id, _, h2⟩ := hv
    exact ⟨id, by simpa [eq_comm] using h2⟩
  obtain ⟨id, rfl⟩ := he
  rcases valuesSplitLoop_cases d.settings sep min max hmax ⟨m.values.getValues id, id⟩ (m.values.getValues id) [] with ⟨ps, h1, h2⟩ | ⟨before, s, a, after, h1, h2, h3, h4⟩
  · exact Or.inl ⟨ps, h1, h2⟩
  · exact Or.inr ⟨before, s, a, after, _, h1, h2, h3, h4, reported_for h hx hp hr hw (by rw [h1]; simp) _⟩

/-- The error message that is written when the values of the name are read as numbers. -/
def numbersMessage (d : ParserData) (name : Str) (n : PNode) : Option Str :=
  match n.argValues name with
  | .ok vs =>
    match (vs.asIntegers d.settings (parseInt · 10) []).2 with
    | some r =>
      match writeErrorMessageFor 60 (fun _ => []) d n.command r.message r.argumentId with
      | .ok f => some f.written
      | _ => none
    | none => none
  | _ => none

/-- The error message that is written when the value of the name is split into three. -/
def splitMessage (d : ParserData) (name : Str) (n : PNode) : Option Str :=
  match n.value name with
  | .ok v =>
    match (v.splitN d.settings c!"," 3).2 with
    | some r =>
      match writeErrorMessageFor 80 (fun _ => []) d n.command r.message r.argumentId with
      | .ok f => some f.written
      | _ => none
    | none => none
  | _ => none

/-- Two options that add to the same value, and an argument. -/
def numbersData : ParserData :=
  { command :=
      { name := b!"cli"
        options := [{ flags := [b!"-n", b!"--number"], argument := b!"N", operation := .append },
          { flags := [b!"-m"], argument := b!"N", operation := .append, alias_ := b!"-n" }]
        arguments := [{ name := b!"FILE" }] }
    settings := { autoExit := false, generateHelpOption := false } }

-- The conditions hold. The first wrong value is named, and the option if it is the only one that gave values; likewise for splitting.
example : ∃ d, finishInitialization numbersData = .ok d ∧ Exclusive d.command ∧
    parseTo (numbersMessage d b!"-n") Env.inert d [b!"-n", b!"1", b!"-n2", b!"f"] 9 = some none ∧
    parseTo (numbersMessage d b!"-n") Env.inert d [b!"-n", b!"1", b!"-n2x", b!"-nx", b!"f"] 9 =
      some (some b!"cli: -n, --number: Invalid value: 2x.\nUSAGE\n  cli [-n <N>] [-m <N>] <FILE>\n") ∧
    parseTo (numbersMessage d b!"-n") Env.inert d [b!"-n", b!"1", b!"-m2x", b!"f"] 9 =
      some (some b!"cli: Invalid value: 2x.\nUSAGE\n  cli [-n <N>] [-m <N>] <FILE>\n") ∧
    parseTo (splitMessage d b!"FILE") Env.inert d [b!"a,b"] 9 =
      some (some b!"cli: FILE: Invalid value: \"a,b\". Must have at least 3 values separated by \",\".\nUSAGE\n  cli [-n <N>] [-m <N>] <FILE>\n") := by
  have key : ∃ d, finishInitialization numbersData = .ok d ∧ (d.command.checkAll countsCheck 2 = true ∧
    parseTo (numbersMessage d b!"-n") Env.inert d [b!"-n", b!"1", b!"-n2", b!"f"] 9 = some none ∧
    parseTo (numbersMessage d b!"-n") Env.inert d [b!"-n", b!"1", b!"-n2x", b!"-nx", b!"f"] 9 =
      some (some b!"cli: -n, --number: Invalid value: 2x.\nUSAGE\n  cli [-n <N>] [-m <N>] <FILE>\n") ∧
    parseTo (numbersMessage d b!"-n") Env.inert d [b!"-n", b!"1", b!"-m2x", b!"f"] 9 =
      some (some b!"cli: Invalid value: 2x.\nUSAGE\n  cli [-n <N>] [-m <N>] <FILE>\n") ∧
    parseTo (splitMessage d b!"FILE") Env.inert d [b!"a,b"] 9 =
      some (some b!"cli: FILE: Invalid value: \"a,b\". Must have at least 3 values separated by \",\".\nUSAGE\n  cli [-n <N>] [-m <N>] <FILE>\n")) := by
    refine Outcome.exists_ok ?_
    decide +kernel
  obtain ⟨d, hd, h1, h2⟩ := key
  exact ⟨d, hd, (countsCheck_sound h1).1, h2⟩

/-! ## C69 -/

theorem ArgValues.collect_from (vs : ArgValues) (k : Nat) (hk : k ≤ vs.values.length) (fuel : Nat) (hf : vs.values.length - k < fuel) :
    ArgValues.Iter.collect fuel ⟨vs, k⟩ vs.end_ = .ok (vs.all.drop k) := by
  induction fuel generalizing k with
  | zero => omega
  | succ fuel ih =>
    unfold ArgValues.Iter.collect
    by_cases he : k = vs.values.length
    · subst he
      rw [if_pos (by rfl), List.drop_eq_nil_of_le (by simp [ArgValues.all])]
    · have hlt : k < vs.values.length := by omega
      rw [if_neg (by simpa [ArgValues.end_] using he)]
      have hall : vs.all.drop k = ⟨some vs.values[k].1, vs.valueId, vs.values[k].2⟩ :: vs.all.drop (k + 1) := by
        rw [List.drop_eq_getElem_cons (by simpa [ArgValues.all] using hlt)]
        simp [ArgValues.all]
      simp only [ArgValues.Iter.get, List.getElem?_eq_getElem hlt, Outcome.bind_ok, ArgValues.Iter.next, hlt, if_true]
      rw [ih (k + 1) (by omega) (by omega), hall]
      rfl

/-- **C69**: a loop from `begin()` to `end()` ends without undefined behaviour and sees exactly the values that `values()` returns, in their order. -/
theorem C69_loop (vs : ArgValues) (fuel : Nat) (hf : vs.size < fuel) : ArgValues.Iter.collect fuel vs.begin vs.end_ = .ok vs.all := by
  exact vs.collect_from 0 (by omega) fuel (by simp only [ArgValues.size] at hf; omega)

/-- **C69**: all functions of `ArgumentValues` agree: there are `size()` values, `empty()` and the conversion to `bool` say whether there are any;
`values()`, `operator[]`, `raw_values()` and `as_strings()` give the same strings in the same order, and each value there is one; `operator[]` throws
behind the last of them, but if there are none it gives an empty value for every index. -/
theorem C69_agree (vs : ArgValues) :
    vs.all.length = vs.size ∧ vs.rawValues.length = vs.size ∧ (vs.empty = true ↔ vs.size = 0) ∧ (vs.toBool = true ↔ 0 < vs.size) ∧
    (∀ i : Nat, vs.rawValues[i]? = (vs.all[i]?).bind fun v => v.value) ∧
    (∀ v ∈ vs.all, v.toBool = true ∧ v.valueId = vs.valueId ∧ ∀ s, v.value = some (v.asString s)) ∧
    (∀ (i : Nat) v, vs.all[i]? = some v → vs.value i = .ok v) ∧
    (∀ i : Nat, (0 < vs.size → vs.size ≤ i → vs.value i = .outOfRange) ∧ (vs.size = 0 → vs.value i = .ok ⟨none, vs.valueId, 0⟩)) ∧
    (∀ default, (0 < vs.size → vs.asStrings default = vs.rawValues) ∧ (vs.size = 0 → vs.asStrings default = default)) ∧
    ∀ default, (0 < vs.size → ∀ s, vs.asStrings default = vs.all.map (·.asString s)) := by
  obtain ⟨l, id⟩ := vs
  refine ⟨by simp [ArgValues.all, ArgValues.size], by simp [ArgValues.rawValues, ArgValues.size], by simp [ArgValues.empty, ArgValues.size],
    ?_, ?_, ?_, ?_, ?_, ?_, ?_⟩
  · simp only [ArgValues.toBool, ArgValues.size]
    cases l <;> simp
  · intro i
    simp only [ArgValues.rawValues, ArgValues.all, List.getElem?_map]
    cases l[i]? <;> rfl
  · intro v hv
    obtain ⟨p, _, rfl⟩ := List.mem_map.mp hv
    exact ⟨rfl, rfl, fun _ => rfl⟩
  · intro i v hv
    simp only [ArgValues.all, List.getElem?_map, Option.map_eq_some_iff] at hv
    obtain ⟨p, hp, rfl⟩ := hv
    have hne : l.isEmpty = false := by
      cases l with
      | nil => simp at hp
      | cons _ _ => rfl
    simp only [ArgValues.value, hne, Bool.false_eq_true, if_false, hp]
  · intro i
    cases l with
    | nil => simp [ArgValues.size, ArgValues.value]
    | cons x xs =>
      refine ⟨fun _ hi => ?_, fun h0 => by simp [ArgValues.size] at h0⟩
      simp only [ArgValues.value, List.isEmpty_cons, Bool.false_eq_true, if_false, List.getElem?_eq_none (show (x :: xs).length ≤ i from hi)]
  · intro default
    simp only [ArgValues.size, ArgValues.asStrings]
    cases l with
    | nil => simp
    | cons x xs => simp [ArgValues.rawValues]
  · intro default hs s
    simp only [ArgValues.size, ArgValues.asStrings] at hs ⊢
    cases l with
    | nil => simp at hs
    | cons x xs => simp [ArgValues.all, ArgValue.asString]

/-- **C69**: `split_n` gives exactly as many parts as asked for, or reports an error if the value has fewer. -/
theorem C69_split_n (st : ParserSettings) (v : ArgValue) {s : Str} (hs : v.value = some s) (sep : UInt8) (n : Nat) (hn : 1 ≤ n) :
    (n ≤ s.count sep + 1 ∧ ∃ parts, IsSplit s sep n parts ∧ parts.length = n ∧ v.splitN st sep n = (.ok ⟨parts.map (·, v.argumentId), v.valueId⟩, none)) ∨
    s.count sep + 1 < n ∧ v.splitN st sep n = (errorEnd st, some ⟨partsMessage b!"have" s n sep, v.argumentId⟩) := by
  have e : predSize n = n - 1 := by unfold predSize; rw [if_neg (by omega)]
  obtain ⟨val, id, a⟩ := v
  simp only at hs
  subst hs
  obtain ⟨hs1, hs2⟩ := C41_split_string s sep n hn
  simp only [ArgValue.splitN, ArgValue.split, e]
  by_cases hlt : (splitString s sep (n - 1)).length < n
  · rw [if_pos hlt, tooFewParts_eq]
    exact Or.inr ⟨by omega, rfl⟩
  · rw [if_neg hlt]
    exact Or.inl ⟨by omega, _, hs1, by omega, rfl⟩

/-- **C69**: `split_n` of several values gives that many parts of each of them in order, or reports the first that has fewer. -/
theorem C69_split_n_values (st : ParserSettings) (vs : ArgValues) (sep : UInt8) (n : Nat) (hn : 1 ≤ n) :
    (∃ partss, Each (fun (v : Str × Nat) ps => IsSplit v.1 sep n ps ∧ ps.length = n) vs.values partss ∧
      vs.splitN st sep n = (.ok ⟨(vs.values.zip partss).flatMap (fun (v, ps) => ps.map (·, v.2)), vs.valueId⟩, none)) ∨
    ∃ before s a after r, vs.values = before ++ (s, a) :: after ∧ (∀ b ∈ before, n ≤ b.1.count sep + 1) ∧ s.count sep + 1 < n ∧
      vs.splitN st sep n = (errorEnd st, some r) ∧ r.message = partsMessage b!"be" s n sep := by
  rcases valuesSplitLoop_cases st sep n n hn vs vs.values [] with ⟨ps, h1, h2⟩ | ⟨before, s, a, after, h1, h2, h3, h4⟩
  · refine Or.inl ⟨ps, ?_, h2⟩
    clear h2
    generalize vs.values = l at h1
    induction h1 with
    | nil => exact .nil
    | cons x _ ih => exact .cons ⟨x.1, Nat.le_antisymm x.1.bounded x.2⟩ ih
  · refine Or.inr ⟨before, s, a, after, _, h1, fun b hb => ?_, ?_, h4, rfl⟩
    · exact Nat.le_trans (h2 b hb) (Nat.min_le_right n (b.1.count sep + 1))
    · rcases Nat.le_total n (s.count sep + 1) with h | h
      · rw [show Nat.min n (s.count sep + 1) = n from Nat.min_eq_left h] at h3
        omega
      · rwa [show Nat.min n (s.count sep + 1) = s.count sep + 1 from Nat.min_eq_right h] at h3

-- Three parts of four, the last one with the separator in it; too few; and of several values.
example : let v : ArgValue := ⟨some b!"a,b,c,d", 1, 2⟩
    v.splitN {} c!"," 3 = (.ok ⟨[(b!"a", 2), (b!"b", 2), (b!"c,d", 2)], 1⟩, none) ∧ (v.splitN {} c!"," 5).2.isSome ∧
    (⟨[(b!"a,b", 2), (b!"c,d", 2)], 1⟩ : ArgValues).splitN {} c!"," 2 = (.ok ⟨[(b!"a", 2), (b!"b", 2), (b!"c", 2), (b!"d", 2)], 1⟩, none) := by
  decide

/-- **C69**: the numbers of several values are the numbers of each of them; there is an error exactly if there is one for some value. -/
theorem C69_integers (st : ParserSettings) {α : Type} (parse : Str → Option α) (vs : ArgValues) (hne : 0 < vs.size) (default : List α) (default1 : α) :
    (∀ xs, (vs.asIntegers st parse default).1 = .ok xs ↔ Each (fun v x => (v.asInteger st parse default1).1 = .ok x) vs.all xs) ∧
    ((vs.asIntegers st parse default).1 = errorEnd st ↔ ∃ v ∈ vs.all, (v.asInteger st parse default1).1 = errorEnd st) := by
  have hemp : vs.empty = false := by
    have := (C69_agree vs).2.2.1
    cases he : vs.empty with
    | false => rfl
    | true => have := this.mp he; omega
  have hfail : ∀ {β : Type} (x : β), (errorEnd st : Outcome β) ≠ .ok x := by
    intro β x; unfold errorEnd; split <;> simp
  have h1 : ∀ (s : Str) (a : Nat) (x : α), ((⟨some s, vs.valueId, a⟩ : ArgValue).asInteger st parse default1).1 = .ok x ↔ parse s = some x := by
    intro s a x
    simp only [ArgValue.asInteger]
    cases hp : parse s with
    | none => exact ⟨fun e => absurd e (hfail x), fun e => by simp at e⟩
    | some y => simp
  have h2 : ∀ (s : Str) (a : Nat), ((⟨some s, vs.valueId, a⟩ : ArgValue).asInteger st parse default1).1 = errorEnd st ↔ parse s = none := by
    intro s a
    simp only [ArgValue.asInteger]
    cases hp : parse s with
    | none => exact ⟨fun _ => rfl, fun _ => rfl⟩
    | some y => simpa using fun e => hfail y e.symm
  have heach : ∀ (l : List (Str × Nat)) (xs : List α), Each (fun s x => parse s = some x) (l.map fun (v, _) => v) xs ↔
      Each (fun v x => (ArgValue.asInteger st parse default1 v).1 = .ok x) (l.map fun (v, a) => ⟨some v, vs.valueId, a⟩) xs := by
    intro l
    induction l with
    | nil => intro xs; constructor <;> (intro h; cases h; exact .nil)
    | cons p l ih =>
      obtain ⟨s, a⟩ := p
      intro xs
      simp only [List.map_cons]
      constructor
      · intro h
        cases h with
        | cons a b => exact .cons ((h1 _ _ _).mpr a) ((ih _).mp b)
      · intro h
        cases h with
        | cons a b => exact .cons ((h1 _ _ _).mp a) ((ih _).mpr b)
  have hdet : ∀ {l : List Str} {xs ys : List α}, Each (fun s x => parse s = some x) l xs → Each (fun s x => parse s = some x) l ys → xs = ys := by
    intro l xs ys h
    induction h generalizing ys with
    | nil => intro h'; cases h'; rfl
    | cons a _ ih =>
      intro h'
      cases h' with
      | cons a' b' => rw [ih b', Option.some.inj (a.symm.trans a')]
  simp only [ArgValues.asIntegers, hemp, Bool.false_eq_true, if_false]
  rcases integersLoop_cases st parse vs vs.rawValues [] with ⟨xs, g1, g2⟩ | ⟨before, s, after, g1, g2, g3, g4⟩
  · rw [g2]
    constructor
    · intro ys
      simp only [List.nil_append, Outcome.ok.injEq]
      unfold ArgValues.all
      rw [← heach]
      exact ⟨fun e => e ▸ g1, fun e => hdet g1 e⟩
    · constructor
      · intro e; exact absurd e.symm (hfail _)
      · rintro ⟨v, hv, hvf⟩
        obtain ⟨⟨s, a⟩, hp, rfl⟩ := List.mem_map.mp hv
        have hn := (h2 s a).mp hvf
        have : ∀ {l : List Str} {xs : List α}, Each (fun s x => parse s = some x) l xs → s ∈ l → False := by
          intro l xs h
          induction h with
          | nil => simp
          | cons hr _ ih =>
            intro hm
            rcases List.mem_cons.mp hm with rfl | hm
            · rw [hn] at hr; simp at hr
            · exact ih hm
        exact (this g1 (List.mem_map.mpr ⟨(s, a), hp, rfl⟩)).elim
  · rw [g4]
    constructor
    · intro ys
      refine ⟨fun e => absurd e (hfail _), ?_⟩
      unfold ArgValues.all
      rw [← heach]
      intro he
      have : ∀ {l : List Str} {xs : List α}, Each (fun s x => parse s = some x) l xs → s ∈ l → False := by
        intro l xs h
        induction h with
        | nil => simp
        | cons hr _ ih =>
          intro hm
          rcases List.mem_cons.mp hm with rfl | hm
          · rw [g3] at hr; simp at hr
          · exact ih hm
      exact (this he (by have : s ∈ vs.rawValues := by rw [g1]; simp
                         exact this)).elim
    · refine ⟨fun _ => ?_, fun _ => rfl⟩
      have : s ∈ vs.rawValues := by rw [g1]; simp
      obtain ⟨⟨s', a⟩, hp, e⟩ := List.mem_map.mp this
      simp only at e
      subst e
      exact ⟨_, List.mem_map.mpr ⟨(s', a), hp, rfl⟩, (h2 s' a).mpr g3⟩

/-- **C69**: a name that has a value has it in both forms: `value(name)` is the only one of `values(name)`, and there is none in both or
in neither of them. -/
theorem C69_single {d0 d : ParserData} (h : finishInitialization d0 = .ok d) {env : Env} {args : List Str} {rs : List IterResult} {last : IterResult}
    {n : PNode} (hr : Returns env d args rs last n) {m : PNode} (hw : m.Within n) {name : Str} {v : ArgValue} {vs : ArgValues}
    (hv : m.value name = .ok v) (hvs : m.argValues name = .ok vs) :
    v.toBool = vs.toBool ∧ (v.toBool = true → vs.all = [v]) ∧ vs.size ≤ 1 ∧ ∀ default, [v.asString default] = vs.asStrings [default] := by
  have hok := hr.treeOk (ready_of_init h) m hw
  simp only [PNode.argValues] at hvs
  rw [Outcome.bind_eq_ok] at hvs
  obtain ⟨id, hid, h2⟩ := hvs
  have e : vs = ⟨m.values.getValues id, id⟩ := by simpa [eq_comm] using h2
  subst e
  obtain ⟨l, g1, _, g3, g4, g5, _⟩ := C17_agree m hok.values name id hid
  simp only [PNode.valuesOf, hid, Outcome.bind_ok, Outcome.pure_eq, Outcome.ok.injEq] at g1
  rw [g1]
  match l with
  | [] =>
    have := g3.mp rfl
    rw [hv, Outcome.ok.injEq] at this
    subst this
    exact ⟨rfl, by simp [ArgValue.toBool], by simp [ArgValues.size], fun _ => rfl⟩
  | [(s, a)] =>
    have := (g4 s a).mp rfl
    rw [hv, Outcome.ok.injEq] at this
    subst this
    exact ⟨rfl, fun _ => rfl, by simp [ArgValues.size], fun _ => rfl⟩
  | x :: y :: zs =>
    obtain ⟨k, hk⟩ := g5.mp (by simp)
    rw [hv] at hk
    simp at hk

-- Several values, one and none.
example : ∃ d, finishInitialization numbersData = .ok d ∧
    parseTo (fun n => match n.argValues b!"-n", n.argValues b!"FILE", n.value b!"FILE" with
      | .ok a, .ok b, .ok v => some (a.rawValues, a.size, a.asStrings [b!"x"], b.all == [v], (a.asIntegers d.settings (parseInt · 10) []).1 == .ok [1, 2])
      | _, _, _ => none) Env.inert d [b!"-n", b!"1", b!"-m2", b!"f"] 9 = some (some ([b!"1", b!"2"], 2, [b!"1", b!"2"], true, true)) ∧
    parseTo (fun n => match n.argValues b!"-n" with
      | .ok a => some (a.size, a.asStrings [b!"x"], a.all)
      | _ => none) Env.inert d [b!"f"] 9 = some (some (0, [b!"x"], [])) := by
  refine Outcome.exists_ok ?_
  decide +kernel

/-! ## C70 -/

theorem command_flagged {d0 d : ParserData} (h : finishInitialization d0 = .ok d) {c : Command} (hc : c.Within d.command) : c.Flagged := by
  intro o ho
  obtain ⟨hne, hf⟩ := flagged_of_init h hc o ho
  cases e : o.flags with
  | nil => exact absurd e hne
  | cons f fs => exact ⟨f, fs, rfl, hf f (by simp [e])⟩

/-- **C70**: `print` writes for each value of the given command all names of the arguments and options that have it, and all strings it consists of
in their order; then the unprocessed arguments, and the same for the sub-commands. -/
theorem C70_print {d0 d : ParserData} (h : finishInitialization d0 = .ok d) {env : Env} {args : List Str} {rs : List IterResult} {last : IterResult}
    {n : PNode} (hr : Returns env d args rs last n) {m : PNode} (hw : m.Within n) : Shows m m.print := by
  refine print_shows m fun k hk => command_flagged h (hr.within (ready_of_init h) ?_)
  clear hr
  induction hw with
  | self => exact hk
  | sub hm _ ih => exact .sub hm ih

/-- **C70**: what `print` should write is determined. -/
theorem C70_unique {n : PNode} {s t : Str} (hs : Shows n s) (ht : Shows n t) : s = t := shows_unique hs ht

-- Names that share a value are on one line.
example : ∃ d, finishInitialization numbersData = .ok d ∧
    parseTo PNode.print Env.inert d [b!"-n", b!"1", b!"-m2 x", b!"f"] 9 = some b!"FILE: \"f\"\n-n, --number, -m: \"1\" \"2 x\"\n" ∧
    parseTo PNode.print Env.inert d [b!"f"] 9 = some b!"FILE: \"f\"\n-n, --number, -m:\n" := by
  refine Outcome.exists_ok ?_
  decide +kernel

-- Sub-commands follow.
example : ∃ d, finishInitialization viewsData = .ok d ∧
    parseTo PNode.print Env.inert d [b!"-v", b!"add", b!"a", b!"b"] 9 =
      some b!"-v: \"1\"\n-C: \".\"\n--version:\n-h, --help:\n\nSubcommand: add\nFILE: \"a\" \"b\"\n-h, --help:\n" := by
  refine Outcome.exists_ok ?_
  decide +kernel

end Argos
