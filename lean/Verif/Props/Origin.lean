import Verif.Spec.Origin
import Verif.Props.Occurrences
import Verif.Props.World

/-! # The name of the program and the origin of values: C58, C59 -/

set_option synthInstance.maxSize 1000

namespace Argos
open Spec Parser

/-! ## C58 -/

/-- **C58**: the base name of a path is its last part. -/
theorem C58_base_name (s : Str) : IsBaseName s (getBaseName s) := by
  unfold getBaseName
  have hsep : ∀ c : UInt8, (c != c!"/" && c != c!"\\") = true ↔ ¬ IsSeparator c := by
    intro c; simp [IsSeparator]
  refine ⟨?_, ?_⟩
  · intro c hc
    rw [List.mem_reverse] at hc
    exact (hsep c).mp (List.all_eq_true.mp List.all_takeWhile c hc)
  · generalize hp : (fun c : UInt8 => c != c!"/" && c != c!"\\") = p
    have h1 := List.takeWhile_append_dropWhile (p := p) (l := s.reverse)
    cases hd : s.reverse.dropWhile p with
    | nil =>
      rw [hd, List.append_nil] at h1
      left
      rw [h1, List.reverse_reverse]
    | cons c t =>
      right
      refine ⟨t.reverse, c, ?_, ?_⟩
      · have : ¬ p c = true := by
          have := List.head?_dropWhile_not p s.reverse
          rw [hd] at this
          simpa using this
        rw [← hp] at this
        rw [hsep] at this
        exact Classical.not_not.mp this
      · rw [hd] at h1
        have := congrArg List.reverse h1
        rw [List.reverse_reverse, List.reverse_append] at this
        simpa using this.symm

/-- **C58**: a path has one base name. -/
theorem C58_base_name_unique {s b b' : Str} (h : IsBaseName s b) (h' : IsBaseName s b') : b = b' := by
  have key : ∀ {b b' : Str}, IsBaseName s b → IsBaseName s b' → b'.length ≤ b.length := by
    intro b b' h h'
    obtain ⟨n1, h1⟩ := h
    obtain ⟨n2, h2⟩ := h'
    have s1 : b <:+ s := by
      rcases h1 with rfl | ⟨p, c, _, rfl⟩
      · exact List.suffix_refl _
      · exact ⟨p ++ [c], by simp⟩
    have s2 : b' <:+ s := by
      rcases h2 with rfl | ⟨p, c, _, rfl⟩
      · exact List.suffix_refl _
      · exact ⟨p ++ [c], by simp⟩
    rcases h1 with rfl | ⟨p, c, hc, e⟩
    · exact s2.length_le
    · refine Nat.le_of_not_lt fun hlt => ?_
      have hcb : c :: b <:+ s := ⟨p, e.symm⟩
      have : c :: b <:+ b' := List.suffix_of_suffix_length_le hcb s2 (by rw [List.length_cons]; omega)
      exact n2 c (this.subset (by simp)) hc
  have s1 : b <:+ s := by
    rcases h.2 with e | ⟨p, c, _, e⟩
    · rw [e]; exact List.suffix_refl _
    · exact ⟨p ++ [c], by simp [e]⟩
  have s2 : b' <:+ s := by
    rcases h'.2 with e | ⟨p, c, _, e⟩
    · rw [e]; exact List.suffix_refl _
    · exact ⟨p ++ [c], by simp [e]⟩
  have l1 := key h h'
  have l2 := key h' h
  exact (List.suffix_of_suffix_length_le s1 s2 l2).eq_of_length (by omega)

theorem finishInitialization_name {d d' : ParserData} (h : finishInitialization d = .ok d') : d'.command.name = d.command.name := by
  obtain ⟨_, _, _, fn, c, h1, rfl⟩ := finishInitialization_ok h
  obtain ⟨c1, x, y, cmds, h2, _, e⟩ := finishCommand_ok h1
  rw [e]
  obtain ⟨_, _, _, _, _, _, _, hn, _⟩ := finishSelf_ok h2
  exact hn

theorem parseArguments_name {env : Env} {fuel : Nat} {d : ParserData} {args : List Str} {n : PNode} {o : Option PState}
    (h : parseArguments env fuel d args = (.ok (some n), o)) : n.command.name = d.command.name := by
  unfold parseArguments at h
  split at h
  · rename_i d' hd
    obtain ⟨rs, last, hpp, htl⟩ := parse_returns (s' := (parse env d' args fuel).2) (n := n) (by rw [← (Prod.mk.inj h).1])
    have hret : Returns env d' args rs last n := ⟨_, hpp, htl⟩
    rw [hret.command (ready_of_init hd), finishInitialization_name hd]
  all_goals simp at h

/-- **C58** (what holds): `parse(argc, argv)` of a parser without a name takes the base name of `argv[0]`; a name that was given is
kept. Missing: a const parser and `make_iterator`, see `C58_violated`. -/
theorem C58_program_name_partial {env : Env} {fuel : Nat} {d : ParserData} {arg0 : Str} {rest : List Str} {n : PNode} {o : Option PState}
    (h : (ParserHandle.parseMain env fuel (some d) (arg0 :: rest)).1 = (.ok (some n), o)) :
    (d.command.name = b!"UNINITIALIZED" → arg0 ≠ [] → IsBaseName arg0 n.command.name) ∧
    (d.command.name ≠ b!"UNINITIALIZED" → n.command.name = d.command.name) := by
  simp only [ParserHandle.parseMain, ParserHandle.parse] at h
  have := parseArguments_name h
  constructor
  · intro h1 h2
    rw [this, if_pos ⟨h1, h2⟩]
    exact C58_base_name arg0
  · intro h1
    rw [this, if_neg (fun hc => h1 hc.1)]

/-- **C58**: the name given to the constructor is the name of the program; its base name if that is asked for. -/
theorem C58_constructor (env : Env) (fuel : Nat) (w : World) (i : Nat) (name : Str) (extract : Bool) :
    ∃ d, ((w.exec env fuel (.newParser i name extract)).2.parsers i) = some d ∧
      (if extract then IsBaseName name d.command.name else d.command.name = name) := by
  refine ⟨_, by simp [World.exec, setAt]; rfl, ?_⟩
  cases extract
  · simp
  · simpa using C58_base_name name

-- Both kinds of separator, a path without one, and a path that ends with one.
example : (getBaseName b!"/usr/bin/prog", getBaseName b!"c:\\a/b\\prog.exe", getBaseName b!"prog", getBaseName b!"dir/") =
    (b!"prog", b!"prog.exe", b!"prog", []) := by decide

-- The program is named after `argv[0]`.
example : rootName (ParserHandle.parseMain Env.inert 9 (some versionData) [b!"/bin/prog"]).1 = some b!"prog" := by decide +kernel

/-- **C58** is violated by a const parser and by iterators: the name stays "UNINITIALIZED". -/
theorem C58_violated :
    rootName (ParserHandle.parseMainConst Env.inert 9 (some versionData) [b!"/bin/prog"]) = some b!"UNINITIALIZED" ∧
    ∃ s, (ParserHandle.makeIteratorMain (some versionData) [b!"/bin/prog"]).1 = .ok s ∧ s.command.name = b!"UNINITIALIZED" := by
  refine ⟨by decide +kernel, Outcome.exists_ok ?_⟩
  decide +kernel

/-! ## C59 -/

theorem gives_of_mem {occs : List Occ} {id : Nat} {v : Str} {a : Nat} (h : (v, a) ∈ valuesOf occs id) :
    ∃ x ∈ occs, ∃ w, Gives x id v w ∧ w.argumentId = a := by
  induction occs using list_reverse_ind with
  | h0 => simp [valuesOf, runWrites] at h
  | h1 l x ih =>
    have old : (v, a) ∈ valuesOf l id → ∃ y ∈ l ++ [x], ∃ w, Gives y id v w ∧ w.argumentId = a := by
      intro hm
      obtain ⟨y, hy, w, hw⟩ := ih hm
      exact ⟨y, by simp [hy], w, hw⟩
    rw [valuesOf_snoc] at h
    have hxm : x ∈ l ++ [x] := by simp
    cases x with
    | initial o =>
      simp only [Occ.writes] at h
      split at h
      · exact old h
      · rename_i hne
        simp only [List.foldl_cons, List.foldl_nil, Write.run] at h
        split at h
        · rename_i he
          subst he
          rcases List.mem_append.mp h with h | h
          · exact old h
          · simp only [List.mem_singleton, Prod.mk.injEq] at h
            obtain ⟨rfl, rfl⟩ := h
            exact ⟨_, hxm, _, .initial hne, rfl⟩
        · exact old h
    | option o u =>
      have new : ∀ (hop : o.operation = .assign ∨ o.operation = .append), id = o.valueId → (v, a) = (if o.constant = [] then u else o.constant, o.argumentId) →
          ∃ y ∈ l ++ [.option o u], ∃ w, Gives y id v w ∧ w.argumentId = a := by
        intro hop e1 e2
        subst e1
        simp only [Prod.mk.injEq] at e2
        obtain ⟨e2, rfl⟩ := e2
        by_cases hc : o.constant = []
        · rw [if_pos hc] at e2; subst e2; exact ⟨_, hxm, _, .value hop hc, rfl⟩
        · rw [if_neg hc] at e2; subst e2; exact ⟨_, hxm, _, .constant hop hc, rfl⟩
      simp only [Occ.writes] at h
      cases hop : o.operation with
      | assign =>
        simp only [hop, List.foldl_cons, List.foldl_nil, Write.run] at h
        split at h
        · rename_i he
          exact new (Or.inl hop) he (List.mem_singleton.mp h)
        · exact old h
      | append =>
        simp only [hop, List.foldl_cons, List.foldl_nil, Write.run] at h
        split at h
        · rename_i he
          rcases List.mem_append.mp h with h | h
          · exact old h
          · exact new (Or.inr hop) he (List.mem_singleton.mp h)
        · exact old h
      | clear =>
        simp only [hop, List.foldl_cons, List.foldl_nil, Write.run] at h
        split at h
        · simp at h
        · exact old h
      | none => simp only [hop, List.foldl_nil] at h; exact old h
    | argument b u =>
      simp only [Occ.writes, List.foldl_cons, List.foldl_nil, Write.run] at h
      split at h
      · rename_i he
        subst he
        rcases List.mem_append.mp h with h | h
        · exact old h
        · simp only [List.mem_singleton, Prod.mk.injEq] at h
          obtain ⟨rfl, rfl⟩ := h
          exact ⟨_, hxm, _, .argument, rfl⟩
      · exact old h
    | unknown s => simp only [Occ.writes, List.foldl_nil] at h; exact old h

/-- **C59**: every value that can be retrieved, from any given command, was given to that command by an occurrence of an option or
argument (or is an initial value), and the definition that the value reports is the one of that option or argument. -/
theorem C59_origin {d0 d : ParserData} (h : finishInitialization d0 = .ok d) (hx : Exclusive d.command) {env : Env} (hp : env.Passive)
    {args : List Str} {rs : List IterResult} {n : PNode} (hr : Returns env d args rs .done n) {m : PNode} (hw : m.Within n)
    {id : Nat} {v : Str} {a : Nat} (hm : (v, a) ∈ m.values.getValues id) :
    ∃ (t x : Tree (List Occ)), given d.command rs = some t ∧ x.Within t ∧ x.command = m.command ∧
      ∃ occ ∈ x.data, ∃ w, Gives occ id v w ∧ getArgumentView m.command a = some w := by
  obtain ⟨t, h3, h4⟩ := C32_values h hp hr
  have hrd := ready_of_init h
  have hwc := hr.within hrd hw
  obtain ⟨s', hps, htop⟩ := hr
  obtain ⟨t'', h5, h6⟩ := hps.own hp hrd hx
  rw [h3, Option.some.injEq] at h5
  subst h5
  have hwt := PNode.within_tree hw
  rw [h4] at hwt
  obtain ⟨⟨c, l, ts⟩, hx1, hx2⟩ := Tree.within_map hwt
  rw [Tree.map_node] at hx2
  obtain ⟨mc, mi, mv, mu, mcode, mstop, msubs⟩ := m
  simp only [PNode.tree, Tree.node.injEq] at hx2
  obtain ⟨e1, e2, _⟩ := hx2
  subst e1
  have hown := h6 _ hx1
  have e3 : mv.getValues id = valuesOf l id := congrFun e2 id
  have hm' : (v, a) ∈ valuesOf l id := by rw [← e3]; exact hm
  obtain ⟨occ, ho, w, hg, rfl⟩ := gives_of_mem hm'
  refine ⟨t, _, h3, hx1, rfl, occ, ho, w, hg, ?_⟩
  obtain ⟨va, vo, _⟩ := C20_view h (c := mc) hwc
  have hof := hown occ ho
  cases hg with
  | initial _ => exact vo _ hof
  | value _ _ => exact vo _ hof
  | constant _ _ => exact vo _ hof
  | argument => exact va _ hof

/-- **C59**: `value(name)` reports the definition of the option or argument that gave the value. -/
theorem C59_value {d0 d : ParserData} (h : finishInitialization d0 = .ok d) (hx : Exclusive d.command) {env : Env} (hp : env.Passive)
    {args : List Str} {rs : List IterResult} {n : PNode} (hr : Returns env d args rs .done n) {m : PNode} (hw : m.Within n)
    {name v : Str} {id a : Nat} (hv : m.value name = .ok ⟨some v, id, a⟩) :
    ∃ (t x : Tree (List Occ)), given d.command rs = some t ∧ x.Within t ∧ x.command = m.command ∧
      ∃ occ ∈ x.data, ∃ w, Gives occ id v w ∧ getArgumentView m.command a = some w := by
  have hok := hr.treeOk (ready_of_init h) m hw
  have hid : getValueId m.ids name = .ok id := by
    unfold PNode.value at hv
    rw [Outcome.bind_eq_ok] at hv
    obtain ⟨i, h1, h2⟩ := hv
    rw [Outcome.bind_eq_ok] at h2
    obtain ⟨r, _, h3⟩ := h2
    rw [h1]
    cases r with
    | none => simp at h3
    | some p => simp only [Outcome.pure_eq, Outcome.ok.injEq, ArgValue.mk.injEq] at h3; rw [h3.2.1]
  obtain ⟨l, h1, _, _, h2, _⟩ := C17_agree m hok.values name id hid
  have hl := (h2 v a).mpr hv
  refine C59_origin h hx hp hr hw (id := id) (v := v) (a := a) ?_
  simp only [PNode.valuesOf, hid, Outcome.bind_ok, Outcome.pure_eq, Outcome.ok.injEq] at h1
  rw [h1, hl]
  simp

/-- **C59**: the definition named in an error about several values is the one that all of them have in common; there is none if they
have different ones. -/
theorem C59_common (vs : List (Str × Nat)) (a : Nat) (ha : a ≠ 0) :
    commonArgumentId vs = a ↔ vs ≠ [] ∧ ∀ v ∈ vs, v.2 = a := by
  cases vs with
  | nil => simp [commonArgumentId]; omega
  | cons x xs =>
    obtain ⟨s, b⟩ := x
    simp only [commonArgumentId]
    by_cases hb : xs.all (fun v => v.2 == b) = true
    · rw [if_pos hb]
      simp only [List.all_eq_true, beq_iff_eq] at hb
      constructor
      · rintro rfl
        refine ⟨by simp, ?_⟩
        intro v hv
        rcases List.mem_cons.mp hv with rfl | hv
        · rfl
        · exact hb v hv
      · intro h2
        exact h2.2 (s, b) (by simp)
    · rw [if_neg hb]
      constructor
      · intro e; exact absurd e.symm ha
      · intro h2
        refine absurd ?_ hb
        simp only [List.all_eq_true, beq_iff_eq]
        intro v hv
        rw [h2.2 v (by simp [hv]), ← h2.2 (s, b) (by simp)]

/-- Two options that share a value, and an argument. -/
def originData : ParserData :=
  { command :=
      { name := b!"cli"
        options := [{ flags := [b!"--level"], argument := b!"N", initialValue := b!"1" },
          { flags := [b!"-q"], constant := b!"0", alias_ := b!"--level" }]
        arguments := [{ name := b!"FILE" }] }
    settings := { autoExit := false, generateHelpOption := false } }

/-- The flags of the option, or the name of the argument, that the value reports. -/
def originOf (n : PNode) (name : Str) : Option (List Str) :=
  match n.value name with
  | .ok r => (getArgumentView n.command r.argumentId).map fun w => match w with
    | .arg a => [a.name]
    | .opt o => o.flags
  | _ => none

-- The conditions hold; an initial value, a constant through an alias and an argument report where they are from.
example : ∃ d, finishInitialization originData = .ok d ∧ Exclusive d.command ∧
    parseTo (fun n => (originOf n b!"--level", originOf n b!"FILE")) Env.inert d [b!"a"] 9 = some (some [b!"--level"], some [b!"FILE"]) ∧
    parseTo (fun n => (originOf n b!"--level", originOf n b!"FILE")) Env.inert d [b!"-q", b!"a"] 9 = some (some [b!"-q"], some [b!"FILE"]) := by
  have key : ∃ d, finishInitialization originData = .ok d ∧ (d.command.checkAll countsCheck 2 = true ∧
      parseTo (fun n => (originOf n b!"--level", originOf n b!"FILE")) Env.inert d [b!"a"] 9 = some (some [b!"--level"], some [b!"FILE"]) ∧
      parseTo (fun n => (originOf n b!"--level", originOf n b!"FILE")) Env.inert d [b!"-q", b!"a"] 9 = some (some [b!"-q"], some [b!"FILE"])) := by
    refine Outcome.exists_ok ?_
    decide +kernel
  obtain ⟨d, hd, h1, h2⟩ := key
  exact ⟨d, hd, (countsCheck_sound h1).1, h2⟩

/-- The flags or the name of a view. -/
def labelsOf : View → List Str
  | .arg a => [a.name]
  | .opt o => o.flags

/-- **C59**: the definitions that `values(name).arguments()` lists are the arguments and options of the command that share the value, and
the definition that gave a value is always among them. -/
theorem C59_views {d0 d : ParserData} (h : finishInitialization d0 = .ok d) (hx : Exclusive d.command) {env : Env} (hp : env.Passive)
    {args : List Str} {rs : List IterResult} {n : PNode} (hr : Returns env d args rs .done n) {m : PNode} (hw : m.Within n) (id : Nat) :
    getArgumentViews m.command id = (m.command.arguments.map View.arg ++ m.command.options.map View.opt).filter (fun w => w.valueId = id) ∧
    ∀ v a, (v, a) ∈ m.values.getValues id → ∃ w ∈ getArgumentViews m.command id, getArgumentView m.command a = some w ∧ w.argumentId = a := by
  have e : getArgumentViews m.command id = (m.command.arguments.map View.arg ++ m.command.options.map View.opt).filter (fun w => w.valueId = id) := by
    rw [List.filter_append, List.filter_map, List.filter_map]
    rfl
  refine ⟨e, ?_⟩
  intro v a hm
  obtain ⟨_, _, _, _, _, occ, _, w, hg, hv⟩ := C59_origin h hx hp hr hw hm
  have hwid : w.valueId = id := by cases hg <;> rfl
  have hmem : w ∈ m.command.arguments.map View.arg ++ m.command.options.map View.opt ∧ w.argumentId = a := by
    unfold getArgumentView at hv
    split at hv
    · rename_i x hx'
      simp only [Option.some.injEq] at hv
      subst hv
      have := List.find?_some hx'
      exact ⟨by simp [List.mem_of_find?_eq_some hx'], by simpa [View.argumentId] using this⟩
    · rw [Option.map_eq_some_iff] at hv
      obtain ⟨o, ho, rfl⟩ := hv
      have := List.find?_some ho
      exact ⟨by simp [List.mem_of_find?_eq_some ho], by simpa [View.argumentId] using this⟩
  refine ⟨w, ?_, hv, hmem.2⟩
  rw [e, List.mem_filter]
  exact ⟨hmem.1, by simp [hwid]⟩

/-- The values of a name, and the flags or names of all that share them. -/
def sharedBy (n : PNode) (name : Str) : List (Str × Nat) × List (List Str) :=
  match getValueId n.ids name with
  | .ok id => (n.values.getValues id, (getArgumentViews n.command id).map labelsOf)
  | _ => ([], [])

-- Both options of the example share the value, and they are listed for it.
example : ∃ d, finishInitialization originData = .ok d ∧
    parseTo (fun n => sharedBy n b!"-q") Env.inert d [b!"-q", b!"a"] 9 = some ([(b!"0", 4)], [[b!"--level"], [b!"-q"]]) := by
  refine Outcome.exists_ok ?_
  decide +kernel

/-- The same for `value(view)`, with the view of the option number `i`. -/
def originOfView (n : PNode) (i : Nat) : Option (Option Str × List Str) :=
  match n.command.options[i]? with
  | some o =>
    match n.valueView (.opt o) with
    | .ok r => (getArgumentView n.command r.argumentId).map fun w => match w with
      | .arg a => (r.value, [a.name])
      | .opt o => (r.value, o.flags)
    | _ => none
  | none => none

/-- **C59** is violated by `value(view)`: the value was given by `-q` but the reported definition is the one of `--level`, so an error
about the value blames an option that wasn't given. -/
theorem C59_violated : ∃ d, finishInitialization originData = .ok d ∧
    parseTo (fun n => (originOfView n 0, originOf n b!"--level")) Env.inert d [b!"-q", b!"a"] 9 =
      some (some (some b!"0", [b!"--level"]), some [b!"-q"]) := by
  refine Outcome.exists_ok ?_
  decide +kernel

end Argos
