import Verif.Proofs.Regroup
import Verif.Proofs.InitTree
import Verif.Proofs.Select

/-!
# Parsers with other sub-commands: the initialisation
-/

namespace Argos

open Spec

theorem regrouped_name {new : Str → Prop} {c c' : Command} (h : Regrouped new c c') : c'.name = c.name := by cases h; rfl

/-- Every one of the sub-commands is still there. -/
theorem regrouped_there {new : Str → Prop} : {cs cs' : List Command} → RegroupedAll new cs cs' →
    (∀ x ∈ cs, ∃ x' ∈ cs', Regrouped new x x') ∧ ∀ x' ∈ cs', ∃ x ∈ cs, Regrouped new x x'
  | [], _, h => by cases h; simp
  | c :: cs, _, h => by
    cases h with
    | @cons _ c' _ cs' h1 h2 =>
      obtain ⟨k1, k2⟩ := regrouped_there h2
      constructor
      · intro x hx
        rcases List.mem_cons.mp hx with rfl | hx
        · exact ⟨c', by simp, h1⟩
        · obtain ⟨x', hx', h⟩ := k1 x hx
          exact ⟨x', by simp [hx'], h⟩
      · intro x hx
        rcases List.mem_cons.mp hx with rfl | hx
        · exact ⟨c, by simp, h1⟩
        · obtain ⟨x', hx', h⟩ := k2 x hx
          exact ⟨x', by simp [hx'], h⟩

theorem regrouped_isEmpty {new : Str → Prop} {c : Command} {same more all : List Command} (h1 : RegroupedAll new c.commands same)
    (h2 : c.commands = [] → more = []) (h3 : all.Perm (same ++ more)) : c.commands.isEmpty = all.isEmpty := by
  have hl := h3.length_eq
  cases hc : c.commands with
  | nil =>
    rw [hc] at h1
    cases h1
    have := h2 hc
    subst this
    simp only [List.append_nil, List.length_nil, List.length_eq_zero_iff] at hl
    rw [hl]
  | cons x l =>
    rw [hc] at h1
    cases h1
    cases all with
    | nil => simp at hl
    | cons _ _ => rfl

/-- The rest of a command depends on the sub-commands only by whether there are any. -/
theorem finishSelf_commands (s : ParserSettings) (fn : Str) (c : Command) (a b : Nat) {all : List Command} (he : c.commands.isEmpty = all.isEmpty) :
    (∀ f x y, finishSelf s fn c a b = .ok (f, x, y) → finishSelf s fn { c with commands := all } a b = .ok ({ f with commands := all }, x, y)) ∧
    (∀ f x y, finishSelf s fn { c with commands := all } a b = .ok (f, x, y) → ∃ f0, finishSelf s fn c a b = .ok (f0, x, y)) := by
  have hu : updateRequireCommand c.requireSubcommand c.commands = updateRequireCommand c.requireSubcommand all := by
    simp only [updateRequireCommand, he]
  constructor
  · intro f x y h
    simp only [finishSelf] at h ⊢
    rw [Outcome.bind_eq_ok] at h
    obtain ⟨opts, h1, h⟩ := h
    rw [Outcome.bind_eq_ok] at h
    obtain ⟨req, h2, h⟩ := h
    rw [Outcome.bind_eq_ok] at h
    obtain ⟨index, h3, h⟩ := h
    simp only [Outcome.pure_eq, Outcome.ok.injEq, Prod.mk.injEq] at h
    obtain ⟨rfl, rfl, rfl⟩ := h
    rw [hu] at h2
    rw [h1, Outcome.bind_ok, h2, Outcome.bind_ok, h3]
    rfl
  · intro f x y h
    simp only [finishSelf] at h ⊢
    rw [Outcome.bind_eq_ok] at h
    obtain ⟨opts, h1, h⟩ := h
    rw [Outcome.bind_eq_ok] at h
    obtain ⟨req, h2, h⟩ := h
    rw [Outcome.bind_eq_ok] at h
    obtain ⟨index, h3, h⟩ := h
    simp only [Outcome.pure_eq, Outcome.ok.injEq, Prod.mk.injEq] at h
    obtain ⟨rfl, rfl, rfl⟩ := h
    rw [← hu] at h2
    rw [h1, Outcome.bind_ok, h2, Outcome.bind_ok, h3]
    exact ⟨_, rfl⟩

theorem finishCommands_mem {s : ParserSettings} {pn : Str} {a b : Nat} {cs cs' : List Command} (h : finishCommands s pn a b cs = .ok cs') :
    (∀ c ∈ cs, ∃ c' ∈ cs', finishCommand s (pn ++ [32] ++ c.name) a b c = .ok c') ∧
    ∀ c' ∈ cs', ∃ c ∈ cs, finishCommand s (pn ++ [32] ++ c.name) a b c = .ok c' := by
  obtain ⟨hl, hg⟩ := finishCommands_get h
  constructor
  · intro c hc
    obtain ⟨i, hi⟩ := List.mem_iff_getElem?.mp hc
    obtain ⟨c', h1, h2⟩ := hg i c hi
    exact ⟨c', List.mem_of_getElem? h1, h2⟩
  · intro c' hc
    obtain ⟨i, hi⟩ := List.mem_iff_getElem?.mp hc
    have hlt : i < cs'.length := (List.getElem?_eq_some_iff.mp hi).1
    obtain ⟨c'', h1, h2⟩ := hg i cs[i] (by simp [hl ▸ hlt])
    rw [hi] at h1
    cases h1
    exact ⟨_, List.getElem_mem _, h2⟩

mutual
/-- What is accepted with more sub-commands is accepted with fewer. -/
theorem regroup_fewer {new : Str → Prop} (s : ParserSettings) : (c : Command) → ∀ {c' : Command}, Regrouped new c c' → ∀ {fn : Str} {a b : Nat} {f' : Command},
    finishCommand s fn a b c' = .ok f' → ∃ f, finishCommand s fn a b c = .ok f
  | ⟨arguments, options, commands, currentSection, name, fn0, texts, visibility, requireSubcommand, multiCommand, section_, id, argumentId, optionIndex⟩,
    c', h, fn, a, b, f', hf => by
    cases h with
    | @intro _ same more all h1 h2 h3 h4 =>
      obtain ⟨c1, x, y, cmds, k1, k2, -⟩ := finishCommand_ok hf
      obtain ⟨f0, k⟩ := (finishSelf_commands s fn _ a b (regrouped_isEmpty h1 h3 h4)).2 _ _ _ k1
      have hall := (finishCommands_mem k2).1
      obtain ⟨cmds0, k3⟩ := finishCommands_intro (s := s) (pn := name) (a := x) (b := y) (cs := commands)
        (regroup_fewerAll s commands h1 fun x' hx' => by
          obtain ⟨q, -, hq⟩ := hall x' (h4.mem_iff.mpr (by simp [hx']))
          exact ⟨q, hq⟩)
      exact ⟨_, finishCommand_intro k k3⟩
theorem regroup_fewerAll {new : Str → Prop} (s : ParserSettings) : (cs : List Command) → ∀ {cs' : List Command}, RegroupedAll new cs cs' → ∀ {pn : Str} {a b : Nat},
    (∀ x' ∈ cs', ∃ f', finishCommand s (pn ++ [32] ++ x'.name) a b x' = .ok f') → ∀ x ∈ cs, ∃ f, finishCommand s (pn ++ [32] ++ x.name) a b x = .ok f
  | [], _, _, _, _, _, _ => by simp
  | c :: cs, _, h, pn, a, b, hf => by
    cases h with
    | @cons _ c' _ cs' h1 h2 =>
      intro x hx
      rcases List.mem_cons.mp hx with e | hx
      · obtain ⟨f', hf'⟩ := hf c' (by simp)
        rw [regrouped_name h1] at hf'
        rw [e]
        exact regroup_fewer s c h1 hf'
      · exact regroup_fewerAll s cs h2 (fun x' hx' => hf x' (by simp [hx'])) x hx
end

mutual
/-- What is accepted in one order is accepted in the other. -/
theorem regroup_order {new : Str → Prop} (hnew : ∀ n, ¬ new n) (s : ParserSettings) : (c : Command) → ∀ {c' : Command}, Regrouped new c c' →
    ∀ {fn : Str} {a b : Nat} {f : Command}, finishCommand s fn a b c = .ok f → ∃ f', finishCommand s fn a b c' = .ok f'
  | ⟨arguments, options, commands, currentSection, name, fn0, texts, visibility, requireSubcommand, multiCommand, section_, id, argumentId, optionIndex⟩,
    c', h, fn, a, b, f, hf => by
    cases h with
    | @intro _ same more all h1 h2 h3 h4 =>
      obtain ⟨c1, x, y, cmds, k1, k2, -⟩ := finishCommand_ok hf
      have k := (finishSelf_commands s fn _ a b (regrouped_isEmpty h1 h3 h4)).1 _ _ _ k1
      have hall := (finishCommands_mem k2).1
      have hs := regroup_orderAll hnew s commands h1 (pn := name) (a := x) (b := y) fun x' hx' => by
          obtain ⟨q, -, hq⟩ := hall x' hx'
          exact ⟨q, hq⟩
      obtain ⟨cmds0, k3⟩ := finishCommands_intro (s := s) (pn := name) (a := x) (b := y) (cs := all) fun q hq => by
        rcases List.mem_append.mp (h4.mem_iff.mp hq) with hq | hq
        · exact hs q hq
        · exact absurd (h2 q hq) (hnew _)
      exact ⟨_, finishCommand_intro k k3⟩
theorem regroup_orderAll {new : Str → Prop} (hnew : ∀ n, ¬ new n) (s : ParserSettings) : (cs : List Command) → ∀ {cs' : List Command}, RegroupedAll new cs cs' →
    ∀ {pn : Str} {a b : Nat}, (∀ x ∈ cs, ∃ f, finishCommand s (pn ++ [32] ++ x.name) a b x = .ok f) →
    ∀ x' ∈ cs', ∃ f', finishCommand s (pn ++ [32] ++ x'.name) a b x' = .ok f'
  | [], _, h, _, _, _, _ => by cases h; simp
  | c :: cs, _, h, pn, a, b, hf => by
    cases h with
    | @cons _ c' _ cs' h1 h2 =>
      intro x hx
      rcases List.mem_cons.mp hx with rfl | hx
      · obtain ⟨f', hf'⟩ := hf c (by simp)
        rw [regrouped_name h1]
        exact regroup_order hnew s c h1 hf'
      · exact regroup_orderAll hnew s cs h2 (fun x' hx' => hf x' (by simp [hx'])) x hx
end

theorem finishCommand_name {s : ParserSettings} {fn : Str} {a b : Nat} {c f : Command} (h : finishCommand s fn a b c = .ok f) : f.name = c.name := by
  obtain ⟨c1, x, y, cmds, k1, k2, rfl⟩ := finishCommand_ok h
  obtain ⟨_, _, _, _, _, _, _, k, _⟩ := finishSelf_ok k1
  exact k

/-- Elements with different keys. -/
theorem find?_unique {α : Type} {q : α → Bool} {l : List α} {x : α} (hx : x ∈ l) (hq : q x = true) (hu : ∀ y ∈ l, q y = true → y = x) : l.find? q = some x := by
  cases h : l.find? q with
  | none => exact absurd hq (by simpa using List.find?_eq_none.mp h x hx)
  | some y => rw [hu y (List.mem_of_find?_eq_some h) (List.find?_some h)]

/-- Commands with different names are found by their names. -/
theorem found_after {s : ParserSettings} {pn : Str} {a b : Nat} {cs cs' : List Command} (h : finishCommands s pn a b cs = .ok cs') {ci : Bool}
    (hd : cs.Pairwise fun x y => ¬ SameFlag ci x.name y.name) {x : Command} (hx : x ∈ cs) {name : Str} (hn : areEqual x.name name ci = true) :
    ∃ f, findCommand cs' name ci = some f ∧ finishCommand s (pn ++ [32] ++ x.name) a b x = .ok f := by
  induction cs generalizing cs' with
  | nil => simp at hx
  | cons c cs ih =>
    unfold finishCommands at h
    rw [Outcome.bind_eq_ok] at h
    obtain ⟨c1, h1, h⟩ := h
    rw [Outcome.bind_eq_ok] at h
    obtain ⟨cs1, h2, h⟩ := h
    simp only [Outcome.pure_eq, Outcome.ok.injEq] at h
    subst h
    rw [List.pairwise_cons] at hd
    simp only [findCommand, List.find?_cons, finishCommand_name h1]
    rcases List.mem_cons.mp hx with rfl | hx
    · rw [hn]
      exact ⟨c1, rfl, h1⟩
    · have hne : areEqual c.name name ci = false := by
        cases he : areEqual c.name name ci with
        | false => rfl
        | true =>
          refine absurd ?_ (hd.1 x hx)
          rw [sameFlag_key, (areEqual_key _ _ _).mp he, (areEqual_key _ _ _).mp hn]
      rw [hne]
      exact ih h2 hd.2 hx

mutual
theorem regroup_kin {p : Prop} {new : Str → Prop} {W : Str → Prop} (s : ParserSettings)
    (hW : ∀ w, W w → ∀ n, new n → areEqual n w s.caseInsensitive = false) : (c : Command) → ∀ {c' : Command}, Regrouped new c c' →
    ∀ {fn : Str} {a b : Nat} {f f' : Command}, finishCommand s fn a b c = .ok f → finishCommand s fn a b c' = .ok f' →
    (∀ x : Command, x.Within c' → DifferentNames s.caseInsensitive x) →
    (p → ∀ x : Command, x.Within c → x.multiCommand = false ∧ (x.commands ≠ [] → x.arguments = [])) → Kin p s.caseInsensitive W f f'
  | ⟨arguments, options, commands, currentSection, name, fn0, texts, visibility, requireSubcommand, multiCommand, section_, id, argumentId, optionIndex⟩,
    c', h, fn, a, b, f, f', hf, hf', hd, hp => by
    cases h with
    | @intro _ same more all h1 h2 h3 h4 =>
      obtain ⟨c1, x, y, cmds, k1, k2, rfl⟩ := finishCommand_ok hf
      obtain ⟨c1', x', y', cmds', k1', k2', rfl⟩ := finishCommand_ok hf'
      have he := regrouped_isEmpty h1 h3 h4
      have k := (finishSelf_commands s fn _ a b he).1 _ _ _ k1
      rw [k1'] at k
      simp only [Outcome.ok.injEq, Prod.mk.injEq] at k
      obtain ⟨rfl, rfl, rfl⟩ := k
      obtain ⟨m1, m2⟩ := finishCommands_mem k2
      obtain ⟨m1', m2'⟩ := finishCommands_mem k2'
      obtain ⟨t1, t2⟩ := regrouped_there h1
      have hl := (finishCommands_get k2).1
      have hl' := (finishCommands_get k2').1
      have hdall := hd _ .self
      simp only [DifferentNames] at hdall
      have key := regroup_kinAll (p := p) s hW commands h1
        (fun x' hx' z hz => hd z (.sub (h4.mem_iff.mpr (List.mem_append.mpr (.inl hx'))) hz))
        (fun q x' hx' z hz => hp q z (.sub hx' hz))
      refine .intro rfl ?_ ?_ ?_ ?_
      · show cmds.isEmpty = cmds'.isEmpty
        simp only at he hl hl'
        rw [Bool.eq_iff_iff] at he ⊢
        simp only [List.isEmpty_iff_length_eq_zero] at he ⊢
        omega
      · intro w
        cases hfd : findCommand cmds w s.caseInsensitive with
        | none => exact .none
        | some g =>
          obtain ⟨q, hq, hqf⟩ := m2 g (List.mem_of_find?_eq_some hfd)
          have hqn := List.find?_some hfd
          rw [finishCommand_name hqf] at hqn
          obtain ⟨q', hq', hqq, hk⟩ := key q hq
          obtain ⟨g', hg', hgf⟩ := found_after k2' hdall (x := q') (h4.mem_iff.mpr (List.mem_append.mpr (.inl hq'))) (name := w) (by rw [regrouped_name hqq]; exact hqn)
          refine Eq.mpr (congrArg _ hg') (Finds.some (hk hqf ?_))
          rw [regrouped_name hqq] at hgf
          exact hgf
      · intro w hw hfd
        cases hfd' : findCommand cmds' w s.caseInsensitive with
        | none => rfl
        | some g =>
          obtain ⟨q, hq, hqf⟩ := m2' g (List.mem_of_find?_eq_some hfd')
          have hqn := List.find?_some hfd'
          rw [finishCommand_name hqf] at hqn
          rcases List.mem_append.mp (h4.mem_iff.mp hq) with hq | hq
          · obtain ⟨q0, hq0, hqq⟩ := t2 q hq
            obtain ⟨g0, hg0, hgf0⟩ := m1 q0 hq0
            have := List.find?_eq_none.mp hfd g0 hg0
            rw [finishCommand_name hgf0, ← regrouped_name hqq] at this
            exact absurd hqn this
          · rw [hW w hw _ (h2 q hq)] at hqn
            cases hqn
      · intro hpp
        obtain ⟨e1, e2⟩ := hp hpp _ .self
        obtain ⟨opts, _, _, ⟨a1, _⟩, _, _, _, _, _, _, _, a2, _⟩ := finishSelf_ok k1
        refine ⟨a2.trans e1, fun hc => ?_⟩
        have hc' : commands ≠ [] := by
          rintro rfl
          simp only [List.length_nil, List.length_eq_zero_iff] at hl
          exact hc hl
        have e3 : arguments = [] := e2 hc'
        show c1.arguments = []
        rw [a1]
        simp only [e3, setArgIds]
theorem regroup_kinAll {p : Prop} {new : Str → Prop} {W : Str → Prop} (s : ParserSettings)
    (hW : ∀ w, W w → ∀ n, new n → areEqual n w s.caseInsensitive = false) : (cs : List Command) → ∀ {cs' : List Command}, RegroupedAll new cs cs' →
    (∀ x' ∈ cs', ∀ x : Command, x.Within x' → DifferentNames s.caseInsensitive x) →
    (p → ∀ x' ∈ cs, ∀ x : Command, x.Within x' → x.multiCommand = false ∧ (x.commands ≠ [] → x.arguments = [])) →
    ∀ x ∈ cs, ∃ x' ∈ cs', Regrouped new x x' ∧ ∀ {fn : Str} {a b : Nat} {f f' : Command}, finishCommand s fn a b x = .ok f → finishCommand s fn a b x' = .ok f' →
      Kin p s.caseInsensitive W f f'
  | [], _, _, _, _ => by simp
  | c :: cs, _, h, hd, hp => by
    cases h with
    | @cons _ c' _ cs' h1 h2 =>
      intro x hx
      rcases List.mem_cons.mp hx with e | hx
      · rw [e]
        exact ⟨c', by simp, h1, fun e e' => regroup_kin s hW c h1 e e' (hd c' (by simp)) fun q => hp q c (by simp)⟩
      · obtain ⟨x', hx', k1, k2⟩ := regroup_kinAll s hW cs h2 (fun x' hx' => hd x' (by simp [hx'])) (fun q x' hx' => hp q x' (by simp [hx'])) x hx
        exact ⟨x', by simp [hx'], k1, k2⟩
end

/-- The commands that are completed are related too. -/
theorem regrouped_version {new : Str → Prop} {d0 : ParserData} {c' : Command} (hr : Regrouped new d0.command c') :
    ∃ fn o, (∀ f, finishCommand d0.settings fn 0 0 { d0.command with options := o } = .ok f ↔ finishInitialization d0 = .ok { d0 with command := f }) ∧
      (∀ f, finishCommand d0.settings fn 0 0 { c' with options := o } = .ok f ↔
        finishInitialization { d0 with command := c' } = .ok { d0 with command := f }) ∧
      Regrouped new { d0.command with options := o } { c' with options := o } := by
  refine ⟨if d0.command.fullName.isEmpty then d0.command.name else d0.command.fullName,
    addVersionOption d0.command.options d0.command.currentSection d0.version d0.settings, ?_, ?_, ?_⟩
  · intro f
    simp only [finishInitialization]
    generalize finishCommand _ _ _ _ _ = r
    cases r with
    | ok g =>
      show Outcome.ok g = .ok f ↔ Outcome.ok { d0 with command := g } = .ok { d0 with command := f }
      constructor
      · intro e; cases e; rfl
      · intro e
        simp only [Outcome.ok.injEq, ParserData.mk.injEq] at e ⊢
        simpa using e
    | _ => simp [bind, Outcome.bind]
  · intro f
    cases hr with
    | @intro _ same more all h1 h2 h3 h4 =>
      simp only [finishInitialization]
      generalize finishCommand _ _ _ _ _ = r
      cases r with
      | ok g =>
        show Outcome.ok g = .ok f ↔ Outcome.ok { d0 with command := g } = .ok { d0 with command := f }
        constructor
        · intro e; cases e; rfl
        · intro e
          simp only [Outcome.ok.injEq, ParserData.mk.injEq] at e ⊢
          simpa using e
      | _ => simp [bind, Outcome.bind]
  · cases hr with
    | @intro _ same more all h1 h2 h3 h4 => exact .intro { d0.command with options := _ } h1 h2 h3 h4

theorem within_options {c x : Command} {o : List OptData} (h : x.Within { c with options := o }) :
    x = { c with options := o } ∨ x.Within c := by
  cases h with
  | self => exact .inl rfl
  | sub ht hx => exact .inr (.sub (root := c) ht hx)

theorem init_data {d0 d : ParserData} (h : finishInitialization d0 = .ok d) : d = { d0 with command := d.command } := by
  simp only [finishInitialization] at h
  rw [Outcome.bind_eq_ok] at h
  obtain ⟨c, _, h⟩ := h
  simp only [Outcome.pure_eq, Outcome.ok.injEq] at h
  subst h
  rfl

theorem init_kin {p : Prop} {new : Str → Prop} {W : Str → Prop} {d0 d d' : ParserData} {c' : Command} (hr : Regrouped new d0.command c')
    (hW : ∀ w, W w → ∀ n, new n → areEqual n w d0.settings.caseInsensitive = false) (h : finishInitialization d0 = .ok d)
    (h' : finishInitialization { d0 with command := c' } = .ok d') (hd : ∀ x : Command, x.Within c' → DifferentNames d0.settings.caseInsensitive x)
    (hp : p → ∀ x : Command, x.Within d0.command → x.multiCommand = false ∧ (x.commands ≠ [] → x.arguments = [])) :
    Kin p d0.settings.caseInsensitive W d.command d'.command := by
  obtain ⟨fn, o, k1, k2, k3⟩ := regrouped_version hr
  have e := init_data h
  have e' := init_data h'
  rw [e] at h
  rw [e'] at h'
  refine regroup_kin d0.settings hW _ k3 ((k1 _).mpr h) ((k2 _).mpr h') ?_ ?_
  · intro x hx
    rcases within_options hx with rfl | hx
    · exact hd c' .self
    · exact hd x hx
  · intro q x hx
    rcases within_options hx with rfl | hx
    · exact hp q d0.command .self
    · exact hp q x hx

end Argos
