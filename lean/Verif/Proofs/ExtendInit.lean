import Verif.Proofs.ExtendParse

/-!
# Additional options keep the declared ones as they are
-/

namespace Argos

open Spec

/-! ## Numbers of values when the first number is another one -/

/-- The makers know the same names with values that differ by the same amount. -/
structure Shifted (a a' : Nat) (m m' : IdMaker) : Prop where
  ids : Each (fun p p' => p.1 = p'.1 ∧ p'.2 + a = p.2 + a') m.ids m'.ids
  id : m'.id + a = m.id + a'

variable {a a' : Nat} {m m' : IdMaker}

theorem Shifted.find (h : Shifted a a' m m') (n : Str) :
    (m.find n = none ∧ m'.find n = none) ∨ ∃ v v', m.find n = some v ∧ m'.find n = some v' ∧ v' + a = v + a' := by
  have key : ∀ {l l' : List (Str × Nat)}, Each (fun p p' => p.1 = p'.1 ∧ p'.2 + a = p.2 + a') l l' →
      (l.lookup n = none ∧ l'.lookup n = none) ∨ ∃ v v', l.lookup n = some v ∧ l'.lookup n = some v' ∧ v' + a = v + a' := by
    intro l l' hl
    induction hl with
    | nil => exact .inl ⟨rfl, rfl⟩
    | @cons p p' l l' h1 _ ih =>
      obtain ⟨k, v⟩ := p
      obtain ⟨k', v'⟩ := p'
      obtain ⟨e, hv⟩ := h1
      simp only at e hv
      subst e
      simp only [List.lookup_cons]
      cases n == k with
      | true => exact .inr ⟨v, v', rfl, rfl, hv⟩
      | false => exact ih
  exact key h.ids

theorem Shifted.emplace (h : Shifted a a' m m') (n : Str) {v v' : Nat} (hv : v' + a = v + a') : Shifted a a' (m.emplace n v) (m'.emplace n v') := by
  unfold IdMaker.emplace
  rcases h.find n with ⟨e, e'⟩ | ⟨w, w', e, e', _⟩
  · rw [e, e']
    exact ⟨Each.append h.ids (.cons ⟨rfl, hv⟩ .nil), h.id⟩
  · rw [e, e']
    exact h

theorem Shifted.emplaceAll (ns : List Str) {v v' : Nat} (hv : v' + a = v + a') : ∀ {m m' : IdMaker}, Shifted a a' m m' →
    Shifted a a' (m.emplaceAll ns v) (m'.emplaceAll ns v') := by
  induction ns with
  | nil => intro m m' h; exact h
  | cons n ns ih => intro m m' h; exact ih (h.emplace n hv)

theorem Shifted.next (h : Shifted a a' m m') : Shifted a a' { m with id := m.id + 1 } { m' with id := m'.id + 1 } :=
  ⟨h.ids, by have := h.id; simp only; omega⟩

theorem Shifted.getValueId (h : Shifted a a' m m') (n : Str) :
    (m'.getValueId n).1 + a = (m.getValueId n).1 + a' ∧ Shifted a a' (m.getValueId n).2 (m'.getValueId n).2 := by
  unfold IdMaker.getValueId
  have hid := h.id
  rcases h.find n with ⟨e, e'⟩ | ⟨w, w', e, e', hw⟩
  · rw [e, e']
    exact ⟨by simp only; omega, h.next.emplace n (by omega)⟩
  · rw [e, e']
    exact ⟨hw, h⟩

theorem Shifted.findSome (h : Shifted a a' m m') (ns : List Str) :
    (ns.findSome? m.find = none ∧ ns.findSome? m'.find = none) ∨ ∃ v v', ns.findSome? m.find = some v ∧ ns.findSome? m'.find = some v' ∧ v' + a = v + a' := by
  induction ns with
  | nil => exact .inl ⟨rfl, rfl⟩
  | cons n ns ih =>
    simp only [List.findSome?_cons]
    rcases h.find n with ⟨e, e'⟩ | ⟨w, w', e, e', hw⟩
    · rw [e, e']; exact ih
    · rw [e, e']; exact .inr ⟨w, w', rfl, rfl, hw⟩

theorem Shifted.getValueIds (h : Shifted a a' m m') (ns : List Str) :
    (m'.getValueIds ns).1 + a = (m.getValueIds ns).1 + a' ∧ Shifted a a' (m.getValueIds ns).2 (m'.getValueIds ns).2 := by
  unfold IdMaker.getValueIds
  have hid := h.id
  rcases h.findSome ns with ⟨e, e'⟩ | ⟨w, w', e, e', hw⟩
  · rw [e, e']
    exact ⟨by simp only; omega, Shifted.emplaceAll ns (by omega) h.next⟩
  · rw [e, e']
    exact ⟨hw, h⟩

theorem shifted_args (as : List ArgData) : ∀ {n n' : Nat} {m m' : IdMaker}, Shifted a a' m m' →
    Each (fun x x' => plainArg x = plainArg x' ∧ x'.valueId + a = x.valueId + a') (setArgIds as n m).1 (setArgIds as n' m').1 ∧
      Shifted a a' (setArgIds as n m).2.2 (setArgIds as n' m').2.2 := by
  induction as with
  | nil => intro n n' m m' h; exact ⟨.nil, h⟩
  | cons x as ih =>
    intro n n' m m' h
    obtain ⟨p, hs, hp⟩ : ∃ f : IdMaker → Nat × IdMaker, (f m').1 + a = (f m).1 + a' ∧ Shifted a a' (f m).2 (f m').2 ∧
        f = fun m => if !x.alias_.isEmpty then ((m.getValueId x.alias_).1, (m.getValueId x.alias_).2.emplace x.name (m.getValueId x.alias_).1) else m.getValueId x.name := by
      refine ⟨_, ?_, ?_, rfl⟩
      · split
        · exact (h.getValueId _).1
        · exact (h.getValueId _).1
      · split
        · exact (h.getValueId _).2.emplace _ (h.getValueId _).1
        · exact (h.getValueId _).2
    obtain ⟨hp, he⟩ := hp
    have e : ∀ n m, setArgIds (x :: as) n m = ({ x with argumentId := n + 1, valueId := (p m).1 } :: (setArgIds as (n + 1) (p m).2).1, (setArgIds as (n + 1) (p m).2).2.1,
        (setArgIds as (n + 1) (p m).2).2.2) := by
      intro n m
      subst he
      rfl
    rw [e, e]
    obtain ⟨i1, i2⟩ := ih (n := n + 1) (n' := n' + 1) hp
    exact ⟨.cons ⟨rfl, hs⟩ i1, i2⟩

theorem shifted_opts (os : List OptData) : ∀ {n n' : Nat} {m m' : IdMaker}, Shifted a a' m m' →
    Each (fun x x' => plainOpt x = plainOpt x' ∧ (x.operation ≠ .none → x'.valueId + a = x.valueId + a')) (setOptIds os n m).1 (setOptIds os n' m').1 ∧
      Shifted a a' (setOptIds os n m).2.2 (setOptIds os n' m').2.2 := by
  induction os with
  | nil => intro n n' m m' h; exact ⟨.nil, h⟩
  | cons x os ih =>
    intro n n' m m' h
    by_cases hop : x.operation = .none
    · have e : ∀ n m, setOptIds (x :: os) n m = ({ x with argumentId := n + 1 } :: (setOptIds os (n + 1) m).1, (setOptIds os (n + 1) m).2.1, (setOptIds os (n + 1) m).2.2) := by
        intro n m
        simp only [setOptIds, if_pos hop]
      rw [e, e]
      obtain ⟨i1, i2⟩ := ih (n := n + 1) (n' := n' + 1) h
      exact ⟨.cons ⟨rfl, fun k => absurd hop k⟩ i1, i2⟩
    · obtain ⟨p, hs, hp⟩ : ∃ f : IdMaker → Nat × IdMaker, (f m').1 + a = (f m).1 + a' ∧ Shifted a a' (f m).2 (f m').2 ∧
          f = fun m => if !x.alias_.isEmpty then ((m.getValueId x.alias_).1, (m.getValueId x.alias_).2.emplaceAll x.flags (m.getValueId x.alias_).1) else m.getValueIds x.flags := by
        refine ⟨_, ?_, ?_, rfl⟩
        · split
          · exact (h.getValueId _).1
          · exact (h.getValueIds _).1
        · split
          · exact Shifted.emplaceAll _ (h.getValueId _).1 (h.getValueId _).2
          · exact (h.getValueIds _).2
      obtain ⟨hp, he⟩ := hp
      have e : ∀ n m, setOptIds (x :: os) n m = ({ x with argumentId := n + 1, valueId := (p m).1 } :: (setOptIds os (n + 1) (p m).2).1, (setOptIds os (n + 1) (p m).2).2.1,
          (setOptIds os (n + 1) (p m).2).2.2) := by
        intro n m
        subst he
        simp only [setOptIds, if_neg hop]
      rw [e, e]
      obtain ⟨i1, i2⟩ := ih (n := n + 1) (n' := n' + 1) hp
      exact ⟨.cons ⟨rfl, fun _ => hs⟩ i1, i2⟩

theorem setOptIds_append (xs ys : List OptData) (n : Nat) (m : IdMaker) :
    (setOptIds (xs ++ ys) n m).1 = (setOptIds xs n m).1 ++ (setOptIds ys (setOptIds xs n m).2.1 (setOptIds xs n m).2.2).1 := by
  induction xs generalizing n m with
  | nil => rfl
  | cons x xs ih =>
    by_cases hop : x.operation = .none
    · simp only [List.cons_append, setOptIds, if_pos hop, ih]
    · simp only [List.cons_append, setOptIds, if_neg hop, ih]

/-! ## One command -/

/-- What is needed of an additional option, also if it is a generated one. -/
structure Joinable (ci : Bool) (as : List ArgData) (os all : List OptData) (x : OptData) : Prop where
  optional : x.optional = true
  equals : ∀ g ∈ x.flags, ∀ f ∈ flagsOf os, ¬ SameFlag ci g (f ++ b!"=")
  initial : x.initialValue = [] ∨ (x.operation ≠ .none ∧ x.alias_ = [] ∧
    ∀ f ∈ x.flags, (∀ a ∈ as, a.name ≠ f ∧ a.alias_ ≠ f) ∧ ∀ o ∈ all, aliasOf o.alias_ ≠ some f)

theorem noEquals {ci : Bool} {g f : Str} (hg : g.getLast? ≠ some c!"=") : ¬ SameFlag ci g (f ++ b!"=") := by
  intro h
  apply hg
  unfold SameFlag at h
  cases ci with
  | false =>
    simp only [Bool.false_eq_true, if_false] at h
    rw [h, List.getLast?_append]
    rfl
  | true =>
    simp only [if_true, foldCase, List.map_append] at h
    have e := congrArg List.getLast? h
    rw [List.getLast?_map, List.getLast?_append] at e
    cases hl : g.getLast? with
    | none => rw [hl] at e; simp at e
    | some b =>
      rw [hl] at e
      simp only [Option.map_some, List.map_cons, List.map_nil, List.getLast?_singleton, Option.some_or, Option.some.injEq] at e
      have key : ∀ b : UInt8, foldByte b = foldByte 61 → b = 61 := forall_byte (by decide +kernel)
      rw [key b e]

theorem pairwise_same {α : Type} {R : α → α → Prop} {l : List α} (h : l.Pairwise R) {x y : α} (hx : x ∈ l) (hy : y ∈ l) (h1 : ¬ R x y) (h2 : ¬ R y x) : x = y := by
  induction h with
  | nil => simp at hx
  | @cons z l hz _ ih =>
    rcases List.mem_cons.mp hx with hx | hx
    · rcases List.mem_cons.mp hy with hy | hy
      · rw [hx, hy]
      · rw [hx] at h1
        exact absurd (hz y hy) h1
    · rcases List.mem_cons.mp hy with hy | hy
      · rw [hy] at h2
        exact absurd (hz x hx) h2
      · exact ih hx hy

theorem Fine.distinct {s : ParserSettings} {c : Command} (h : Fine s c) : DistinctFlags s.caseInsensitive c.options :=
  (distinct_pairs _ _).mpr (buildOptionIndex_ok _ _ _ h.keys h.ready.index).2.2

theorem Fine.same_option {s : ParserSettings} {c : Command} (h : Fine s c) {o p : OptData} (ho : o ∈ c.options) (hp : p ∈ c.options) {f : Str} (h1 : f ∈ o.flags)
    (h2 : f ∈ p.flags) : o = p := by
  have hd := (buildOptionIndex_ok _ _ _ h.keys h.ready.index).2.2
  have m : ∀ {o : OptData}, o ∈ c.options → f ∈ o.flags → (f, o) ∈ flagPairs c.options := by
    intro o ho hf
    exact List.mem_flatMap.mpr ⟨o, ho, List.mem_map.mpr ⟨f, hf, rfl⟩⟩
  have := pairwise_same hd (m ho h1) (m hp h2) (by simp) (by simp)
  exact congrArg Prod.snd this

/-- What the additional options of an initialised command are like. -/
theorem joinable_core {ci : Bool} {as : List ArgData} {os all : List OptData} {x x' : OptData} (h : Joinable ci as os all x) (e : x'.core = x.core) :
    Joinable ci as os all x' := by
  have e1 : x'.optional = x.optional := by have := congrArg OptData.optional e; exact this
  have e2 : x'.flags = x.flags := by have := congrArg OptData.flags e; exact this
  have e3 : x'.initialValue = x.initialValue := by have := congrArg OptData.initialValue e; exact this
  have e4 : x'.operation = x.operation := by have := congrArg OptData.operation e; exact this
  have e5 : x'.alias_ = x.alias_ := by have := congrArg OptData.alias_ e; exact this
  exact ⟨by rw [e1]; exact h.optional, by rw [e2]; exact h.equals, by rw [e2, e3, e4, e5]; exact h.initial⟩

theorem joinable_all {ci : Bool} {as : List ArgData} {os all all' : List OptData} {x : OptData} (h : Joinable ci as os all x)
    (e : ∀ o ∈ all', aliasOf o.alias_ = none ∨ ∃ p ∈ all, o.alias_ = p.alias_) : Joinable ci as os all' x := by
  refine ⟨h.optional, h.equals, ?_⟩
  rcases h.initial with h0 | ⟨h1, h2, h3⟩
  · exact .inl h0
  · refine .inr ⟨h1, h2, fun f hf => ⟨(h3 f hf).1, fun o ho => ?_⟩⟩
    rcases e o ho with e | ⟨p, hp, e⟩
    · rw [e]; simp
    · rw [e]; exact (h3 f hf).2 p hp

/-- An additional option with an initial value has a value of its own. -/
theorem fresh_value {s : ParserSettings} {c : Command} (hf : Fine s c) {os gs : List OptData} (ho : c.options = os ++ gs) {x : OptData}
    (hx : x ∈ gs) (hop : x.operation ≠ .none) (hal : x.alias_ = []) (hargs : ∀ f ∈ x.flags, ∀ a ∈ c.arguments, a.name ≠ f ∧ a.alias_ ≠ f)
    (hopts : ∀ f ∈ x.flags, ∀ o ∈ c.options, aliasOf o.alias_ ≠ some f) {i : Item} (hi : i ∈ items c) (hv : i.valueId = x.valueId) :
    i = ⟨x.flags, none, x.valueId⟩ := by
  have hxc : x ∈ c.options := by rw [ho]; exact List.mem_append_right _ hx
  have hX : (⟨x.flags, none, x.valueId⟩ : Item) ∈ items c := by
    have := option_item hxc hop
    rw [hal] at this
    exact this
  have hconn := hf.sound _ hX i hi hv.symm
  clear hi hv
  induction hconn with
  | refl _ => rfl
  | @step j k _ hk hs ih =>
    subst ih
    obtain ⟨n, h1, h2⟩ := hs
    have h1 : n ∈ x.flags := by simpa [Item.names] using h1
    rcases List.mem_append.mp hk with hk | hk
    · obtain ⟨a, ha, rfl⟩ := List.mem_map.mp hk
      obtain ⟨k1, k2⟩ := hargs n h1 a ha
      exfalso
      simp only [Item.names, List.cons_append, List.nil_append, List.mem_cons] at h2
      rcases h2 with e | h2
      · exact k1 e.symm
      · unfold aliasOf at h2
        split at h2
        · simp at h2
        · simp at h2
          exact k2 h2.symm
    · obtain ⟨o, ho', rfl⟩ := List.mem_map.mp hk
      have hoc := (List.mem_filter.mp ho').1
      simp only [Item.names] at h2
      rcases List.mem_append.mp h2 with h2 | h2
      · have e := hf.same_option hxc hoc h1 h2
        subst e
        rw [hal]
        rfl
      · exfalso
        refine hopts n h1 o hoc ?_
        simpa using h2

/-- What is known of generated options. -/
structure Generated (x : OptData) : Prop where
  ends : EndsParsing x
  initial : x.initialValue = []
  optional : x.optional = true
  alias_ : x.alias_ = []
  flags : ∀ g ∈ x.flags, g.getLast? ≠ some c!"="

theorem Generated.joinable {x : OptData} (h : Generated x) (ci : Bool) (as : List ArgData) (os all : List OptData) : Joinable ci as os all x :=
  ⟨h.optional, fun g hg _ _ => noEquals (h.flags g hg), .inl h.initial⟩

theorem addHelp_generated (os : List OptData) (sec : Str) (s : ParserSettings) : ∃ hs, addHelpOption os sec s = os ++ hs ∧ ∀ x ∈ hs, Generated x := by
  rcases addHelpOption_cases os sec s with e | ⟨_, _, _, e⟩
  · exact ⟨[], by rw [e, List.append_nil], by simp⟩
  · refine ⟨_, e, ?_⟩
    intro x hx
    rw [List.mem_singleton.mp hx]
    refine ⟨.inl rfl, rfl, rfl, rfl, ?_⟩
    simp only [helpFlags]
    intro g hg
    have : g = b!"-h" ∨ g = b!"--help" ∨ g = b!"/?" ∨ g = b!"-help" := by
      revert hg
      cases s.optionStyle <;> (simp only; repeat' split) <;> simp <;> grind
    rcases this with rfl | rfl | rfl | rfl <;> decide

theorem addVersion_generated (os : List OptData) (sec v : Str) (s : ParserSettings) : ∃ hs, addVersionOption os sec v s = os ++ hs ∧ ∀ x ∈ hs, Generated x := by
  rcases addVersionOption_cases os sec v s with e | ⟨_, _, e⟩
  · exact ⟨[], by rw [e, List.append_nil], by simp⟩
  · refine ⟨_, e, ?_⟩
    intro x hx
    rw [List.mem_singleton.mp hx]
    refine ⟨.inr (.inr rfl), rfl, rfl, rfl, ?_⟩
    intro g hg
    rw [List.mem_singleton.mp hg]
    cases s.optionStyle <;> decide

theorem mem_setOptIds {os : List OptData} {n : Nat} {m : IdMaker} {x : OptData} (h : x ∈ (setOptIds os n m).1) : ∃ y ∈ os, x.core = y.core := by
  have : x.noIds ∈ os.map OptData.noIds := by rw [← setOptIds_noIds os n m]; exact List.mem_map_of_mem h
  obtain ⟨y, hy, e⟩ := List.mem_map.mp this
  refine ⟨y, hy, ?_⟩
  have := congrArg OptData.core e
  exact this.symm

/-- An initialised command with additional options, and the one without them. -/
theorem self_grows {s : ParserSettings} {fn fn' : Str} {c0 c0' c1 c1' c c' : Command} {a b a' b' x y x' y' : Nat} {os0 gs0 gs0' : List OptData}
    (ho : c0.options = os0 ++ gs0) (ho' : c0'.options = os0 ++ gs0') (harg : c0'.arguments = c0.arguments) (hname : c0'.name = c0.name)
    (hmulti : c0'.multiCommand = c0.multiCommand) (hreq : c0'.requireSubcommand = c0.requireSubcommand) (hcmd : c0'.commands.isEmpty = c0.commands.isEmpty)
    (hz : ∀ o ∈ os0, o.valueId = 0) (hg0 : ∀ x ∈ gs0, EndsParsing x ∧ x.initialValue = [])
    (hj : ∀ x ∈ gs0', Joinable s.caseInsensitive c0.arguments os0 c0'.options x)
    (h : finishSelf s fn c0 a b = .ok (c1, x, y)) (h' : finishSelf s fn' c0' a' b' = .ok (c1', x', y'))
    (e1 : c.arguments = c1.arguments) (e2 : c.options = c1.options) (e3 : c.name = c1.name) (e4 : c.multiCommand = c1.multiCommand)
    (e5 : c.requireSubcommand = c1.requireSubcommand)
    (e1' : c'.arguments = c1'.arguments) (e2' : c'.options = c1'.options) (e3' : c'.name = c1'.name) (e4' : c'.multiCommand = c1'.multiCommand)
    (e5' : c'.requireSubcommand = c1'.requireSubcommand) (hf : Fine s c) (hf' : Fine s c') : ∃ R, SelfGrows s.caseInsensitive c c' R := by
  obtain ⟨opts, h1, h2, ⟨h3, h4, _, _⟩, _, _, _, h5, h6, _, _, h7, _⟩ := finishSelf_ok h
  obtain ⟨opts', k1, k2, ⟨k3, k4, _, _⟩, _, _, _, k5, k6, _, _, k7, _⟩ := finishSelf_ok h'
  have m1 := validateAll_map h1
  have m2 := validateAll_map k1
  have q1 := (validateAll_ok _ _ _ h1).1
  have q2 := (validateAll_ok _ _ _ k1).1
  revert m1 m2
  generalize hV : (fun o => match validateAndUpdate o s.optionStyle with | .ok o' => o' | _ => o) = V
  intro m1 m2
  have hV0 : ∀ o, o.valueId = 0 → (V o).valueId = 0 := by
    intro o h0
    rw [← hV]
    simp only
    split
    · rename_i o' e
      rw [validateAndUpdate_valueId e]
      exact h0
    · exact h0
  have v1 : ∀ o ∈ c0.options, (V o).core = o.core := by
    rw [m1, List.map_map] at q1
    exact List.map_inj_left.mp q1
  have v2 : ∀ o ∈ c0'.options, (V o).core = o.core := by
    rw [m2, List.map_map] at q2
    exact List.map_inj_left.mp q2
  obtain ⟨hs, n1, n2⟩ := addHelp_generated opts c0.currentSection s
  obtain ⟨hs', n1', n2'⟩ := addHelp_generated opts' c0'.currentSection s
  rw [ho, List.map_append] at m1
  rw [ho', List.map_append] at m2
  rw [n1, m1, List.append_assoc, setOptIds_append] at h4
  rw [n1', m2, List.append_assoc, setOptIds_append] at k4
  rw [harg] at k3 k4
  obtain ⟨sa, sm⟩ := shifted_args (a := a) (a' := a') c0.arguments (n := b + 1) (n' := b' + 1) (m := ⟨[], a⟩) (m' := ⟨[], a'⟩) ⟨.nil, by simp only; omega⟩
  obtain ⟨so, _⟩ := shifted_opts (os0.map V) (n := (setArgIds c0.arguments (b + 1) ⟨[], a⟩).2.1) (n' := (setArgIds c0.arguments (b' + 1) ⟨[], a'⟩).2.1) sm
  rw [← h3, ← k3, ← e1, ← e1'] at sa
  rw [← e2] at h4
  rw [← e2'] at k4
  have hz1 : ∀ n m, ∀ o ∈ (setOptIds (os0.map V) n m).1, o.operation = .none → o.valueId = 0 := fun n m => setOptIds_zero (by
    intro o ho
    obtain ⟨o0, ho0, rfl⟩ := List.mem_map.mp ho
    exact hV0 o0 (hz o0 ho0)) n m
  have z1 := hz1 (setArgIds c0.arguments (b + 1) ⟨[], a⟩).2.1 (setArgIds c0.arguments (b + 1) ⟨[], a⟩).2.2
  have z2 := hz1 (setArgIds c0.arguments (b' + 1) ⟨[], a'⟩).2.1 (setArgIds c0.arguments (b' + 1) ⟨[], a'⟩).2.2
  have fl : flagsOf (setOptIds (os0.map V) (setArgIds c0.arguments (b + 1) ⟨[], a⟩).2.1 (setArgIds c0.arguments (b + 1) ⟨[], a⟩).2.2).1 = flagsOf os0 := by
    refine flagsOf_map_core ?_
    rw [map_core_of_noIds (setOptIds_noIds _ _ _), List.map_map]
    exact List.map_inj_left.mpr fun o ho' => v1 o (by rw [ho]; exact List.mem_append_left _ ho')
  have gen : ∀ x ∈ (setOptIds (gs0.map V ++ hs) (setOptIds (os0.map V) (setArgIds c0.arguments (b + 1) ⟨[], a⟩).2.1 (setArgIds c0.arguments (b + 1) ⟨[], a⟩).2.2).2.1
      (setOptIds (os0.map V) (setArgIds c0.arguments (b + 1) ⟨[], a⟩).2.1 (setArgIds c0.arguments (b + 1) ⟨[], a⟩).2.2).2.2).1, EndsParsing x ∧ x.initialValue = [] := by
    intro x hx
    obtain ⟨y, hy, e⟩ := mem_setOptIds hx
    have hy' : EndsParsing y ∧ y.initialValue = [] := by
      rcases List.mem_append.mp hy with hy | hy
      · obtain ⟨z, hz', rfl⟩ := List.mem_map.mp hy
        have e := v1 z (by rw [ho]; exact List.mem_append_right _ hz')
        obtain ⟨g1, g2⟩ := hg0 z hz'
        have t1 : (V z).type = z.type := by have := congrArg OptData.type e; exact this
        have t2 : (V z).initialValue = z.initialValue := by have := congrArg OptData.initialValue e; exact this
        exact ⟨by unfold EndsParsing; rw [t1]; exact g1, by rw [t2]; exact g2⟩
      · exact ⟨(n2 y hy).ends, (n2 y hy).initial⟩
    have t1 : x.type = y.type := by have := congrArg OptData.type e; exact this
    have t2 : x.initialValue = y.initialValue := by have := congrArg OptData.initialValue e; exact this
    exact ⟨by unfold EndsParsing; rw [t1]; exact hy'.1, by rw [t2]; exact hy'.2⟩
  have gen' : ∀ x ∈ (setOptIds (gs0'.map V ++ hs') (setOptIds (os0.map V) (setArgIds c0.arguments (b' + 1) ⟨[], a'⟩).2.1 (setArgIds c0.arguments (b' + 1) ⟨[], a'⟩).2.2).2.1
      (setOptIds (os0.map V) (setArgIds c0.arguments (b' + 1) ⟨[], a'⟩).2.1 (setArgIds c0.arguments (b' + 1) ⟨[], a'⟩).2.2).2.2).1,
      Joinable s.caseInsensitive c0.arguments os0 c'.options x := by
    intro x hx
    obtain ⟨y, hy, e⟩ := mem_setOptIds hx
    refine joinable_core (x := y) ?_ e
    rcases List.mem_append.mp hy with hy | hy
    · obtain ⟨z, hz', rfl⟩ := List.mem_map.mp hy
      refine joinable_core (joinable_all (hj z hz') ?_) (v2 z (by rw [ho']; exact List.mem_append_right _ hz'))
      intro o hoc
      rw [k4, ← setOptIds_append] at hoc
      obtain ⟨p, hp, e⟩ := mem_setOptIds hoc
      have ea : o.alias_ = p.alias_ := by have := congrArg OptData.alias_ e; exact this
      rw [← List.append_assoc] at hp
      rcases List.mem_append.mp hp with hp | hp
      · rw [← List.map_append, ← ho'] at hp
        obtain ⟨p0, hp0, rfl⟩ := List.mem_map.mp hp
        have eb : (V p0).alias_ = p0.alias_ := by have := congrArg OptData.alias_ (v2 p0 hp0); exact this
        exact .inr ⟨p0, hp0, ea.trans eb⟩
      · left
        rw [ea, (n2' p hp).alias_]
        rfl
    · exact (n2' y hy).joinable _ _ _ _
  revert h4 k4 so z1 z2 fl gen gen'
  generalize (setOptIds (os0.map V) (setArgIds c0.arguments (b + 1) ⟨[], a⟩).2.1 (setArgIds c0.arguments (b + 1) ⟨[], a⟩).2.2).1 = os
  generalize (setOptIds (os0.map V) (setArgIds c0.arguments (b' + 1) ⟨[], a'⟩).2.1 (setArgIds c0.arguments (b' + 1) ⟨[], a'⟩).2.2).1 = os'
  generalize (setOptIds (gs0.map V ++ hs) _ _).1 = gs
  generalize (setOptIds (gs0'.map V ++ hs') _ _).1 = gs'
  intro h4 k4 so z1 z2 fl gen gen'
  refine ⟨fun v v' => (v = 0 ∧ v' = 0) ∨ (0 < v ∧ 0 < v' ∧ v' + a = v + a' ∧ ((∃ x ∈ c'.arguments, v' = x.valueId) ∨ ∃ o ∈ os', o.operation ≠ .none ∧ v' = o.valueId)), os, gs, os', gs', ?_⟩
  have argItem : ∀ {c : Command} {x : ArgData}, x ∈ c.arguments → (⟨[x.name], aliasOf x.alias_, x.valueId⟩ : Item) ∈ items c := fun {c x} hx =>
    List.mem_append_left _ (List.mem_map.mpr ⟨x, hx, rfl⟩)
  have pc : ∀ {o}, o ∈ os → o ∈ c.options := fun h => by rw [h4]; exact List.mem_append_left _ h
  have pc' : ∀ {o}, o ∈ os' → o ∈ c'.options := fun h => by rw [k4]; exact List.mem_append_left _ h
  have linkArg : ∀ {x x' : ArgData}, x ∈ c.arguments → x' ∈ c'.arguments → x'.valueId + a = x.valueId + a' →
      (x.valueId = 0 ∧ x'.valueId = 0) ∨ (0 < x.valueId ∧ 0 < x'.valueId ∧ x'.valueId + a = x.valueId + a' ∧
        ((∃ y ∈ c'.arguments, x'.valueId = y.valueId) ∨ ∃ o ∈ os', o.operation ≠ .none ∧ x'.valueId = o.valueId)) := by
    intro x x' hx hx' e
    exact .inr ⟨hf.pos _ (argItem hx), hf'.pos _ (argItem hx'), e, .inl ⟨x', hx', rfl⟩⟩
  have linkOpt : ∀ {o o' : OptData}, o ∈ os → o' ∈ os' → plainOpt o = plainOpt o' → (o.operation ≠ .none → o'.valueId + a = o.valueId + a') →
      (o.valueId = 0 ∧ o'.valueId = 0) ∨ (0 < o.valueId ∧ 0 < o'.valueId ∧ o'.valueId + a = o.valueId + a' ∧
        ((∃ y ∈ c'.arguments, o'.valueId = y.valueId) ∨ ∃ p ∈ os', p.operation ≠ .none ∧ o'.valueId = p.valueId)) := by
    intro o o' ho ho' e hv
    have e3 : o.operation = o'.operation := by have := congrArg OptData.operation e; exact this
    by_cases hop : o.operation = .none
    · exact .inl ⟨z1 o ho hop, z2 o' ho' (e3 ▸ hop)⟩
    · exact .inr ⟨hf.pos _ (option_item (pc ho) hop), hf'.pos _ (option_item (pc' ho') (e3 ▸ hop)), hv hop, .inr ⟨o', ho', e3 ▸ hop, rfl⟩⟩
  refine ⟨by rw [e3, e3', h5, k5, hname], ?_, by rw [e4, e4', h7, k7, hmulti], ?_, h4, k4, ?_, fun x hx => (gen x hx).1, fun x hx => (gen x hx).2,
    fun x hx => (gen' x hx).optional, ?_, ?_, ?_, ?_, ?_⟩
  · have : updateRequireCommand c0'.requireSubcommand c0'.commands = updateRequireCommand c0.requireSubcommand c0.commands := by
      simp only [updateRequireCommand, hreq, hcmd]
    rw [this, h2] at k2
    rw [e5, e5']
    exact Outcome.ok.inj k2
  · exact Each.mono sa fun x hx x' hx' h => ⟨h.1, linkArg hx hx' h.2⟩
  · exact Each.mono so fun o ho o' ho' h => ⟨h.1, linkOpt ho ho' h.1 h.2⟩
  · intro x hx g hg f hfl
    rw [fl] at hfl
    exact (gen' x hx).equals g hg f hfl
  · intro x hx
    rcases (gen' x hx).initial with h0 | ⟨i1, i2, i3⟩
    · exact .inl h0
    · right
      have hxc : x ∈ c'.options := by rw [k4]; exact List.mem_append_right _ hx
      have hxp := hf'.pos _ (option_item hxc i1)
      simp only at hxp
      have hargs : ∀ f ∈ x.flags, ∀ y ∈ c'.arguments, y.name ≠ f ∧ y.alias_ ≠ f := by
        intro f hfx y hy
        have : plainArg y ∈ c0.arguments.map plainArg := by
          have g : (plainArg : ArgData → ArgData) = ArgData.noIds := rfl
          rw [g, ← setArgIds_noIds c0.arguments (b' + 1) ⟨[], a'⟩, ← k3, ← e1']
          exact List.mem_map_of_mem hy
        obtain ⟨y0, hy0, e⟩ := List.mem_map.mp this
        have t1 : y0.name = y.name := by have := congrArg ArgData.name e; exact this
        have t2 : y0.alias_ = y.alias_ := by have := congrArg ArgData.alias_ e; exact this
        rw [← t1, ← t2]
        exact (i3 f hfx).1 y0 hy0
      have fresh := fun {i} hi hv => fresh_value (i := i) hf' k4 hx i1 i2 hargs (fun f hfx => (i3 f hfx).2) hi hv
      obtain ⟨f, hfx⟩ : ∃ f, f ∈ x.flags := by
        cases hl : x.flags with
        | nil => exact absurd hl (hf'.ready.flags_ne x hxc)
        | cons f _ => exact ⟨f, by simp⟩
      rintro v (⟨_, h0⟩ | ⟨_, _, _, ⟨y, hy, hv⟩ | ⟨o, ho', hop, hv⟩⟩)
      · omega
      · have e := congrArg Item.own (fresh (argItem hy) hv.symm)
        simp only at e
        rw [← e] at hfx
        exact (hargs f (by rw [← e]; exact hfx) y hy).1 (List.mem_singleton.mp hfx).symm
      · have e := congrArg Item.own (fresh (option_item (pc' ho') hop) hv.symm)
        simp only at e
        have hd := hf'.distinct
        unfold DistinctFlags at hd
        rw [k4] at hd
        simp only [flagsOf, List.flatMap_append] at hd
        refine (List.pairwise_append.mp hd).2.2 f (List.mem_flatMap.mpr ⟨o, ho', by rw [e]; exact hfx⟩) f (List.mem_flatMap.mpr ⟨x, hx, hfx⟩) ?_
        unfold SameFlag
        split <;> rfl
  · rintro v w w' (⟨h1, h2⟩ | ⟨h1, h2, h3, _⟩) (⟨k1, k2⟩ | ⟨k1, k2, k3, _⟩) <;> omega
  · rintro v v' w (⟨h1, h2⟩ | ⟨h1, h2, h3, _⟩) (⟨k1, k2⟩ | ⟨k1, k2, k3, _⟩) <;> omega
  · intro n hn
    rcases hn with ⟨x, hx, hn⟩ | ⟨o, ho1, hend, hop, hn⟩
    · obtain ⟨x', hx', e, hv⟩ := Each.mem_left sa hx
      have t1 : x.name = x'.name := by have := congrArg ArgData.name e; exact this
      have t2 : x.alias_ = x'.alias_ := by have := congrArg ArgData.alias_ e; exact this
      refine ⟨_, _, lookup_fine hf (argItem hx) ?_, lookup_fine hf' (argItem hx') ?_, linkArg hx hx' hv⟩
      · rcases hn with rfl | ⟨h1, rfl⟩
        · simp [Item.names]
        · simp [Item.names, aliasOf, h1]
      · rcases hn with rfl | ⟨h1, rfl⟩
        · simp [Item.names, t1]
        · rw [t2] at h1
          simp [Item.names, aliasOf, h1, t2]
    · rw [h4] at ho1
      rcases List.mem_append.mp ho1 with ho1 | ho1
      · obtain ⟨o', ho2, e, hv⟩ := Each.mem_left so ho1
        have t1 : o.flags = o'.flags := by have := congrArg OptData.flags e; exact this
        have t2 : o.alias_ = o'.alias_ := by have := congrArg OptData.alias_ e; exact this
        have t3 : o.operation = o'.operation := by have := congrArg OptData.operation e; exact this
        refine ⟨_, _, lookup_fine hf (option_item (pc ho1) hop) ?_, lookup_fine hf' (option_item (pc' ho2) (t3 ▸ hop)) ?_, linkOpt ho1 ho2 e hv⟩
        · rcases hn with h1 | ⟨h1, rfl⟩
          · simp [Item.names, h1]
          · simp [Item.names, aliasOf, h1]
        · rw [t1, t2] at hn
          rcases hn with h1 | ⟨h1, rfl⟩
          · simp [Item.names, h1]
          · simp [Item.names, aliasOf, h1]
      · exact absurd (gen o ho1).1 hend

/-! ## All commands -/

theorem enlargedAll_isEmpty {ci : Bool} {cs cs' : List Command} (h : EnlargedAll ci cs cs') : cs'.isEmpty = cs.isEmpty := by
  cases h <;> rfl

theorem _root_.Argos.Spec.Addable.joinable {ci : Bool} {c : Command} {xs all : List OptData} {x : OptData} (h : Addable ci c xs x)
    (hall : ∀ o ∈ all, aliasOf o.alias_ = none ∨ o ∈ c.options ++ xs) : Joinable ci c.arguments c.options all x := by
  refine ⟨h.optional, h.equals, ?_⟩
  rcases h.initial with h0 | ⟨h1, h2, h3⟩
  · exact .inl h0
  · refine .inr ⟨h1, h2, fun f hf => ⟨(h3 f hf).1, fun o ho => ?_⟩⟩
    rcases hall o ho with e | ho
    · rw [e]; simp
    · intro e
      refine (h3 f hf).2 o ho ?_
      unfold aliasOf at e
      split at e
      · simp at e
      · exact Option.some.inj e

mutual
theorem enlarged_grown {s : ParserSettings} : (c0 : Command) → ∀ {c0' : Command}, Enlarged s.caseInsensitive c0 c0' → ∀ {fn fn' : Str} {a b a' b' : Nat} {c c' : Command}
    (gs0 gs0' : List OptData), (∀ x ∈ gs0, Generated x) → (∀ x ∈ gs0', Generated x) →
    finishCommand s fn a b { c0 with options := c0.options ++ gs0 } = .ok c → finishCommand s fn' a' b' { c0' with options := c0'.options ++ gs0' } = .ok c' →
    (∀ x : Command, x.Within c0 → ∀ o ∈ x.options, o.valueId = 0) →
    (∀ x, x.Within c → Fine s x) → (∀ x, x.Within c' → Fine s x) → Grown s.caseInsensitive c c'
  | c0, _, .intro _ (xs := xs) (cs := cs) hx hcs, fn, fn', a, b, a', b', c, c', gs0, gs0', hgs, hgs', h, h', hz, hf, hf' => by
    obtain ⟨c1, x, y, cmds, h1, h2, rfl⟩ := finishCommand_ok h
    obtain ⟨c1', x', y', cmds', h1', h2', rfl⟩ := finishCommand_ok h'
    have hsub : Each (Grown s.caseInsensitive) cmds cmds' :=
      enlargedAll_grown c0.commands hcs h2 h2' (fun t ht x hx => hz x (.sub ht hx)) (fun t ht x hx => hf x (.sub ht hx)) fun t ht x hx => hf' x (.sub ht hx)
    have hemp : cs.isEmpty = c0.commands.isEmpty := enlargedAll_isEmpty hcs
    obtain ⟨R, hR⟩ := self_grows (c0 := { c0 with options := c0.options ++ gs0 }) (c0' := { c0 with options := c0.options ++ xs ++ gs0', commands := cs })
      (c := { c1 with commands := cmds }) (c' := { c1' with commands := cmds' }) (os0 := c0.options) (gs0 := gs0) (gs0' := xs ++ gs0') rfl (by simp only [List.append_assoc]) rfl rfl rfl rfl
      hemp (hz c0 .self) (fun x hx => ⟨(hgs x hx).ends, (hgs x hx).initial⟩) (by
        intro z hz'
        rcases List.mem_append.mp hz' with hz' | hz'
        · refine (hx z hz').joinable fun o ho => ?_
          rcases List.mem_append.mp ho with ho | ho
          · exact .inr ho
          · left
            rw [(hgs' o ho).alias_]
            rfl
        · exact (hgs' z hz').joinable _ _ _ _) h1 h1' rfl rfl rfl rfl rfl rfl rfl rfl rfl rfl (hf _ .self) (hf' _ .self)
    exact .intro (valueLink_spec hR) hsub
theorem enlargedAll_grown {s : ParserSettings} : (cs0 : List Command) → ∀ {cs0' : List Command}, EnlargedAll s.caseInsensitive cs0 cs0' → ∀ {pn pn' : Str} {a b a' b' : Nat} {cs cs' : List Command},
    finishCommands s pn a b cs0 = .ok cs → finishCommands s pn' a' b' cs0' = .ok cs' → (∀ t ∈ cs0, ∀ x : Command, x.Within t → ∀ o ∈ x.options, o.valueId = 0) →
    (∀ t ∈ cs, ∀ x, x.Within t → Fine s x) → (∀ t ∈ cs', ∀ x, x.Within t → Fine s x) → Each (Grown s.caseInsensitive) cs cs'
  | [], _, .nil, pn, pn', a, b, a', b', cs, cs', h, h', _, _, _ => by
    simp only [finishCommands, Outcome.ok.injEq] at h h'
    subst h h'
    exact .nil
  | c0 :: cs0, _, .cons (c' := c0') hc hcs, pn, pn', a, b, a', b', cs, cs', h, h', hz, hf, hf' => by
    unfold finishCommands at h h'
    rw [Outcome.bind_eq_ok] at h h'
    obtain ⟨c, h1, h⟩ := h
    obtain ⟨c', h1', h'⟩ := h'
    rw [Outcome.bind_eq_ok] at h h'
    obtain ⟨cs, h2, h⟩ := h
    obtain ⟨cs', h2', h'⟩ := h'
    simp only [Outcome.pure_eq, Outcome.ok.injEq] at h h'
    subst h h'
    have e : ∀ x : Command, { x with options := x.options ++ [] } = x := by
      intro x
      cases x
      simp
    refine .cons ?_ ?_
    · exact enlarged_grown c0 hc [] [] (by simp) (by simp) (by rw [e]; exact h1) (by rw [e]; exact h1') (fun x hx => hz c0 (by simp) x hx)
        (fun x hx => hf c (by simp) x hx) (fun x hx => hf' c' (by simp) x hx)
    · exact enlargedAll_grown cs0 hcs h2 h2' (fun t ht => hz t (by simp [ht])) (fun t ht => hf t (by simp [ht])) (fun t ht => hf' t (by simp [ht]))
end

theorem init_grown {d0 d d' : ParserData} {c' : Command} (hr : Enlarged d0.settings.caseInsensitive d0.command c') (h : finishInitialization d0 = .ok d)
    (h' : finishInitialization { d0 with command := c' } = .ok d') (hz : ∀ x : Command, x.Within d0.command → ∀ o ∈ x.options, o.valueId = 0)
    (hf : ∀ x : Command, x.Within d.command → Fine d0.settings x) (hf' : ∀ x : Command, x.Within d'.command → Fine d0.settings x) :
    Grown d0.settings.caseInsensitive d.command d'.command := by
  obtain ⟨_, _, _, fn, c1, h1, rfl⟩ := finishInitialization_ok h
  obtain ⟨_, _, _, fn', c1', h1', rfl⟩ := finishInitialization_ok h'
  obtain ⟨gs, g1, g2⟩ := addVersion_generated d0.command.options d0.command.currentSection d0.version d0.settings
  obtain ⟨gs', g1', g2'⟩ := addVersion_generated c'.options c'.currentSection d0.version d0.settings
  rw [g1] at h1
  simp only [g1'] at h1'
  exact enlarged_grown _ hr gs gs' g2 g2' h1 h1' hz hf hf'

end Argos
