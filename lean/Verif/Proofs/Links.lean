import Verif.Proofs.Ids
import Verif.Spec.Links
import Verif.Proofs.InitTree

/-! # Value ids and argument ids -/

namespace Argos
open Spec

/-- The value id given to an item, and the id maker afterwards. -/
def IdMaker.give (m : IdMaker) (own : List Str) (al : Option Str) : Nat × IdMaker :=
  match al with
  | some a => let (v, m1) := m.getValueId a
    (v, m1.emplaceAll own v)
  | none => m.getValueIds own

/-- The value ids given to a list of items. -/
def IdMaker.giveAll : IdMaker → List (List Str × Option Str) → List Item × IdMaker
  | m, [] => ([], m)
  | m, (own, al) :: rest =>
    let (v, m') := m.give own al
    let (is, m'') := giveAll m' rest
    (⟨own, al, v⟩ :: is, m'')

theorem getValueIds_single (m : IdMaker) (n : Str) : m.getValueIds [n] = m.getValueId n := by
  unfold IdMaker.getValueIds IdMaker.getValueId
  have : [n].findSome? m.find = m.find n := by
    simp only [List.findSome?_cons, List.findSome?_nil]
    cases m.find n <;> rfl
  rw [this]
  cases m.find n <;> rfl

theorem setArgIds_items (as : List ArgData) (k : Nat) (m : IdMaker) :
    let r := setArgIds as k m
    let g := m.giveAll (as.map fun a => ([a.name], aliasOf a.alias_))
    r.1.map (fun a => (⟨[a.name], aliasOf a.alias_, a.valueId⟩ : Item)) = g.1 ∧ r.2.2 = g.2 := by
  induction as generalizing k m with
  | nil => exact ⟨rfl, rfl⟩
  | cons a as ih =>
    have hstep : (if !a.alias_.isEmpty then
        let (v, m1) := m.getValueId a.alias_
        (v, m1.emplace a.name v)
      else m.getValueId a.name) = m.give [a.name] (aliasOf a.alias_) := by
      unfold aliasOf IdMaker.give
      cases h : a.alias_ with
      | nil => simp [getValueIds_single]
      | cons x xs => simp [IdMaker.emplaceAll]
    simp only [setArgIds, List.map_cons, IdMaker.giveAll]
    rw [hstep]
    obtain ⟨i1, i2⟩ := ih (k + 1) (m.give [a.name] (aliasOf a.alias_)).2
    exact ⟨by rw [← i1], i2⟩

theorem setOptIds_items (os : List OptData) (k : Nat) (m : IdMaker) :
    let r := setOptIds os k m
    let g := m.giveAll ((os.filter fun o => o.operation ≠ .none).map fun o => (o.flags, aliasOf o.alias_))
    (r.1.filter fun o => o.operation ≠ .none).map
      (fun o => (⟨o.flags, aliasOf o.alias_, o.valueId⟩ : Item)) = g.1 ∧ r.2.2 = g.2 := by
  induction os generalizing k m with
  | nil => exact ⟨rfl, rfl⟩
  | cons o os ih =>
    by_cases hop : o.operation = .none
    · simp only [setOptIds, hop, if_true, List.filter_cons]
      simpa using ih (k + 1) m
    · have hstep : (if !o.alias_.isEmpty then
          let (v, m1) := m.getValueId o.alias_
          (v, m1.emplaceAll o.flags v)
        else m.getValueIds o.flags) = m.give o.flags (aliasOf o.alias_) := by
        unfold aliasOf IdMaker.give
        cases h : o.alias_ with
        | nil => simp
        | cons x xs => simp
      obtain ⟨i1, i2⟩ := ih (k + 1) (m.give o.flags (aliasOf o.alias_)).2
      simp only [setOptIds, hop, if_false, List.filter_cons, ne_eq, not_false_eq_true, decide_true, if_true,
        List.map_cons, IdMaker.giveAll]
      rw [hstep]
      exact ⟨by rw [← i1], i2⟩

theorem giveAll_append (m : IdMaker) (a b : List (List Str × Option Str)) :
    m.giveAll (a ++ b) = ((m.giveAll a).1 ++ ((m.giveAll a).2.giveAll b).1, ((m.giveAll a).2.giveAll b).2) := by
  induction a generalizing m with
  | nil => rfl
  | cons x a ih =>
    simp only [List.cons_append, IdMaker.giveAll, ih]

/-- The items of an initialised command got their values from one run of the id maker. -/
theorem finishSelf_items {s : ParserSettings} {fn : Str} {c c' : Command} {a b x y : Nat}
    (h : finishSelf s fn c a b = .ok (c', x, y)) :
    ∃ l, items c' = ((⟨[], a⟩ : IdMaker).giveAll l).1 := by
  obtain ⟨opts, _, _, ⟨h1, h2, _, _⟩, _⟩ := finishSelf_ok h
  obtain ⟨a1, a2⟩ := setArgIds_items c.arguments (b + 1) ⟨[], a⟩
  obtain ⟨o1, o2⟩ := setOptIds_items (addHelpOption opts c.currentSection s)
    (setArgIds c.arguments (b + 1) ⟨[], a⟩).2.1 (setArgIds c.arguments (b + 1) ⟨[], a⟩).2.2
  refine ⟨(c.arguments.map fun a => ([a.name], aliasOf a.alias_)) ++
    (((addHelpOption opts c.currentSection s).filter fun o => o.operation ≠ .none).map
      fun o => (o.flags, aliasOf o.alias_)), ?_⟩
  unfold items
  rw [h1, h2, a1, o1, a2, giveAll_append]

/-! ### What the id maker knows -/

theorem lookup_append (l : List (Str × Nat)) (n x : Str) (v : Nat) :
    (l ++ [(n, v)]).lookup x = match l.lookup x with
      | some w => some w
      | none => if x = n then some v else none := by
  induction l with
  | nil =>
    simp only [List.nil_append, List.lookup_cons, List.lookup_nil]
    by_cases h : x = n
    · simp [h]
    · rw [beq_eq_false_iff_ne.mpr h, if_neg h]
  | cons p l ih =>
    obtain ⟨k, w⟩ := p
    simp only [List.cons_append, List.lookup_cons]
    by_cases h : x == k
    · simp [h]
    · simp only [h]
      exact ih

theorem find_emplace (m : IdMaker) (n x : Str) (v : Nat) :
    (m.emplace n v).find x = match m.find x with
      | some w => some w
      | none => if x = n then some v else none := by
  unfold IdMaker.emplace
  cases hn : m.find n with
  | some w =>
    simp only
    cases hx : m.find x with
    | some _ => rfl
    | none =>
      by_cases h : x = n
      · subst h; rw [hn] at hx; simp at hx
      · simp [h]
  | none => exact lookup_append _ _ _ _

theorem find_emplaceAll (m : IdMaker) (ns : List Str) (x : Str) (v : Nat) :
    (m.emplaceAll ns v).find x = match m.find x with
      | some w => some w
      | none => if x ∈ ns then some v else none := by
  induction ns generalizing m with
  | nil => cases h : m.find x <;> simp [IdMaker.emplaceAll, h]
  | cons n ns ih =>
    have : m.emplaceAll (n :: ns) v = (m.emplace n v).emplaceAll ns v := rfl
    rw [this, ih, find_emplace]
    cases h : m.find x with
    | some w => rfl
    | none =>
      by_cases hx : x = n
      · simp [hx]
      · simp [hx]

theorem emplace_id (m : IdMaker) (n : Str) (v : Nat) : (m.emplace n v).id = m.id := by
  unfold IdMaker.emplace
  cases m.find n <;> rfl

theorem emplaceAll_id (m : IdMaker) (ns : List Str) (v : Nat) : (m.emplaceAll ns v).id = m.id := by
  induction ns generalizing m with
  | nil => rfl
  | cons n ns ih =>
    have : m.emplaceAll (n :: ns) v = (m.emplace n v).emplaceAll ns v := rfl
    rw [this, ih, emplace_id]

theorem find_setId (m : IdMaker) (x : Str) (k : Nat) : ({ m with id := k } : IdMaker).find x = m.find x := rfl

/-- One item: it gets the value of a name it mentions, or a new one; the names known afterwards are
those known before and names of the item, with its value. -/
theorem give_spec (m : IdMaker) (own : List Str) (al : Option Str) :
    let r := m.give own al
    ((∃ n ∈ own ++ al.toList, m.find n = some r.1) ∧ r.2.id = m.id ∨ r.1 = m.id + 1 ∧ r.2.id = m.id + 1) ∧
    (∀ x, r.2.find x = m.find x ∨
      (x ∈ own ++ al.toList ∧ r.2.find x = some r.1 ∧ m.find x = none)) := by
  cases al with
  | none =>
    simp only [IdMaker.give, IdMaker.getValueIds, Option.toList_none, List.append_nil]
    cases h : own.findSome? m.find with
    | some v =>
      obtain ⟨n, hn, hv⟩ := List.exists_of_findSome?_eq_some h
      exact ⟨Or.inl ⟨⟨n, hn, hv⟩, rfl⟩, fun x => Or.inl rfl⟩
    | none =>
      refine ⟨Or.inr ⟨rfl, by simp [emplaceAll_id]⟩, ?_⟩
      intro x
      simp only [find_emplaceAll, find_setId]
      cases hx : m.find x with
      | some w => exact Or.inl rfl
      | none =>
        by_cases hm : x ∈ own
        · right; simp [hm]
        · left; simp [hm]
  | some a =>
    simp only [IdMaker.give, IdMaker.getValueId, Option.toList_some]
    cases h : m.find a with
    | some v =>
      refine ⟨Or.inl ⟨⟨a, by simp, h⟩, by simp [emplaceAll_id]⟩, ?_⟩
      intro x
      simp only [find_emplaceAll]
      cases hx : m.find x with
      | some w => exact Or.inl rfl
      | none =>
        by_cases hm : x ∈ own
        · right; simp [hm]
        · left; simp [hm]
    | none =>
      refine ⟨Or.inr ⟨rfl, by simp [emplaceAll_id, emplace_id]⟩, ?_⟩
      intro x
      simp only [find_emplaceAll, find_emplace, find_setId]
      cases hx : m.find x with
      | some w => exact Or.inl rfl
      | none =>
        by_cases hm : x ∈ own
        · right
          by_cases hxa : x = a <;> simp [hm, hxa]
        · by_cases hxa : x = a
          · right; simp [hxa]
          · left; simp [hm, hxa]

theorem Spec.Connected.trans {l : List Item} {i j k : Item} (h1 : Connected l i j) (h2 : Connected l j k) :
    Connected l i k := by
  induction h2 with
  | refl _ => exact h1
  | step _ hk hs ih => exact Connected.step ih hk hs

theorem Spec.Connected.mem_left {l : List Item} {i j : Item} (h : Connected l i j) : i ∈ l := by
  induction h with
  | refl h => exact h
  | step _ _ _ ih => exact ih

theorem Spec.Connected.mem_right {l : List Item} {i j : Item} (h : Connected l i j) : j ∈ l := by
  cases h with
  | refl h => exact h
  | step _ h _ => exact h

theorem Spec.Item.Share.symm {i j : Item} (h : i.Share j) : j.Share i := by
  obtain ⟨n, a, b⟩ := h; exact ⟨n, b, a⟩

theorem Spec.Connected.symm {l : List Item} {i j : Item} (h : Connected l i j) : Connected l j i := by
  induction h with
  | refl h => exact Connected.refl h
  | step h1 hk hs ih =>
    exact Connected.trans (Connected.step (Connected.refl hk) h1.mem_right hs.symm) ih

theorem Spec.Connected.mono {l l' : List Item} (hl : ∀ x ∈ l, x ∈ l') {i j : Item} (h : Connected l i j) :
    Connected l' i j := by
  induction h with
  | refl h => exact Connected.refl (hl _ h)
  | step _ hk hs ih => exact Connected.step ih (hl _ hk) hs

/-- Items with the same value are connected. -/
theorem giveAll_sound (m : IdMaker) (l : List (List Str × Option Str)) (done : List Item)
    (h1 : ∀ n v, m.find n = some v → ∃ i ∈ done, i.valueId = v ∧ n ∈ i.names)
    (h2 : ∀ i ∈ done, i.valueId ≤ m.id)
    (h3 : ∀ i ∈ done, ∀ j ∈ done, i.valueId = j.valueId → Connected done i j) :
    ∀ i ∈ done ++ (m.giveAll l).1, ∀ j ∈ done ++ (m.giveAll l).1, i.valueId = j.valueId →
      Connected (done ++ (m.giveAll l).1) i j := by
  induction l generalizing m done with
  | nil => simpa [IdMaker.giveAll] using h3
  | cons p l ih =>
    obtain ⟨own, al⟩ := p
    obtain ⟨g1, g2⟩ := give_spec m own al
    simp only [IdMaker.giveAll]
    generalize m.give own al = r at g1 g2
    obtain ⟨v, m'⟩ := r
    simp only at g1 g2
    have := ih m' (done ++ [⟨own, al, v⟩]) ?_ ?_ ?_
    · simpa using this
    · intro n w hn
      rcases g2 n with e | ⟨hm, e⟩
      · rw [e] at hn
        obtain ⟨i, hi, hv⟩ := h1 n w hn
        exact ⟨i, by simp [hi], hv⟩
      · rw [e.1] at hn
        simp only [Option.some.injEq] at hn
        exact ⟨⟨own, al, v⟩, by simp, hn, hm⟩
    · intro i hi
      rcases List.mem_append.mp hi with hi | hi
      · have := h2 i hi
        rcases g1 with ⟨_, e⟩ | ⟨_, e⟩ <;> omega
      · simp only [List.mem_singleton] at hi
        subst hi
        rcases g1 with ⟨⟨n, _, e⟩, e'⟩ | ⟨e, e'⟩
        · obtain ⟨j, hj, hv, _⟩ := h1 n v e
          have := h2 j hj
          simp only; omega
        · simp only; omega
    · have key : ∀ i ∈ done, i.valueId = v → Connected (done ++ [⟨own, al, v⟩]) i ⟨own, al, v⟩ := by
        intro i hi hv
        rcases g1 with ⟨⟨n, hn, e⟩, e'⟩ | ⟨e, e'⟩
        · obtain ⟨j, hj, hjv, hjn⟩ := h1 n v e
          have hc := (h3 i hi j hj (by omega)).mono (l' := done ++ [⟨own, al, v⟩]) (by intro x hx; simp [hx])
          exact Connected.step hc (by simp) ⟨n, hjn, hn⟩
        · have := h2 i hi
          omega
      intro i hi j hj hij
      rcases List.mem_append.mp hi with hi | hi
      · rcases List.mem_append.mp hj with hj | hj
        · exact (h3 i hi j hj hij).mono (by intro x hx; simp [hx])
        · simp only [List.mem_singleton] at hj
          subst hj
          exact key i hi hij
      · simp only [List.mem_singleton] at hi
        subst hi
        rcases List.mem_append.mp hj with hj | hj
        · exact (key j hj hij.symm).symm
        · simp only [List.mem_singleton] at hj
          subst hj
          exact Connected.refl (by simp)

/-- With backward links only, every name has one value. -/
theorem giveAll_complete (m : IdMaker) (l : List (List Str × Option Str)) (done : List Item)
    (hb : BackwardLinks (done ++ (m.giveAll l).1))
    (h1 : ∀ n v, m.find n = some v → ∃ i ∈ done, n ∈ i.names)
    (h2 : ∀ i ∈ done, ∀ n ∈ i.names, m.find n = some i.valueId) :
    ∃ f : Str → Option Nat, ∀ i ∈ done ++ (m.giveAll l).1, ∀ n ∈ i.names, f n = some i.valueId := by
  induction l generalizing m done with
  | nil => exact ⟨m.find, by simpa [IdMaker.giveAll] using h2⟩
  | cons p l ih =>
    obtain ⟨own, al⟩ := p
    have g := give_spec m own al
    simp only [IdMaker.giveAll] at hb ⊢
    have hfresh := hb done ⟨own, al, (m.give own al).1⟩ ((m.give own al).2.giveAll l).1 rfl
    -- all names of the item are known with its value afterwards
    have hnames : ∀ n ∈ own ++ al.toList, (m.give own al).2.find n = some (m.give own al).1 := by
      rcases hfresh with hf | ⟨ha, n, hn⟩
      · simp only at hf
        have hnone : ∀ n ∈ own, m.find n = none := by
          intro n hn
          cases h : m.find n with
          | none => rfl
          | some v =>
            obtain ⟨i, hi, hin⟩ := h1 n v h
            exact absurd hin (hf n hn i hi)
        cases al with
        | none =>
          intro n hn
          simp only [Option.toList_none, List.append_nil] at hn
          have : own.findSome? m.find = none := by
            rw [List.findSome?_eq_none_iff]
            intro x hx; exact hnone x hx
          simp only [IdMaker.give, IdMaker.getValueIds, this, find_emplaceAll, find_setId, hnone n hn, hn, if_true]
        | some a =>
          intro n hn
          simp only [Option.toList_some, List.mem_append, List.mem_singleton] at hn
          simp only [IdMaker.give, IdMaker.getValueId]
          cases h : m.find a with
          | some v =>
            simp only [find_emplaceAll]
            rcases hn with hn | rfl
            · simp [hnone n hn, hn]
            · simp [h]
          | none =>
            simp only [find_emplaceAll, find_emplace, find_setId]
            rcases hn with hn | rfl
            · by_cases hna : n = a <;> simp [hnone n hn, hn, hna, h]
            · simp [h]
      · simp only at ha hn
        subst ha hn
        intro x hx
        simp only [Option.toList_none, List.append_nil, List.mem_singleton] at hx
        subst hx
        simp only [IdMaker.give]
        rw [getValueIds_single]
        unfold IdMaker.getValueId
        cases h : m.find x with
        | some v => exact h
        | none => simp only [find_emplace, find_setId, h, if_true]
    generalize m.give own al = r at *
    obtain ⟨v, m'⟩ := r
    obtain ⟨_, g2⟩ := g
    simp only at g2 hnames hb ⊢
    have := ih m' (done ++ [⟨own, al, v⟩]) (by simpa using hb) ?_ ?_
    · simpa using this
    · intro n w hn
      rcases g2 n with e | ⟨hm, _⟩
      · rw [e] at hn
        obtain ⟨i, hi, hv⟩ := h1 n w hn
        exact ⟨i, by simp [hi], hv⟩
      · exact ⟨⟨own, al, v⟩, by simp, hm⟩
    · intro i hi n hn
      rcases List.mem_append.mp hi with hi | hi
      · have := h2 i hi n hn
        rcases g2 n with e | ⟨hm, e⟩
        · rw [e]; exact this
        · rw [e.2] at this; simp at this
      · simp only [List.mem_singleton] at hi
        subst hi
        exact hnames n hn

/-! ### Argument ids -/

theorem setArgIds_ids (as : List ArgData) (k : Nat) (m : IdMaker) :
    (setArgIds as k m).1.map (·.argumentId) = List.range' (k + 1) as.length ∧
    (setArgIds as k m).2.1 = k + as.length := by
  induction as generalizing k m with
  | nil => exact ⟨rfl, rfl⟩
  | cons a as ih =>
    simp only [setArgIds, List.map_cons, List.length_cons, List.range'_succ]
    exact ⟨by rw [(ih _ _).1], by rw [(ih _ _).2]; omega⟩

theorem setOptIds_ids (os : List OptData) (k : Nat) (m : IdMaker) :
    (setOptIds os k m).1.map (·.argumentId) = List.range' (k + 1) os.length ∧
    (setOptIds os k m).2.1 = k + os.length := by
  induction os generalizing k m with
  | nil => exact ⟨rfl, rfl⟩
  | cons o os ih =>
    by_cases hop : o.operation = .none
    · simp only [setOptIds, hop, if_true, List.map_cons, List.length_cons, List.range'_succ]
      exact ⟨by rw [(ih _ _).1], by rw [(ih _ _).2]; omega⟩
    · simp only [setOptIds, hop, if_false, List.map_cons, List.length_cons, List.range'_succ]
      exact ⟨by rw [(ih _ _).1], by rw [(ih _ _).2]; omega⟩

theorem finishSelf_ids {s : ParserSettings} {fn : Str} {c c' : Command} {a b x y : Nat}
    (h : finishSelf s fn c a b = .ok (c', x, y)) :
    ∃ n, idsOf c' = List.range' (b + 1) n ∧ y = b + n := by
  obtain ⟨opts, _, _, ⟨h1, h2, _, hy⟩, _, _, _, _, _, _, _, _, _, _, hid⟩ := finishSelf_ok h
  obtain ⟨a1, a2⟩ := setArgIds_ids c.arguments (b + 1) ⟨[], a⟩
  obtain ⟨o1, o2⟩ := setOptIds_ids (addHelpOption opts c.currentSection s)
    (setArgIds c.arguments (b + 1) ⟨[], a⟩).2.1 (setArgIds c.arguments (b + 1) ⟨[], a⟩).2.2
  refine ⟨1 + (c.arguments.length + (addHelpOption opts c.currentSection s).length), ?_, ?_⟩
  · unfold idsOf
    rw [h1, h2, a1, o1, a2, hid, Nat.add_comm 1, List.range'_succ, ← List.range'_append_1]
    congr 3
    omega
  · rw [hy, o2, a2]; omega

/-- The argument ids in the tree of an initialised command are beyond the start id, and those of a
sub-command are beyond those of the command. -/
theorem finishCommand_ids {s : ParserSettings} {x c' : Command} (hx : x.Within c') :
    ∀ {fn : Str} {a b : Nat} {c : Command}, finishCommand s fn a b c = .ok c' →
    (∀ i ∈ idsOf x, b < i) ∧ (idsOf x).Nodup ∧
    (∀ t ∈ x.commands, ∀ y, y.Within t → ∀ i ∈ idsOf x, ∀ j ∈ idsOf y, i < j) := by
  induction hx with
  | self =>
    intro fn a b c h
    have sub : ∀ y t : Command, y.Within t → ∀ fn a b c, finishCommand s fn a b c = .ok t → ∀ i ∈ idsOf y, b < i := by
      intro y t hy
      induction hy with
      | self =>
        intro fn a b c h i hi
        obtain ⟨c1, x1, y1, cmds, h1, h2, rfl⟩ := finishCommand_ok h
        obtain ⟨n, e, _⟩ := finishSelf_ids h1
        have : idsOf { c1 with commands := cmds } = idsOf c1 := rfl
        rw [this, e, List.mem_range'_1] at hi
        omega
      | sub ht _ ih =>
        intro fn a b c h i hi
        obtain ⟨c1, x1, y1, cmds, h1, h2, rfl⟩ := finishCommand_ok h
        obtain ⟨n, e, hy1⟩ := finishSelf_ids h1
        obtain ⟨hlen, hget⟩ := finishCommands_get h2
        obtain ⟨k, hk, rfl⟩ := List.mem_iff_getElem.mp ht
        simp only at hk
        have hk' : k < c.commands.length := by omega
        obtain ⟨c', hc', hf⟩ := hget k _ (List.getElem?_eq_getElem hk')
        rw [List.getElem?_eq_getElem hk, Option.some.injEq] at hc'
        rw [← hc'] at hf
        have := ih _ _ _ _ hf i hi
        omega
    obtain ⟨c1, x1, y1, cmds, h1, h2, rfl⟩ := finishCommand_ok h
    obtain ⟨n, e, hy1⟩ := finishSelf_ids h1
    have heq : idsOf { c1 with commands := cmds } = idsOf c1 := rfl
    refine ⟨?_, ?_, ?_⟩
    · intro i hi
      rw [heq, e, List.mem_range'_1] at hi
      omega
    · rw [heq, e]; exact List.nodup_range'
    · intro t ht y hy i hi j hj
      obtain ⟨hlen, hget⟩ := finishCommands_get h2
      obtain ⟨k, hk, rfl⟩ := List.mem_iff_getElem.mp ht
      simp only at hk
      have hk' : k < c.commands.length := by omega
      obtain ⟨c', hc', hf⟩ := hget k _ (List.getElem?_eq_getElem hk')
      rw [List.getElem?_eq_getElem hk, Option.some.injEq] at hc'
      rw [← hc'] at hf
      have := sub y _ hy _ _ _ _ hf j hj
      rw [heq, e, List.mem_range'_1] at hi
      omega
  | sub ht _ ih =>
    intro fn a b c h
    obtain ⟨c1, x1, y1, cmds, h1, h2, rfl⟩ := finishCommand_ok h
    obtain ⟨n, e, hy1⟩ := finishSelf_ids h1
    obtain ⟨hlen, hget⟩ := finishCommands_get h2
    obtain ⟨k, hk, rfl⟩ := List.mem_iff_getElem.mp ht
    simp only at hk
    have hk' : k < c.commands.length := by omega
    obtain ⟨c', hc', hf⟩ := hget k _ (List.getElem?_eq_getElem hk')
    rw [List.getElem?_eq_getElem hk, Option.some.injEq] at hc'
    rw [← hc'] at hf
    obtain ⟨i1, i2, i3⟩ := ih hf
    refine ⟨?_, i2, i3⟩
    intro i hi
    have := i1 i hi
    omega

/-! ### Names -/

theorem mem_collectIds (c : Command) (name : Str) (v : Nat) :
    (∃ a, (name, v, a) ∈ collectIds c) ↔ Declares c name v := by
  unfold collectIds Declares items
  constructor
  · rintro ⟨aid, h⟩
    rcases List.mem_append.mp h with h | h
    · obtain ⟨a, ha, h⟩ := List.mem_flatMap.mp h
      refine ⟨⟨[a.name], aliasOf a.alias_, a.valueId⟩, ?_, ?_⟩
      · exact List.mem_append_left _ (List.mem_map.mpr ⟨a, ha, rfl⟩)
      · rcases List.mem_cons.mp h with h | h
        · simp only [Prod.mk.injEq] at h
          exact ⟨by simp [Item.names, h.1], h.2.1.symm⟩
        · cases hal : a.alias_ with
          | nil => simp [hal] at h
          | cons x xs =>
            simp [hal] at h
            exact ⟨by simp [Item.names, aliasOf, h.1], h.2.1.symm⟩
    · obtain ⟨o, ho, h⟩ := List.mem_flatMap.mp h
      by_cases hop : o.operation = .none
      · simp [hop] at h
      · rw [if_neg hop] at h
        refine ⟨⟨o.flags, aliasOf o.alias_, o.valueId⟩, ?_, ?_⟩
        · exact List.mem_append_right _ (List.mem_map.mpr ⟨o, List.mem_filter.mpr ⟨ho, by simpa using hop⟩, rfl⟩)
        · rcases List.mem_append.mp h with h | h
          · simp only [List.mem_map, Prod.mk.injEq] at h
            obtain ⟨f, hf, rfl, rfl, _⟩ := h
            exact ⟨by simp [Item.names, hf], rfl⟩
          · cases hal : o.alias_ with
            | nil => simp [hal] at h
            | cons x xs =>
              simp [hal] at h
              exact ⟨by simp [Item.names, aliasOf, h.1], h.2.1.symm⟩
  · rintro ⟨i, hi, hn, rfl⟩
    rcases List.mem_append.mp hi with hi | hi
    · obtain ⟨a, ha, rfl⟩ := List.mem_map.mp hi
      refine ⟨a.argumentId, List.mem_append_left _ (List.mem_flatMap.mpr ⟨a, ha, ?_⟩)⟩
      simp only [Item.names, List.mem_append, List.mem_singleton] at hn
      rcases hn with rfl | hn
      · simp
      · cases hal : a.alias_ with
        | nil => simp [hal, aliasOf] at hn
        | cons x xs =>
          simp [hal, aliasOf] at hn
          simp [hn]
    · obtain ⟨o, ho, rfl⟩ := List.mem_map.mp hi
      obtain ⟨ho, hop⟩ := List.mem_filter.mp ho
      refine ⟨o.argumentId, List.mem_append_right _ (List.mem_flatMap.mpr ⟨o, ho, ?_⟩)⟩
      have hop : ¬ o.operation = .none := by simpa using hop
      rw [if_neg hop]
      simp only [Item.names, List.mem_append] at hn
      rcases hn with hn | hn
      · exact List.mem_append_left _ (List.mem_map.mpr ⟨name, hn, rfl⟩)
      · apply List.mem_append_right
        cases hal : o.alias_ with
        | nil => simp [hal, aliasOf] at hn
        | cons x xs =>
          simp [hal, aliasOf] at hn
          simp [hn]

/-- What the lookup of a name gives. -/
theorem getValueId_makeIds (c : Command) (name : Str) :
    ((¬ ∃ v, Declares c name v) → getValueId (makeIds c) name = .throw (b!"Unknown value: " ++ name)) ∧
    (∀ w, Declares c name w → ∃ v, getValueId (makeIds c) name = .ok v ∧ Declares c name v ∧
      ∀ w, Declares c name w → v ≤ w) := by
  obtain ⟨g1, g2⟩ := getValueId_spec _ (makeIds_sorted c) name
  have conv : ∀ v, Declares c name v ↔ ∃ a, (name, v, a) ∈ makeIds c := by
    intro v; rw [mem_makeIds, mem_collectIds]
  constructor
  · intro h
    apply g1
    rintro ⟨⟨n, v, a⟩, he, rfl⟩
    exact h ⟨v, (conv v).mpr ⟨a, he⟩⟩
  · intro w hw
    obtain ⟨a, ha⟩ := (conv w).mp hw
    obtain ⟨v, h1, h2, h3⟩ := g2 _ ha rfl
    refine ⟨v, h1, (conv v).mpr h2, ?_⟩
    intro w' hw'
    obtain ⟨a', ha'⟩ := (conv w').mp hw'
    exact h3 _ ha' rfl

end Argos
