import Verif.Proofs.Store
import Verif.Proofs.Links
import Verif.Model.Parsed
import Verif.Props.Lookup
import Verif.Proofs.Builder

/-!
# Stored values, names and ids: C16 to C20
-/

namespace Argos
open Spec

set_option synthInstance.maxSize 1000

/-! ## C16 -/

/-- C16. After every sequence of writes, the values read for any id are those of the map from ids to
lists, and `has` tells whether there are any. -/
theorem C16_map (ws : List Write) (id : Nat) :
    (ws.foldl Write.exec []).getValues id = runWrites ws id ∧
    ((ws.foldl Write.exec []).has id = true ↔ runWrites ws id ≠ []) := by
  obtain ⟨h1, h2⟩ := exec_all ws (vs := []) List.Pairwise.nil
  have h3 : (ws.foldl Write.exec []).entries id = runWrites ws id := by
    rw [h2]; rfl
  exact ⟨by rw [Values.getValues_eq h1, h3], by rw [Values.has_eq, h3]⟩

/-- Non-trivial instance: interleaved writes to three values. -/
example :
    ([.append 2 b!"a" 5, .append 1 b!"b" 6, .append 2 b!"c" 7, .assign 3 b!"d" 8, .append 3 b!"e" 8,
      .assign 1 b!"f" 6, .clear 3] : List Write).foldl Write.exec [] =
      [(1, b!"f", 6), (2, b!"a", 5), (2, b!"c", 7)] := by decide

/-- A write changes nothing but the value it is for. -/
theorem C16_others {vs : Values} (h : vs.Reachable) (w : Write) (id : Nat)
    (hid : ∀ j v a, (w = .assign j v a ∨ w = .append j v a ∨ w = .clear j) → id ≠ j) :
    (w.exec vs).getValues id = vs.getValues id ∧ (w.exec vs).has id = vs.has id := by
  have h1 := h.sorted
  have h2 := (h.step w).sorted
  have he : (w.exec vs).entries id = vs.entries id := by
    rw [exec_entries h1]
    cases w with
    | assign j v a => exact if_neg (hid j v a (Or.inl rfl))
    | append j v a => exact if_neg (hid j v a (Or.inr (Or.inl rfl)))
    | clear j => exact if_neg (hid j [] 0 (Or.inr (Or.inr rfl)))
  refine ⟨by rw [Values.getValues_eq h1, Values.getValues_eq h2, he], ?_⟩
  rw [Bool.eq_iff_iff, Values.has_eq, Values.has_eq, he]

example : (Write.assign 2 b!"x" 1).exec [(1, b!"a", 1), (2, b!"b", 1), (2, b!"c", 1), (3, b!"d", 1)] =
    [(1, b!"a", 1), (2, b!"x", 1), (3, b!"d", 1)] := by decide

/-- A sequence of builder calls as made by a callback. -/
def applyAll (n : PNode) : List BuilderOp → Outcome PNode
  | [] => .ok n
  | op :: ops => do
    let r ← op.apply n
    applyAll r.1 ops

/-- C16 for callbacks. Calls on the builder are writes to values that their names declare, and the
values read afterwards are those of the map. -/
theorem C16_builder (c : Command) (ops : List BuilderOp) (n : PNode) (h : applyAll (PNode.make c) ops = .ok n) :
    ∃ ws : List Write, WritesOf c ops ws ∧ n.ids = makeIds c ∧
      ∀ id, n.values.getValues id = runWrites ws id := by
  have gen : ∀ (ops : List BuilderOp) (m : PNode), m.ids = makeIds c → applyAll m ops = .ok n →
      ∃ ws : List Write, WritesOf c ops ws ∧ n.ids = makeIds c ∧
        n.values = ws.foldl Write.exec m.values := by
    intro ops
    induction ops with
    | nil =>
      intro m hm h
      simp only [applyAll, Outcome.ok.injEq] at h
      subst h
      exact ⟨[], WritesOf.nil, hm, rfl⟩
    | cons op ops ih =>
      intro m hm h
      unfold applyAll at h
      rw [Outcome.bind_eq_ok] at h
      obtain ⟨⟨m', k⟩, hop, h⟩ := h
      obtain ⟨w, hw, rfl, _⟩ := apply_write hm hop
      obtain ⟨ws, h1, h2, h3⟩ := ih _ (by exact hm) h
      exact ⟨w :: ws, WritesOf.cons hw h1, h2, h3⟩
  obtain ⟨ws, h1, h2, h3⟩ := gen ops _ rfl h
  refine ⟨ws, h1, h2, ?_⟩
  intro id
  rw [h3]
  exact (C16_map ws id).1

/-- Non-trivial instance: a callback that appends by name and assigns to a view. -/
example :
    (match applyAll (PNode.make
      { name := b!"c"
        arguments := [{ name := b!"file", valueId := 1, argumentId := 2 }]
        options := [{ flags := [b!"-v"], alias_ := b!"verbose", valueId := 2, argumentId := 3 }] })
      [.append b!"file" b!"x", .append b!"verbose" b!"1", .assign b!"-v" b!"2", .appendTo 1 2 b!"y"] with
    | .ok n => n.values == [(1, b!"x", 0), (1, b!"y", 2), (2, b!"2", 0)]
    | _ => false) = true := by decide

/-! ## C17 -/

/-- C17. `value`, `values` and `has` agree for every name that can be looked up. -/
theorem C17_agree (n : PNode) (hn : n.values.Reachable) (name : Str) (id : Nat)
    (hid : getValueId n.ids name = .ok id) :
    ∃ l, n.valuesOf name = .ok l ∧ n.has name = .ok (!l.isEmpty) ∧
      (l = [] ↔ n.value name = .ok ⟨none, id, 0⟩) ∧
      (∀ v a, l = [(v, a)] ↔ n.value name = .ok ⟨some v, id, a⟩) ∧
      (2 ≤ l.length ↔ ∃ m, n.value name = .throw m) ∧
      (n.value name = .throw b!"Attempt to read multiple values as a single value." ∨
        ∃ r, n.value name = .ok r) := by
  have hs := hn.sorted
  refine ⟨n.values.entries id, ?_, ?_, ?_⟩
  · simp only [PNode.valuesOf, hid, Outcome.bind_ok, Values.getValues_eq hs, Outcome.pure_eq]
  · simp only [PNode.has, hid, Outcome.bind_ok, Outcome.pure_eq, Outcome.ok.injEq]
    rw [Bool.eq_iff_iff, Values.has_eq]
    cases n.values.entries id <;> simp
  · simp only [PNode.value, hid, Outcome.bind_ok, Values.getValue_eq hs]
    generalize n.values.entries id = l
    match l with
    | [] => simp [Outcome.bind_ok]
    | [(v, a)] => simp [Outcome.bind_ok]
    | x :: y :: r => simp

/-- The overloads that take a view read the same values. -/
theorem C17_view (n : PNode) (hn : n.values.Reachable) (w : View) :
    (n.hasView w = true ↔ n.valuesView w ≠ []) ∧
      (n.valuesView w = [] ↔ n.valueView w = .ok ⟨none, w.valueId, w.argumentId⟩) ∧
      (∀ v, (∃ a, n.valuesView w = [(v, a)]) ↔ n.valueView w = .ok ⟨some v, w.valueId, w.argumentId⟩) ∧
      (2 ≤ (n.valuesView w).length ↔ ∃ m, n.valueView w = .throw m) := by
  have hs := hn.sorted
  simp only [PNode.hasView, PNode.valuesView, PNode.valueView, Values.getValues_eq hs, Values.getValue_eq hs,
    Values.has_eq]
  refine ⟨trivial, ?_⟩
  generalize n.values.entries w.valueId = l
  match l with
  | [] => simp [Outcome.bind_ok]
  | [(v, a)] => simp [Outcome.bind_ok]
  | x :: y :: r => simp

/-- Non-trivial instance: a node with none, one and two values. -/
def demoNode : PNode :=
  { PNode.make { arguments := [{ name := b!"a", valueId := 1 }, { name := b!"b", valueId := 2 },
      { name := b!"c", valueId := 3 }] } with
    values := ([.append 2 b!"x" 5, .append 3 b!"y" 6, .append 3 b!"z" 6] : List Write).foldl Write.exec [] }

example : demoNode.values.Reachable := ⟨_, rfl⟩

example : demoNode.value b!"a" = .ok ⟨none, 1, 0⟩ ∧ demoNode.value b!"b" = .ok ⟨some b!"x", 2, 5⟩ ∧
    (match demoNode.value b!"c" with | .throw _ => true | _ => false) = true ∧
    demoNode.valuesOf b!"c" = .ok [(b!"y", 6), (b!"z", 6)] := by decide

/-! ## C18 -/

/-- C18, undeclared names. Looking up a name that nothing declares throws `ArgosException`. -/
theorem C18_unknown (c : Command) (name : Str) (h : ¬ ∃ v, Declares c name v) :
    getValueId (PNode.make c).ids name = .throw (b!"Unknown value: " ++ name) :=
  (getValueId_makeIds c name).1 h

/-- Looking up a declared name succeeds and gives a value that the name declares, the smallest if
there are several. -/
theorem C18_declared (c : Command) (name : Str) (w : Nat) (h : Declares c name w) :
    ∃ v, getValueId (PNode.make c).ids name = .ok v ∧ Declares c name v ∧ ∀ w, Declares c name w → v ≤ w :=
  (getValueId_makeIds c name).2 w h

/-- The items of every command of an accepted parser got their values from the id maker. -/
theorem items_given {d d' : ParserData} (h : finishInitialization d = .ok d') {c : Command}
    (hc : c.Within d'.command) : ∃ l a, items c = ((⟨[], a⟩ : IdMaker).giveAll l).1 := by
  refine finishInitialization_all h (fun c => ∃ l a, items c = ((⟨[], a⟩ : IdMaker).giveAll l).1) ?_ c hc
  intro fn c a b c' x y hf cmds _
  obtain ⟨l, hl⟩ := finishSelf_items hf
  exact ⟨l, a, hl⟩

/-- In a command with backward links all declarations of a name are for the same value. -/
theorem declares_unique {d d' : ParserData} (h : finishInitialization d = .ok d') {c : Command}
    (hc : c.Within d'.command) (hb : BackwardLinks (items c)) :
    ∃ f : Str → Option Nat, ∀ i ∈ items c, ∀ n ∈ i.names, f n = some i.valueId := by
  obtain ⟨l, a, hl⟩ := items_given h hc
  rw [hl] at hb ⊢
  have := giveAll_complete ⟨[], a⟩ l [] (by simpa using hb) (by intro n v hf; simp [IdMaker.find] at hf) (by simp)
  simpa using this

/-- C18, declared names. If names are only used after their declaration, the lookup of a name
declared by an argument or option gives the value which that argument or option writes to.
Missing: commands where a name is used before its declaration; there it is false, see
`C18_violated`. -/
theorem C18_partial {d d' : ParserData} (h : finishInitialization d = .ok d') {c : Command}
    (hc : c.Within d'.command) (hb : BackwardLinks (items c)) {i : Item} (hi : i ∈ items c) {name : Str}
    (hn : name ∈ i.names) : getValueId (PNode.make c).ids name = .ok i.valueId := by
  obtain ⟨f, hf⟩ := declares_unique h hc hb
  obtain ⟨v, h1, ⟨j, hj, hjn, rfl⟩, _⟩ := C18_declared c name i.valueId ⟨i, hi, hn, rfl⟩
  have h2 := hf i hi name hn
  rw [hf j hj name hjn, Option.some.injEq] at h2
  rw [h1, h2]

/-- A parser with links: an option with two flags, another one and an argument linked to it. -/
def linkData : ParserData :=
  { command :=
      { name := b!"demo"
        arguments := [{ name := b!"file" }]
        options := [{ flags := [b!"-f", b!"--file"], alias_ := b!"file", argument := b!"FILE" },
          { flags := [b!"--input"], alias_ := b!"-f", argument := b!"FILE" }, { flags := [b!"-v"] }] } }

/-- The items and the lookups of a parser, if it is accepted. -/
def itemsOf (d : ParserData) : Option (List Item) :=
  match finishInitialization d with
  | .ok d' => some (items d'.command)
  | _ => none

/-- The result of looking up a name in the top-level result, if the parser is accepted. -/
def lookupOf (d : ParserData) (name : Str) : Option (Outcome Nat) :=
  match finishInitialization d with
  | .ok d' => some (getValueId (PNode.make d'.command).ids name)
  | _ => none

/-- A check of `BackwardLinks`, for the examples. -/
def backwardCheck (pre : List Item) : List Item → Bool
  | [] => true
  | i :: post =>
    ((i.own.all fun n => pre.all fun j => !j.names.contains n) || (i.alias_.isNone && i.own.length == 1)) &&
      backwardCheck (pre ++ [i]) post

theorem backwardCheck_sound (l : List Item) (h : backwardCheck [] l = true) : BackwardLinks l := by
  have gen : ∀ (l pre : List Item), backwardCheck pre l = true → ∀ p i q, l = p ++ i :: q →
      (∀ n ∈ i.own, ∀ j ∈ pre ++ p, n ∉ j.names) ∨ (i.alias_ = none ∧ ∃ n, i.own = [n]) := by
    intro l
    induction l with
    | nil => intro pre _ p i q h; simp at h
    | cons x l ih =>
      intro pre hc p i q h
      simp only [backwardCheck, Bool.and_eq_true, Bool.or_eq_true] at hc
      cases p with
      | nil =>
        simp only [List.nil_append, List.cons.injEq] at h
        obtain ⟨rfl, rfl⟩ := h
        rcases hc.1 with h1 | h1
        · left
          simpa using h1
        · right
          exact ⟨by simpa using h1.1, List.length_eq_one_iff.mp (by simpa using h1.2)⟩
      | cons y p =>
        simp only [List.cons_append, List.cons.injEq] at h
        obtain ⟨rfl, rfl⟩ := h
        have := ih (pre ++ [x]) hc.2 p i q rfl
        simpa using this
  intro pre i post e
  simpa using gen l [] h pre i post e

/-- Non-trivial instance: the parser has backward links, and names of linked options give the value
of the argument. -/
example : (∃ l, itemsOf linkData = some l ∧ BackwardLinks l ∧ l.length = 5) ∧
    lookupOf linkData b!"--input" = some (.ok 1) ∧ lookupOf linkData b!"file" = some (.ok 1) ∧
    lookupOf linkData b!"-v" = some (.ok 2) := by
  refine ⟨⟨(itemsOf linkData).get (by decide), by decide, backwardCheck_sound _ (by decide), by decide⟩, ?_⟩
  decide

/-- The counterexample to C18 and C19: the first option uses a flag of the second one as its alias,
and the third one uses the other flag of the second. -/
def forwardData : ParserData :=
  { command :=
      { name := b!"demo"
        options := [{ flags := [b!"-q"], alias_ := b!"--verbose" }, { flags := [b!"-v", b!"--verbose"] },
          { flags := [b!"-x"], alias_ := b!"-v" }] } }

/-- C18 is false in general: the third option writes to value 2, but its alias `-v` gives value 1. -/
theorem C18_violated : ∃ (d d' : ParserData) (i : Item) (name : Str), finishInitialization d = .ok d' ∧
    i ∈ items d'.command ∧ name ∈ i.names ∧ getValueId (PNode.make d'.command).ids name ≠ .ok i.valueId := by
  have hok : (finishInitialization forwardData).isOk = true := by decide
  obtain ⟨d', hd'⟩ := (Outcome.isOk_iff _).mp hok
  have h1 : itemsOf forwardData = some (items d'.command) := by simp [itemsOf, hd']
  have h2 : lookupOf forwardData b!"-v" = some (getValueId (PNode.make d'.command).ids b!"-v") := by
    simp [lookupOf, hd']
  have h3 : (⟨[b!"-x"], some b!"-v", 2⟩ : Item) ∈ (itemsOf forwardData).get (by decide) := by decide
  have h4 : lookupOf forwardData b!"-v" = some (.ok 1) := by decide
  refine ⟨forwardData, d', ⟨[b!"-x"], some b!"-v", 2⟩, b!"-v", hd', ?_, by decide, ?_⟩
  · simpa [h1] using h3
  · rw [h4, Option.some.injEq] at h2
    rw [← h2]
    simp

/-! ## C19 -/

/-- C19, one direction, for all declarations: arguments and options of a command that write to the
same value are connected through equal names, flags or aliases. -/
theorem C19_sound {d d' : ParserData} (h : finishInitialization d = .ok d') {c : Command}
    (hc : c.Within d'.command) {i j : Item} (hi : i ∈ items c) (hj : j ∈ items c)
    (hij : i.valueId = j.valueId) : Connected (items c) i j := by
  obtain ⟨l, a, hl⟩ := items_given h hc
  rw [hl] at hi hj ⊢
  have := giveAll_sound ⟨[], a⟩ l [] (by intro n v hf; simp [IdMaker.find] at hf) (by simp) (by simp)
  simp only [List.nil_append] at this
  exact this i hi j hj hij

/-- C19, both directions, when names are only used after their declaration: two arguments/options of
a command write to the same value if and only if they are connected. Missing: uses before the
declaration; there connected items can have different values, see `C19_violated`. -/
theorem C19_partial {d d' : ParserData} (h : finishInitialization d = .ok d') {c : Command}
    (hc : c.Within d'.command) (hb : BackwardLinks (items c)) {i j : Item} (hi : i ∈ items c)
    (hj : j ∈ items c) : i.valueId = j.valueId ↔ Connected (items c) i j := by
  constructor
  · exact C19_sound h hc hi hj
  · intro hcon
    obtain ⟨f, hf⟩ := declares_unique h hc hb
    clear hj
    induction hcon with
    | refl _ => rfl
    | step h1 hk hs ih =>
      obtain ⟨n, hn1, hn2⟩ := hs
      have h2 := hf _ h1.mem_right n hn1
      rw [hf _ hk n hn2, Option.some.injEq] at h2
      rw [ih, h2]

/-- C19, the effect: writing to the value of an item does not change the values of an item that is
not connected to it. -/
theorem C19_independent {d d' : ParserData} (h : finishInitialization d = .ok d') {c : Command}
    (hc : c.Within d'.command) {i j : Item} (hi : i ∈ items c) (hj : j ∈ items c)
    (hij : ¬ Connected (items c) i j) {vs : Values} (hv : vs.Reachable) (w : Write)
    (hw : ∃ v a, w = .assign i.valueId v a ∨ w = .append i.valueId v a ∨ w = .clear i.valueId) :
    (w.exec vs).getValues j.valueId = vs.getValues j.valueId := by
  refine (C16_others hv w j.valueId ?_).1
  have hne : i.valueId ≠ j.valueId := fun e => hij (C19_sound h hc hi hj e)
  obtain ⟨v, a, hw⟩ := hw
  intro k v' a' hk e
  apply hne
  rcases hw with rfl | rfl | rfl <;> rcases hk with hk | hk | hk <;> simp at hk <;> omega

/-- Non-trivial instance: in `linkData` the argument, `-f` and `--input` share value 1, `-v` has
value 2 and is not connected to them. -/
example : (itemsOf linkData).map (fun l => l.map (·.valueId)) = some [1, 1, 1, 2, 3] := by decide

/-- C19 is false in general: in `forwardData` the second and the third option are connected (the
alias of the third is a flag of the second) but write to different values. -/
theorem C19_violated : ∃ (d d' : ParserData) (i j : Item), finishInitialization d = .ok d' ∧
    i ∈ items d'.command ∧ j ∈ items d'.command ∧ i.Share j ∧ Connected (items d'.command) i j ∧
    i.valueId ≠ j.valueId := by
  have hok : (finishInitialization forwardData).isOk = true := by decide
  obtain ⟨d', hd'⟩ := (Outcome.isOk_iff _).mp hok
  have h1 : itemsOf forwardData = some (items d'.command) := by simp [itemsOf, hd']
  have h3 : (⟨[b!"-v", b!"--verbose"], none, 1⟩ : Item) ∈ (itemsOf forwardData).get (by decide) := by decide
  have h4 : (⟨[b!"-x"], some b!"-v", 2⟩ : Item) ∈ (itemsOf forwardData).get (by decide) := by decide
  simp only [h1, Option.get_some] at h3 h4
  have hs : Item.Share ⟨[b!"-v", b!"--verbose"], none, 1⟩ ⟨[b!"-x"], some b!"-v", 2⟩ :=
    ⟨b!"-v", by decide, by decide⟩
  exact ⟨forwardData, d', _, _, hd', h3, h4, hs, .step (.refl h3) h4 hs, by decide⟩

/-! ## C20 -/

/-- C20. In every command of an accepted parser all argument ids are different, none is 0 (which
stands for "no definition"), and those of its sub-commands at any depth are different from them. -/
theorem C20_unique {d d' : ParserData} (h : finishInitialization d = .ok d') {c : Command}
    (hc : c.Within d'.command) :
    (idsOf c).Nodup ∧ 0 ∉ idsOf c ∧
      ∀ s ∈ c.commands, ∀ x, x.Within s → ∀ i ∈ idsOf c, i ∉ idsOf x := by
  obtain ⟨_, _, _, fn, c0, h1, _⟩ := finishInitialization_ok h
  obtain ⟨i1, i2, i3⟩ := finishCommand_ids hc h1
  refine ⟨i2, fun h0 => absurd (i1 0 h0) (by omega), ?_⟩
  intro s hs x hx i hi hi'
  have := i3 s hs x hx i hi i hi'
  omega

/-- C20, the effect: the definition reported for an argument id of a command is the argument or
option that has it, and there is none for id 0. -/
theorem C20_view {d d' : ParserData} (h : finishInitialization d = .ok d') {c : Command}
    (hc : c.Within d'.command) :
    (∀ a ∈ c.arguments, getArgumentView c a.argumentId = some (.arg a)) ∧
    (∀ o ∈ c.options, getArgumentView c o.argumentId = some (.opt o)) ∧
    getArgumentView c 0 = none := by
  obtain ⟨hn, h0, _⟩ := C20_unique h hc
  unfold idsOf at hn h0
  rw [List.nodup_cons, List.nodup_append] at hn
  obtain ⟨_, ha, ho, hao⟩ := hn
  have find : ∀ {α : Type} (f : α → Nat) (l : List α), (l.map f).Nodup → ∀ x ∈ l,
      l.find? (fun y => decide (f y = f x)) = some x := by
    intro α f l
    induction l with
    | nil => simp
    | cons y l ih =>
      intro hnd x hx
      rw [List.map_cons, List.nodup_cons] at hnd
      rcases List.mem_cons.mp hx with rfl | hx
      · simp
      · have : f y ≠ f x := fun e => hnd.1 (e ▸ List.mem_map.mpr ⟨x, hx, rfl⟩)
        rw [List.find?_cons, decide_eq_false this]
        exact ih hnd.2 x hx
  refine ⟨?_, ?_, ?_⟩
  · intro a hma
    unfold getArgumentView
    rw [find (fun a : ArgData => a.argumentId) _ ha a hma]
  · intro o hmo
    unfold getArgumentView
    have : c.arguments.find? (fun a => decide (a.argumentId = o.argumentId)) = none := by
      rw [List.find?_eq_none]
      intro a hma he
      simp only [decide_eq_true_eq] at he
      exact hao _ (List.mem_map.mpr ⟨a, hma, rfl⟩) _ (List.mem_map.mpr ⟨o, hmo, rfl⟩) he
    rw [this, find (fun o : OptData => o.argumentId) _ ho o hmo]
    rfl
  · unfold getArgumentView
    have h1 : c.arguments.find? (fun a => decide (a.argumentId = 0)) = none := by
      rw [List.find?_eq_none]
      intro a hma he
      simp only [decide_eq_true_eq] at he
      exact h0 (by simp; right; left; exact ⟨a, hma, he⟩)
    have h2 : c.options.find? (fun a => decide (a.argumentId = 0)) = none := by
      rw [List.find?_eq_none]
      intro a hma he
      simp only [decide_eq_true_eq] at he
      exact h0 (by simp; right; right; exact ⟨a, hma, he⟩)
    rw [h1, h2]
    rfl

/-- Non-trivial instance: the ids of the commands of `demoData`. -/
example : (match finishInitialization demoData with
    | .ok d' => some (idsOf d'.command, d'.command.commands.map idsOf)
    | _ => none) = some ([1, 2, 3, 4, 5, 6], [[7, 8, 9]]) := by decide

end Argos
