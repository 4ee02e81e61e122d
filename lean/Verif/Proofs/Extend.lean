import Verif.Proofs.Phrase
import Verif.Proofs.ReorderInit
import Verif.Spec.Extend

/-!
# Command lines are read in the same way by a parser with more options
-/

namespace Argos

open Spec

/-- The second command is the first one with more options: `os` are the old options and `os'` the same with other numbers, `gs` are the generated options of
the first command, `gs'` the additional and generated options of the second one. `R` are the corresponding numbers of values. -/
structure Grows (ci : Bool) (c c' : Command) (R : Nat → Nat → Prop) (os gs os' gs' : List OptData) : Prop where
  name : c.name = c'.name
  require : c.requireSubcommand = c'.requireSubcommand
  multi : c.multiCommand = c'.multiCommand
  arguments : Each (fun a a' => plainArg a = plainArg a' ∧ R a.valueId a'.valueId) c.arguments c'.arguments
  options : c.options = os ++ gs
  options' : c'.options = os' ++ gs'
  kept : Each (fun o o' => plainOpt o = plainOpt o' ∧ R o.valueId o'.valueId) os os'
  types : ∀ x ∈ gs, EndsParsing x
  initials : ∀ x ∈ gs, x.initialValue = []
  optional : ∀ x ∈ gs', x.optional = true
  equals : ∀ x ∈ gs', ∀ g ∈ x.flags, ∀ f ∈ flagsOf os, ¬ SameFlag ci g (f ++ b!"=")
  initials' : ∀ x ∈ gs', x.initialValue = [] ∨ ∀ v, ¬ R v x.valueId
  left : ∀ v w w', R v w → R v w' → w = w'
  right : ∀ v v' w, R v w → R v' w → v = v'
  names : ∀ s, ValueName c s → ∃ v v', getValueId (makeIds c) s = .ok v ∧ getValueId (makeIds c') s = .ok v' ∧ R v v'

/-- See `Grows`. -/
def SelfGrows (ci : Bool) (c c' : Command) (R : Nat → Nat → Prop) : Prop := ∃ os gs os' gs', Grows ci c c' R os gs os' gs'

open Classical in
/-- The corresponding numbers of values. -/
noncomputable def valueLink (ci : Bool) (c c' : Command) : Nat → Nat → Prop :=
  if h : ∃ R, SelfGrows ci c c' R then h.choose else fun _ _ => False

theorem valueLink_spec {ci : Bool} {c c' : Command} {R : Nat → Nat → Prop} (h : SelfGrows ci c c' R) : SelfGrows ci c c' (valueLink ci c c') := by
  have h' : ∃ R, SelfGrows ci c c' R := ⟨R, h⟩
  unfold valueLink
  rw [dif_pos h']
  exact h'.choose_spec

/-- The second command is the first one with more options, also in its sub-commands. -/
inductive Grown (ci : Bool) : Command → Command → Prop
  | intro {c c' : Command} (self : SelfGrows ci c c' (valueLink ci c c')) (commands : Each (Grown ci) c.commands c'.commands) : Grown ci c c'

variable {ci : Bool} {c c' : Command}

theorem Grown.self (h : Grown ci c c') : SelfGrows ci c c' (valueLink ci c c') := by cases h; assumption
theorem Grown.commands (h : Grown ci c c') : Each (Grown ci) c.commands c'.commands := by cases h; assumption

/-- Corresponding options. -/
def OptLink (ci : Bool) (c c' : Command) (o o' : OptData) : Prop := plainOpt o = plainOpt o' ∧ valueLink ci c c' o.valueId o'.valueId

/-- Corresponding arguments. -/
def ArgLink (ci : Bool) (c c' : Command) (a a' : ArgData) : Prop := plainArg a = plainArg a' ∧ valueLink ci c c' a.valueId a'.valueId

section
variable {o o' : OptData} (h : OptLink ci c c' o o')
include h
theorem OptLink.flags : o.flags = o'.flags := by have := congrArg OptData.flags h.1; exact this
theorem OptLink.argument : o.argument = o'.argument := by have := congrArg OptData.argument h.1; exact this
theorem OptLink.constant : o.constant = o'.constant := by have := congrArg OptData.constant h.1; exact this
theorem OptLink.operation : o.operation = o'.operation := by have := congrArg OptData.operation h.1; exact this
theorem OptLink.type : o.type = o'.type := by have := congrArg OptData.type h.1; exact this
theorem OptLink.optional : o.optional = o'.optional := by have := congrArg OptData.optional h.1; exact this
theorem OptLink.initialValue : o.initialValue = o'.initialValue := by have := congrArg OptData.initialValue h.1; exact this
theorem OptLink.needsValue : NeedsValue o ↔ NeedsValue o' := by unfold NeedsValue; rw [h.operation, h.constant]
theorem OptLink.ends : EndsParsing o ↔ EndsParsing o' := by unfold EndsParsing; rw [h.type]
theorem OptLink.valueFor (x : Reading) : x.valueFor o = x.valueFor o' := by
  unfold Reading.valueFor
  by_cases hn : NeedsValue o
  · rw [if_pos hn, if_pos (h.needsValue.mp hn)]
  · rw [if_neg hn, if_neg fun k => hn (h.needsValue.mpr k)]
theorem OptLink.leftBy (x : Reading) : x.leftBy o = x.leftBy o' := by
  unfold Reading.leftBy
  by_cases hn : NeedsValue o
  · rw [if_pos hn, if_pos (h.needsValue.mp hn)]
  · rw [if_neg hn, if_neg fun k => hn (h.needsValue.mpr k)]
theorem OptLink.plainBy (x : Reading) : x.plainBy o = x.plainBy o' := by
  unfold Reading.plainBy
  by_cases hn : NeedsValue o
  · rw [if_pos hn, if_pos (h.needsValue.mp hn)]
  · rw [if_neg hn, if_neg fun k => hn (h.needsValue.mpr k)]
end

theorem Each.mem_left {α β : Type} {R : α → β → Prop} {xs : List α} {ys : List β} (h : Each R xs ys) {x : α} (hx : x ∈ xs) : ∃ y ∈ ys, R x y := by
  induction h with
  | nil => simp at hx
  | @cons a b as bs h1 _ ih =>
    rcases List.mem_cons.mp hx with rfl | hx
    · exact ⟨b, by simp, h1⟩
    · obtain ⟨y, hy, hr⟩ := ih hx
      exact ⟨y, by simp [hy], hr⟩

theorem Each.mono {α β : Type} {R S : α → β → Prop} {xs : List α} {ys : List β} (h : Each R xs ys) (hRS : ∀ x ∈ xs, ∀ y ∈ ys, R x y → S x y) : Each S xs ys := by
  induction h with
  | nil => exact .nil
  | @cons a b as bs h1 _ ih =>
    exact .cons (hRS a (by simp) b (by simp) h1) (ih fun x hx y hy => hRS x (by simp [hx]) y (by simp [hy]))

/-- Old options are found in the enlarged command. -/
theorem Grown.option (h : Grown ci c c') {o : OptData} (ho : o ∈ c.options) (he : ¬ EndsParsing o) : ∃ o' ∈ c'.options, OptLink ci c c' o o' := by
  obtain ⟨os, gs, os', gs', g⟩ := h.self
  rw [g.options] at ho
  rcases List.mem_append.mp ho with ho | ho
  · obtain ⟨o', ho', hl⟩ := Each.mem_left g.kept ho
    exact ⟨o', by rw [g.options']; exact List.mem_append_left _ ho', hl⟩
  · exact absurd (g.types o ho) he

theorem sameFlag_append {ci : Bool} {f g : Str} (h : SameFlag ci f g) (x : Str) : SameFlag ci (f ++ x) (g ++ x) := by
  unfold SameFlag at *
  cases ci with
  | false => simp only [Bool.false_eq_true, if_false] at *; rw [h]
  | true => simp only [if_true, foldCase, List.map_append] at *; rw [h]

theorem sameFlag_trans {ci : Bool} {f g k : Str} (h : SameFlag ci f g) (h' : SameFlag ci g k) : SameFlag ci f k := by
  unfold SameFlag at *
  cases ci <;> simp_all

/-- What named an option still does. -/
theorem Grown.names (h : Grown ci c c') {q : Str} {o : OptData} (hn : Names ci false c q o) (he : ¬ EndsParsing o) :
    ∃ o', OptLink ci c c' o o' ∧ Names ci false c' q o' := by
  have key : ∀ {q : Str}, Selects ci false c.options q o → ∃ o' ∈ c'.options, OptLink ci c c' o o' ∧ Selects ci false c'.options q o' := by
    rintro q ⟨ho, hs | ⟨ha, _⟩⟩
    · obtain ⟨o', ho', hl⟩ := h.option ho he
      refine ⟨o', ho', hl, ho', .inl ?_⟩
      rw [← hl.flags]
      exact hs
    · simp at ha
  rcases hn with hn | ⟨f, rfl, h2, h3, h4, h5⟩
  · obtain ⟨o', _, hl, hs⟩ := key hn
    exact ⟨o', hl, .inl hs⟩
  · obtain ⟨o', _, hl, hs⟩ := key h4
    refine ⟨o', hl, .inr ⟨f, rfl, h2, ?_, hs, by rw [← hl.argument]; exact h5⟩⟩
    rintro x ⟨hx, ⟨g, hg, hgs⟩ | ⟨ha, _⟩⟩
    · obtain ⟨os, gs, os', gs', k⟩ := h.self
      rw [k.options'] at hx
      rcases List.mem_append.mp hx with hx | hx
      · obtain ⟨y, hy, hyl⟩ := Each.mem_right k.kept hx
        refine h3 y ⟨by rw [k.options]; exact List.mem_append_left _ hy, .inl ⟨g, ?_, hgs⟩⟩
        rw [OptLink.flags (c := c) (c' := c') (ci := ci) hyl]
        exact hg
      · obtain ⟨ho, ⟨f1, hf1, hfs⟩ | ⟨ha, _⟩⟩ := h4
        · have hos : o ∈ os := by
            rw [k.options] at ho
            rcases List.mem_append.mp ho with ho | ho
            · exact ho
            · exact absurd (k.types o ho) he
          refine k.equals x hx g hg f1 (List.mem_flatMap.mpr ⟨o, hos, hf1⟩) ?_
          exact sameFlag_trans hgs (sameFlag_append (sameFlag_symm hfs) _)
        · simp at ha
    · simp at ha

/-- What named a sub-command still does. -/
theorem Grown.sub (h : Grown ci c c') {q : Str} {c1 : Command} (hn : NamesCommand ci c q c1) : ∃ c1', Grown ci c1 c1' ∧ NamesCommand ci c' q c1' := by
  unfold NamesCommand at *
  have hc := h.commands
  revert hn hc
  generalize c.commands = cs
  generalize c'.commands = cs'
  intro hn hc
  induction hc with
  | nil => simp at hn
  | @cons x y xs ys h1 _ ih =>
    have hname : x.name = y.name := by obtain ⟨_, _, _, _, g⟩ := h1.self; exact g.name
    rw [List.find?_cons] at hn ⊢
    rw [← hname]
    by_cases hx : SameFlag ci x.name q
    · simp only [decide_eq_true hx, Option.some.injEq] at hn ⊢
      subst hn
      exact ⟨y, h1, rfl⟩
    · simp only [decide_eq_false hx] at hn ⊢
      exact ih hn

theorem Grown.leaf (h : Grown ci c c') : c.commands = [] ↔ c'.commands = [] := by
  have hc := h.commands
  revert hc
  generalize c.commands = cs
  generalize c'.commands = cs'
  intro hc
  cases hc <;> simp

/-! ### The line -/

/-- Corresponding pieces. -/
inductive PieceLink (ci : Bool) (c c' : Command) : Piece → Piece → Prop
  | option {o o' : OptData} {v : Str} : OptLink ci c c' o o' → ¬ EndsParsing o → PieceLink ci c c' (.option o v) (.option o' v)
  | argument {v : Str} : PieceLink ci c c' (.argument v) (.argument v)

theorem Grown.written (h : Grown ci c c') {style : OptionStyle} {l l' : Line} {p : Piece} (hw : Written style (Names ci false) c l p l') :
    ∃ p', PieceLink ci c c' p p' ∧ Written style (Names ci false) c' l p' l' := by
  cases hw with
  | @option r x o v h1 h2 h3 h4 h5 =>
    have he : ¬ EndsParsing o := Parser.not_ends (.inl h5)
    obtain ⟨o', hl, hn⟩ := h.names h3 he
    refine ⟨_, .option hl he, ?_⟩
    rw [hl.leftBy]
    exact .option h1 h2 hn (by rw [← hl.valueFor]; exact h4) (by rw [← hl.type]; exact h5)
  | @lastOption r x o v h1 h2 h3 h4 h5 =>
    have he : ¬ EndsParsing o := Parser.not_ends (.inr (.inl h5))
    obtain ⟨o', hl, hn⟩ := h.names h3 he
    refine ⟨_, .option hl he, ?_⟩
    rw [hl.plainBy]
    exact .lastOption h1 h2 hn (by rw [← hl.valueFor]; exact h4) (by rw [← hl.type]; exact h5)
  | @lastArgument r x o v h1 h2 h3 h4 h5 =>
    have he : ¬ EndsParsing o := Parser.not_ends (.inr (.inr h5))
    obtain ⟨o', hl, hn⟩ := h.names h3 he
    refine ⟨_, .option hl he, ?_⟩
    rw [hl.leftBy]
    exact .lastArgument h1 h2 hn (by rw [← hl.valueFor]; exact h4) (by rw [← hl.type]; exact h5)
  | argument h1 h2 h3 => exact ⟨_, .argument, .argument h1 h2 (h.leaf.mp h3)⟩
  | plainArgument h1 => exact ⟨_, .argument, .plainArgument (h.leaf.mp h1)⟩

theorem Grown.writtenAll (h : Grown ci c c') {style : OptionStyle} {l l' : Line} {ps : List Piece} (hw : WrittenAll style (Names ci false) c l ps l') :
    ∃ ps', Each (PieceLink ci c c') ps ps' ∧ WrittenAll style (Names ci false) c' l ps' l' := by
  induction hw with
  | nil => exact ⟨[], .nil, .nil⟩
  | cons h1 _ ih =>
    obtain ⟨p', hp, hw'⟩ := h.written h1
    obtain ⟨ps', hps, hws⟩ := ih
    exact ⟨p' :: ps', .cons hp hps, .cons hw' hws⟩

theorem Grown.enters (h : Grown ci c c') {style : OptionStyle} {l l' : Line} {c1 : Command} (he : Enters style (NamesCommand ci) c l c1 l') :
    ∃ c1', Grown ci c1 c1' ∧ Enters style (NamesCommand ci) c' l c1' l' := by
  cases he with
  | command h1 h2 h3 h4 =>
    obtain ⟨c1', hg, hn⟩ := h.sub h4
    exact ⟨c1', hg, .command h1 h2 (fun e => h3 (h.leaf.mpr e)) hn⟩
  | plainCommand h1 h2 =>
    obtain ⟨c1', hg, hn⟩ := h.sub h2
    exact ⟨c1', hg, .plainCommand (fun e => h1 (h.leaf.mpr e)) hn⟩

/-- Corresponding results, from the commands given on. -/
inductive ResultLink (ci : Bool) : Command → Command → List IterResult → List IterResult → Prop
  | nil {c c' : Command} : ResultLink ci c c' [] []
  | option {c c' : Command} {o o' : OptData} {v : Option Str} {rs rs' : List IterResult} : OptLink ci c c' o o' → ¬ EndsParsing o →
      ResultLink ci c c' rs rs' → ResultLink ci c c' (.option o v :: rs) (.option o' v :: rs')
  | argument {c c' : Command} {a a' : ArgData} {v : Option Str} {rs rs' : List IterResult} : ArgLink ci c c' a a' →
      ResultLink ci c c' rs rs' → ResultLink ci c c' (.argument a v :: rs) (.argument a' v :: rs')
  | command {c c' c1 c1' : Command} {t : Str} {rs rs' : List IterResult} : Grown ci c1 c1' →
      ResultLink ci c1 c1' rs rs' → ResultLink ci c c' (.command c1 t :: rs) (.command c1' t :: rs')

/-- Results of one command. -/
inductive SegmentLink (ci : Bool) (c c' : Command) : List IterResult → List IterResult → Prop
  | nil : SegmentLink ci c c' [] []
  | option {o o' : OptData} {v : Option Str} {rs rs' : List IterResult} : OptLink ci c c' o o' → ¬ EndsParsing o →
      SegmentLink ci c c' rs rs' → SegmentLink ci c c' (.option o v :: rs) (.option o' v :: rs')
  | argument {a a' : ArgData} {v : Option Str} {rs rs' : List IterResult} : ArgLink ci c c' a a' →
      SegmentLink ci c c' rs rs' → SegmentLink ci c c' (.argument a v :: rs) (.argument a' v :: rs')

theorem SegmentLink.then_ {rs rs' ts ts' : List IterResult} (h : SegmentLink ci c c' rs rs') (ht : ResultLink ci c c' ts ts') :
    ResultLink ci c c' (rs ++ ts) (rs' ++ ts') := by
  induction h with
  | nil => exact ht
  | option h1 h2 _ ih => exact .option h1 h2 ih
  | argument h1 _ ih => exact .argument h1 ih

theorem report_link {ps ps' : List Piece} (h : Each (PieceLink ci c c') ps ps') : ∀ {as as' : List ArgData}, Each (ArgLink ci c c') as as' →
    SegmentLink ci c c' (report ps as) (report ps' as') := by
  induction h with
  | nil => intro as as' _; exact .nil
  | cons h1 _ ih =>
    intro as as' ha
    cases h1 with
    | option hl he => exact .option hl he (ih ha)
    | argument =>
      cases ha with
      | nil => exact .nil
      | cons h2 h3 => exact .argument h2 (ih h3)

theorem argPieces_link {ps ps' : List Piece} (h : Each (PieceLink ci c c') ps ps') : argPieces ps = argPieces ps' := by
  induction h with
  | nil => rfl
  | cons h1 _ ih =>
    rw [argPieces_cons, argPieces_cons, ih]
    cases h1 <;> rfl

theorem Each.length {α β : Type} {R : α → β → Prop} {xs : List α} {ys : List β} (h : Each R xs ys) : xs.length = ys.length := by
  induction h with
  | nil => rfl
  | cons _ _ ih => simp [ih]

theorem counts_link {as as' : List ArgData} (h : Each (ArgLink ci c c') as as') :
    as.map (fun a => (a.minCount, a.maxCount)) = as'.map fun a => (a.minCount, a.maxCount) := by
  induction h with
  | nil => rfl
  | cons h1 _ ih =>
    have e1 := congrArg ArgData.minCount h1.1
    have e2 := congrArg ArgData.maxCount h1.1
    simp only [List.map_cons, ih, List.cons.injEq, Prod.mk.injEq, and_true]
    exact ⟨e1, e2⟩

theorem allotment_counts {as as' : List ArgData} (h : as.map (fun a => (a.minCount, a.maxCount)) = as'.map fun a => (a.minCount, a.maxCount)) {n : Nat}
    {ks : List Nat} (ha : IsAllotment as n ks) : IsAllotment as' n ks := by
  have hlen : as.length = as'.length := by simpa using congrArg List.length h
  have hget : ∀ (i : Nat) (h1 : i < as.length) (h2 : i < as'.length), as[i].minCount = as'[i].minCount ∧ as[i].maxCount = as'[i].maxCount := by
    intro i h1 h2
    have e := congrArg (fun l : List (Nat × Nat) => l[i]?) h
    simp only [List.getElem?_map, List.getElem?_eq_getElem h1, List.getElem?_eq_getElem h2, Option.map_some, Option.some.injEq, Prod.mk.injEq] at e
    exact e
  refine ⟨by rw [ha.length, hlen], ha.total, ?_, ?_⟩
  · intro i h1 h2
    have := hget i (by omega) h1
    rw [← this.1, ← this.2]
    exact ha.within i (by omega) h2
  · intro i j hj hj' hij hlt
    rw [← (hget j (by omega) hj).1] at hlt
    rw [← (hget i (by omega) (by omega)).2]
    exact ha.earliest i j (by omega) hj' hij hlt

theorem handedOut_link {as as' : List ArgData} (h : Each (ArgLink ci c c') as as') : ∀ ks : List Nat, Each (ArgLink ci c c') (handedOut as ks) (handedOut as' ks) := by
  induction h with
  | nil => intro ks; exact .nil
  | @cons a a' as as' h1 _ ih =>
    intro ks
    cases ks with
    | nil => exact .nil
    | cons k ks =>
      simp only [handedOut, List.zip_cons_cons, List.flatMap_cons]
      refine Each.append ?_ (ih ks)
      clear ih
      induction k with
      | zero => exact .nil
      | succ k ih => exact .cons h1 ih

/-! ### The values -/

/-- The occurrences give corresponding values. -/
def OccLink (ci : Bool) (c c' : Command) (l l' : List Occ) : Prop :=
  ∀ v v', valueLink ci c c' v v' → (valuesOf l v).map (·.1) = (valuesOf l' v').map (·.1)

theorem valuesOf_snoc (l : List Occ) (x : Occ) : valuesOf (l ++ [x]) = (x.writes).foldl Write.run (valuesOf l) := by
  unfold valuesOf runWrites
  rw [List.flatMap_append, List.foldl_append]
  simp

/-- Corresponding writes. -/
theorem run_link {R : Nat → Nat → Prop} (left : ∀ v w w', R v w → R v w' → w = w') (right : ∀ v v' w, R v w → R v' w → v = v') {m m' : ValueMap}
    (h : ∀ v v', R v v' → (m v).map (·.1) = (m' v').map (·.1)) {i i' : Nat} (hi : R i i') {x : Str} {p p' : Nat} :
    (∀ v v', R v v' → ((Write.assign i x p).run m v).map (·.1) = ((Write.assign i' x p').run m' v').map (·.1)) ∧
    (∀ v v', R v v' → ((Write.append i x p).run m v).map (·.1) = ((Write.append i' x p').run m' v').map (·.1)) ∧
    (∀ v v', R v v' → ((Write.clear i).run m v).map (·.1) = ((Write.clear i').run m' v').map (·.1)) := by
  have hiff : ∀ v v', R v v' → (v = i ↔ v' = i') := fun v v' hv =>
    ⟨fun e => left i v' i' (e ▸ hv) hi, fun e => right v i i' (e ▸ hv) hi⟩
  refine ⟨?_, ?_, ?_⟩ <;> intro v v' hv <;> simp only [Write.run]
  · by_cases e : v = i
    · rw [if_pos e, if_pos ((hiff v v' hv).mp e)]; rfl
    · rw [if_neg e, if_neg fun k => e ((hiff v v' hv).mpr k)]; exact h v v' hv
  · by_cases e : v = i
    · rw [if_pos e, if_pos ((hiff v v' hv).mp e)]
      simp only [List.map_append, h v v' hv, List.map_cons, List.map_nil]
    · rw [if_neg e, if_neg fun k => e ((hiff v v' hv).mpr k)]; exact h v v' hv
  · by_cases e : v = i
    · rw [if_pos e, if_pos ((hiff v v' hv).mp e)]
    · rw [if_neg e, if_neg fun k => e ((hiff v v' hv).mpr k)]; exact h v v' hv

theorem Grown.left (h : Grown ci c c') : ∀ v w w', valueLink ci c c' v w → valueLink ci c c' v w' → w = w' := by
  obtain ⟨_, _, _, _, g⟩ := h.self; exact g.left
theorem Grown.right (h : Grown ci c c') : ∀ v v' w, valueLink ci c c' v w → valueLink ci c c' v' w → v = v' := by
  obtain ⟨_, _, _, _, g⟩ := h.self; exact g.right

theorem Grown.addOption (h : Grown ci c c') {l l' : List Occ} (hl : OccLink ci c c' l l') {o o' : OptData} (ho : OptLink ci c c' o o') (v : Str) :
    OccLink ci c c' (l ++ [.option o v]) (l' ++ [.option o' v]) := by
  intro a a' ha
  rw [valuesOf_snoc, valuesOf_snoc]
  simp only [Occ.writes, ← ho.constant, ← ho.operation]
  obtain ⟨k1, k2, k3⟩ := run_link h.left h.right hl ho.2 (x := if o.constant = [] then v else o.constant) (p := o.argumentId) (p' := o'.argumentId)
  cases o.operation with
  | assign => exact k1 a a' ha
  | append => exact k2 a a' ha
  | clear => exact k3 a a' ha
  | none => exact hl a a' ha

theorem Grown.addArgument (h : Grown ci c c') {l l' : List Occ} (hl : OccLink ci c c' l l') {x x' : ArgData} (hx : ArgLink ci c c' x x') (v : Str) :
    OccLink ci c c' (l ++ [.argument x v]) (l' ++ [.argument x' v]) := by
  intro a a' ha
  rw [valuesOf_snoc, valuesOf_snoc]
  exact (run_link h.left h.right hl hx.2 (x := v) (p := x.argumentId) (p' := x'.argumentId)).2.1 a a' ha

theorem OccLink.nil : OccLink ci c c' [] [] := fun _ _ _ => rfl

theorem Grown.initial (h : Grown ci c c') : OccLink ci c c' (c.options.map .initial) (c'.options.map .initial) := by
  obtain ⟨os, gs, os', gs', g⟩ := h.self
  rw [g.options, g.options', List.map_append, List.map_append]
  have h1 : ∀ {os os' : List OptData}, Each (OptLink ci c c') os os' → ∀ {l l' : List Occ}, OccLink ci c c' l l' →
      OccLink ci c c' (l ++ os.map .initial) (l' ++ os'.map .initial) := by
    intro os os' he
    induction he with
    | nil => intro l l' hl; simpa using hl
    | @cons o o' os os' ho _ ih =>
      intro l l' hl
      rw [List.map_cons, List.map_cons]
      have : OccLink ci c c' (l ++ [.initial o]) (l' ++ [.initial o']) := by
        intro a a' ha
        rw [valuesOf_snoc, valuesOf_snoc]
        simp only [Occ.writes, ← ho.initialValue]
        by_cases hi : o.initialValue = []
        · rw [if_pos hi, if_pos hi]; exact hl a a' ha
        · rw [if_neg hi, if_neg hi]
          exact (run_link h.left h.right hl ho.2 (x := o.initialValue) (p := o.argumentId) (p' := o'.argumentId)).2.1 a a' ha
      have k := ih this
      simpa only [List.append_assoc, List.singleton_append] using k
  have h2 : ∀ (gs : List OptData), (∀ x ∈ gs, x.initialValue = []) → ∀ {l l' : List Occ}, OccLink ci c c' l l' → OccLink ci c c' (l ++ gs.map .initial) l' := by
    intro gs
    induction gs with
    | nil => intro _ l l' hl; simpa using hl
    | cons x gs ih =>
      intro hg l l' hl
      rw [List.map_cons]
      have : OccLink ci c c' (l ++ [.initial x]) l' := by
        intro a a' ha
        rw [valuesOf_snoc]
        simp only [Occ.writes, hg x (by simp), if_true]
        exact hl a a' ha
      have k := ih (fun y hy => hg y (by simp [hy])) this
      simpa only [List.append_assoc, List.singleton_append] using k
  have h3 : ∀ (gs : List OptData), (∀ x ∈ gs, x.initialValue = [] ∨ ∀ v, ¬ valueLink ci c c' v x.valueId) → ∀ {l l' : List Occ}, OccLink ci c c' l l' →
      OccLink ci c c' l (l' ++ gs.map .initial) := by
    intro gs
    induction gs with
    | nil => intro _ l l' hl; simpa using hl
    | cons x gs ih =>
      intro hg l l' hl
      rw [List.map_cons]
      have : OccLink ci c c' l (l' ++ [.initial x]) := by
        intro a a' ha
        rw [valuesOf_snoc]
        rcases hg x (by simp) with e | e
        · simp only [Occ.writes, e, if_true]
          exact hl a a' ha
        · have hne : a' ≠ x.valueId := fun k => e a (k ▸ ha)
          rw [hl a a' ha]
          simp only [Occ.writes]
          split
          · rfl
          · simp only [List.foldl_cons, List.foldl_nil, Write.run, if_neg hne]
      have k := ih (fun y hy => hg y (by simp [hy])) this
      simpa only [List.append_assoc, List.singleton_append] using k
  have := h3 gs' g.initials' (h2 gs g.initials (h1 g.kept OccLink.nil))
  simpa only [List.nil_append] using this

end Argos
