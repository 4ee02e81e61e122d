import Verif.Proofs.ExtendParse
import Verif.Spec.Ease

/-!
# Command lines are read in the same way by a parser that demands less
-/

namespace Argos

open Spec Parser

section
variable {o o' : OptData} (h : EasedOpt o o')
include h
theorem _root_.Argos.Spec.EasedOpt.flags : o.flags = o'.flags := by have := congrArg OptData.flags h.same; exact this
theorem _root_.Argos.Spec.EasedOpt.alias_ : o.alias_ = o'.alias_ := by have := congrArg OptData.alias_ h.same; exact this
theorem _root_.Argos.Spec.EasedOpt.argument : o.argument = o'.argument := by have := congrArg OptData.argument h.same; exact this
theorem _root_.Argos.Spec.EasedOpt.constant : o.constant = o'.constant := by have := congrArg OptData.constant h.same; exact this
theorem _root_.Argos.Spec.EasedOpt.operation : o.operation = o'.operation := by have := congrArg OptData.operation h.same; exact this
theorem _root_.Argos.Spec.EasedOpt.type : o.type = o'.type := by have := congrArg OptData.type h.same; exact this
theorem _root_.Argos.Spec.EasedOpt.initialValue : o.initialValue = o'.initialValue := by have := congrArg OptData.initialValue h.same; exact this
theorem _root_.Argos.Spec.EasedOpt.valueId : o.valueId = o'.valueId := by have := congrArg OptData.valueId h.same; exact this
theorem _root_.Argos.Spec.EasedOpt.argumentId : o.argumentId = o'.argumentId := by have := congrArg OptData.argumentId h.same; exact this
theorem _root_.Argos.Spec.EasedOpt.needsValue : NeedsValue o ↔ NeedsValue o' := by unfold NeedsValue; rw [h.operation, h.constant]
theorem _root_.Argos.Spec.EasedOpt.valueFor (x : Reading) : x.valueFor o = x.valueFor o' := by
  unfold Reading.valueFor
  by_cases hn : NeedsValue o
  · rw [if_pos hn, if_pos (h.needsValue.mp hn)]
  · rw [if_neg hn, if_neg fun k => hn (h.needsValue.mpr k)]
theorem _root_.Argos.Spec.EasedOpt.leftBy (x : Reading) : x.leftBy o = x.leftBy o' := by
  unfold Reading.leftBy
  by_cases hn : NeedsValue o
  · rw [if_pos hn, if_pos (h.needsValue.mp hn)]
  · rw [if_neg hn, if_neg fun k => hn (h.needsValue.mpr k)]
theorem _root_.Argos.Spec.EasedOpt.plainBy (x : Reading) : x.plainBy o = x.plainBy o' := by
  unfold Reading.plainBy
  by_cases hn : NeedsValue o
  · rw [if_pos hn, if_pos (h.needsValue.mp hn)]
  · rw [if_neg hn, if_neg fun k => hn (h.needsValue.mpr k)]
end

section
variable {a a' : ArgData} (h : EasedArg a a')
include h
theorem _root_.Argos.Spec.EasedArg.name : a.name = a'.name := by have := congrArg ArgData.name h.same; exact this
theorem _root_.Argos.Spec.EasedArg.alias_ : a.alias_ = a'.alias_ := by have := congrArg ArgData.alias_ h.same; exact this
theorem _root_.Argos.Spec.EasedArg.valueId : a.valueId = a'.valueId := by have := congrArg ArgData.valueId h.same; exact this
theorem _root_.Argos.Spec.EasedArg.argumentId : a.argumentId = a'.argumentId := by have := congrArg ArgData.argumentId h.same; exact this
end

/-- The second command, after initialization, demands less than the first one. -/
inductive Freed : Command → Command → Prop
  | intro {c c' : Command} (name : c.name = c'.name) (multi : c.multiCommand = c'.multiCommand)
      (require : c'.requireSubcommand = some true → c.requireSubcommand = some true) (arguments : EasedArgs c.arguments c'.arguments)
      (options : Each EasedOpt c.options c'.options) (commands : Each Freed c.commands c'.commands) : Freed c c'

variable {c c' : Command}

theorem Freed.name (h : Freed c c') : c.name = c'.name := by cases h; assumption
theorem Freed.multi (h : Freed c c') : c.multiCommand = c'.multiCommand := by cases h; assumption
theorem Freed.require (h : Freed c c') : c'.requireSubcommand = some true → c.requireSubcommand = some true := by cases h; assumption
theorem Freed.arguments (h : Freed c c') : EasedArgs c.arguments c'.arguments := by cases h; assumption
theorem Freed.options (h : Freed c c') : Each EasedOpt c.options c'.options := by cases h; assumption
theorem Freed.commands (h : Freed c c') : Each Freed c.commands c'.commands := by cases h; assumption

theorem eased_flagsOf {os os' : List OptData} (h : Each EasedOpt os os') : flagsOf os = flagsOf os' := by
  induction h with
  | nil => rfl
  | cons h1 _ ih =>
    unfold flagsOf at *
    simp only [List.flatMap_cons, ih, h1.flags]

theorem Freed.selects (h : Freed c c') {ci ab : Bool} {q : Str} {o : OptData} (hs : Selects ci ab c.options q o) :
    ∃ o', EasedOpt o o' ∧ Selects ci ab c'.options q o' := by
  obtain ⟨ho, hs⟩ := hs
  obtain ⟨o', ho', hl⟩ := Each.mem_left h.options ho
  refine ⟨o', hl, ho', ?_⟩
  rw [← eased_flagsOf h.options, ← hl.flags]
  exact hs

theorem Freed.selects' (h : Freed c c') {ci ab : Bool} {q : Str} {o' : OptData} (hs : Selects ci ab c'.options q o') :
    ∃ o, EasedOpt o o' ∧ Selects ci ab c.options q o := by
  obtain ⟨ho, hs⟩ := hs
  obtain ⟨o, ho', hl⟩ := Each.mem_right h.options ho
  refine ⟨o, hl, ho', ?_⟩
  rw [eased_flagsOf h.options, hl.flags]
  exact hs

theorem Freed.names (h : Freed c c') {ci ab : Bool} {q : Str} {o : OptData} (hn : Names ci ab c q o) : ∃ o', EasedOpt o o' ∧ Names ci ab c' q o' := by
  rcases hn with hn | ⟨f, rfl, h2, h3, h4, h5⟩
  · obtain ⟨o', hl, hs⟩ := h.selects hn
    exact ⟨o', hl, .inl hs⟩
  · obtain ⟨o', hl, hs⟩ := h.selects h4
    refine ⟨o', hl, .inr ⟨f, rfl, h2, ?_, hs, by rw [← hl.argument]; exact h5⟩⟩
    intro x hx
    obtain ⟨y, _, hy⟩ := h.selects' hx
    exact h3 y hy

theorem Freed.sub (h : Freed c c') {ci : Bool} {q : Str} {c1 : Command} (hn : NamesCommand ci c q c1) : ∃ c1', Freed c1 c1' ∧ NamesCommand ci c' q c1' := by
  unfold NamesCommand at *
  have hc := h.commands
  revert hn hc
  generalize c.commands = cs
  generalize c'.commands = cs'
  intro hn hc
  induction hc with
  | nil => simp at hn
  | @cons x y xs ys h1 _ ih =>
    rw [List.find?_cons] at hn ⊢
    rw [← h1.name]
    by_cases hx : SameFlag ci x.name q
    · simp only [decide_eq_true hx, Option.some.injEq] at hn ⊢
      subst hn
      exact ⟨y, h1, rfl⟩
    · simp only [decide_eq_false hx] at hn ⊢
      exact ih hn

theorem Freed.leaf (h : Freed c c') : c.commands = [] ↔ c'.commands = [] := by
  have hc := h.commands
  revert hc
  generalize c.commands = cs
  generalize c'.commands = cs'
  intro hc
  cases hc <;> simp

/-! ### The line -/

/-- Corresponding pieces. -/
inductive PieceEased : Piece → Piece → Prop
  | option {o o' : OptData} {v : Str} : EasedOpt o o' → PieceEased (.option o v) (.option o' v)
  | argument {v : Str} : PieceEased (.argument v) (.argument v)

theorem Freed.written (h : Freed c c') {ci ab : Bool} {style : OptionStyle} {l l' : Line} {p : Piece} (hw : Written style (Names ci ab) c l p l') :
    ∃ p', PieceEased p p' ∧ Written style (Names ci ab) c' l p' l' := by
  cases hw with
  | @option r x o v h1 h2 h3 h4 h5 =>
    obtain ⟨o', hl, hn⟩ := h.names h3
    refine ⟨_, .option hl, ?_⟩
    rw [hl.leftBy]
    exact .option h1 h2 hn (by rw [← hl.valueFor]; exact h4) (by rw [← hl.type]; exact h5)
  | @lastOption r x o v h1 h2 h3 h4 h5 =>
    obtain ⟨o', hl, hn⟩ := h.names h3
    refine ⟨_, .option hl, ?_⟩
    rw [hl.plainBy]
    exact .lastOption h1 h2 hn (by rw [← hl.valueFor]; exact h4) (by rw [← hl.type]; exact h5)
  | @lastArgument r x o v h1 h2 h3 h4 h5 =>
    obtain ⟨o', hl, hn⟩ := h.names h3
    refine ⟨_, .option hl, ?_⟩
    rw [hl.leftBy]
    exact .lastArgument h1 h2 hn (by rw [← hl.valueFor]; exact h4) (by rw [← hl.type]; exact h5)
  | argument h1 h2 h3 => exact ⟨_, .argument, .argument h1 h2 (h.leaf.mp h3)⟩
  | plainArgument h1 => exact ⟨_, .argument, .plainArgument (h.leaf.mp h1)⟩

theorem Freed.writtenAll (h : Freed c c') {ci ab : Bool} {style : OptionStyle} {l l' : Line} {ps : List Piece} (hw : WrittenAll style (Names ci ab) c l ps l') :
    ∃ ps', Each PieceEased ps ps' ∧ WrittenAll style (Names ci ab) c' l ps' l' := by
  induction hw with
  | nil => exact ⟨[], .nil, .nil⟩
  | cons h1 _ ih =>
    obtain ⟨p', hp, hw'⟩ := h.written h1
    obtain ⟨ps', hps, hws⟩ := ih
    exact ⟨p' :: ps', .cons hp hps, .cons hw' hws⟩

theorem Freed.enters (h : Freed c c') {ci : Bool} {style : OptionStyle} {l l' : Line} {c1 : Command} (he : Enters style (NamesCommand ci) c l c1 l') :
    ∃ c1', Freed c1 c1' ∧ Enters style (NamesCommand ci) c' l c1' l' := by
  cases he with
  | command h1 h2 h3 h4 =>
    obtain ⟨c1', hg, hn⟩ := h.sub h4
    exact ⟨c1', hg, .command h1 h2 (fun e => h3 (h.leaf.mpr e)) hn⟩
  | plainCommand h1 h2 =>
    obtain ⟨c1', hg, hn⟩ := h.sub h2
    exact ⟨c1', hg, .plainCommand (fun e => h1 (h.leaf.mpr e)) hn⟩

/-- Corresponding results. -/
inductive ResultEased : IterResult → IterResult → Prop
  | option {o o' : OptData} {v : Option Str} : EasedOpt o o' → ResultEased (.option o v) (.option o' v)
  | argument {a a' : ArgData} {v : Option Str} : EasedArg a a' → ResultEased (.argument a v) (.argument a' v)
  | command {c1 c1' : Command} {t : Str} : Freed c1 c1' → ResultEased (.command c1 t) (.command c1' t)

theorem report_eased {ps ps' : List Piece} (h : Each PieceEased ps ps') : ∀ {as as' : List ArgData}, Each EasedArg as as' →
    Each ResultEased (report ps as) (report ps' as') := by
  induction h with
  | nil => intro as as' _; exact .nil
  | cons h1 _ ih =>
    intro as as' ha
    cases h1 with
    | option hl => exact .cons (.option hl) (ih ha)
    | argument =>
      cases ha with
      | nil => exact .nil
      | cons h2 h3 => exact .cons (.argument h2) (ih h3)

theorem argPieces_eased {ps ps' : List Piece} (h : Each PieceEased ps ps') : argPieces ps = argPieces ps' := by
  induction h with
  | nil => rfl
  | cons h1 _ ih =>
    rw [argPieces_cons, argPieces_cons, ih]
    cases h1 <;> rfl

theorem handedOut_eased {as as' : List ArgData} (h : Each EasedArg as as') : ∀ ks : List Nat, Each EasedArg (handedOut as ks) (handedOut as' ks) := by
  induction h with
  | nil => intro ks; exact .nil
  | @cons a a' as as' h1 _ ih =>
    intro ks
    cases ks with
    | nil => exact .nil
    | cons k ks =>
      simp only [handedOut, List.zip_cons_cons, List.flatMap_cons]
      refine Each.append ?_ (ih ks)
      clear ih
      induction k with
      | zero => exact .nil
      | succ k ih => exact .cons h1 ih

theorem Each.get {α β : Type} {R : α → β → Prop} {xs : List α} {ys : List β} (h : Each R xs ys) : ∀ (i : Nat) (h1 : i < xs.length) (h2 : i < ys.length), R xs[i] ys[i] := by
  induction h with
  | nil => intro i h1; simp at h1
  | cons h1 _ ih =>
    intro i h2 h3
    cases i with
    | zero => exact h1
    | succ i => exact ih i (by simpa using h2) (by simpa using h3)

/-- The values are handed out as before. -/
theorem allotment_eased {as as' : List ArgData} (h : EasedArgs as as') {n : Nat} {ks : List Nat} (ha : IsAllotment as n ks) : IsAllotment as' n ks := by
  have hlen := Each.length h.each
  refine ⟨by rw [ha.length, hlen], ha.total, ?_, ?_⟩
  · intro i h1 h2
    have k := Each.get h.each i (by omega) h1
    have w := ha.within i (by omega) h2
    have := k.min
    have := k.max
    omega
  · intro i j hj hj' hij hlt
    have hj0 : j < as.length := by omega
    have hi0 : i < as.length := by omega
    have hi1 : i < as'.length := by omega
    have hi2 : i < ks.length := by omega
    have p := h.pairs i j as[i] as'[i] as[j] as'[j] hij (List.getElem?_eq_getElem hi0) (List.getElem?_eq_getElem hi1)
      (List.getElem?_eq_getElem hj0) (List.getElem?_eq_getElem hj)
    have wj := ha.within j hj0 hj'
    have wi := ha.within i hi0 hi2
    have ki := Each.get h.each i hi0 hi1
    have m1 := ki.max
    rcases p with ⟨p1, p2⟩ | p | p
    · have := ha.earliest i j hj0 hj' hij (by omega)
      omega
    · omega
    · omega

/-! ### Counted arguments -/

/-- Someone gets values for the last argument: it was served. -/
theorem last_of_served {as : List ArgData} {n : Nat} {ks : List Nat} (ha : IsAllotment as n ks) (hs : LastServed as n) :
    ∃ k, ks.getLast? = some k ∧ 0 < k := by
  have hlen := ha.length
  have hsum : ∀ (as : List ArgData) (ks : List Nat), ks.length = as.length → (∀ (i : Nat) (h : i < as.length) (h' : i < ks.length), ks[i] ≤ as[i].maxCount) →
      ks.sum ≤ maxTotal as := by
    intro as
    induction as with
    | nil => intro ks h _; cases ks <;> simp_all
    | cons a as ih =>
      intro ks h hw
      cases ks with
      | nil => simp at h
      | cons k ks =>
        have h0 := hw 0 (by simp) (by simp)
        have := ih ks (by simpa using h) fun i h1 h2 => by
          have := hw (i + 1) (by simpa using h1) (by simpa using h2)
          simpa using this
        simp only [maxTotal, List.map_cons, List.sum_cons, List.getElem_cons_zero] at *
        omega
  cases hk : ks.getLast? with
  | none =>
    rw [List.getLast?_eq_none_iff] at hk
    subst hk
    have : as = [] := List.eq_nil_of_length_eq_zero hlen.symm
    subst this
    have := ha.total
    rcases hs with ⟨a, h, _⟩ | h
    · simp at h
    · simp at this; omega
  | some k =>
    refine ⟨k, rfl, ?_⟩
    have hne : ks ≠ [] := by rintro rfl; simp at hk
    have hpos : 0 < ks.length := List.length_pos_iff.mpr hne
    have ek : k = ks[ks.length - 1] := by
      rw [List.getLast?_eq_some_getLast hne, Option.some.injEq, List.getLast_eq_getElem] at hk
      exact hk.symm
    have w := ha.within (ks.length - 1) (by omega) (by omega)
    rcases hs with ⟨a, h, h0⟩ | h
    · have hne' : as ≠ [] := by rintro rfl; simp at h
      rw [List.getLast?_eq_some_getLast hne', Option.some.injEq, List.getLast_eq_getElem] at h
      have e : as[ks.length - 1]'(by omega) = a := by simp only [hlen]; exact h
      rw [e] at w
      omega
    · have := hsum as.dropLast ks.dropLast (by simp [hlen]) fun i h1 h2 => by
        simp only [List.length_dropLast] at h1 h2
        have := ha.within i (by omega) (by omega)
        simp only [List.getElem_dropLast]
        exact this.2
      have e : ks.sum = ks.dropLast.sum + k := by
        have e1 : ks = ks.dropLast ++ [k] := by
          have := List.dropLast_concat_getLast hne
          rw [List.getLast?_eq_some_getLast hne, Option.some.injEq] at hk
          rw [hk] at this
          exact this.symm
        have e2 := congrArg List.sum e1
        rw [List.sum_append] at e2
        simpa using e2
      have := ha.total
      omega

/-- When the last argument gets values, it is served. -/
theorem served_of_last {as : List ArgData} {n : Nat} {ks : List Nat} (ha : IsAllotment as n ks) {k : Nat} (hk : ks.getLast? = some k) (h0 : 0 < k) : LastServed as n := by
  have hlen := ha.length
  have hne : ks ≠ [] := by rintro rfl; simp at hk
  have hpos : 0 < ks.length := List.length_pos_iff.mpr hne
  have hne' : as ≠ [] := by rintro rfl; simp at hlen; exact hne hlen
  have ek : k = ks[ks.length - 1] := by
    rw [List.getLast?_eq_some_getLast hne, Option.some.injEq, List.getLast_eq_getElem] at hk
    exact hk.symm
  by_cases hm : 0 < (as.getLast hne').minCount
  · exact .inl ⟨_, List.getLast?_eq_some_getLast hne', hm⟩
  · right
    have hlast : (as[ks.length - 1]'(by omega)).minCount = 0 := by
      rw [List.getLast_eq_getElem] at hm
      simp only [hlen]
      omega
    have hsum : ∀ (as : List ArgData) (ks : List Nat), ks.length = as.length → (∀ (i : Nat) (h : i < as.length) (h' : i < ks.length), ks[i] = as[i].maxCount) →
        ks.sum = maxTotal as := by
      intro as
      induction as with
      | nil => intro ks h _; cases ks <;> simp_all [maxTotal]
      | cons a as ih =>
        intro ks h hw
        cases ks with
        | nil => simp at h
        | cons k ks =>
          have h0 := hw 0 (by simp) (by simp)
          have := ih ks (by simpa using h) fun i h1 h2 => by
            have := hw (i + 1) (by simpa using h1) (by simpa using h2)
            simpa using this
          simp only [maxTotal, List.map_cons, List.sum_cons, List.getElem_cons_zero] at *
          omega
    have := hsum as.dropLast ks.dropLast (by simp [hlen]) fun i h1 h2 => by
      simp only [List.length_dropLast] at h1 h2
      have := ha.earliest i (ks.length - 1) (by omega) (by omega) (by omega) (by omega)
      simp only [List.getElem_dropLast]
      exact this
    have e : ks.sum = ks.dropLast.sum + k := by
      have e1 : ks = ks.dropLast ++ [k] := by
        have := List.dropLast_concat_getLast hne
        rw [List.getLast?_eq_some_getLast hne, Option.some.injEq] at hk
        rw [hk] at this
        exact this.symm
      have e2 := congrArg List.sum e1
      rw [List.sum_append] at e2
      simpa using e2
    have := ha.total
    omega

theorem served_eased {as as' : List ArgData} (h : EasedArgs as as') {n : Nat} {ks : List Nat} (ha : IsAllotment as n ks) (hs : VariableBeforeLast as → LastServed as n) :
    VariableBeforeLast as' → LastServed as' n := by
  intro hv
  rcases h.counted hv with hv | hm
  · obtain ⟨k, hk, h0⟩ := last_of_served ha (hs hv)
    exact served_of_last (allotment_eased h ha) hk h0
  · exact .inl hm

/-! ### Occurrences and completeness -/

/-- The same is written. -/
def SameWrites (l l' : List Occ) : Prop := l.flatMap Occ.writes = l'.flatMap Occ.writes

theorem option_writes {o o' : OptData} (h : EasedOpt o o') (v : Str) : (Occ.option o v).writes = (Occ.option o' v).writes := by
  simp only [Occ.writes, h.constant, h.operation, h.valueId, h.argumentId]

theorem argument_writes {a a' : ArgData} (h : EasedArg a a') (v : Str) : (Occ.argument a v).writes = (Occ.argument a' v).writes := by
  simp only [Occ.writes, h.valueId, h.argumentId]

theorem SameWrites.add {l l' : List Occ} (h : SameWrites l l') {x y : Occ} (hx : x.writes = y.writes) : SameWrites (l ++ [x]) (l' ++ [y]) := by
  unfold SameWrites at *
  simp only [List.flatMap_append, List.flatMap_cons, List.flatMap_nil, h, hx]

theorem initial_writes {os os' : List OptData} (h : Each EasedOpt os os') : SameWrites (os.map .initial) (os'.map .initial) := by
  unfold SameWrites
  induction h with
  | nil => rfl
  | cons h1 _ ih =>
    simp only [List.map_cons, List.flatMap_cons, ih]
    simp only [Occ.writes, h1.initialValue, h1.valueId, h1.argumentId]

theorem results_writes {rs rs' : List IterResult} (h : Each ResultEased rs rs') : ∀ {l l' : List Occ}, SameWrites l l' →
    SameWrites (l ++ rs.filterMap occOf) (l' ++ rs'.filterMap occOf) := by
  induction h with
  | nil => intro l l' hl; simpa using hl
  | cons h1 _ ih =>
    intro l l' hl
    cases h1 with
    | @option o o' v h1 =>
      have := ih (hl.add (option_writes h1 (v.getD [])))
      simpa only [List.filterMap_cons, occOf, List.append_assoc, List.singleton_append] using this
    | @argument a a' v h1 =>
      have := ih (hl.add (argument_writes h1 (v.getD [])))
      simpa only [List.filterMap_cons, occOf, List.append_assoc, List.singleton_append] using this
    | command _ =>
      simpa only [List.filterMap_cons, occOf] using ih hl

theorem Freed.complete (h : Freed c c') {l l' : List Occ} (hl : SameWrites l l') (hc : Complete c l) : Complete c' l' := by
  refine ⟨?_, fun e => hc.subcommand (h.require e)⟩
  intro o' ho' hopt
  obtain ⟨o, ho, hlk⟩ := Each.mem_right h.options ho'
  have ho2 : o.optional = false := by
    cases hb : o.optional with
    | false => rfl
    | true => rw [hlk.optional hb] at hopt; simp at hopt
  have := hc.mandatory o ho ho2
  unfold SameWrites at hl
  rw [← hlk.valueId]
  unfold valuesOf at *
  rw [← hl]
  exact this

theorem report_argumentCount : ∀ (ps : List Piece) (as : List ArgData), argPieces ps ≤ as.length → argumentCount (report ps as) = argPieces ps ∧
    ∀ c : Command, lastCommand c (report ps as) = c := by
  intro ps
  induction ps with
  | nil => intro as _; exact ⟨rfl, fun _ => rfl⟩
  | cons p ps ih =>
    intro as h
    cases p with
    | option o v =>
      have := ih as (by rw [argPieces_cons] at h; simpa using h)
      refine ⟨?_, this.2⟩
      rw [argPieces_cons]
      simpa [argumentCount, report] using this.1
    | argument v =>
      rw [argPieces_cons] at h
      cases as with
      | nil => simp at h
      | cons a as =>
        have := ih as (by simp at h; omega)
        refine ⟨?_, this.2⟩
        rw [argPieces_cons, ← this.1]
        simp [argumentCount, report]
        omega

/-- What was accepted is still accepted, with corresponding results. -/
theorem accepts_eased {ci ab : Bool} {style : OptionStyle} {inits : List Occ} {l : Line} {rs : List IterResult}
    (ha : Accepts style (Names ci ab) (NamesCommand ci) c inits l rs) : ∀ {c' : Command} {inits' : List Occ}, Freed c c' → SameWrites inits inits' →
    ∃ rs', Accepts style (Names ci ab) (NamesCommand ci) c' inits' l rs' ∧ Each ResultEased rs rs' ∧ (Served c rs → Served c' rs') := by
  induction ha with
  | @last c inits l l' ps ks hw he hk hc =>
    intro c' inits' hg hi
    obtain ⟨ps', hps, hw'⟩ := hg.writtenAll hw
    have hseg := report_eased hps (handedOut_eased hg.arguments.each ks)
    have hk' : IsAllotment c'.arguments (argPieces ps') ks := by
      rw [← argPieces_eased hps]
      exact allotment_eased hg.arguments hk
    refine ⟨_, .last hw' he hk' (hg.complete (results_writes hseg hi) hc), hseg, ?_⟩
    intro hs
    have k1 := report_argumentCount ps (handedOut c.arguments ks) (by rw [handedOut_length hk]; omega)
    have k2 := report_argumentCount ps' (handedOut c'.arguments ks) (by rw [handedOut_length hk']; omega)
    unfold Served NeedsCount at *
    rw [k1.1, k1.2] at hs
    rw [k2.1, k2.2, ← argPieces_eased hps]
    exact served_eased hg.arguments hk hs
  | @sub c c1 inits l l1 l2 ps rs hw hen _ ih =>
    intro c' inits' hg hi
    obtain ⟨ps', hps, hw'⟩ := hg.writtenAll hw
    obtain ⟨c1', hg1, hen'⟩ := hg.enters hen
    obtain ⟨rs', ha', hr, hsv⟩ := ih hg1 (inits' := []) rfl
    refine ⟨_, .sub hw' hen' ha', Each.append (report_eased hps .nil) (.cons (.command hg1) hr), ?_⟩
    have key : ∀ (ps : List Piece) (c c1 : Command) (rs : List IterResult), lastCommand c (report ps [] ++ .command c1 [] :: rs) = lastCommand c1 rs ∧
        argumentCount (report ps [] ++ .command c1 [] :: rs) = argumentCount rs := by
      intro ps c c1 rs
      induction ps with
      | nil => exact ⟨rfl, rfl⟩
      | cons p ps ih => cases p with
        | option => exact ih
        | argument => exact ⟨rfl, rfl⟩
    intro hs
    unfold Served at *
    rw [(key ps c c1 rs).1, (key ps c c1 rs).2] at hs
    rw [(key ps' c' c1' rs').1, (key ps' c' c1' rs').2]
    exact hsv hs

/-! ### The tree of results -/

/-- Corresponding trees. -/
inductive TreeEased : Tree (List Occ) → Tree (List Occ) → Prop
  | node {c c' : Command} {l l' : List Occ} {ts ts' : List (Tree (List Occ))} : Freed c c' → SameWrites l l' → Each TreeEased ts ts' →
      TreeEased (.node c l ts) (.node c' l' ts')

theorem back_eased {st st' : Open} (h : Each TreeEased st st') : (st.back = none ∧ st'.back = none) ∨ ∃ x x', st.back = some x ∧ st'.back = some x' ∧ Each TreeEased x x' := by
  have key : ∀ {st st' : Open}, Each TreeEased st st' → ∀ {t t' : Tree (List Occ)}, TreeEased t t' →
      (Open.back.go t st = none ∧ Open.back.go t' st' = none) ∨
        ∃ x x', Open.back.go t st = some x ∧ Open.back.go t' st' = some x' ∧ Each TreeEased x x' := by
    intro st st' h
    induction h with
    | nil => intro t t' _; exact .inl ⟨rfl, rfl⟩
    | cons h1 h2 ih =>
      intro t t' ht
      cases h1 with
      | @node c c' l l' ts ts' hg hl hts =>
        have hn : TreeEased (.node c l (ts ++ [t])) (.node c' l' (ts' ++ [t'])) := .node hg hl (Each.append hts (.cons ht .nil))
        simp only [Open.back.go, ← hg.multi]
        split
        · exact .inr ⟨_, _, rfl, rfl, .cons hn h2⟩
        · exact ih hn
  cases h with
  | nil => exact .inl ⟨rfl, rfl⟩
  | cons h1 h2 => exact key h2 h1

theorem backD_eased {st st' : Open} (h : Each TreeEased st st') : Each TreeEased (st.back.getD st) (st'.back.getD st') := by
  rcases back_eased h with ⟨h1, h2⟩ | ⟨x, x', h1, h2, h3⟩
  · rw [h1, h2]; exact h
  · rw [h1, h2]; exact h3

theorem add_eased {st st' : Open} (h : Each TreeEased st st') {x y : Occ} (hx : x.writes = y.writes) : Each TreeEased (st.add x) (st'.add y) := by
  cases h with
  | nil => exact .nil
  | cons h1 h2 =>
    cases h1 with
    | node hg hl hts => exact .cons (.node hg (hl.add hx) hts) h2

theorem isLeaf_eased {st st' : Open} (h : Each TreeEased st st') : st.isLeaf = st'.isLeaf := by
  cases h with
  | nil => rfl
  | cons h1 _ =>
    cases h1 with
    | @node c c' _ _ _ _ hg _ _ =>
      have e := hg.leaf
      simp only [Open.isLeaf, Tree.command]
      rw [Bool.eq_iff_iff, List.isEmpty_iff, List.isEmpty_iff]
      exact e

theorem step_eased {st st' : Open} (h : Each TreeEased st st') {r r' : IterResult} (hr : ResultEased r r') : Each TreeEased (st.step r) (st'.step r') := by
  cases hr with
  | @option o o' v h1 =>
    have k := add_eased h (option_writes h1 (v.getD []))
    simp only [Open.step, ← h1.type]
    split
    · exact backD_eased k
    · exact k
  | @argument a a' v h1 => exact add_eased h (argument_writes h1 (v.getD []))
  | command h1 =>
    simp only [Open.step, ← isLeaf_eased h]
    refine .cons (.node h1 rfl .nil) ?_
    split
    · exact backD_eased h
    · exact h

theorem opens_eased {rs rs' : List IterResult} (h : Each ResultEased rs rs') : ∀ {st st' : Open}, Each TreeEased st st' →
    Each TreeEased (rs.foldl Open.step st) (rs'.foldl Open.step st') := by
  induction h with
  | nil => intro st st' hs; exact hs
  | cons h1 _ ih => intro st st' hs; exact ih (step_eased hs h1)

theorem close_eased {st st' : Open} (h : Each TreeEased st st') {t t' : Tree (List Occ)} (ht : st.close = some t) (ht' : st'.close = some t') :
    TreeEased t t' := by
  have key : ∀ {st st' : Open}, Each TreeEased st st' → ∀ {t t' : Tree (List Occ)}, TreeEased t t' → TreeEased (Open.close.go t st) (Open.close.go t' st') := by
    intro st st' h
    induction h with
    | nil => intro t t' ht; exact ht
    | cons h1 _ ih =>
      intro t t' ht
      cases h1 with
      | node hg hl hts => exact ih (.node hg hl (Each.append hts (.cons ht .nil)))
  cases h with
  | nil => simp [Open.close] at ht
  | cons h1 h2 =>
    simp only [Open.close, Option.some.injEq] at ht ht'
    subst ht ht'
    exact key h2 h1

theorem Freed.ids (h : Freed c c') : makeIds c = makeIds c' := by
  have e : collectIds c = collectIds c' := by
    unfold collectIds
    congr 1
    · have := h.arguments.each
      revert this
      generalize c.arguments = as
      generalize c'.arguments = as'
      intro this
      induction this with
      | nil => rfl
      | cons h1 _ ih => simp only [List.flatMap_cons, ih, h1.name, h1.alias_, h1.valueId, h1.argumentId]
    · have := h.options
      revert this
      generalize c.options = os
      generalize c'.options = os'
      intro this
      induction this with
      | nil => rfl
      | cons h1 _ ih => simp only [List.flatMap_cons, ih, h1.flags, h1.operation, h1.alias_, h1.valueId, h1.argumentId]
  unfold makeIds
  rw [e]

mutual
theorem sameGiven : (n n' : PNode) → ∀ {t t' : Tree (List Occ)}, n.tree = t.map valuesOf → n'.tree = t'.map valuesOf → TreeEased t t' → TreeOk n → TreeOk n' →
    SameGiven n n'
  | ⟨c, i, v, u, k, st, subs⟩, ⟨c', i', v', u', k', st', subs'⟩, .node d l ts, .node d' l' ts', h, h', hk, hok, hok' => by
    obtain ⟨hg, hl, hts⟩ : Freed d d' ∧ SameWrites l l' ∧ Each TreeEased ts ts' := by
      cases hk with
      | node a b e => exact ⟨a, b, e⟩
    simp only [PNode.tree, Tree.map, Tree.node.injEq] at h h'
    obtain ⟨rfl, hv, hs⟩ := h
    obtain ⟨rfl, hv', hs'⟩ := h'
    refine .intro hg.name ?_ (sameGivenAll subs subs' hs hs' hts (fun m hm => hok.sub hm) fun m hm => hok'.sub hm)
    intro s
    have d1 := hok.self.ids
    have d2 := hok'.self.ids
    simp only at d1 d2
    have e : valuesOf l = valuesOf l' := by unfold valuesOf; rw [hl]
    simp only [PNode.valuesOf, d1, d2, hg.ids, hv, hv', e]
theorem sameGivenAll : (ns ns' : List PNode) → ∀ {ts ts' : List (Tree (List Occ))}, PNode.treeList ns = Tree.mapList valuesOf ts →
    PNode.treeList ns' = Tree.mapList valuesOf ts' → Each TreeEased ts ts' → (∀ m ∈ ns, TreeOk m) → (∀ m ∈ ns', TreeOk m) → Each SameGiven ns ns'
  | [], ns', _, _, h, h', hts, _, _ => by
    cases hts with
    | nil =>
      cases ns' with
      | nil => exact .nil
      | cons _ _ => simp [PNode.treeList, Tree.mapList] at h'
    | cons _ _ => simp [PNode.treeList, Tree.mapList] at h
  | n :: ns, [], _, _, h, h', hts, _, _ => by
    cases hts with
    | nil => simp [PNode.treeList, Tree.mapList] at h
    | cons _ _ => simp [PNode.treeList, Tree.mapList] at h'
  | n :: ns, n' :: ns', _, _, h, h', hts, hok, hok' => by
    cases hts with
    | nil => simp [PNode.treeList, Tree.mapList] at h
    | cons h1 h2 =>
      simp only [PNode.treeList, Tree.mapList, List.cons.injEq] at h h'
      exact .cons (sameGiven n n' h.1 h'.1 h1 (hok n (by simp)) (hok' n' (by simp)))
        (sameGivenAll ns ns' h.2 h'.2 h2 (fun m hm => hok m (by simp [hm])) fun m hm => hok' m (by simp [hm]))
end

/-! ### What is asked of the declarations -/

theorem Freed.within (h : Freed c c') {x' : Command} (hx : x'.Within c') : ∃ x : Command, x.Within c ∧ Freed x x' := by
  induction hx generalizing c with
  | self => exact ⟨c, .self, h⟩
  | @sub s root hs _ ih =>
    obtain ⟨s0, hs0, hf⟩ := Each.mem_right h.commands hs
    obtain ⟨x, hx, hfx⟩ := ih hf
    exact ⟨x, .sub hs0 hx, hfx⟩

theorem Freed.ordinary {d d' : ParserData} (h : Freed d.command d'.command) (hs : d'.settings = d.settings) (ho : Ordinary d) : Ordinary d' := by
  refine ⟨?_, by rw [hs]; exact ho.options, by rw [hs]; exact ho.arguments, ?_, ?_, ?_, ?_⟩
  · rcases ho.style with k | k
    · exact .inl (by rw [hs]; exact k)
    · right
      intro x' hx' o' ho'
      obtain ⟨x, hx, hf⟩ := h.within hx'
      obtain ⟨o, ho, he⟩ := Each.mem_right hf.options ho'
      rw [← he.type]
      exact k x hx o ho
  · intro x' hx'
    obtain ⟨x, hx, hf⟩ := h.within hx'
    rw [← hf.multi]
    exact ho.single x hx
  · intro x' hx'
    obtain ⟨x, hx, hf⟩ := h.within hx'
    have := ho.flags x hx
    unfold RegularFlags at *
    rw [hs, ← eased_flagsOf hf.options]
    exact this
  · intro x' hx' a' ha'
    obtain ⟨x, hx, hf⟩ := h.within hx'
    obtain ⟨a, ha, he⟩ := Each.mem_right hf.arguments.each ha'
    have := ho.counts x hx a ha
    have := he.min
    have := he.max
    omega
  · intro x' hx' hne
    obtain ⟨x, hx, hf⟩ := h.within hx'
    have := ho.exclusive x hx fun e => hne (hf.leaf.mp e)
    have e := Each.length hf.arguments.each
    rw [this] at e
    exact List.eq_nil_of_length_eq_zero e.symm

end Argos
