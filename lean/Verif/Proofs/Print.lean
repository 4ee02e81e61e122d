import Verif.Proofs.Results
import Verif.Proofs.Search
import Verif.Proofs.Given

/-! # Printing the results -/

namespace Argos
open Spec

/-- Sorting keeps the order of the elements with the same key. -/
theorem sortList_stable {α : Type} (key : α → Nat) (k : Nat) (l : List α) :
    (sortList (fun a b => decide (key a < key b)) l).filter (fun a => decide (key a = k)) = l.filter fun a => decide (key a = k) := by
  have ins : ∀ (x : α) (l : List α), (insertSorted (fun a b => decide (key a < key b)) x l).filter (fun a => decide (key a = k)) =
      (x :: l).filter fun a => decide (key a = k) := by
    intro x l
    induction l with
    | nil => rfl
    | cons y ys ih =>
      simp only [insertSorted]
      split
      · rename_i hlt
        have hlt : key y < key x := by simpa using hlt
        rw [List.filter_cons, ih]
        by_cases hx : key x = k
        · have : key y ≠ k := by omega
          simp [hx, this]
        · simp only [List.filter_cons, hx, decide_false, Bool.false_eq_true, if_false]
      · rfl
  induction l with
  | nil => rfl
  | cons x xs ih =>
    rw [sortList, ins, List.filter_cons, ih, List.filter_cons]

theorem separated_append (sep : Str) {a b : List Str} (ha : a ≠ []) (hb : b ≠ []) : separated sep (a ++ b) = separated sep a ++ sep ++ separated sep b := by
  induction a with
  | nil => exact absurd rfl ha
  | cons x xs ih =>
    cases xs with
    | nil =>
      cases b with
      | nil => exact absurd rfl hb
      | cons y ys => simp [separated]
    | cons z zs =>
      have := ih (by simp)
      simp only [List.cons_append] at this ⊢
      simp only [separated, this, List.append_assoc]

/-- The options of the command have flags, and the first is not empty. -/
def Command.Flagged (c : Command) : Prop := ∀ o ∈ c.options, ∃ f fs, o.flags = f :: fs ∧ f ≠ []

theorem printName_eq {c : Command} (hc : c.Flagged) {v : View} (hv : v ∈ c.arguments.map View.arg ++ c.options.map View.opt) :
    v.printName = separated b!", " (namesOfView v) ∧ namesOfView v ≠ [] := by
  rcases List.mem_append.mp hv with hv | hv
  · obtain ⟨a, _, rfl⟩ := List.mem_map.mp hv
    exact ⟨rfl, by simp [namesOfView]⟩
  · obtain ⟨o, ho, rfl⟩ := List.mem_map.mp hv
    obtain ⟨f, fs, e, hf⟩ := hc o ho
    refine ⟨?_, by simp [namesOfView, e]⟩
    have key : ∀ (fs : List Str) (s : Str), s ≠ [] →
        fs.foldl (fun s f => (if s.isEmpty then s else s ++ b!", ") ++ f) s = separated b!", " (s :: fs) := by
      intro fs
      induction fs with
      | nil => intro s _; rfl
      | cons x xs ih =>
        intro s hs
        have hse : s.isEmpty = false := by cases s with
          | nil => exact absurd rfl hs
          | cons _ _ => rfl
        rw [List.foldl_cons, if_neg (by rw [hse]; simp), ih _ (by simp)]
        cases xs with
        | nil => simp [separated]
        | cons y ys => simp [separated]
    simp only [View.printName, namesOfView, e, List.foldl_cons]
    exact key fs f hf

/-- What the labels are, for views in ascending order of their value ids. -/
theorem labels_spec (l : List View) (hl : l.Pairwise (fun v w => v.valueId ≤ w.valueId))
    (hn : ∀ v ∈ l, v.printName = separated b!", " (namesOfView v) ∧ namesOfView v ≠ []) :
    ((l.foldl addLabel []).map fun p => p.1.valueId).Pairwise (· < ·) ∧
    (∀ id, id ∈ ((l.foldl addLabel []).map fun p => p.1.valueId) ↔ ∃ v ∈ l, v.valueId = id) ∧
    ∀ p ∈ l.foldl addLabel [], p.2 = separated b!", " ((l.filter fun v => v.valueId = p.1.valueId).flatMap namesOfView) := by
  induction l using list_reverse_ind with
  | h0 => simp
  | h1 l v ih =>
    rw [List.pairwise_append] at hl
    obtain ⟨hl1, _, hl2⟩ := hl
    obtain ⟨i1, i2, i3⟩ := ih hl1 fun w hw => hn w (by simp [hw])
    obtain ⟨hv1, hv2⟩ := hn v (by simp)
    rw [List.foldl_append, List.foldl_cons, List.foldl_nil]
    generalize hL : l.foldl addLabel [] = L at *
    -- The ids of the labels so far are not above the one of the view.
    have hle : ∀ p ∈ L, p.1.valueId ≤ v.valueId := by
      intro p hp
      obtain ⟨w, hw, e⟩ := (i2 p.1.valueId).mp (List.mem_map.mpr ⟨p, hp, rfl⟩)
      have := hl2 w hw v (by simp)
      omega
    have new : (∀ p ∈ L, p.1.valueId ≠ v.valueId) → addLabel L v = L ++ [(v, v.printName)] →
        ((addLabel L v).map fun p => p.1.valueId).Pairwise (· < ·) ∧
        (∀ id, id ∈ ((addLabel L v).map fun p => p.1.valueId) ↔ ∃ w ∈ l ++ [v], w.valueId = id) ∧
        ∀ p ∈ addLabel L v, p.2 = separated b!", " (((l ++ [v]).filter fun w => w.valueId = p.1.valueId).flatMap namesOfView) := by
      intro hne e
      rw [e]
      refine ⟨?_, ?_, ?_⟩
      · rw [List.map_append, List.pairwise_append]
        refine ⟨i1, by simp, ?_⟩
        intro a ha b hb
        obtain ⟨p, hp, rfl⟩ := List.mem_map.mp ha
        simp only [List.map_cons, List.map_nil, List.mem_singleton] at hb
        have := hle p hp
        have := hne p hp
        omega
      · intro id
        rw [List.map_append, List.mem_append, i2 id]
        simp only [List.map_cons, List.map_nil, List.mem_singleton, List.mem_append]
        constructor
        · rintro (⟨w, hw, e⟩ | e)
          · exact ⟨w, Or.inl hw, e⟩
          · exact ⟨v, Or.inr rfl, e.symm⟩
        · rintro ⟨w, hw | hw, e⟩
          · exact Or.inl ⟨w, hw, e⟩
          · exact Or.inr (by rw [← e, hw])
      · intro p hp
        rcases List.mem_append.mp hp with hp | hp
        · rw [i3 p hp, List.filter_append]
          have : ([v].filter fun w => decide (w.valueId = p.1.valueId)) = [] := by
            simp [Ne.symm (hne p hp)]
          rw [this, List.append_nil]
        · rw [List.mem_singleton] at hp
          subst hp
          have : (l.filter fun w => decide (w.valueId = v.valueId)) = [] := by
            rw [List.filter_eq_nil_iff]
            intro w hw
            simp only [decide_eq_true_eq]
            intro e
            obtain ⟨p, hp, e'⟩ := List.mem_map.mp ((i2 w.valueId).mpr ⟨w, hw, rfl⟩)
            exact hne p hp (e'.trans e)
          rw [List.filter_append, this]
          simp [hv1]
    cases hlast : L.getLast? with
    | none =>
      have hnil : L = [] := List.getLast?_eq_none_iff.mp hlast
      refine new (by simp [hnil]) ?_
      unfold addLabel
      rw [hlast]
    | some q =>
      obtain ⟨w, s⟩ := q
      obtain ⟨L', rfl⟩ := List.getLast?_eq_some_iff.mp hlast
      have hasc : ∀ p ∈ L', p.1.valueId < w.valueId := by
        intro p hp
        rw [List.map_append, List.pairwise_append] at i1
        exact i1.2.2 _ (List.mem_map.mpr ⟨p, hp, rfl⟩) _ (by simp)
      by_cases hwv : w.valueId = v.valueId
      · have e : addLabel (L' ++ [(w, s)]) v = L' ++ [(w, s ++ (b!", " ++ v.printName))] := by
          unfold addLabel
          rw [hlast]
          simp only [hwv, if_true, List.dropLast_concat]
        rw [e]
        have em : ((L' ++ [(w, s ++ (b!", " ++ v.printName))]).map fun p => p.1.valueId) = (L' ++ [(w, s)]).map fun p => p.1.valueId := by simp
        rw [em]
        refine ⟨i1, ?_, ?_⟩
        · intro id
          rw [i2 id]
          constructor
          · rintro ⟨u, hu, e⟩; exact ⟨u, by simp [hu], e⟩
          · rintro ⟨u, hu, e2⟩
            rcases List.mem_append.mp hu with hu | hu
            · exact ⟨u, hu, e2⟩
            · rw [List.mem_singleton] at hu
              subst hu
              exact (i2 id).mp (List.mem_map.mpr ⟨(w, s), by simp, hwv.trans e2⟩)
        · intro p hp
          rcases List.mem_append.mp hp with hp | hp
          · rw [i3 p (by simp [hp]), List.filter_append]
            have hlt := hasc p hp
            have : ([v].filter fun w => decide (w.valueId = p.1.valueId)) = [] := by
              have : v.valueId ≠ p.1.valueId := by omega
              simp [this]
            rw [this, List.append_nil]
          · rw [List.mem_singleton] at hp
            subst hp
            have hs := i3 (w, s) (by simp)
            simp only at hs ⊢
            have : ([v].filter fun u => decide (u.valueId = w.valueId)) = [v] := by simp [hwv]
            rw [List.filter_append, this, List.flatMap_append, separated_append]
            · rw [← hs]; simp [hv1]
            · obtain ⟨u, hu, e⟩ := (i2 w.valueId).mp (List.mem_map.mpr ⟨(w, s), by simp, rfl⟩)
              intro hc
              have := List.flatMap_eq_nil_iff.mp hc u (by simp [hu, e])
              exact (hn u (by simp [hu])).2 this
            · simpa using hv2
      · refine new ?_ ?_
        · intro p hp
          rcases List.mem_append.mp hp with hp | hp
          · have := hasc p hp
            have := hle (w, s) (by simp)
            simp only at this
            omega
          · rw [List.mem_singleton] at hp
            subst hp
            exact hwv
        · unfold addLabel
          rw [hlast]
          simp only [hwv, if_false]

theorem flatMap_same {α β : Type} {l : List α} {f g : α → List β} (h : ∀ x ∈ l, f x = g x) : l.flatMap f = l.flatMap g := by
  induction l with
  | nil => rfl
  | cons x xs ih => rw [List.flatMap_cons, List.flatMap_cons, h x (by simp), ih fun y hy => h y (by simp [hy])]

theorem inQuotes_eq (l : List Str) : inQuotes l = l.flatMap quoted := by
  induction l with
  | nil => rfl
  | cons x xs ih => simp only [inQuotes, List.flatMap_cons, ih, quoted]

theorem printSelf_shows {n : PNode} (hc : n.command.Flagged) : ∃ ids : List Nat, ids.Pairwise (· < ·) ∧
    (∀ id, id ∈ ids ↔ (∃ a ∈ n.command.arguments, a.valueId = id) ∨ ∃ o ∈ n.command.options, o.valueId = id) ∧
    n.printSelf = ids.flatMap (valueLine n) ++ (if n.unprocessed = [] then [] else b!"Unprocessed arguments:" ++ inQuotes n.unprocessed) := by
  have hp := sortList_perm (fun v w : View => decide (v.valueId < w.valueId)) (n.allArguments.map View.arg ++ n.allOptions.map View.opt)
  have hs := sortList_sorted (fun v w : View => decide (v.valueId < w.valueId)) (n.allArguments.map View.arg ++ n.allOptions.map View.opt)
    (by intro a _ b _; simp; omega) (by intro a _ b _ c _; simp; omega)
  have hst := fun k => sortList_stable View.valueId k (n.allArguments.map View.arg ++ n.allOptions.map View.opt)
  obtain ⟨h1, h2, h3⟩ := labels_spec (sortList (fun v w : View => decide (v.valueId < w.valueId)) (n.allArguments.map View.arg ++ n.allOptions.map View.opt))
    (hs.imp (by intro a b h; simpa using h)) (fun v hv => printName_eq hc (hp.mem_iff.mp hv))
  refine ⟨n.labels.map fun p => p.1.valueId, h1, ?_, ?_⟩
  · intro id
    rw [show (id ∈ n.labels.map fun p => p.1.valueId) ↔ _ from h2 id]
    constructor
    · rintro ⟨v, hv, e⟩
      rcases List.mem_append.mp (hp.mem_iff.mp hv) with hv | hv
      · obtain ⟨a, ha, rfl⟩ := List.mem_map.mp hv; exact Or.inl ⟨a, ha, e⟩
      · obtain ⟨o, ho, rfl⟩ := List.mem_map.mp hv; exact Or.inr ⟨o, ho, e⟩
    · rintro (⟨a, ha, e⟩ | ⟨o, ho, e⟩)
      · exact ⟨.arg a, hp.mem_iff.mpr (List.mem_append.mpr (Or.inl (List.mem_map.mpr ⟨a, ha, rfl⟩))), e⟩
      · exact ⟨.opt o, hp.mem_iff.mpr (List.mem_append.mpr (Or.inr (List.mem_map.mpr ⟨o, ho, rfl⟩))), e⟩
  · unfold PNode.printSelf
    rw [List.flatMap_map]
    congr 1
    · refine flatMap_same fun p hp => ?_
      obtain ⟨v, s⟩ := p
      have := h3 (v, s) hp
      simp only at this
      rw [hst] at this
      simp only [printArgument, valueLine, this, inQuotes_eq, PNode.argValuesView, ArgValues.all, PNode.allArguments, PNode.allOptions]
      congr 2
      rw [List.flatMap_map, List.flatMap_map]
      rfl
    · cases n.unprocessed with
      | nil => rfl
      | cons x xs => simp [inQuotes_eq]

theorem printSelf_subs (n : PNode) : PNode.printSelf { n with subs := [] } = n.printSelf := rfl

theorem print_eq (n : PNode) : n.print = n.printSelf ++ PNode.printSubs n.subs := by
  obtain ⟨c, i, v, u, k, s, subs⟩ := n
  rfl

theorem printSubs_eq (l : List PNode) : PNode.printSubs l = (l.zip (l.map PNode.print)).flatMap fun (m, t) => b!"\nSubcommand: " ++ m.command.name ++ b!"\n" ++ t := by
  induction l with
  | nil => rfl
  | cons m ms ih =>
    rw [PNode.printSubs, ih, List.map_cons, List.zip_cons_cons, List.flatMap_cons]
    rfl

theorem print_shows (n : PNode) (h : ∀ m : PNode, m.Within n → m.command.Flagged) : Shows n n.print := by
  obtain ⟨ids, h1, h2, h3⟩ := printSelf_shows (h n .self)
  rw [print_eq, h3, printSubs_eq]
  refine .intro ids (n.subs.map PNode.print) h1 h2 (by simp) ?_
  intro i m t hm ht
  rw [List.getElem?_map, hm] at ht
  simp only [Option.map_some, Option.some.injEq] at ht
  subst ht
  have hmem := List.mem_of_getElem? hm
  have : sizeOf m < sizeOf n := by
    obtain ⟨c, i, v, u, k, s, subs⟩ := n
    have := List.sizeOf_lt_of_mem hmem
    simp at this ⊢
    omega
  exact print_shows m fun k hk => h k (.sub hmem hk)
termination_by sizeOf n

/-- A node is shown in one way. -/
theorem shows_unique {n : PNode} {s t : Str} (hs : Shows n s) (ht : Shows n t) : s = t := by
  induction hs generalizing t with
  | @intro n ids subs h1 h2 h3 h4 ih =>
    obtain ⟨ids', subs', g1, g2, g3, g4⟩ := ht
    have e1 : ids = ids' := by
      refine List.Perm.eq_of_pairwise (le := (· < ·)) (fun a b _ _ h h' => absurd h (by omega)) h1 g1 ?_
      refine (List.perm_ext_iff_of_nodup (h1.imp (by intro a b h; omega)) (g1.imp (by intro a b h; omega))).mpr fun id => ?_
      rw [h2, g2]
    have e2 : subs = subs' := by
      apply List.ext_getElem?
      intro i
      by_cases hi : i < n.subs.length
      · have a1 := List.getElem?_eq_getElem hi
        have a2 := List.getElem?_eq_getElem (l := subs) (by omega : i < subs.length)
        have a3 := List.getElem?_eq_getElem (l := subs') (by omega : i < subs'.length)
        rw [a2, a3, ih i _ _ a1 a2 (g4 i _ _ a1 a3)]
      · rw [List.getElem?_eq_none (by omega), List.getElem?_eq_none (by omega)]
    rw [e1, e2]

end Argos
