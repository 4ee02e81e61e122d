import Verif.Proofs.Counted
import Verif.Proofs.Outcome

/-!
# The arguments given to every command
-/

namespace Argos
open Spec

namespace Spec.Tree

theorem within_iff {α : Type} {t r : Tree α} : t.Within r ↔ t = r ∨ ∃ s ∈ r.subs, t.Within s := by
  constructor
  · intro h
    cases h with
    | refl => exact Or.inl rfl
    | sub h1 h2 => exact Or.inr ⟨_, h1, h2⟩
  · rintro (rfl | ⟨s, h1, h2⟩)
    · exact .refl _
    · exact .sub h1 h2

/-- Something holds for all commands of a tree. -/
def All (P : Command → List Occ → Prop) (t : Tree (List Occ)) : Prop := ∀ x : Tree (List Occ), x.Within t → P x.command x.data

theorem all_node {P : Command → List Occ → Prop} {c : Command} {l : List Occ} {ts : List (Tree (List Occ))} :
    All P (.node c l ts) ↔ P c l ∧ ∀ t ∈ ts, All P t := by
  constructor
  · intro h
    exact ⟨h _ (.refl _), fun t ht x hx => h x (.sub (r := .node c l ts) ht hx)⟩
  · rintro ⟨h1, h2⟩ x hx
    rcases within_iff.mp hx with rfl | ⟨s, hs, hx⟩
    · exact h1
    · exact h2 s hs x hx

end Spec.Tree

namespace Parser
open Counter Spec.Tree

/-- Something holds for all finished commands. -/
def Finished (P : Command → List Occ → Prop) (st : Open) : Prop := ∀ t ∈ st, ∀ s ∈ t.subs, Tree.All P s

theorem finished_add {P : Command → List Occ → Prop} {st : Open} (h : Finished P st) (x : Occ) : Finished P (st.add x) := by
  cases st with
  | nil => exact h
  | cons t rest =>
    obtain ⟨c, l, ts⟩ := t
    intro t ht s hs
    rcases List.mem_cons.mp ht with rfl | ht
    · exact h (.node c l ts) (by simp) s hs
    · exact h t (by simp [ht]) s hs

theorem finished_enter {P : Command → List Occ → Prop} {st : Open} (h : Finished P st) (c : Command) :
    Finished P (.node c [] [] :: st) := by
  intro t ht s hs
  rcases List.mem_cons.mp ht with rfl | ht
  · simp [Tree.subs] at hs
  · exact h t ht s hs

theorem finished_back_go {P : Command → List Occ → Prop} : ∀ {st : Open} {t : Tree (List Occ)} {st' : Open}, Open.back.go t st = some st' →
    Tree.All P t → (∀ t ∈ st, P t.command t.data) → Finished P st → Finished P st' := by
  intro st
  induction st with
  | nil => intro t st' h; simp [Open.back.go] at h
  | cons q st ih =>
    obtain ⟨c, l, ts⟩ := q
    intro t st' h ht ho hf
    have hsub : ∀ s ∈ ts ++ [t], Tree.All P s := by
      intro s hs
      rcases List.mem_append.mp hs with hs | hs
      · exact hf (.node c l ts) (by simp) s hs
      · simp only [List.mem_singleton] at hs; rw [hs]; exact ht
    have hrest : Finished P st := fun x hx => hf x (by simp [hx])
    unfold Open.back.go at h
    split at h
    · simp only [Option.some.injEq] at h
      subst h
      intro x hx s hs
      rcases List.mem_cons.mp hx with rfl | hx
      · exact hsub s hs
      · exact hrest x hx s hs
    · exact ih h (all_node.mpr ⟨ho (.node c l ts) (by simp), hsub⟩) (fun x hx => ho x (by simp [hx])) hrest

theorem finished_back {P : Command → List Occ → Prop} {st st' : Open} (h : st.back = some st') (ho : ∀ t ∈ st, P t.command t.data)
    (hf : Finished P st) : Finished P st' := by
  cases st with
  | nil => simp [Open.back] at h
  | cons t st =>
    obtain ⟨c, l, ts⟩ := t
    refine finished_back_go (st := st) (t := .node c l ts) h ?_ (fun x hx => ho x (by simp [hx])) (fun x hx => hf x (by simp [hx]))
    exact all_node.mpr ⟨ho (.node c l ts) (by simp), hf (.node c l ts) (by simp)⟩

theorem finished_close {P : Command → List Occ → Prop} {st : Open} {t : Tree (List Occ)} (h : st.close = some t)
    (ho : ∀ t ∈ st, P t.command t.data) (hf : Finished P st) : Tree.All P t := by
  have go : ∀ (st : Open) (t : Tree (List Occ)), Tree.All P t → (∀ t ∈ st, P t.command t.data) → Finished P st →
      Tree.All P (Open.close.go t st) := by
    intro st
    induction st with
    | nil => intro t ht _ _; exact ht
    | cons q st ih =>
      obtain ⟨c, l, ts⟩ := q
      intro t ht ho hf
      refine ih _ (all_node.mpr ⟨ho (.node c l ts) (by simp), ?_⟩) (fun x hx => ho x (by simp [hx])) (fun x hx => hf x (by simp [hx]))
      intro s hs
      rcases List.mem_append.mp hs with hs | hs
      · exact hf (.node c l ts) (by simp) s hs
      · simp only [List.mem_singleton] at hs; rw [hs]; exact ht
  cases st with
  | nil => simp [Open.close] at h
  | cons q st =>
    obtain ⟨c, l, ts⟩ := q
    simp only [Open.close, Option.some.injEq] at h
    rw [← h]
    exact go st _ (all_node.mpr ⟨ho (.node c l ts) (by simp), hf (.node c l ts) (by simp)⟩) (fun x hx => ho x (by simp [hx]))
      (fun x hx => hf x (by simp [hx]))

theorem argsWithin_none {c : Command} {l : List Occ} (h1 : c.arguments = []) (h2 : argsGiven l = []) : ArgsWithin c l := by
  refine ⟨[], ⟨by rw [h1]; rfl, by rw [h2]; rfl, ?_, ?_⟩, by rw [h1, h2]; rfl⟩
  · intro i h h'; simp at h'
  · intro i j hj hj'; simp at hj'

/-- When the counter is complete, all open commands have the arguments they may have. -/
theorem open_within {d : ParserData} (hx : Exclusive d.command) (hm : CountsOk d.command) {s : PState} (hg : Good d s) {st : Open}
    (ha : Agrees s.stack st) {ct : Counter} (hc : Counted ct st) (hcomp : ct.isComplete = true) :
    ∀ t ∈ st, ArgsWithin t.command t.data := by
  obtain ⟨n, ns, hs, _⟩ := hg.head
  have hpath := hg.path
  rw [hs] at ha hpath
  obtain ⟨l, ts, rest, rfl, _, _, hrest⟩ := agrees_cons ha
  have hmem : ∀ {l : List PNode} {st : Open}, Agrees l st → ∀ t ∈ st, ∃ m ∈ l, m.command = t.command := by
    intro l
    induction l with
    | nil => intro st h t ht; rw [agrees_nil h] at ht; simp at ht
    | cons q l ih =>
      intro st h t ht
      obtain ⟨l', ts, rest, rfl, _, _, hr⟩ := agrees_cons h
      rcases List.mem_cons.mp ht with rfl | ht
      · exact ⟨q, by simp, rfl⟩
      · obtain ⟨m, hm, e⟩ := ih hr t ht
        exact ⟨m, by simp [hm], e⟩
  intro t ht
  rcases List.mem_cons.mp ht with rfl | ht'
  · obtain ⟨t, rest', e, hco⟩ := hc.active
    simp only [List.cons.injEq] at e
    rw [← e.1] at hco
    exact hco.complete (hm _ (hpath.within n (by simp))) hcomp
  · obtain ⟨m, hm', e⟩ := hmem hrest t ht'
    have hcm : m.command.commands ≠ [] := by
      obtain ⟨pre, post, rfl⟩ := List.append_of_mem hm'
      exact hpath.below_commands
    refine argsWithin_none ?_ (hc.none t (by simp [ht']) (by rw [← e]; exact hcm))
    rw [← e]
    exact hx _ (hpath.within m (by simp [hm'])) hcm

theorem Step.finishedOk {env : Env} (hp : env.Passive) {d : ParserData} (hx : Exclusive d.command) (hm : CountsOk d.command)
    {s s' : PState} (hg : Good d s) {r : IterResult} {st : Open} (h : Step env s (.ok r) s') (hr : ¬ r.IsLast) (ha : Agrees s.stack st)
    (hc : Counted s.counter st) (hf : Finished ArgsWithin st) : Finished ArgsWithin (st.step r) := by
  have herr : ∀ {msg t}, ErrorRun msg t IterResult.error (.ok r) s' → False := by
    intro msg t he
    cases he with
    | error _ _ => exact hr trivial
  obtain ⟨n, ns, hs, hcmd⟩ := hg.head
  have hleaf : st.isLeaf = s.command.commands.isEmpty := by
    rw [hs] at ha
    obtain ⟨l, ts, rest, rfl, _⟩ := agrees_cons ha
    rw [← hcmd]
    rfl
  cases h with
  | afterDone _ => exact absurd trivial hr
  | finished _ _ => exact absurd trivial hr
  | unfinished _ _ he => exact (herr he).elim
  | unknownOption _ _ _ _ _ he => exact (herr he).elim
  | ignoredOption ht _ _ _ _ _ => exact finished_add hf _
  | @option it flag o _ _ ht hol hlk hrun =>
    cases hrun with
    | noValue _ _ he => exact (herr he).elim
    | normal h1 h2 hty =>
      simp only [Open.step, hty, reduceCtorEq, if_false]
      exact finished_add hf _
    | lastOption h1 h2 hty =>
      simp only [Open.step, hty, reduceCtorEq, if_false]
      exact finished_add hf _
    | @stopped s2 s3 v stored w it2 h1 h2 ho hx2 hre =>
      have : o.type ≠ .lastArgument := by rcases ho with ho | ho | ho <;> rw [ho] <;> simp
      simp only [Open.step, this, if_false]
      exact finished_add hf _
    | lastFails _ _ _ _ he => exact (herr he).elim
    | lastDone h1 h2 hty hok hnm hre =>
      obtain ⟨rfl, e⟩ := option_passive hp hg ht h1 h2
      rw [findMultiParent_succ] at hnm
      simp only [Option.map_eq_none_iff] at hnm
      have h3 := agrees_occWrite ha ‹OptData› ‹Str›
      rw [← e] at h3
      have h4 := agrees_back_none h3 hnm
      simp only [Open.step, hty, if_true, Option.getD_some, h4, Option.getD_none]
      exact finished_add hf _
    | lastMulti h1 h2 hty hok hfm =>
      rename_i s3 v stored w sub
      obtain ⟨rfl, e⟩ := option_passive hp hg ht h1 h2
      have h3 := agrees_occWrite ha ‹OptData› v
      rw [← e] at h3
      have h3' := agrees_map raw_asSuccess h3
      obtain ⟨a, pre, p, ps, e1, rfl, e3, e4⟩ := findMultiParent_some hfm
      have e1' : s3.stack.map asSuccess = a :: pre ++ p :: ps := e1
      rw [e1'] at h3'
      obtain ⟨st', h4, h5⟩ := agrees_back h3' e3 e4
      have hg3 : Good d s3 := (near_option hg ht h1 h2).2
      simp only [Open.step, hty, if_true, Option.getD_some, h4]
      have hcomp : s.counter.isComplete = true := by
        have := hok.complete
        rw [option_passive_counter hp hg ht h1 h2] at this
        exact this
      exact finished_back h4 (open_within hx hm hg3 h3 (hc.add_option _ v) hcomp) (finished_add hf _)
  | command ht hno hcc hfc hcur =>
    have : st.isLeaf = false := by rw [hleaf]; simpa using hcc
    simp only [Open.step, this]
    exact finished_enter hf _
  | unknownCommand _ _ _ _ he => exact (herr he).elim
  | argument ht hno hce hrun =>
    have hl : st.isLeaf = true := by rw [hleaf, hce]; rfl
    cases hrun with
    | sibling hfs hcur =>
      obtain ⟨e0, a, pre, p, ps, e1, rfl, e3, e4, e5⟩ := findSibling_some hfs
      have e1' : s.stack = a :: pre ++ p :: ps := e1
      have ha' := ha
      rw [e1'] at ha'
      obtain ⟨st', h4, h5⟩ := agrees_back ha' e3 e4
      simp only [Open.step, hl, if_true, h4, Option.getD_some]
      exact finished_enter (finished_back h4 (open_within hx hm hg ha hc e0) hf) _
    | argument _ hn hcl => exact finished_add hf _
    | ignored _ hn _ _ => exact finished_add hf _
    | tooMany _ _ _ he => exact (herr he).elim

theorem _root_.Argos.Trace.finished {env : Env} (hp : env.Passive) {d : ParserData} (hr : Ready d) (hx : Exclusive d.command)
    (hm : CountsOk d.command) {s s' : PState} {rs : List IterResult} (h : Trace env s rs s') (hg : Good d s) (hl : ∀ r ∈ rs, ¬ r.IsLast)
    {st : Open} (ha : Agrees s.stack st) (hc : Counted s.counter st) (hf : Finished ArgsWithin st) :
    Finished ArgsWithin (rs.foldl Open.step st) := by
  induction h generalizing st with
  | nil => exact hf
  | cons hn _ ih =>
    obtain ⟨hst, hg1⟩ := next_good hr hg hn
    have hr' := hl _ (List.mem_cons_self ..)
    exact ih hg1 (fun r hr => hl r (by simp [hr])) (hst.agrees hp hg hr' ha) (hst.counted hp hx hg hr' ha hc)
      (hst.finishedOk hp hx hm hg hr' ha hc hf)

/-- All commands have the arguments they may have. -/
theorem _root_.Argos.Parses.within {env : Env} (hp : env.Passive) {d : ParserData} (hr : Ready d) (hx : Exclusive d.command)
    (hm : CountsOk d.command) {args : List Str} {rs : List IterResult} {s' : PState} (h : Parses env d args rs .done s')
    (hns : NoStop rs) : ∃ t, given d.command rs = some t ∧ t.All ArgsWithin := by
  obtain ⟨s, ht, hg, hn, hst, hg'⟩ := h.good hr
  have h1 := ht.agrees hp hr (start_good d args).2 h.before (agrees_start d args)
  have h2 := ht.counted hp hr hx (start_good d args).2 h.before (agrees_start d args) (start_counted d args)
  have h3 := ht.finished hp hr hx hm (start_good d args).2 h.before (agrees_start d args) (start_counted d args)
    (by intro t ht s hs; simp only [Open.start, List.mem_singleton] at ht; subst ht; simp [Tree.subs] at hs)
  obtain ⟨_, t, it, hok, hgt, he⟩ := h.noStop hr hns rfl
  have hcomp : s.counter.isComplete = true := by
    have e1 : s'.counter = t.counter := by rcases he with rfl | rfl <;> rfl
    have e2 : s'.counter = s.counter := by
      rcases hst.done_cases with ⟨_, rfl⟩ | ⟨it, _, _, rfl⟩ <;> rfl
    rw [← e2, e1]
    exact hok.complete
  obtain ⟨n, ns, hs, _⟩ := hg.head
  have h4 := h1
  rw [hs] at h4
  obtain ⟨t, ht', _⟩ := agrees_close h4
  exact ⟨t, ht', finished_close ht' (open_within hx hm hg h1 h2 hcomp) h3⟩

end Parser
end Argos
