import Verif.Proofs.Allot

/-!
# Options and arguments belong to the command they are given to
-/

namespace Argos
open Spec

theorem findOptionImpl_mem {index : List (Str × OptData)} {q : Str} {ab ci : Bool} {o : OptData}
    (h : findOptionImpl index q ab ci = some o) : ∃ f, (f, o) ∈ index := by
  unfold findOptionImpl at h
  simp only at h
  split at h
  · simp at h
  · rename_i it hit
    have hm : it ∈ index := List.mem_of_getElem? hit
    have : it.2 = o := by
      split at h
      · simpa using h
      · split at h
        · simpa using h
        · split at h
          · simp at h
          · split at h
            · simp at h
            · split at h
              · split at h
                · simp at h
                · simpa using h
              · simpa using h
    exact ⟨it.1, by rw [← this]; exact hm⟩

theorem findOption_mem {index : List (Str × OptData)} {q : Str} {ab ci : Bool} {o : OptData}
    (h : findOption index q ab ci = some o) : ∃ f, (f, o) ∈ index := by
  unfold findOption at h
  split at h
  · rename_i o' ho'
    simp only [Option.some.injEq] at h
    subst h
    exact findOptionImpl_mem ho'
  · split at h
    · split at h
      · rename_i o' ho'
        split at h
        · simp at h
        · simp only [Option.some.injEq] at h
          subst h
          exact findOptionImpl_mem ho'
      · simp at h
    · simp at h

theorem buildOptionIndex_mem {options : List OptData} {ci : Bool} {index : List (Str × OptData)} (h : buildOptionIndex options ci = .ok index)
    {f : Str} {o : OptData} (hm : (f, o) ∈ index) : o ∈ options ∧ f ∈ o.flags := by
  unfold buildOptionIndex at h
  simp only at h
  split at h
  · simp at h
  · split at h
    · simp only [Outcome.ok.injEq] at h
      rw [← h, (sortList_perm _ _).mem_iff] at hm
      simp only [flagPairs, List.mem_flatMap, List.mem_map, Prod.mk.injEq] at hm
      obtain ⟨o', h1, f', h2, rfl, rfl⟩ := hm
      exact ⟨h1, h2⟩
    · split at h <;> simp at h

namespace Parser
open Counter Spec.Tree

theorem lookup_mem {d : ParserData} (hr : Ready d) {s : PState} (hg : Good d s) {flag : Str} {o : OptData} (h : lookup s flag = some o) :
    o ∈ s.command.options := by
  obtain ⟨f, hf⟩ := findOption_mem h
  exact (buildOptionIndex_mem (hr _ hg.within).index hf).1

/-- Something holds for all commands, finished or not. -/
def Everywhere (P : Command → List Occ → Prop) (st : Open) : Prop := (∀ t ∈ st, P t.command t.data) ∧ Finished P st

theorem Everywhere.add {P : Command → List Occ → Prop} {c : Command} {l : List Occ} {ts : List (Tree (List Occ))} {rest : Open} {x : Occ}
    (h : Everywhere P (.node c l ts :: rest)) (hx : P c l → P c (l ++ [x])) : Everywhere P (Open.add x (.node c l ts :: rest)) := by
  refine ⟨?_, finished_add h.2 _⟩
  intro t ht
  rcases List.mem_cons.mp ht with rfl | ht
  · exact hx (h.1 (.node c l ts) (by simp))
  · exact h.1 t (by simp [ht])

theorem Everywhere.back {P : Command → List Occ → Prop} {st st' : Open} (h : Everywhere P st) (hb : st.back = some st') : Everywhere P st' := by
  refine ⟨?_, finished_back hb h.1 h.2⟩
  obtain ⟨t0, pre, c, l, ts, x, rest, rfl, rfl⟩ := back_spec hb
  intro t ht
  rcases List.mem_cons.mp ht with rfl | ht
  · exact h.1 (.node c l ts) (by simp)
  · exact h.1 t (by simp [ht])

theorem Everywhere.backD {P : Command → List Occ → Prop} {st : Open} (h : Everywhere P st) : Everywhere P (st.back.getD st) := by
  cases hb : st.back with
  | none => exact h
  | some st' => exact h.back hb

theorem Everywhere.enter {P : Command → List Occ → Prop} {st : Open} (h : Everywhere P st) {c : Command} (hc : P c []) :
    Everywhere P (.node c [] [] :: st) := by
  refine ⟨?_, finished_enter h.2 c⟩
  intro t ht
  rcases List.mem_cons.mp ht with rfl | ht
  · exact hc
  · exact h.1 t ht

/-- What holds at first and stays when a result is added holds everywhere. -/
theorem Everywhere.step {P : Command → List Occ → Prop} (hnil : ∀ c, P c []) {st : Open} (h : Everywhere P st) (r : IterResult)
    (hopt : ∀ o v, r = .option o v → ∀ t ∈ st.head?, P t.command t.data → P t.command (t.data ++ [.option o (v.getD [])]))
    (harg : ∀ a v, r = .argument a v → ∀ t ∈ st.head?, P t.command t.data → P t.command (t.data ++ [.argument a (v.getD [])]))
    (hunk : ∀ x, r = .unknown x → ∀ t ∈ st.head?, P t.command t.data → P t.command (t.data ++ [.unknown x])) :
    Everywhere P (st.step r) := by
  cases st with
  | nil =>
    cases r with
    | option o v => simp only [Open.step, Open.add, Open.back, Option.getD_none]; split <;> exact h
    | command c x =>
      refine Everywhere.enter ?_ (hnil c)
      split
      · exact h.backD
      · exact h
    | _ => exact h
  | cons t rest =>
    obtain ⟨c, l, ts⟩ := t
    cases r with
    | option o v =>
      have := h.add (x := .option o (v.getD [])) (hopt o v rfl (.node c l ts) (by simp))
      simp only [Open.step]
      split
      · exact this.backD
      · exact this
    | argument a v => exact h.add (harg a v rfl (.node c l ts) (by simp))
    | unknown x => exact h.add (hunk x rfl (.node c l ts) (by simp))
    | command c' x =>
      refine Everywhere.enter ?_ (hnil c')
      split
      · exact h.backD
      · exact h
    | _ => exact h

/-- All occurrences belong to the command. -/
def Own (c : Command) (l : List Occ) : Prop := ∀ x ∈ l, x.Of c

theorem Own.snoc {c : Command} {l : List Occ} {x : Occ} (h : Own c l) (hx : x.Of c) : Own c (l ++ [x]) := by
  intro y hy
  rcases List.mem_append.mp hy with hy | hy
  · exact h y hy
  · simp only [List.mem_singleton] at hy; rw [hy]; exact hx

/-- An option that is reported is one of the active command. -/
theorem Step.option_of {env : Env} {d : ParserData} (hr : Ready d) {s s' : PState} (hg : Good d s) {o : OptData} {v : Option Str}
    (h : Step env s (.ok (.option o v)) s') : o ∈ s.command.options := by
  have herr : ∀ {msg t}, ¬ ErrorRun msg t IterResult.error (.ok (.option o v)) s' := by
    intro msg t he
    cases he
  cases h with
  | unfinished _ _ he => exact absurd he herr
  | unknownOption _ _ _ _ _ he => exact absurd he herr
  | unknownCommand _ _ _ _ he => exact absurd he herr
  | @option it flag o _ _ ht hol hlk hrun =>
    have := lookup_mem hr hg hlk
    cases hrun with
    | noValue _ _ he => exact absurd he herr
    | lastFails _ _ _ _ he => exact absurd he herr
    | _ => exact this
  | argument _ _ _ hrun =>
    cases hrun with
    | tooMany _ _ _ he => exact absurd he herr

theorem CountOk.mem {args given : List ArgData} {c c' : Counter} {a : ArgData} (h : CountOk args given c) (hn : c.nextArgument = (some a, c')) :
    a ∈ args := by
  obtain ⟨cs, fo, k, hcs, hk, hg, _⟩ := h.next_some hn
  have : a ∈ expand cs := List.mem_of_mem_take (by rw [← hg]; simp)
  obtain ⟨p, hp, ha⟩ := List.mem_flatMap.mp (by unfold expand at this; exact this)
  have := List.eq_of_mem_replicate ha
  subst this
  have hm : p.2 ∈ cs.map (·.2) := List.mem_map_of_mem hp
  obtain ⟨n, ⟨_, rfl, _⟩ | ⟨_, rfl, _⟩⟩ := hcs
  · unfold makeCountersN at hm
    simpa only [distribute_snd] using hm
  · have key : ∀ (l : List ArgData) fo i, ∀ x ∈ (makeCountersLoop fo l i).map (·.2), x ∈ l := by
      intro l fo
      induction l with
      | nil => intro i x hx; simp [makeCountersLoop] at hx
      | cons b l ih =>
        intro i x hx
        unfold makeCountersLoop at hx
        split at hx
        all_goals
          simp only [List.map_cons, List.mem_cons] at hx ⊢
          rcases hx with rfl | hx
          · exact Or.inl rfl
          · first
            | exact Or.inr (ih _ _ hx)
            | (rcases hx with rfl | hx
               · exact Or.inl rfl
               · exact Or.inr (ih _ _ hx))
    exact key _ _ _ _ hm

theorem Step.own {env : Env} (hp : env.Passive) {d : ParserData} (hr : Ready d) {s s' : PState} (hg : Good d s) {r : IterResult} {st : Open}
    (h : Step env s (.ok r) s') (ha : Agrees s.stack st) (hc : Counted s.counter st) (he : Everywhere Own st) :
    Everywhere Own (st.step r) := by
  obtain ⟨n, ns, hs, hcmd⟩ := hg.head
  rw [hs] at ha
  obtain ⟨l, ts, rest, rfl, _⟩ := agrees_cons ha
  refine he.step (fun _ x hx => by simp at hx) r ?_ ?_ (fun _ _ t _ hown => hown.snoc trivial)
  · rintro o v rfl t ht hown
    simp only [List.head?_cons, Option.mem_def, Option.some.injEq] at ht
    subst ht
    refine hown.snoc ?_
    have := h.option_of hr hg
    rw [← hcmd] at this
    exact this
  · rintro a v rfl t ht hown
    simp only [List.head?_cons, Option.mem_def, Option.some.injEq] at ht
    subst ht
    refine hown.snoc ?_
    obtain ⟨t, rest', e, hco⟩ := hc.active
    simp only [List.cons.injEq] at e
    rw [← e.1] at hco
    have herr : ∀ {msg t}, ¬ ErrorRun msg t IterResult.error (.ok (.argument a v)) s' := by
      intro msg t he
      cases he
    cases h with
    | unfinished _ _ he => exact absurd he herr
    | unknownOption _ _ _ _ _ he => exact absurd he herr
    | unknownCommand _ _ _ _ he => exact absurd he herr
    | option _ _ _ hrun =>
      cases hrun with
      | noValue _ _ he => exact absurd he herr
      | lastFails _ _ _ _ he => exact absurd he herr
    | argument _ _ _ hrun =>
      cases hrun with
      | tooMany _ _ _ he => exact absurd he herr
      | argument _ hn _ => exact CountOk.mem hco hn

theorem _root_.Argos.Trace.own {env : Env} (hp : env.Passive) {d : ParserData} (hr : Ready d) (hx : Exclusive d.command)
    {s s' : PState} {rs : List IterResult} (h : Trace env s rs s') (hg : Good d s) (hl : ∀ r ∈ rs, ¬ r.IsLast) {st : Open}
    (ha : Agrees s.stack st) (hc : Counted s.counter st) (he : Everywhere Own st) : Everywhere Own (rs.foldl Open.step st) := by
  induction h generalizing st with
  | nil => exact he
  | cons hn _ ih =>
    obtain ⟨hst, hg1⟩ := next_good hr hg hn
    have hr' := hl _ (List.mem_cons_self ..)
    exact ih hg1 (fun r hr => hl r (by simp [hr])) (hst.agrees hp hg hr' ha) (hst.counted hp hx hg hr' ha hc) (hst.own hp hr hg ha hc he)

theorem start_own (c : Command) : Everywhere Own (Open.start c) := by
  constructor
  · intro t ht
    simp only [Open.start, List.mem_singleton] at ht
    subst ht
    intro x hx
    obtain ⟨o, ho, rfl⟩ := List.mem_map.mp hx
    exact ho
  · intro t ht s hs
    simp only [Open.start, List.mem_singleton] at ht
    subst ht
    simp [Tree.subs] at hs

theorem _root_.Argos.Parses.own {env : Env} (hp : env.Passive) {d : ParserData} (hr : Ready d) (hx : Exclusive d.command)
    {args : List Str} {rs : List IterResult} {last : IterResult} {s' : PState} (h : Parses env d args rs last s') :
    ∃ t, given d.command rs = some t ∧ t.All Own := by
  obtain ⟨s, ht, hg, hn, hst, hg'⟩ := h.good hr
  have h1 := ht.agrees hp hr (start_good d args).2 h.before (agrees_start d args)
  have h3 := ht.own hp hr hx (start_good d args).2 h.before (agrees_start d args) (start_counted d args) (start_own _)
  obtain ⟨n, ns, hs, _⟩ := hg.head
  rw [hs] at h1
  obtain ⟨t, ht', _⟩ := agrees_close h1
  exact ⟨t, ht', finished_close ht' h3.1 h3.2⟩

end Parser
end Argos
