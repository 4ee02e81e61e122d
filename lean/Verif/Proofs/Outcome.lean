import Verif.Proofs.Shape
import Verif.Proofs.Counted

/-! # The results of whole parses -/

namespace Argos
open Spec

namespace Parser
open ParserM

/-! ### What is returned -/

/-- The returned node has everything but the sub-commands of the outermost node of the stack. -/
theorem _root_.Argos.Returns.facts {env : Env} {d : ParserData} (hr : Ready d) {args : List Str} {rs : List IterResult} {last : IterResult}
    {n : PNode} (h : Returns env d args rs last n) :
    ∃ s' a l, Parses env d args rs last s' ∧ Good d s' ∧ s'.stack = a :: l ∧ n = nest a l ∧
      ∃ subs, n = { (a :: l).getLast (by simp) with subs := subs } := by
  obtain ⟨s', hp, ht⟩ := h
  obtain ⟨_, _, _, _, _, hg⟩ := hp.good hr
  obtain ⟨a, l, e, _⟩ := hg.head
  rw [topLevel_eq e, Option.some.injEq] at ht
  refine ⟨s', a, l, hp, hg, e, ht.symm, ?_⟩
  rw [← ht]
  exact nest_last a l

theorem parse_returns {env : Env} {d : ParserData} {args : List Str} {fuel : Nat} {n : PNode} {s' : PState}
    (h : parse env d args fuel = (.ok (some n), s')) : ∃ rs last, Parses env d args rs last s' ∧ topLevel s' = some n := by
  obtain ⟨h1, rs, last, h2⟩ := parse_parses h
  exact ⟨rs, last, h2, h1.symm⟩

/-- The nodes of a closed stack. -/
theorem nest_within {m a : PNode} {l : List PNode} (h : m.Within (nest a l)) :
    m.Within a ∨ ∃ q ∈ l, (∃ x, m = { q with subs := q.subs ++ [x] }) ∨ ∃ k ∈ q.subs, m.Within k := by
  induction l generalizing a with
  | nil => exact Or.inl h
  | cons q l ih =>
    rcases ih h with h | ⟨q', hq, h⟩
    · rcases PNode.within_iff.mp h with rfl | ⟨k, hk, hm⟩
      · exact Or.inr ⟨q, by simp, Or.inl ⟨a, rfl⟩⟩
      · rcases List.mem_append.mp hk with hk | hk
        · exact Or.inr ⟨q, by simp, Or.inr ⟨k, hk, hm⟩⟩
        · simp only [List.mem_singleton] at hk
          rw [hk] at hm
          exact Or.inl hm
    · exact Or.inr ⟨q', by simp [hq], h⟩

theorem within_nest (a : PNode) (l : List PNode) : a.Within (nest a l) := by
  induction l generalizing a with
  | nil => exact .self
  | cons q l ih =>
    exact (PNode.Within.sub (k := a) (n := { q with subs := q.subs ++ [a] }) (by simp) .self).trans (ih { q with subs := q.subs ++ [a] })

/-! ### Codes and stop options without a stop -/

/-- No node of the stack records a stop or an error. -/
def Clean (s : PState) : Prop := ∀ n ∈ s.stack, (n.code = .none ∨ n.code = .success) ∧ n.stopOption = none

theorem Near.clean {s t : PState} (h : Near s t) (hs : s.stack ≠ []) (hn : Clean s) : Clean t := by
  cases e : s.stack with
  | nil => exact absurd e hs
  | cons n ns =>
    obtain ⟨vs, e2⟩ := h.stack n ns e
    intro m hm
    rw [e2] at hm
    rcases List.mem_cons.mp hm with rfl | hm
    · exact hn n (by rw [e]; simp)
    · exact hn m (by rw [e]; simp [hm])

theorem clean_succ {t : PState} (h : Clean t) : Clean (succState t) := by
  intro m hm
  obtain ⟨k, hk, rfl⟩ := List.mem_map.mp hm
  exact ⟨Or.inr rfl, (h k hk).2⟩

theorem clean_copy {t : PState} {it : Iter} (h : Clean t) : Clean (copyState it t) := by
  intro m hm
  cases e : t.stack with
  | nil => simp [copyState, e, headMap] at hm
  | cons k ks =>
    simp only [copyState, e, headMap, List.mem_cons] at hm
    rcases hm with rfl | hm
    · exact h k (by rw [e]; simp)
    · exact h m (by rw [e]; simp [hm])

theorem Move.clean {s s' : PState} {r : IterResult} (h : Move s r s') (hr : ∀ o v, r = .option o v → ¬ EndsParsing o)
    (hs : s.stack ≠ []) (hn : Clean s) : Clean s' := by
  cases h with
  | @same k _ _ _ _ _ e1 e2 _ _ _ _ =>
    intro m hm
    rw [e2] at hm
    rcases List.mem_cons.mp hm with rfl | hm
    · exact hn k (by rw [e1]; simp)
    · exact hn m (by rw [e1]; simp [hm])
  | enter _ _ _ _ =>
    intro m hm
    rcases List.mem_cons.mp hm with rfl | hm
    · exact ⟨Or.inl rfl, rfl⟩
    · exact hn m hm
  | @sibling _ _ _ _ _ _ k _ _ _ _ _ _ e1 _ _ _ _ _ e2 =>
    intro m hm
    rw [e2] at hm
    simp only [List.mem_cons] at hm
    rcases hm with rfl | rfl | hm
    · exact ⟨Or.inl rfl, rfl⟩
    · exact hn k (by rw [e1]; simp)
    · exact hn m (by rw [e1]; simp [hm])
  | stopped _ ho _ => exact absurd ho (hr _ _ rfl)
  | lastDone hnear _ _ _ _ => exact clean_copy (clean_succ (hnear.clean hs hn))
  | @lastMulti _ _ t a pre p ps _ hnear _ _ e1 _ _ _ e2 =>
    have hc := hnear.clean hs hn
    intro m hm
    rw [e2] at hm
    simp only [List.mem_cons, List.mem_map] at hm
    rcases hm with rfl | ⟨x, hx, rfl⟩
    · exact ⟨Or.inr rfl, (hc p (by rw [e1]; simp)).2⟩
    · exact ⟨Or.inr rfl, (hc x (by rw [e1]; simp [hx])).2⟩

theorem _root_.Argos.Trace.clean {env : Env} {d : ParserData} (hr : Ready d) {s s' : PState} {rs : List IterResult}
    (h : Trace env s rs s') (hg : Good d s) (hl : ∀ r ∈ rs, ¬ r.IsLast) (hns : NoStop rs) (hn : Clean s) : Clean s' := by
  induction h with
  | nil => exact hn
  | cons hnx _ ih =>
    obtain ⟨hst, hg1⟩ := next_good hr hg hnx
    refine ih hg1 (fun r hr => hl r (by simp [hr])) (fun o v hm => hns o v (by simp [hm]))
      ((hst.move hg (hl _ (by simp))).clean ?_ hg.ne hn)
    rintro o v rfl
    exact hns o v (by simp)

theorem start_clean (d : ParserData) (args : List Str) : Clean (start d args).2 := by
  rw [(start_good d args).1]
  intro m hm
  simp only [startState, List.mem_singleton] at hm
  subst hm
  exact ⟨Or.inl rfl, rfl⟩

theorem endsParsing_last {o : OptData} (h : o.type = .lastArgument) : ¬ EndsParsing o := by
  rw [EndsParsing, h]; simp

/-- A parse ends with success, with a stop option as the last result, or with an error. -/
theorem _root_.Argos.Parses.noStop {env : Env} {d : ParserData} (hr : Ready d) {args : List Str} {rs : List IterResult} {last : IterResult}
    {s' : PState} (h : Parses env d args rs last s') (hns : NoStop rs) (hl : last = .done) :
    (∀ n ∈ s'.stack, n.code = .success ∧ n.stopOption = none) ∧ ∃ t it, CheckOk t ∧ Good d t ∧
      (s' = succState t ∨ s' = copyState it (succState t)) := by
  have key : ∀ {t : PState} {it : Iter}, Clean t → (s' = succState t ∨ s' = copyState it (succState t)) →
      ∀ n ∈ s'.stack, n.code = .success ∧ n.stopOption = none := by
    intro t it hc he
    have h1 : ∀ n ∈ (succState t).stack, n.code = .success ∧ n.stopOption = none := by
      intro m hm
      obtain ⟨k, hk, rfl⟩ := List.mem_map.mp hm
      exact ⟨rfl, (hc k hk).2⟩
    rcases he with rfl | rfl
    · exact h1
    · intro m hm
      cases e : (succState t).stack with
      | nil => simp only [copyState, e, headMap] at hm; simp at hm
      | cons k ks =>
        simp only [copyState, e, headMap, List.mem_cons] at hm
        rcases hm with rfl | hm
        · exact h1 k (by rw [e]; simp)
        · exact h1 m (by rw [e]; simp [hm])
  cases h.ending hr with
  | error => simp at hl
  | @finished _ s t _ it hns1 ht hg ht1 e hok e2 =>
    have hc : Clean s := ht.clean hr (start_good d args).2 h.before hns1 (start_clean d args)
    have hg1 := (hg.taken ht1).2.2
    subst e
    exact ⟨key (t := { s with iter := it }) (it := it) (by exact hc) (Or.inl e2), _, it, hok, hg1, Or.inl e2⟩
  | @last rs s t _ it o v hns1 ht hg hnear hgt hty hok hre e2 =>
    have hc : Clean s := ht.clean hr (start_good d args).2 (fun r hr => h.before r (by simp [hr])) hns1 (start_clean d args)
    exact ⟨key (hnear.clean hg.ne hc) (Or.inr e2), _, it, hok, hgt, Or.inr e2⟩
  | @stopped rs s t _ it o v hns1 ht hg hnear hgt ho hre e2 =>
    exact absurd ho (hns o v (by simp))

/-- The stop option is the last result; only the innermost node records it. -/
theorem _root_.Argos.Parses.stops {env : Env} {d : ParserData} (hr : Ready d) {args : List Str} {rs : List IterResult} {last : IterResult}
    {s' : PState} (h : Parses env d args rs last s') {o : OptData} {v : Option Str} (hm : .option o v ∈ rs) (ho : EndsParsing o) :
    last = .done ∧ ∃ rs0 s t it, rs = rs0 ++ [.option o v] ∧ NoStop rs0 ∧ Trace env (start d args).2 rs0 s ∧ Good d s ∧
      next env s = (.ok (.option o v), s') ∧ Near s t ∧ Clean t ∧
      Rest t.iter it ∧ s' = copyState it (stopState o t) := by
  obtain ⟨s1, ht1, hg1, hn1, _⟩ := h.good hr
  cases h.ending hr with
  | error hns => exact absurd ho (hns o v hm)
  | finished hns => exact absurd ho (hns o v hm)
  | @last rs s t _ it o' v' hns1 ht hg hnear hgt hty hok hre e2 =>
    rcases List.mem_append.mp hm with hm | hm
    · exact absurd ho (hns1 o v hm)
    · simp only [List.mem_singleton, IterResult.option.injEq] at hm
      rw [hm.1] at ho
      exact absurd ho (endsParsing_last hty)
  | @stopped rs s t _ it o' v' hns1 ht hg hnear hgt ho' hre e2 =>
    rcases List.mem_append.mp hm with hm | hm
    · exact absurd ho (hns1 o v hm)
    · simp only [List.mem_singleton, IterResult.option.injEq] at hm
      obtain ⟨rfl, rfl⟩ := hm
      obtain ⟨s2, h2, h3⟩ := ht1.split
      cases h3 with
      | cons hn3 h4 =>
        cases h4 with
        | nil =>
          have hg2 := h2.good hr (start_good d args).2
          have hc : Clean s2 := h2.clean hr (start_good d args).2 (fun r hr => h.before r (by simp [hr])) hns1 (start_clean d args)
          obtain ⟨t2, it2, g1, g2, g3, g4, _⟩ := (next_good hr hg2 hn3).1.stopped hg2 ho
          have hmode : s1.mode = .done := by rw [g4]; rfl
          rw [next_of_done env hmode] at hn1
          simp only [Prod.mk.injEq] at hn1
          rw [← hn1.2]
          exact ⟨rfl, rs, s2, t2, it2, rfl, hns1, h2, hg2, hn3, g1, g1.clean hg2.ne hc, g3, g4⟩

/-! ### Errors in the output -/

/-- The event is an error message. -/
def Event.IsError : Event → Prop
  | .error _ _ => True
  | _ => False

theorem callEvents_noError (cb : Option Nat) (view : ViewRef) (v : Option Str) (seen : Values) :
    ∀ e ∈ callEvents cb view v seen, ¬ Event.IsError e := by
  intro e he
  cases cb with
  | none => simp [callEvents] at he
  | some c => simp [callEvents] at he; subst he; exact id

theorem CallLog.noError {cb g : Option Nat} {view : ViewRef} {v : Str} {stored : Values} {es : List Event}
    (h : CallLog cb g view v stored es) : ∀ e ∈ es, ¬ Event.IsError e := by
  obtain ⟨v1, seen, _, _, rfl⟩ := h
  intro e he
  rcases List.mem_append.mp he with he | he
  · exact callEvents_noError _ _ _ _ e he
  · exact callEvents_noError _ _ _ _ e he

/-- An error message is written exactly when the result is an error. -/
theorem StepLog.error_iff {s : PState} {r : IterResult} {es : List Event} (h : StepLog s (.ok r) es) :
    (∃ e ∈ es, Event.IsError e) ↔ r = .error := by
  have hhelp : ∀ {c : Command} {p : Prop} [Decidable p], ∀ e ∈ (if p then [Event.help c] else []), ¬ Event.IsError e := by
    intro c p _ e he
    split at he
    · simp only [List.mem_singleton] at he; subst he; exact id
    · simp at he
  cases h with
  | silent _ _ h => simp [h]
  | option _ _ _ _ hc =>
    refine iff_of_false ?_ (by simp)
    rintro ⟨e, he, h1⟩
    rcases List.mem_append.mp he with he | he
    · exact hc.noError e he h1
    · exact hhelp e he h1
  | argument _ _ _ hc =>
    refine iff_of_false ?_ (by simp)
    rintro ⟨e, he, h1⟩
    exact hc.noError e he h1
  | @error m _ => exact iff_of_true ⟨.error s.command m, by simp, trivial⟩ rfl
  | @lastError _ _ _ _ m => exact iff_of_true ⟨.error s.command m, by simp, trivial⟩ rfl

theorem _root_.Argos.Trace.log {env : Env} {d : ParserData} (hr : Ready d) {s s' : PState} {rs : List IterResult}
    (h : Trace env s rs s') (hg : Good d s) : (∃ e ∈ s'.log, Event.IsError e) ↔ (∃ e ∈ s.log, Event.IsError e) ∨ .error ∈ rs := by
  induction h with
  | nil => simp
  | cons hn _ ih =>
    rename_i s s1 s' r rs
    obtain ⟨hst, hg1⟩ := next_good hr hg hn
    obtain ⟨es, h1, h2⟩ := hst.log hg
    rw [ih hg1, h2]
    have := h1.error_iff
    constructor
    · rintro (⟨e, he, h3⟩ | h3)
      · rcases List.mem_append.mp he with he | he
        · exact Or.inl ⟨e, he, h3⟩
        · exact Or.inr (by rw [this.mp ⟨e, he, h3⟩]; simp)
      · exact Or.inr (by simp [h3])
    · rintro (⟨e, he, h3⟩ | h3)
      · exact Or.inl ⟨e, by simp [he], h3⟩
      · rcases List.mem_cons.mp h3 with h3 | h3
        · obtain ⟨e, he, h4⟩ := this.mpr h3.symm
          exact Or.inl ⟨e, by simp [he], h4⟩
        · exact Or.inr h3

theorem _root_.Argos.Parses.log {env : Env} {d : ParserData} (hr : Ready d) {args : List Str} {rs : List IterResult} {last : IterResult}
    {s' : PState} (h : Parses env d args rs last s') : (∃ e ∈ s'.log, Event.IsError e) ↔ last = .error := by
  obtain ⟨s, ht, hg, hn, hst, hg'⟩ := h.good hr
  have h1 := (ht.append (.cons hn .nil)).log hr (start_good d args).2
  rw [h1]
  have h0 : ¬ ∃ e ∈ (start d args).2.log, Event.IsError e := by
    rw [(start_good d args).1]
    rintro ⟨e, he, _⟩
    simp [startState] at he
  have h2 : .error ∉ rs := fun hm => h.before _ hm trivial
  constructor
  · rintro (h | h)
    · exact absurd h h0
    · simp only [List.mem_append, List.mem_singleton] at h
      rcases h with h | h
      · exact absurd h h2
      · exact h.symm
  · rintro rfl
    exact Or.inr (by simp)

/-! ### Closed sub-commands -/

/-- A property of all finished sub-commands of the active commands. -/
def ClosedAll (P : PNode → Prop) (s : PState) : Prop := ∀ n ∈ s.stack, ∀ k ∈ n.subs, ∀ m, m.Within k → P m

theorem closedAll_near {P : PNode → Prop} {s t : PState} (h : Near s t) (hs : s.stack ≠ []) (hn : ClosedAll P s) : ClosedAll P t := by
  cases e : s.stack with
  | nil => exact absurd e hs
  | cons n ns =>
    obtain ⟨vs, e2⟩ := h.stack n ns e
    intro m hm
    rw [e2] at hm
    rcases List.mem_cons.mp hm with rfl | hm
    · exact hn n (by rw [e]; simp)
    · exact hn m (by rw [e]; simp [hm])

/-- Every required sub-command was given. -/
def HasRequired (n : PNode) : Prop := n.command.requireSubcommand = some true → n.subs ≠ []

theorem nest_required {a : PNode} {pre : List PNode} (ha : HasRequired a) (hs : ∀ n ∈ a :: pre, ∀ k ∈ n.subs, ∀ m, m.Within k → HasRequired m) :
    ∀ m, m.Within (nest a pre) → HasRequired m := by
  intro m hm
  rcases nest_within hm with hm | ⟨q, hq, ⟨x, rfl⟩ | ⟨k, hk, hm⟩⟩
  · rcases PNode.within_iff.mp hm with rfl | ⟨k, hk, hm⟩
    · exact ha
    · exact hs a (by simp) k hk m hm
  · intro _; simp
  · exact hs q (by simp [hq]) k hk m hm

theorem Move.required {d : ParserData} (hr : Ready d) {s s' : PState} (hg : Good d s) {r : IterResult} (h : Move s r s')
    (hn : ClosedAll HasRequired s) : ClosedAll HasRequired s' := by
  have closed : ∀ {a : PNode} {pre : List PNode} {p : PNode} {ps : List PNode} {l : List PNode}, l = a :: pre ++ p :: ps →
      (∀ n ∈ l, ∀ k ∈ n.subs, ∀ m, m.Within k → HasRequired m) → HasRequired a →
      ∀ n ∈ ({ p with subs := p.subs ++ [nest a pre] } : PNode) :: ps, ∀ k ∈ n.subs, ∀ m, m.Within k → HasRequired m := by
    intro a pre p ps l e1 hl ha n hm k hk m hmk
    rcases List.mem_cons.mp hm with rfl | hm
    · rcases List.mem_append.mp hk with hk | hk
      · exact hl p (by rw [e1]; simp) k hk m hmk
      · simp only [List.mem_singleton] at hk
        rw [hk] at hmk
        refine nest_required ha ?_ m hmk
        intro q hq
        exact hl q (by rw [e1]; exact List.mem_append_left _ hq)
    · exact hl n (by rw [e1]; simp [hm]) k hk m hmk
  cases h with
  | @same k _ _ _ _ _ e1 e2 _ _ _ _ =>
    intro m hm
    rw [e2] at hm
    rcases List.mem_cons.mp hm with rfl | hm
    · exact hn k (by rw [e1]; simp)
    · exact hn m (by rw [e1]; simp [hm])
  | enter _ _ _ _ =>
    intro m hm
    rcases List.mem_cons.mp hm with rfl | hm
    · intro k hk; simp [PNode.make] at hk
    · exact hn m hm
  | @sibling _ _ _ _ a pre p ps _ _ _ hce _ e1 _ _ _ _ _ e2 =>
    intro m hm
    rw [e2] at hm
    rcases List.mem_cons.mp hm with rfl | hm
    · intro k hk; simp [PNode.make] at hk
    · refine closed e1 hn ?_ m hm
      intro hreq
      have hc : a.command = s.command := by
        have := hg.command
        rw [e1] at this
        simpa using this
      obtain ⟨r, h1, h2⟩ := (hr _ hg.within).require
      rw [hc, h1, Option.some.injEq] at hreq
      exact absurd hce (h2 hreq)
  | @stopped o v t it hnear ho _ =>
    have hc := closedAll_near hnear hg.ne hn
    intro m hm
    cases e : t.stack with
    | nil => simp [copyState, stopState, e, headMap] at hm
    | cons k ks =>
      simp only [copyState, stopState, e, headMap, List.mem_cons] at hm
      rcases hm with rfl | hm
      · exact hc k (by rw [e]; simp)
      · exact hc m (by rw [e]; simp [hm])
  | @lastDone o v t it hnear _ _ _ _ =>
    have hc := closedAll_near hnear hg.ne hn
    intro m hm
    cases e : t.stack with
    | nil => simp [copyState, succState, e, headMap] at hm
    | cons k ks =>
      simp only [copyState, succState, e, headMap, List.map_cons, List.mem_cons, List.mem_map] at hm
      rcases hm with rfl | ⟨x, hx, rfl⟩
      · exact hc k (by rw [e]; simp)
      · exact hc x (by rw [e]; simp [hx])
  | @lastMulti _ _ t a pre p ps _ hnear _ hok e1 _ _ _ e2 =>
    have hc := closedAll_near hnear hg.ne hn
    have hcmd : a.command = t.command := by
      obtain ⟨n, ns, e3, e4⟩ := hg.head
      obtain ⟨vs, e5⟩ := hnear.stack n ns e3
      rw [e5] at e1
      simp only [List.cons_append, List.cons.injEq] at e1
      rw [← e1.1, hnear.command]
      exact e4
    intro m hm
    rw [e2] at hm
    refine closed (a := asSuccess a) (pre := pre.map asSuccess) (p := asSuccess p) (ps := ps.map asSuccess)
      (l := t.stack.map asSuccess) (by rw [e1]; simp) ?_ ?_ m hm
    · intro n hn k hk
      obtain ⟨x, hx, rfl⟩ := List.mem_map.mp hn
      exact hc x hx k hk
    · intro hreq
      refine hok.subcommand a (by rw [e1]; rfl) ?_
      rw [← hcmd]
      exact hreq

theorem _root_.Argos.Trace.required {env : Env} {d : ParserData} (hr : Ready d) {s s' : PState} {rs : List IterResult}
    (h : Trace env s rs s') (hg : Good d s) (hl : ∀ r ∈ rs, ¬ r.IsLast) (hn : ClosedAll HasRequired s) : ClosedAll HasRequired s' := by
  induction h with
  | nil => exact hn
  | cons hnx _ ih =>
    obtain ⟨hst, hg1⟩ := next_good hr hg hnx
    exact ih hg1 (fun r hr => hl r (by simp [hr])) ((hst.move hg (hl _ (by simp))).required hr hg hn)

theorem start_closed (d : ParserData) (args : List Str) (P : PNode → Prop) : ClosedAll P (start d args).2 := by
  rw [(start_good d args).1]
  intro m hm k hk
  simp only [startState, List.mem_singleton] at hm
  subst hm
  simp [PNode.make] at hk

end Parser
end Argos
