import Verif.Proofs.Line
import Verif.Proofs.Given

/-! # What ends up in `unprocessed_arguments()` -/

namespace Argos
open Spec

mutual
theorem PNode.unprocessedTree_eq : ∀ n : PNode, n.unprocessedTree = n.rawBy (·.unprocessed)
  | ⟨c, _, _, u, _, _, subs⟩ => by
    unfold PNode.unprocessedTree PNode.rawBy
    rw [PNode.unprocessedTrees_eq subs]

theorem PNode.unprocessedTrees_eq : ∀ l : List PNode, PNode.unprocessedTrees l = PNode.rawByList (·.unprocessed) l
  | [] => rfl
  | n :: ns => by
    unfold PNode.unprocessedTrees PNode.rawByList
    rw [PNode.unprocessedTree_eq n, PNode.unprocessedTrees_eq ns]
end

theorem unknownsOf_append (l l' : List Occ) : unknownsOf (l ++ l') = unknownsOf l ++ unknownsOf l' := by
  simp [unknownsOf]

namespace Parser

/-- The unprocessed arguments of the stack agree with the open commands. -/
abbrev Ignores (stack : List PNode) (st : Open) : Prop := AgreesBy (·.unprocessed) unknownsOf stack st

theorem flat_unprocessed : Flat (fun n => n.unprocessed) := fun _ _ => rfl

theorem ignores_values (vs : PNode → Values) (n : PNode) :
    ({ n with values := vs n } : PNode).rawBy (·.unprocessed) = n.rawBy (·.unprocessed) := by
  rw [PNode.rawBy_eq, PNode.rawBy_eq]

theorem ignores_success (n : PNode) : (asSuccess n).rawBy (·.unprocessed) = n.rawBy (·.unprocessed) := by
  cases n; rfl

theorem ignores_stop (o : OptData) (n : PNode) :
    ({ n with code := .stop, stopOption := some o } : PNode).rawBy (·.unprocessed) = n.rawBy (·.unprocessed) := by
  cases n; rfl

/-- Something that is not ignored. -/
theorem ignores_add {stack : List PNode} {st : Open} (h : Ignores stack st) {x : Occ} (hx : unknownsOf [x] = []) :
    Ignores stack (st.add x) := by
  cases stack with
  | nil => rw [agrees_nil h]; rfl
  | cons n ns =>
    obtain ⟨l, ts, r, rfl, h1, h2, h3⟩ := agrees_cons h
    exact agrees_mk (by rw [unknownsOf_append, hx, List.append_nil, h1]) h2 h3

/-- Something that is ignored. -/
theorem ignores_unknown {stack : List PNode} {st : Open} (h : Ignores stack st) (x : Str) :
    Ignores (headMap (fun n => { n with unprocessed := n.unprocessed ++ [x] }) stack) (st.add (.unknown x)) := by
  cases stack with
  | nil => rw [agrees_nil h]; rfl
  | cons n ns =>
    obtain ⟨l, ts, r, rfl, h1, h2, h3⟩ := agrees_cons h
    refine agrees_mk (n := { n with unprocessed := n.unprocessed ++ [x] }) ?_ h2 h3
    rw [unknownsOf_append, ← h1]
    rfl

theorem ignores_rest (xs : List Str) : ∀ {stack : List PNode} {st : Open}, Ignores stack st →
    Ignores (headMap (fun n => { n with unprocessed := n.unprocessed ++ xs }) stack)
      (xs.foldl (fun st x => st.add (.unknown x)) st) := by
  induction xs with
  | nil =>
    intro stack st h
    refine agrees_headMap (fun n => ?_) h
    cases n
    simp only [List.append_nil]
  | cons x xs ih =>
    intro stack st h
    have := ih (ignores_unknown h x)
    cases stack with
    | nil => exact this
    | cons n ns => simpa [headMap, List.append_assoc] using this

theorem near_ignores {s t : PState} (h : Near s t) {st : Open} (ha : Ignores s.stack st) (hs : s.stack ≠ []) : Ignores t.stack st := by
  cases hn : s.stack with
  | nil => exact absurd hn hs
  | cons n ns =>
    obtain ⟨vs, e⟩ := h.stack n ns hn
    rw [e]
    rw [hn] at ha
    exact agrees_headMap (k := fun n => { n with values := vs }) (stack := n :: ns) (ignores_values fun _ => vs) ha

theorem leave_open {s : PState} (st : Open) (h : s.mode ≠ .done) : st.leave (lineOf s) = st := by
  unfold lineOf
  cases hm : s.mode <;> simp [Open.leave, Line.notRead]
  exact absurd hm h

theorem leave_done {s : PState} (st : Open) (h : s.mode = .done) :
    st.leave (lineOf s) = s.iter.reader.rest.foldl (fun st x => st.add (.unknown x)) st := by
  rw [lineOf_done h]; rfl

/-- After a step, the unprocessed arguments are those that were ignored, and finally those that were not read. -/
theorem Step.ignores {env : Env} {d : ParserData} {s s' : PState} (hg : Good d s) {r : IterResult} {st : Open}
    (h : Step env s (.ok r) s') (hr : ¬ r.IsLast)
    (hplain : d.settings.ignoreUndefinedArguments = false ∨ s.mode ≠ .argumentsOnly)
    (ha : Ignores s.stack st) : Ignores s'.stack ((st.step r).leave (lineOf s')) := by
  have herr : ∀ {msg t}, ErrorRun msg t IterResult.error (.ok r) s' → False := by
    intro msg t he
    cases he with
    | error _ _ => exact hr trivial
  obtain ⟨n, ns, hs, hcmd⟩ := hg.head
  have hne : s.stack ≠ [] := by rw [hs]; simp
  have hleaf : st.isLeaf = s.command.commands.isEmpty := by
    rw [hs] at ha
    obtain ⟨l, ts, rest, rfl, _⟩ := agrees_cons ha
    rw [← hcmd]
    rfl
  cases h with
  | afterDone _ => exact absurd trivial hr
  | finished _ _ => exact absurd trivial hr
  | unfinished _ _ he => exact (herr he).elim
  | unknownOption _ _ _ _ _ he => exact (herr he).elim
  | ignoredOption ht hol _ _ _ _ =>
    rw [leave_open _ (by show s.mode ≠ _; rw [hol.1]; simp)]
    exact ignores_unknown ha _
  | option ht hol _ hrun =>
    cases hrun with
    | noValue _ _ he => exact (herr he).elim
    | normal h1 h2 hty =>
      obtain ⟨hnear, _⟩ := near_option hg ht h1 h2
      rw [leave_open _ (by rw [hnear.mode, hol.1]; simp)]
      simp only [Open.step, hty]
      exact ignores_add (near_ignores hnear ha hne) rfl
    | lastOption h1 h2 hty =>
      obtain ⟨hnear, _⟩ := near_option hg ht h1 h2
      rw [leave_open _ (by simp)]
      simp only [Open.step, hty]
      exact ignores_add (near_ignores hnear ha hne) rfl
    | @stopped s2 s3 v stored w it2 h1 h2 ho _ hre =>
      obtain ⟨hnear, _⟩ := near_option hg ht h1 h2
      rw [leave_done _ rfl]
      have hty : ‹OptData›.type ≠ .lastArgument := by rcases ho with ho | ho | ho <;> rw [ho] <;> simp
      simp only [Open.step, if_neg hty]
      have : (copyState it2 (stopState ‹OptData› s3)).iter.reader.rest = s3.iter.reader.unread := by
        show it2.reader.rest = _
        rw [hre.reader]
      rw [this]
      exact ignores_rest _ (agrees_headMap (ignores_stop _) (ignores_add (near_ignores hnear ha hne) rfl))
    | lastFails _ _ _ _ he => exact (herr he).elim
    | @lastDone s2 s3 v stored w it2 h1 h2 hty hok hnm hre =>
      obtain ⟨hnear, _⟩ := near_option hg ht h1 h2
      rw [findMultiParent_succ] at hnm
      simp only [Option.map_eq_none_iff] at hnm
      have h3 := ignores_add (near_ignores hnear ha hne) (x := .option ‹OptData› (w.getD [])) rfl
      have h4 := agrees_back_none h3 hnm
      simp only [Open.step, hty, if_true, h4, Option.getD_none]
      rw [leave_done _ rfl]
      have : (copyState it2 (succState s3)).iter.reader.rest = s3.iter.reader.unread := by
        show it2.reader.rest = _
        rw [hre.reader]
      rw [this]
      exact ignores_rest _ (agrees_map ignores_success h3)
    | @lastMulti s2 s3 v stored w sub h1 h2 hty hok hfm =>
      obtain ⟨hnear, hg3⟩ := near_option hg ht h1 h2
      have h3 := ignores_add (near_ignores hnear ha hne) (x := .option ‹OptData› (w.getD [])) rfl
      have h3 := agrees_map ignores_success h3
      obtain ⟨a, pre, p, ps, e1, rfl, e3, e4⟩ := findMultiParent_some hfm
      have e1' : s3.stack.map asSuccess = a :: pre ++ p :: ps := e1
      rw [e1'] at h3
      obtain ⟨st', h4, h5⟩ := agreesBy_back flat_unprocessed h3 e3 e4
      have h6 := (hg3.succ.react e1 e3).1
      rw [leave_open _ (by simp [reactState])]
      simp only [Open.step, hty, if_true, h4, Option.getD_some]
      rw [List.length_cons, h6]
      exact h5
  | command ht hno hc hf hcur =>
    have : st.isLeaf = false := by rw [hleaf]; simpa using hc
    rw [leave_open _ (by simp [enterState])]
    simp only [Open.step, this]
    exact agrees_mk (n := PNode.make _) rfl rfl ha
  | unknownCommand _ _ _ _ he => exact (herr he).elim
  | @argument it arg _ _ ht hno hce hrun =>
    cases hrun with
    | sibling hf hc =>
      obtain ⟨e0, a, pre, p, ps, e1, rfl, e3, e4, e5⟩ := findSibling_some hf
      have h6 := ((hg.taken ht).2.2.react e1 e3).1
      have e1' : s.stack = a :: pre ++ p :: ps := e1
      rw [e1'] at ha
      obtain ⟨st', h4, h5⟩ := agreesBy_back flat_unprocessed ha e3 e4
      have hl : st.isLeaf = true := by rw [hleaf, hce]; rfl
      rw [leave_open _ (by simp [enterState])]
      simp only [Open.step, hl, if_true, h4, Option.getD_some]
      refine agrees_mk (n := PNode.make _) (ns := (reactState (ps.length + 1) _).stack) rfl rfl ?_
      rw [h6]
      exact h5
    | argument _ hn hc =>
      obtain ⟨hnear, _⟩ := near_argument hg ht hn hc
      rw [leave_open _ (by rw [hnear.mode]; rcases ht.modes with hm | hm <;> rw [hm] <;> simp)]
      exact ignores_add (near_ignores hnear ha hne) rfl
    | @ignored ct cur _ hn hig hcur =>
      rw [leave_open _ (by show s.mode ≠ _; rcases ht.modes with hm | hm <;> rw [hm] <;> simp)]
      rcases hplain with hplain | hm
      · have hig : s.settings.ignoreUndefinedArguments = true := hig
        rw [hg.settings, hplain] at hig
        simp at hig
      · obtain ⟨x, e1, rfl, e3, e4, e5⟩ := current_std hg ht (ht.modes.resolve_right hm) hno
        rw [e5 _ hcur]
        exact ignores_unknown ha _
    | tooMany _ _ _ he => exact (herr he).elim

/-- Options were recognised to the end. -/
def NoLast (rs : List IterResult) : Prop := ∀ o v, .option o v ∈ rs → o.type ≠ .lastOption ∧ o.type ≠ .lastArgument

theorem Step.stays_mixed {env : Env} {d : ParserData} {s s' : PState} (hg : Good d s) {r : IterResult} (h : Step env s (.ok r) s')
    (hr : ∀ o v, r = .option o v → o.type ≠ .lastOption ∧ o.type ≠ .lastArgument) (hm : s.mode ≠ .argumentsOnly) : s'.mode ≠ .argumentsOnly := by
  have herr : ∀ {msg} {t : PState} {q : Outcome IterResult}, ErrorRun msg t IterResult.error q s' → q = .ok r → s'.mode ≠ .argumentsOnly := by
    intro msg t q he hq
    cases he with
    | exit _ => cases hq
    | error _ _ => simp [errState]
  cases h with
  | afterDone _ => exact hm
  | finished _ _ => simp [succState]
  | unfinished _ _ he => exact herr he rfl
  | unknownOption _ _ _ _ _ he => exact herr he rfl
  | ignoredOption _ _ _ _ _ _ => exact hm
  | option ht hol _ hrun =>
    cases hrun with
    | noValue _ _ he => exact herr he rfl
    | normal h1 h2 hty =>
      obtain ⟨hnear, _⟩ := near_option hg ht h1 h2
      rw [hnear.mode]; exact hm
    | lastOption h1 h2 hty => exact absurd hty (hr _ _ rfl).1
    | stopped h1 h2 ho _ hre => simp [copyState, stopState]
    | lastFails _ _ _ _ he => exact herr he rfl
    | lastDone h1 h2 hty hok hnm hre => exact absurd hty (hr _ _ rfl).2
    | lastMulti h1 h2 hty hok hfm => exact absurd hty (hr _ _ rfl).2
  | command _ _ _ _ _ => simp [enterState]
  | unknownCommand _ _ _ _ he => exact herr he rfl
  | argument ht hno hce hrun =>
    cases hrun with
    | sibling _ _ => simp [enterState]
    | argument _ hn hc =>
      obtain ⟨hnear, _⟩ := near_argument hg ht hn hc
      rw [hnear.mode]; exact hm
    | ignored _ _ _ _ => exact hm
    | tooMany _ _ _ he => exact herr he rfl

theorem Step.not_done {env : Env} {s s' : PState} {r : IterResult} (h : Step env s (.ok r) s') (hr : ¬ r.IsLast) : s.mode ≠ .done := by
  intro hm
  cases h with
  | afterDone _ => exact hr trivial
  | finished ht _ => rcases ht.modes with h | h <;> rw [h] at hm <;> cases hm
  | unfinished ht _ _ => rcases ht.modes with h | h <;> rw [h] at hm <;> cases hm
  | unknownOption ht _ _ _ _ _ => rcases ht.modes with h | h <;> rw [h] at hm <;> cases hm
  | ignoredOption ht _ _ _ _ _ => rcases ht.modes with h | h <;> rw [h] at hm <;> cases hm
  | option ht _ _ _ => rcases ht.modes with h | h <;> rw [h] at hm <;> cases hm
  | command ht _ _ _ _ => rcases ht.modes with h | h <;> rw [h] at hm <;> cases hm
  | unknownCommand ht _ _ _ _ => rcases ht.modes with h | h <;> rw [h] at hm <;> cases hm
  | argument ht _ _ _ => rcases ht.modes with h | h <;> rw [h] at hm <;> cases hm

theorem _root_.Argos.Trace.ignores {env : Env} {d : ParserData} (hr : Ready d) {s s' : PState} {rs : List IterResult}
    (h : Trace env s rs s') (hg : Good d s) (hl : ∀ r ∈ rs, ¬ r.IsLast)
    (hplain : d.settings.ignoreUndefinedArguments = false ∨ (s.mode ≠ .argumentsOnly ∧ NoLast rs))
    {st : Open} (ha : Ignores s.stack (st.leave (lineOf s))) : Ignores s'.stack ((rs.foldl Open.step st).leave (lineOf s')) := by
  induction h generalizing st with
  | nil => exact ha
  | @cons _ _ _ r rs hn _ ih =>
    obtain ⟨hst, hg1⟩ := next_good hr hg hn
    have hr' := hl r (by simp)
    rw [leave_open _ (hst.not_done hr')] at ha
    have h1 := hst.ignores hg hr' (hplain.imp id fun h => h.1) ha
    refine ih hg1 (fun r hr => hl r (by simp [hr])) ?_ h1
    rcases hplain with h | ⟨h3, h4⟩
    · exact Or.inl h
    · exact Or.inr ⟨hst.stays_mixed hg (fun o v e => h4 o v (by simp [e])) h3, fun o v hm => h4 o v (by simp [hm])⟩

theorem ignores_start (d : ParserData) (args : List Str) :
    Ignores (start d args).2.stack ((Open.start d.command).leave (lineOf (start d args).2)) := by
  rw [(start_good d args).1]
  rw [leave_open _ (by simp [startState])]
  refine agrees_mk (n := { PNode.make d.command with values := initialValues d.command.options [] }) ?_ rfl rfl
  show [] = _
  simp [unknownsOf]

theorem Step.to_done {env : Env} {d : ParserData} {s s' : PState} (hg : Good d s) {r : IterResult} (h : Step env s (.ok r) s')
    (hr : ¬ r.IsLast) (hm : s'.mode = .done) : ∃ o v, r = .option o v ∧ (EndsParsing o ∨ o.type = .lastArgument) := by
  have herr : ∀ {msg} {t : PState}, ErrorRun msg t IterResult.error (.ok r) s' → False := by
    intro msg t he
    cases he with
    | error _ _ => exact hr trivial
  have hnd := h.not_done hr
  cases h with
  | afterDone _ => exact absurd trivial hr
  | finished _ _ => exact absurd trivial hr
  | unfinished _ _ he => exact (herr he).elim
  | unknownOption _ _ _ _ _ he => exact (herr he).elim
  | ignoredOption _ _ _ _ _ _ => exact absurd hm hnd
  | option ht hol _ hrun =>
    cases hrun with
    | noValue _ _ he => exact (herr he).elim
    | normal h1 h2 hty =>
      obtain ⟨hnear, _⟩ := near_option hg ht h1 h2
      rw [hnear.mode] at hm; exact absurd hm hnd
    | lastOption h1 h2 hty => cases hm
    | stopped h1 h2 ho _ hre => exact ⟨_, _, rfl, Or.inl ho⟩
    | lastFails _ _ _ _ he => exact (herr he).elim
    | lastDone h1 h2 hty hok hnm hre => exact ⟨_, _, rfl, Or.inr hty⟩
    | lastMulti h1 h2 hty hok hfm => exact ⟨_, _, rfl, Or.inr hty⟩
  | command _ _ _ _ _ => simp [enterState] at hm
  | unknownCommand _ _ _ _ he => exact (herr he).elim
  | argument ht hno hce hrun =>
    cases hrun with
    | sibling _ _ => simp [enterState] at hm
    | argument _ hn hc =>
      obtain ⟨hnear, _⟩ := near_argument hg ht hn hc
      rw [hnear.mode] at hm; exact absurd hm hnd
    | ignored _ _ _ _ => exact absurd hm hnd
    | tooMany _ _ _ he => exact (herr he).elim

theorem _root_.Argos.Trace.to_done {env : Env} {d : ParserData} (hr : Ready d) {s s' : PState} {rs : List IterResult} (h : Trace env s rs s')
    (hg : Good d s) (hl : ∀ r ∈ rs, ¬ r.IsLast) (hm : s.mode ≠ .done) (hm' : s'.mode = .done) :
    ∃ o v, .option o v ∈ rs ∧ (EndsParsing o ∨ o.type = .lastArgument) := by
  induction h with
  | nil => exact absurd hm' hm
  | @cons s s1 _ r rs hn _ ih =>
    obtain ⟨hst, hg1⟩ := next_good hr hg hn
    by_cases h1 : s1.mode = .done
    · obtain ⟨o, v, e, ho⟩ := hst.to_done hg (hl r (by simp)) h1
      exact ⟨o, v, by simp [e], ho⟩
    · obtain ⟨o, v, e, ho⟩ := ih hg1 (fun r hr => hl r (by simp [hr])) h1 hm'
      exact ⟨o, v, by simp [e], ho⟩

/-- The unprocessed arguments after a parse without an error, and what is left of the command line. -/
theorem _root_.Argos.Returns.unprocessed {env : Env} {d : ParserData} (hr : Ready d) {args : List Str} {rs : List IterResult} {n : PNode}
    (h : Returns env d args rs .done n)
    (hplain : d.settings.ignoreUndefinedArguments = false ∨ NoLast rs) :
    ∃ l : Line, (env.Passive → Faithful d args rs →
        Line.Steps d.settings.optionStyle (Open.start d.command) (.mixed ⟨[], args⟩) rs l ∧ l.AtEnd d.settings.optionStyle) ∧
      (NoStop rs → (∀ o v, .option o v ∈ rs → o.type ≠ .lastArgument) → l.notRead = []) ∧
      ∃ t, ((Open.after d.command rs).leave l).close = some t ∧ n.unprocessedTree = t.map unknownsOf := by
  obtain ⟨s', a, st, h1, hg', e, e2, _⟩ := h.facts hr
  obtain ⟨s, ht, hg, hn, hst, _⟩ := h1.good hr
  have hgs := (start_good d args).2
  have hms : (start d args).2.mode = .argumentsAndOptions := by rw [(start_good d args).1]; rfl
  have h2 := ht.ignores hr hgs h1.before (hplain.imp id fun h => ⟨by rw [hms]; simp, h⟩) (ignores_start d args)
  refine ⟨lineOf s, ?_, ?_, ?_⟩
  · intro hp hf
    obtain ⟨h3, h4⟩ := ht.start_line hp hr hf h1.before
    exact ⟨h3, (hst.line_done hg h4).1⟩
  · intro hns hnl
    by_cases hm : s.mode = .done
    · obtain ⟨o, v, ho, ho'⟩ := ht.to_done hr hgs h1.before (by rw [hms]; simp) hm
      rcases ho' with ho' | ho'
      · exact absurd ho' (hns o v ho)
      · exact absurd ho' (hnl o v ho)
    · unfold lineOf
      cases hmm : s.mode <;> simp [Line.notRead]
      exact absurd hmm hm
  · have h3 : Ignores s'.stack ((Open.after d.command rs).leave (lineOf s)) := by
      rcases hst.done_cases with ⟨_, rfl⟩ | ⟨it, _, _, rfl⟩
      · exact h2
      · exact agrees_map ignores_success h2
    rw [e] at h3
    obtain ⟨t, h4, h5⟩ := agreesBy_close flat_unprocessed h3
    exact ⟨t, h4, by rw [PNode.unprocessedTree_eq, e2, h5]⟩

end Parser
end Argos

namespace Argos
open Spec

theorem PNode.within_unprocessedTree {m n : PNode} (h : m.Within n) : m.unprocessedTree.Within n.unprocessedTree := by
  rw [PNode.unprocessedTree_eq, PNode.unprocessedTree_eq]
  induction h with
  | self => exact .refl _
  | @sub k n hk _ ih =>
    refine .sub (s := k.rawBy (·.unprocessed)) ?_ ih
    rw [PNode.rawBy_eq]
    exact List.mem_map_of_mem hk

namespace Parser

/-- Nothing is ignored unless that is asked for. -/
theorem Step.no_unknown {env : Env} {s s' : PState} {r : IterResult} (h : Step env s (.ok r) s')
    (h1 : s.settings.ignoreUndefinedOptions = false) (h2 : s.settings.ignoreUndefinedArguments = false) (x : Str) : r ≠ .unknown x := by
  rintro rfl
  have herr : ∀ {msg} {t : PState}, ErrorRun msg t IterResult.error (.ok (.unknown x)) s' → False := by
    intro msg t he
    cases he
  cases h with
  | unfinished _ _ he => exact herr he
  | unknownOption _ _ _ _ _ he => exact herr he
  | ignoredOption _ _ _ _ hi _ => rw [h1] at hi; cases hi
  | option _ _ _ hrun =>
    cases hrun with
    | noValue _ _ he => exact herr he
    | lastFails _ _ _ _ he => exact herr he
  | unknownCommand _ _ _ _ he => exact herr he
  | argument _ _ _ hrun =>
    cases hrun with
    | ignored _ _ hi _ => rw [h2] at hi; cases hi
    | tooMany _ _ _ he => exact herr he

theorem _root_.Argos.Trace.no_unknown {env : Env} {d : ParserData} (hr : Ready d) {s s' : PState} {rs : List IterResult}
    (h : Trace env s rs s') (hg : Good d s) (h1 : d.settings.ignoreUndefinedOptions = false)
    (h2 : d.settings.ignoreUndefinedArguments = false) (x : Str) : .unknown x ∉ rs := by
  induction h with
  | nil => simp
  | @cons _ _ _ r rs hn _ ih =>
    obtain ⟨hst, hg1⟩ := next_good hr hg hn
    intro hm
    rcases List.mem_cons.mp hm with e | hm
    · exact hst.no_unknown (by rw [hg.settings, h1]) (by rw [hg.settings, h2]) x e.symm
    · exact ih hg1 hm

theorem leave_nil {st : Open} {l : Line} (h : l.notRead = []) : st.leave l = st := by simp [Open.leave, h]

/-- Nothing was ignored by any command. -/
theorem after_clean (c : Command) (rs : List IterResult) (h : ∀ x, .unknown x ∉ rs) {t : Tree (List Occ)}
    (ht : (Open.after c rs).close = some t) : t.All fun _ l => unknownsOf l = [] := by
  have h0 : Everywhere (fun _ l => unknownsOf l = []) (Open.start c) := by
    constructor
    · intro t ht
      simp only [Open.start, List.mem_singleton] at ht
      subst ht
      simp [Tree.data, unknownsOf]
    · intro t ht s hs
      simp only [Open.start, List.mem_singleton] at ht
      subst ht
      simp [Tree.subs] at hs
  have key : ∀ (rs : List IterResult) (st : Open), (∀ x, .unknown x ∉ rs) → Everywhere (fun _ l => unknownsOf l = []) st →
      Everywhere (fun _ l => unknownsOf l = []) (rs.foldl Open.step st) := by
    intro rs
    induction rs with
    | nil => intro st _ h; exact h
    | cons r rs ih =>
      intro st hu he
      refine ih _ (fun x hm => hu x (by simp [hm])) (Everywhere.step (P := fun _ l => unknownsOf l = []) (fun _ => rfl) he r ?_ ?_ ?_)
      · intro o v _ t _ hp; rw [unknownsOf_append, hp]; rfl
      · intro o v _ t _ hp; rw [unknownsOf_append, hp]; rfl
      · rintro x rfl; exact absurd (List.mem_cons_self ..) (hu x)
  have h1 := key rs _ h h0
  exact finished_close ht h1.1 h1.2

end Parser
end Argos
