import Verif.Proofs.Log

/-! # How parses end -/

namespace Argos
open Spec

namespace Parser
open ParserM

theorem next_of_done (env : Env) {s : PState} (h : s.mode = .done) : next env s = (.ok .done, s) := by
  unfold next; rw [get_bind, h]; rfl

theorem next_of_error (env : Env) {s : PState} (h : s.mode = .error) :
    next env s = (.throw b!"next() called after error.", s) := by
  unfold next; rw [get_bind, h]; rfl

theorem _root_.Argos.Trace.dead {env : Env} {s s' : PState} {rs : List IterResult} (h : Trace env s rs s')
    (hm : s.mode = .done ∨ s.mode = .error) (hl : ∀ r ∈ rs, ¬ r.IsLast) : rs = [] ∧ s' = s := by
  cases h with
  | nil => exact ⟨rfl, rfl⟩
  | cons hn _ =>
    exfalso
    rcases hm with hm | hm
    · rw [next_of_done env hm] at hn
      simp only [Prod.mk.injEq, Outcome.ok.injEq] at hn
      exact hl _ List.mem_cons_self (by rw [← hn.1]; trivial)
    · rw [next_of_error env hm] at hn
      simp at hn

theorem _root_.Argos.Trace.append {env : Env} {s t u : PState} {as bs : List IterResult} (h1 : Trace env s as t) (h2 : Trace env t bs u) :
    Trace env s (as ++ bs) u := by
  induction h1 with
  | nil => exact h2
  | cons hn _ ih => exact .cons hn (ih h2)

theorem _root_.Argos.Trace.split {env : Env} {as bs : List IterResult} : ∀ {s u : PState}, Trace env s (as ++ bs) u →
    ∃ t, Trace env s as t ∧ Trace env t bs u := by
  induction as with
  | nil => intro s u h; exact ⟨s, .nil, h⟩
  | cons a as ih =>
    intro s u h
    cases h with
    | cons hn h =>
      obtain ⟨t, h1, h2⟩ := ih h
      exact ⟨t, .cons hn h1, h2⟩

/-- Two states differ at most in the values of the innermost node, the iterator, the counter, and what has been
written. -/
structure Near (s t : PState) : Prop where
  settings : t.settings = s.settings
  command : t.command = s.command
  mode : t.mode = s.mode
  stack : ∀ n ns, s.stack = n :: ns → ∃ vs, t.stack = { n with values := vs } :: ns

theorem Near.ne {s t : PState} (h : Near s t) (hs : s.stack ≠ []) : t.stack ≠ [] := by
  cases hn : s.stack with
  | nil => exact absurd hn hs
  | cons n ns => obtain ⟨vs, e⟩ := h.stack n ns hn; rw [e]; simp

theorem near_iter (s : PState) (it : Iter) : Near s { s with iter := it } :=
  ⟨rfl, rfl, rfl, fun n ns h => ⟨n.values, by cases n; exact h⟩⟩

theorem near_store (w : Option Write) (s : PState) : Near s (storeState w s) := by
  refine ⟨storeState_settings _ _, storeState_command _ _, storeState_mode _ _, ?_⟩
  intro n ns h
  cases w with
  | none => exact ⟨n.values, by cases n; exact h⟩
  | some w => exact ⟨w.exec n.values, by simp [storeState, h, headMap]⟩

theorem near_frame {s t : PState} (h : CallFrame s t) : Near s t :=
  ⟨h.settings, h.command, h.mode, fun n ns e => by obtain ⟨ws, e2⟩ := h.stack n ns e; exact ⟨_, e2⟩⟩

theorem Near.trans {s t u : PState} (h1 : Near s t) (h2 : Near t u) : Near s u := by
  refine ⟨h2.settings.trans h1.settings, h2.command.trans h1.command, h2.mode.trans h1.mode, ?_⟩
  intro n ns e
  obtain ⟨vs, e1⟩ := h1.stack n ns e
  obtain ⟨vs', e2⟩ := h2.stack _ _ e1
  exact ⟨vs', e2⟩

theorem near_opRun {o : OptData} {flag : Str} {s s2 : PState} {v : Str} {st : Bool}
    (h : OpRun o flag s (.ok (some (v, st))) s2) : Near s s2 := by
  cases h with
  | plain _ => exact near_store _ _
  | value _ _ => exact (near_iter s _).trans (near_store _ _)
  | noValue _ _ he => cases he

theorem near_option {env : Env} {d : ParserData} {s s2 s3 : PState} (hg : Good d s) {o : OptData} {flag : Str} {it : Iter} {v : Str}
    {st : Bool} {w : Option Str} (ht : Taken s (some flag) it) (h1 : OpRun o flag { s with iter := it } (.ok (some (v, st))) s2)
    (h2 : calls env o.callback ParserSettings.optionCallback (.opt o) o.valueId st (some v) s2 = (.ok w, s3)) :
    Near s s3 ∧ Good d s3 := by
  have hg' := (hg.taken ht).2.2
  have hg2 := hg'.opRun h1
  have hcr := (calls_run env o.callback ParserSettings.optionCallback (.opt o) o.valueId st (some v) s2 hg2.ne hg2.iterOk).1
  rw [h2] at hcr
  cases hcr with
  | ok hf => exact ⟨((near_iter s it).trans (near_opRun h1)).trans (near_frame hf), hg2.frame hf⟩

theorem near_argument {env : Env} {d : ParserData} {s s3 : PState} (hg : Good d s) {a : ArgData} {arg : Str} {it : Iter} {ct : Counter}
    {w : Option Str} (ht : Taken s (some arg) it) (h1 : s.counter.nextArgument = (some a, ct))
    (h2 : calls env a.callback ParserSettings.argumentCallback (.arg a) a.valueId true (some arg) (argState a ct arg { s with iter := it }) =
      (.ok w, s3)) : Near s s3 ∧ Good d s3 := by
  have hg' := (hg.taken ht).2.2
  have hg2 := hg'.arg (v := arg) h1
  have hcr := (calls_run env a.callback ParserSettings.argumentCallback (.arg a) a.valueId true (some arg) _ hg2.ne hg2.iterOk).1
  rw [h2] at hcr
  cases hcr with
  | ok hf =>
    refine ⟨((near_iter s it).trans ?_).trans (near_frame hf), hg2.frame hf⟩
    have : Near { s with iter := it } { s with iter := it, counter := ct } := ⟨rfl, rfl, rfl, (near_iter s it).stack⟩
    exact this.trans (near_store _ _)

/-- A stop option in a step. -/
theorem Step.stopped {env : Env} {d : ParserData} {s s' : PState} (hg : Good d s) {o : OptData} {v : Option Str}
    (h : Step env s (.ok (.option o v)) s') (ho : EndsParsing o) :
    ∃ t it, Near s t ∧ Good d t ∧ Rest t.iter it ∧ s' = copyState it (stopState o t) ∧
      (o.type = .stop ∨ s.settings.autoExit = false) := by
  cases h with
  | option ht _ _ hrun =>
    cases hrun with
    | normal _ _ ht => rw [EndsParsing, ht] at ho; simp at ho
    | lastOption _ _ ht => rw [EndsParsing, ht] at ho; simp at ho
    | stopped h1 h2 _ h3 hr =>
      obtain ⟨n1, n2⟩ := near_option hg ht h1 h2
      exact ⟨_, _, n1, n2, hr, rfl, h3⟩
    | lastFails _ _ _ _ he => cases he
    | lastDone _ _ ht _ _ _ => rw [EndsParsing, ht] at ho; simp at ho
    | lastMulti _ _ ht _ _ => rw [EndsParsing, ht] at ho; simp at ho
    | noValue _ _ he => cases he
  | unfinished _ _ he => cases he
  | unknownOption _ _ _ _ _ he => cases he
  | unknownCommand _ _ _ _ he => cases he
  | argument _ _ _ hrun =>
    cases hrun with
    | tooMany _ _ _ he => cases he

/-- Only options that end parsing, or the last of all, make the mode `done`. -/
theorem Step.done_mode {env : Env} {d : ParserData} {s s' : PState} (hg : Good d s) {r : IterResult} (h : Step env s (.ok r) s')
    (hr : ¬ r.IsLast) (hm : s'.mode = .done) :
    ∃ o v t it, r = .option o v ∧ Near s t ∧ Good d t ∧ Rest t.iter it ∧
      ((EndsParsing o ∧ s' = copyState it (stopState o t)) ∨
       (o.type = .lastArgument ∧ s' = copyState it (succState t) ∧ CheckOk t)) := by
  have herr : ∀ {msg t}, ErrorRun msg t IterResult.error (.ok r) s' → False := by
    intro msg t he
    cases he with
    | error _ _ => exact hr trivial
  cases h with
  | afterDone _ => exact absurd trivial hr
  | finished _ _ => exact absurd trivial hr
  | unfinished _ _ he => exact (herr he).elim
  | unknownOption _ _ _ _ _ he => exact (herr he).elim
  | ignoredOption ht _ _ _ _ _ => exact absurd hm ht.mode.1
  | option ht _ _ hrun =>
    cases hrun with
    | noValue _ _ he => exact (herr he).elim
    | normal h1 h2 _ =>
      have := (near_option hg ht h1 h2).1.mode
      rw [this] at hm
      exact absurd hm ht.mode.1
    | lastOption _ _ _ => simp at hm
    | stopped h1 h2 ho _ hre =>
      obtain ⟨n1, n2⟩ := near_option hg ht h1 h2
      exact ⟨_, _, _, _, rfl, n1, n2, hre, Or.inl ⟨ho, rfl⟩⟩
    | lastFails _ _ _ _ he => exact (herr he).elim
    | lastDone h1 h2 hty hok _ hre =>
      obtain ⟨n1, n2⟩ := near_option hg ht h1 h2
      exact ⟨_, _, _, _, rfl, n1, n2, hre, Or.inr ⟨hty, rfl, ⟨hok.mandatory, hok.subcommand, hok.complete⟩⟩⟩
    | lastMulti _ _ _ _ _ => simp [reactState] at hm
  | command _ _ _ _ _ => simp [enterState] at hm
  | unknownCommand _ _ _ _ he => exact (herr he).elim
  | argument ht _ _ hrun =>
    cases hrun with
    | sibling _ _ => simp [enterState] at hm
    | argument _ hn hc =>
      have := (near_argument hg ht hn hc).1.mode
      rw [this] at hm
      exact absurd hm ht.mode.1
    | ignored _ _ _ _ => exact absurd hm ht.mode.1
    | tooMany _ _ _ he => exact (herr he).elim

/-- The state after the option that ended parsing is the last one. -/
theorem _root_.Argos.Trace.stop_last {env : Env} {d : ParserData} (hr : Ready d) {s s' : PState} {rs : List IterResult}
    (h : Trace env s rs s') (hg : Good d s) (hl : ∀ r ∈ rs, ¬ r.IsLast) {o : OptData} {v : Option Str} (hmem : .option o v ∈ rs)
    (ho : EndsParsing o) :
    ∃ rs0 s1, rs = rs0 ++ [.option o v] ∧ NoStop rs0 ∧ Trace env s rs0 s1 ∧ next env s1 = (.ok (.option o v), s') ∧ Good d s1 ∧
      s'.mode = .done := by
  induction h with
  | nil => simp at hmem
  | cons hn ht ih =>
    rename_i s s1 s' r rs
    obtain ⟨hst, hg1⟩ := next_good hr hg hn
    by_cases hstop : ∃ o v, r = .option o v ∧ EndsParsing o
    · obtain ⟨o1, v1, rfl, ho1⟩ := hstop
      obtain ⟨t, it, _, _, _, e, _⟩ := hst.stopped hg ho1
      have hm : s1.mode = .done := by rw [e]; rfl
      obtain ⟨rfl, rfl⟩ := ht.dead (Or.inl hm) (fun r hr => hl r (by simp [hr]))
      simp only [List.mem_singleton] at hmem
      cases hmem
      exact ⟨[], s, rfl, by intro o v hm; simp at hm, .nil, hn, hg, hm⟩
    · rcases List.mem_cons.mp hmem with rfl | hmem
      · exact absurd ⟨o, v, rfl, ho⟩ hstop
      · obtain ⟨rs0, s2, e1, e2, e3, e4, e5, e6⟩ := ih hg1 (fun r hr => hl r (by simp [hr])) hmem
        refine ⟨r :: rs0, s2, by rw [e1]; rfl, ?_, .cons hn e3, e4, e5, e6⟩
        intro o' v' hm ho'
        rcases List.mem_cons.mp hm with rfl | hm
        · exact hstop ⟨_, _, rfl, ho'⟩
        · exact e2 o' v' hm ho'

/-- Each way in which a parse ends. -/
inductive Ending (env : Env) (d : ParserData) (args : List Str) : List IterResult → IterResult → PState → Prop
  /-- With an error. -/
  | error {rs : List IterResult} {t s' : PState} {msg : Str} {it : Iter} : NoStop rs → Good d t → d.settings.autoExit = false →
      Rest t.iter it → s' = errState msg it t → Ending env d args rs .error s'
  /-- At the end of the command line. -/
  | finished {rs : List IterResult} {s t s' : PState} {it : Iter} : NoStop rs → Trace env (start d args).2 rs s → Good d s →
      Taken s none it → t = { s with iter := it } → CheckOk t → s' = succState t → Ending env d args rs .done s'
  /-- With an option of type `LAST_ARGUMENT`. -/
  | last {rs : List IterResult} {s t s' : PState} {it : Iter} {o : OptData} {v : Option Str} : NoStop rs →
      Trace env (start d args).2 rs s → Good d s → Near s t → Good d t → o.type = .lastArgument → CheckOk t → Rest t.iter it →
      s' = copyState it (succState t) → Ending env d args (rs ++ [.option o v]) .done s'
  /-- With an option of type `HELP`, `STOP` or `EXIT`. -/
  | stopped {rs : List IterResult} {s t s' : PState} {it : Iter} {o : OptData} {v : Option Str} : NoStop rs →
      Trace env (start d args).2 rs s → Good d s → Near s t → Good d t → EndsParsing o → Rest t.iter it →
      s' = copyState it (stopState o t) → Ending env d args (rs ++ [.option o v]) .done s'

theorem start_mode (d : ParserData) (args : List Str) : (start d args).2.mode = .argumentsAndOptions := by
  rw [(start_good d args).1]; rfl

theorem _root_.Argos.Trace.snoc {env : Env} : ∀ {s s' : PState} {rs : List IterResult}, Trace env s rs s' →
    (rs = [] ∧ s' = s) ∨ ∃ rs0 r s1, rs = rs0 ++ [r] ∧ Trace env s rs0 s1 ∧ next env s1 = (.ok r, s') := by
  intro s s' rs h
  induction h with
  | nil => exact Or.inl ⟨rfl, rfl⟩
  | cons hn ht ih =>
    right
    rcases ih with ⟨rfl, rfl⟩ | ⟨rs0, r0, s1, rfl, h1, h2⟩
    · exact ⟨[], _, _, rfl, .nil, hn⟩
    · exact ⟨_ :: rs0, r0, s1, rfl, .cons hn h1, h2⟩

theorem _root_.Argos.Parses.ending {env : Env} {d : ParserData} (hr : Ready d) {args : List Str} {rs : List IterResult} {last : IterResult}
    {s' : PState} (h : Parses env d args rs last s') : Ending env d args rs last s' := by
  obtain ⟨s, ht, hg, hn, hst, hg'⟩ := h.good hr
  have hb := h.before
  have hl := h.last
  by_cases hm : s.mode = .done
  · -- the option before
    rw [next_of_done env hm] at hn
    simp only [Prod.mk.injEq, Outcome.ok.injEq] at hn
    obtain ⟨e1, e2⟩ := hn
    subst e1 e2
    rcases ht.snoc with ⟨rfl, rfl⟩ | ⟨rs0, r, s1, rfl, h1, h2⟩
    · rw [start_mode] at hm; simp at hm
    · have hg1 := h1.good hr (start_good d args).2
      obtain ⟨hst1, _⟩ := next_good hr hg1 h2
      have hb0 : ∀ r ∈ rs0, ¬ r.IsLast := fun r hr => hb r (by simp [hr])
      have hns : NoStop rs0 := by
        intro o v hmem ho
        obtain ⟨_, _, _, _, _, _, _, hmode⟩ := h1.stop_last hr (start_good d args).2 hb0 hmem ho
        rw [next_of_done env hmode] at h2
        simp only [Prod.mk.injEq, Outcome.ok.injEq] at h2
        exact hb r (by simp) (by rw [← h2.1]; trivial)
      obtain ⟨o, v, t, it, rfl, n1, n2, n3, ⟨ho, e⟩ | ⟨hty, e, hok⟩⟩ := hst1.done_mode hg1 (hb r (by simp)) hm
      · exact .stopped hns h1 hg1 n1 n2 ho n3 e
      · exact .last hns h1 hg1 n1 n2 hty hok n3 e
  · have hns : NoStop rs := by
      intro o v hmem ho
      obtain ⟨_, _, _, _, _, _, _, hmode⟩ := ht.stop_last hr (start_good d args).2 hb hmem ho
      exact hm hmode
    have herr : ∀ {msg t}, Good d t → ErrorRun msg t IterResult.error (.ok last) s' → Ending env d args rs last s' := by
      intro msg t hgt he
      cases he with
      | error ha hre => exact .error hns hgt (by rw [← hgt.settings]; exact ha) hre rfl
    cases hst with
    | afterDone h => exact absurd h hm
    | finished ht1 hok => exact .finished hns ht hg ht1 rfl hok rfl
    | unfinished ht1 _ he => exact herr (hg.taken ht1).2.2 he
    | unknownOption ht1 _ _ _ _ he => exact herr (hg.taken ht1).2.2 he
    | ignoredOption _ _ _ _ _ _ => exact hl.elim
    | option ht1 _ _ hrun =>
      cases hrun with
      | noValue _ hnv he =>
        have hg1 := (hg.taken ht1).2.2
        obtain ⟨a, it', i1, i2, i3⟩ := Iter.nextValue_ok _ hg1.iterOk
        rw [hnv] at i1
        simp only [Outcome.ok.injEq, Prod.mk.injEq] at i1
        rw [← i1.2] at i2 i3
        exact herr (hg1.iter i2 i3) he
      | lastFails h1 h2 _ _ he => exact herr ((near_option hg ht1 h1 h2).2.mode .done) he
      | _ => exact hl.elim
    | command _ _ _ _ _ => exact hl.elim
    | unknownCommand ht1 _ _ _ he => exact herr (hg.taken ht1).2.2 he
    | argument ht1 _ _ hrun =>
      cases hrun with
      | tooMany _ hn1 _ he =>
        rename_i it _ _ _ ct _ _
        have hg1 := (hg.taken ht1).2.2
        exact herr (hg1.keep (s' := { s with iter := it, counter := ct }) rfl rfl hg1.iterOk rfl (Or.inl rfl)
          (nextArgument_bounds hn1 hg1.bounds)) he
      | _ => exact hl.elim

/-! ### Changes of the stack -/

/-- The node with the code `SUCCESS`. -/
def asSuccess (n : PNode) : PNode := { n with code := .success }

/-- What a step that reports something other than the end does to the stack. -/
inductive Move (s : PState) : IterResult → PState → Prop
  | same {n : PNode} {ns : List PNode} {vs : Values} {un : List Str} {r : IterResult} {s' : PState} : s.stack = n :: ns →
      s'.stack = { n with values := vs, unprocessed := un } :: ns → (∀ c x, r ≠ .command c x) → s'.command = s.command →
      s'.mode ≠ .done → (∀ o v, r = .option o v → o.type = .normal ∨ o.type = .lastOption) → Move s r s'
  | enter {c : Command} {arg x : Str} {it : Iter} : Taken s (some arg) it → ¬ OptionLike s arg →
      findCommand s.command.commands arg s.settings.caseInsensitive = some c → it.current = .ok x →
      Move s (.command c x) (enterState c { s with iter := it })
  | sibling {c : Command} {arg x : Str} {it : Iter} {a : PNode} {pre : List PNode} {p : PNode} {ps : List PNode} {s' : PState} :
      Taken s (some arg) it → ¬ OptionLike s arg → s.command.commands = [] → s.counter.isComplete = true →
      s.stack = a :: pre ++ p :: ps → p.command.multiCommand = true → (∀ q ∈ pre, q.command.multiCommand = false) →
      findCommand p.command.commands arg s.settings.caseInsensitive = some c → it.current = .ok x →
      s' = enterState c (reactState (ps.length + 1) { s with iter := it }) →
      s'.stack = PNode.make c :: { p with subs := p.subs ++ [nest a pre] } :: ps → Move s (.command c x) s'
  | stopped {o : OptData} {v : Option Str} {t : PState} {it : Iter} : Near s t → EndsParsing o → Rest t.iter it →
      Move s (.option o v) (copyState it (stopState o t))
  | lastDone {o : OptData} {v : Option Str} {t : PState} {it : Iter} : Near s t → o.type = .lastArgument → CheckOk t →
      Rest t.iter it → findMultiParent t.stack = none → Move s (.option o v) (copyState it (succState t))
  | lastMulti {o : OptData} {v : Option Str} {t : PState} {a : PNode} {pre : List PNode} {p : PNode} {ps : List PNode} {s' : PState} :
      Near s t → o.type = .lastArgument → CheckOk t → t.stack = a :: pre ++ p :: ps → p.command.multiCommand = true →
      (∀ q ∈ pre, q.command.multiCommand = false) → s' = reactState (ps.length + 1) (succState t) →
      s'.stack = { asSuccess p with subs := p.subs ++ [nest (asSuccess a) (pre.map asSuccess)] } :: ps.map asSuccess →
      Move s (.option o v) s'

theorem near_head {s t : PState} (h : Near s t) {n : PNode} {ns : List PNode} (e : s.stack = n :: ns) :
    ∃ vs, t.stack = { n with values := vs, unprocessed := n.unprocessed } :: ns := h.stack n ns e

theorem findMultiParent_succ (s : PState) : findMultiParent (succState s).stack = (findMultiParent s.stack).map (·.map asSuccess) :=
  findMultiParent_map (f := asSuccess) (fun _ => rfl) s.stack

theorem Step.move {env : Env} {d : ParserData} {s s' : PState} (hg : Good d s) {r : IterResult} (h : Step env s (.ok r) s')
    (hr : ¬ r.IsLast) : Move s r s' := by
  have herr : ∀ {msg t}, ErrorRun msg t IterResult.error (.ok r) s' → False := by
    intro msg t he
    cases he with
    | error _ _ => exact hr trivial
  obtain ⟨n, ns, hs, hcmd⟩ := hg.head
  cases h with
  | afterDone _ => exact absurd trivial hr
  | finished _ _ => exact absurd trivial hr
  | unfinished _ _ he => exact (herr he).elim
  | unknownOption _ _ _ _ _ he => exact (herr he).elim
  | ignoredOption ht _ _ _ _ _ =>
    rename_i cur _ _ _ _ _
    refine .same (n := n) (ns := ns) (vs := n.values) (un := n.unprocessed ++ [cur]) hs ?_ (by simp) rfl ht.mode.1 (by simp)
    simp [hs, headMap]
  | option ht _ _ hrun =>
    cases hrun with
    | noValue _ _ he => exact (herr he).elim
    | normal h1 h2 hty =>
      have hn := (near_option hg ht h1 h2).1
      obtain ⟨vs, e⟩ := near_head hn hs
      exact .same hs e (by simp) hn.command (by rw [hn.mode]; exact ht.mode.1) (by rintro o v e; cases e; exact Or.inl hty)
    | lastOption h1 h2 hty =>
      have hn := (near_option hg ht h1 h2).1
      obtain ⟨vs, e⟩ := near_head hn hs
      exact .same hs e (by simp) hn.command (by simp) (by rintro o v e; cases e; exact Or.inr hty)
    | stopped h1 h2 ho _ hre => exact .stopped (near_option hg ht h1 h2).1 ho hre
    | lastFails _ _ _ _ he => exact (herr he).elim
    | lastDone h1 h2 hty hok hnm hre =>
      refine .lastDone (near_option hg ht h1 h2).1 hty ⟨hok.mandatory, hok.subcommand, hok.complete⟩ hre ?_
      rw [findMultiParent_succ] at hnm
      simpa using hnm
    | lastMulti h1 h2 hty hok hfm =>
      rename_i s3 v st w sub
      rw [findMultiParent_succ] at hfm
      rw [Option.map_eq_some_iff] at hfm
      obtain ⟨sub', hfm, rfl⟩ := hfm
      obtain ⟨a, pre, p, ps, e1, rfl, e3, e4⟩ := findMultiParent_some hfm
      have hg3 : Good d (succState s3) := (near_option hg ht h1 h2).2.succ
      have e5 : (succState s3).stack = asSuccess a :: pre.map asSuccess ++ asSuccess p :: ps.map asSuccess := by
        show s3.stack.map asSuccess = _
        rw [e1]; simp
      have h5 := (hg3.react e5 e3).1
      have hl : (List.map asSuccess (p :: ps)).length = ps.length + 1 := by simp
      rw [hl]
      rw [List.length_map] at h5
      exact .lastMulti (near_option hg ht h1 h2).1 hty ⟨hok.mandatory, hok.subcommand, hok.complete⟩ e1 e3 e4 rfl h5
  | command ht hno _ hf hc => exact .enter ht hno hf hc
  | unknownCommand _ _ _ _ he => exact (herr he).elim
  | argument ht hno hce hrun =>
    cases hrun with
    | sibling hf hc =>
      obtain ⟨e0, a, pre, p, ps, e1, rfl, e3, e4, e5⟩ := findSibling_some hf
      have h5 := ((hg.taken ht).2.2.react e1 e3).1
      refine .sibling ht hno hce e0 e1 e3 e4 e5 hc rfl ?_
      show PNode.make _ :: _ = _
      rw [h5]
    | argument _ hn hc =>
      have hn := (near_argument hg ht hn hc).1
      obtain ⟨vs, e⟩ := near_head hn hs
      exact .same hs e (by simp) hn.command (by rw [hn.mode]; exact ht.mode.1) (by simp)
    | ignored _ _ _ _ =>
      rename_i arg _ _ _ _ _ _
      refine .same (n := n) (ns := ns) (vs := n.values) (un := n.unprocessed ++ [arg]) hs ?_ (by simp) rfl ht.mode.1 (by simp)
      simp [hs, headMap]
    | tooMany _ _ _ he => exact (herr he).elim

/-! ### The top level -/

theorem nest_last (a : PNode) (l : List PNode) : ∃ subs, nest a l = { (a :: l).getLast (by simp) with subs := subs } := by
  induction l generalizing a with
  | nil => exact ⟨a.subs, by cases a; rfl⟩
  | cons p ps ih =>
    obtain ⟨subs, e⟩ := ih { p with subs := p.subs ++ [a] }
    show ∃ subs, nest { p with subs := p.subs ++ [a] } ps = _
    rw [e]
    cases ps with
    | nil => exact ⟨subs, rfl⟩
    | cons q qs => exact ⟨subs, by simp⟩

theorem closeAll_eq (a : PNode) (l : List PNode) : closeAll (a :: l) = [nest a l] := by
  unfold closeAll
  show closeFrames l.length (a :: l) = _
  induction l generalizing a with
  | nil => rfl
  | cons p ps ih => exact ih { p with subs := p.subs ++ [a] }

theorem topLevel_eq {s : PState} {a : PNode} {l : List PNode} (h : s.stack = a :: l) : topLevel s = some (nest a l) := by
  unfold topLevel
  rw [h, closeAll_eq]
  rfl

/-! ### Codes -/

/-- No node of the stack has the code `FAILURE`. -/
def NoFailure (s : PState) : Prop := ∀ n ∈ s.stack, n.code ≠ .failure

theorem Near.noFailure {s t : PState} (h : Near s t) (hs : s.stack ≠ []) (hn : NoFailure s) : NoFailure t := by
  cases e : s.stack with
  | nil => exact absurd e hs
  | cons n ns =>
    obtain ⟨vs, e2⟩ := h.stack n ns e
    intro m hm
    rw [e2] at hm
    rcases List.mem_cons.mp hm with rfl | hm
    · exact hn n (by rw [e]; simp)
    · exact hn m (by rw [e]; simp [hm])

theorem Move.noFailure {s s' : PState} {r : IterResult} (h : Move s r s') (hs : s.stack ≠ []) (hn : NoFailure s) : NoFailure s' := by
  cases h with
  | @same k _ _ _ _ _ e1 e2 _ _ _ _ =>
    intro m hm
    rw [e2] at hm
    rcases List.mem_cons.mp hm with rfl | hm
    · exact hn k (by rw [e1]; simp)
    · exact hn m (by rw [e1]; simp [hm])
  | enter _ _ _ _ =>
    intro m hm
    rcases List.mem_cons.mp hm with rfl | hm
    · simp [PNode.make]
    · exact hn m hm
  | @sibling _ _ _ _ _ _ k _ _ _ _ _ _ e1 _ _ _ _ _ e2 =>
    intro m hm
    rw [e2] at hm
    simp only [List.mem_cons] at hm
    rcases hm with rfl | rfl | hm
    · simp [PNode.make]
    · exact hn k (by rw [e1]; simp)
    · exact hn m (by rw [e1]; simp [hm])
  | stopped hnear _ _ =>
    rename_i t it _ _
    have h2 := hnear.noFailure hs hn
    have h3 := hnear.ne hs
    intro m hm
    cases e : t.stack with
    | nil => exact absurd e h3
    | cons k ks =>
      simp only [copyState, stopState, e, headMap, List.mem_cons] at hm
      rcases hm with rfl | hm
      · simp
      · exact h2 m (by rw [e]; simp [hm])
  | lastDone hnear _ _ _ _ =>
    rename_i t it _ _ _ _
    have h3 := hnear.ne hs
    intro m hm
    cases e : t.stack with
    | nil => exact absurd e h3
    | cons k ks =>
      simp only [copyState, succState, e, headMap, List.map_cons, List.mem_cons, List.mem_map] at hm
      rcases hm with rfl | ⟨x, _, rfl⟩
      · simp
      · simp
  | lastMulti _ _ _ _ _ _ _ e2 =>
    intro m hm
    rw [e2] at hm
    simp only [List.mem_cons, List.mem_map] at hm
    rcases hm with rfl | ⟨x, _, rfl⟩
    · simp [asSuccess]
    · simp [asSuccess]

theorem _root_.Argos.Trace.noFailure {env : Env} {d : ParserData} (hr : Ready d) {s s' : PState} {rs : List IterResult}
    (h : Trace env s rs s') (hg : Good d s) (hl : ∀ r ∈ rs, ¬ r.IsLast) (hn : NoFailure s) : NoFailure s' := by
  induction h with
  | nil => exact hn
  | cons hnx _ ih =>
    obtain ⟨hst, hg1⟩ := next_good hr hg hnx
    exact ih hg1 (fun r hr => hl r (by simp [hr])) ((hst.move hg (hl _ (by simp))).noFailure hg.ne hn)

theorem Step.done_cases {env : Env} {s s' : PState} (h : Step env s (.ok .done) s') :
    (s.mode = .done ∧ s' = s) ∨ ∃ it, Taken s none it ∧ CheckOk { s with iter := it } ∧ s' = succState { s with iter := it } := by
  cases h with
  | afterDone hm => exact Or.inl ⟨hm, rfl⟩
  | finished ht hok => exact Or.inr ⟨_, ht, hok, rfl⟩
  | unfinished _ _ he => cases he
  | unknownOption _ _ _ _ _ he => cases he
  | unknownCommand _ _ _ _ he => cases he
  | option _ _ _ hrun =>
    cases hrun with
    | noValue _ _ he => cases he
    | lastFails _ _ _ _ he => cases he
  | argument _ _ _ hrun =>
    cases hrun with
    | tooMany _ _ _ he => cases he

theorem start_noFailure (d : ParserData) (args : List Str) : NoFailure (start d args).2 := by
  rw [(start_good d args).1]
  intro m hm
  simp only [startState, List.mem_singleton] at hm
  subst hm
  simp [PNode.make]

theorem _root_.Argos.Parses.noFailure {env : Env} {d : ParserData} (hr : Ready d) {args : List Str} {rs : List IterResult}
    {s' : PState} (h : Parses env d args rs .done s') : NoFailure s' := by
  obtain ⟨s, ht, hg, hn, hst, hg'⟩ := h.good hr
  have h1 := ht.noFailure hr (start_good d args).2 h.before (start_noFailure d args)
  rcases hst.done_cases with ⟨_, rfl⟩ | ⟨it, _, _, rfl⟩
  · exact h1
  · intro m hm
    obtain ⟨k, _, rfl⟩ := List.mem_map.mp hm
    simp

end Parser
end Argos
