import Verif.Proofs.Given
import Verif.Proofs.Builder
import Verif.Proofs.Results

/-!
# Callbacks that change values
-/

namespace Argos
open Spec

namespace Parser
open ParserM

theorem applyOps_acts (vid : Nat) (ops : List BuilderOp) : ∀ {t : Bool} {s : PState} {n : PNode} {ns : List PNode} {b : Bool} {s' : PState},
    s.stack = n :: ns → n.ids = makeIds n.command → applyOps vid ops t s = (.ok b, s') →
    ∃ ws : List Write, WritesOf n.command ops ws ∧ s'.stack = { n with values := ws.foldl Write.exec n.values } :: ns ∧
      (b = true ↔ t = true ∨ ∃ w ∈ ws, w.Replaces vid) := by
  induction ops with
  | nil =>
    intro t s n ns b s' hs hn h
    simp only [applyOps, pure_apply, Prod.mk.injEq, Outcome.ok.injEq] at h
    obtain ⟨rfl, rfl⟩ := h
    refine ⟨[], .nil, ?_, by simp⟩
    rw [hs]
    cases n; rfl
  | cons op ops ih =>
    intro t s n ns b s' hs hn h
    unfold applyOps at h
    rw [hs] at h
    simp only at h
    rcases BuilderOp.apply_cases n op with ⟨⟨n', k⟩, hr⟩ | ⟨m, hr⟩
    · rw [hr] at h
      simp only at h
      obtain ⟨w, hw, rfl, rfl⟩ := apply_write hn hr
      obtain ⟨ws, h1, h2, h3⟩ := ih (n := { n with values := w.exec n.values }) (ns := ns) rfl hn h
      refine ⟨w :: ws, .cons hw h1, h2, ?_⟩
      rw [h3]
      simp only [Bool.or_eq_true, beq_iff_eq, touches_iff, List.mem_cons, exists_eq_or_imp, or_assoc]
    · rw [hr] at h
      simp at h

theorem runCallback_acts {env : Env} {cb : Nat} {view : ViewRef} {vid : Nat} {stored : Bool} {value : Option Str} {s : PState}
    {n : PNode} {ns : List PNode} (hs : s.stack = n :: ns) (hn : n.ids = makeIds n.command) (hi : s.iter.Ok) {v : Option Str} {s' : PState}
    (h : runCallback env cb view vid stored value s = (.ok v, s')) :
    ∃ ws : List Write, Acts env n.command cb view value (fun id => n.values.getValues id) ws ∧
      s'.stack = { n with values := ws.foldl Write.exec n.values } :: ns ∧
      v = if stored = true ∧ ∃ w ∈ ws, w.Replaces vid then none else value := by
  unfold runCallback at h
  rw [bind_ok (back_run hs), get_bind] at h
  have hfr : ∀ r, r = env.callback cb s.calls view value n → r.fin = .returns → ∀ ws, WritesOf n.command r.ops ws →
      Acts env n.command cb view value (fun id => n.values.getValues id) ws := by
    rintro r rfl h1 ws h2
    exact ⟨s.calls, n, rfl, rfl, h1, h2⟩
  generalize env.callback cb s.calls view value n = r at hfr h
  have h' : (applyOps vid r.ops false >>= fun touched =>
      match r.fin with
      | .throws m => lift (.throw m)
      | .error m => do
        builderError m
        pure none
      | .returns => do
        updateArguments r.newArguments
        pure (if stored && touched then none else value) : ParserM (Option Str)) (called cb view value n.values s) = (.ok v, s') := h
  have hcs : (called cb view value n.values s).stack = n :: ns := hs
  rcases applyOps_run vid r.ops false (called cb view value n.values s) (by rw [hcs]; simp) with
    ⟨b, s1, h1, h2, h3, h4, h5, h6⟩ | ⟨m, s1, h1, h2, h3, h4, h5, h6⟩
  · rw [bind_ok h1] at h'
    obtain ⟨ws, g1, g2, g3⟩ := applyOps_acts vid r.ops hcs hn h1
    cases hfin : r.fin with
    | throws m => rw [hfin] at h'; simp [lift_apply] at h'
    | error m =>
      rw [hfin] at h'
      simp only at h'
      have := builderError_state m s1
      rw [bind_apply] at h'
      generalize builderError m s1 = q at this h'
      obtain ⟨q, s2⟩ := q
      cases q with
      | ok v => exact absurd rfl (this.2.2 v s2)
      | _ => simp at h'
    | returns =>
      rw [hfin] at h'
      simp only at h'
      have hi1 : s1.iter.Ok := by rw [h3]; exact hi
      obtain ⟨s2, u1, u2, u3, u4, u5, u6, u7⟩ := updateArguments_run r.newArguments s1 hi1
      rw [bind_ok u1, pure_apply] at h'
      simp only [Prod.mk.injEq, Outcome.ok.injEq] at h'
      obtain ⟨rfl, rfl⟩ := h'
      refine ⟨ws, hfr r rfl hfin ws g1, by rw [u5, g2], ?_⟩
      simp only [Bool.false_eq_true, false_or] at g3
      by_cases hb : b = true
      · simp [hb, g3.mp hb]
      · have : ¬ ∃ w ∈ ws, w.Replaces vid := fun e => hb (g3.mpr e)
        rw [if_neg (by simp [hb]), if_neg (fun e => this e.2)]
  · rw [bind_throw h1] at h'
    simp at h'

theorem exec_values {vs : Values} (h : vs.Reachable) (ws : List Write) :
    (fun id => (ws.foldl Write.exec vs).getValues id) = ws.foldl Write.run (fun id => vs.getValues id) := by
  have h1 := h.sorted
  obtain ⟨h2, h3⟩ := exec_all ws h1
  have e1 : (fun id => vs.getValues id) = vs.entries := by funext id; exact Values.getValues_eq h1 id
  rw [e1, ← h3]
  funext id
  exact Values.getValues_eq h2 id

theorem exec_reachable {vs : Values} (h : vs.Reachable) (ws : List Write) : (ws.foldl Write.exec vs).Reachable := by
  obtain ⟨us, rfl⟩ := h
  exact ⟨us ++ ws, by simp⟩

/-- Where the value given to callbacks is stored. -/
def ownId (stored : Bool) (vid : Nat) : Option Nat := if stored then some vid else none

theorem runCallbackOpt_acts {env : Env} {cb : Option Nat} {view : ViewRef} {vid : Nat} {stored : Bool} {value : Option Str} {s : PState}
    {n : PNode} {ns : List PNode} (hs : s.stack = n :: ns) (hn : n.ids = makeIds n.command) (hr : n.values.Reachable) (hi : s.iter.Ok)
    {v : Option Str} {s' : PState} (h : runCallbackOpt env cb view vid stored value s = (.ok v, s')) :
    ∃ vs : Values, vs.Reachable ∧ s'.stack = { n with values := vs } :: ns ∧
      ∀ {cbs : List Nat} {v' : Option Str} {vm' : ValueMap},
        Acted env n.command view (ownId stored vid) cbs v (fun id => vs.getValues id) v' vm' →
        Acted env n.command view (ownId stored vid) (cb.toList ++ cbs) value (fun id => n.values.getValues id) v' vm' := by
  cases cb with
  | none =>
    simp only [runCallbackOpt, pure_apply, Prod.mk.injEq, Outcome.ok.injEq] at h
    obtain ⟨rfl, rfl⟩ := h
    exact ⟨n.values, hr, by rw [hs]; cases n; rfl, fun h => h⟩
  | some cb =>
    obtain ⟨ws, h1, h2, h3⟩ := runCallback_acts hs hn hi h
    refine ⟨_, exec_reachable hr ws, h2, ?_⟩
    intro cbs v' vm' ha
    rw [exec_values hr] at ha
    refine .cons h1 ?_
    have e : v = if ∃ id ∈ ownId stored vid, ∃ w ∈ ws, w.Replaces id then none else value := by
      rw [h3]
      cases stored <;> simp [ownId]
    rw [← e]
    exact ha

theorem calls_acts {env : Env} {cb : Option Nat} {sel : ParserSettings → Option Nat} {view : ViewRef} {vid : Nat} {stored : Bool}
    {value : Option Str} {s : PState}
    {n : PNode} {ns : List PNode} (hs : s.stack = n :: ns) (hn : n.ids = makeIds n.command) (hr : n.values.Reachable) (hi : s.iter.Ok)
    {v : Option Str} {s' : PState} (h : calls env cb sel view vid stored value s = (.ok v, s')) :
    ∃ vs : Values, vs.Reachable ∧ s'.stack = { n with values := vs } :: ns ∧
        Acted env n.command view (ownId stored vid) (cb.toList ++ (sel s.settings).toList) value (fun id => n.values.getValues id)
          v (fun id => vs.getValues id) := by
  unfold calls at h
  have hrun := (runCallbackOpt_run env cb view vid stored value s (by rw [hs]; simp) hi).1
  generalize hq1 : runCallbackOpt env cb view vid stored value s = q at hrun
  obtain ⟨q, s1⟩ := q
  simp only at hrun
  cases hrun with
  | throw _ => rw [bind_throw hq1] at h; simp at h
  | exit _ _ => rw [bind_exit hq1] at h; simp at h
  | ok hf =>
    obtain ⟨vs, h1, h2, h3⟩ := runCallbackOpt_acts hs hn hr hi hq1
    rw [bind_ok hq1, get_bind] at h
    obtain ⟨vs', h4, h5, h6⟩ := runCallbackOpt_acts (n := { n with values := vs }) h2 hn h1 (hf.iterOk hi) h
    refine ⟨vs', h4, h5, ?_⟩
    rw [← hf.settings]
    refine h3 ?_
    have := h6 (cbs := []) .nil
    rw [List.append_nil] at this
    exact this

/-! ### Stacks and open commands -/

mutual
/-- The node and its sub-commands are related to the tree. -/
def Rel (R : PNode → List Occ → Prop) : PNode → Tree (List Occ) → Prop
  | n, .node c l ts => n.command = c ∧ R n l ∧ RelList R n.subs ts

/-- The same for a list. -/
def RelList (R : PNode → List Occ → Prop) : List PNode → List (Tree (List Occ)) → Prop
  | ns, [] => ns = []
  | ns, t :: ts => ∃ m ms, ns = m :: ms ∧ Rel R m t ∧ RelList R ms ts
end

/-- `R` does not depend on anything but the command, the names and the values. -/
def Blind (R : PNode → List Occ → Prop) : Prop :=
  ∀ n m : PNode, n.command = m.command → n.values = m.values → ∀ l, R n l → R m l

section
variable {R : PNode → List Occ → Prop}

theorem Blind.subs (h : Blind R) {n : PNode} {l : List Occ} (x : List PNode) (hr : R n l) : R { n with subs := x } l :=
  h n { n with subs := x } rfl rfl l hr

theorem relList_append {ns ms : List PNode} {ts us : List (Tree (List Occ))} (h1 : RelList R ns ts) (h2 : RelList R ms us) :
    RelList R (ns ++ ms) (ts ++ us) := by
  induction ts generalizing ns with
  | nil =>
    simp only [RelList] at h1
    rw [h1]
    exact h2
  | cons t ts ih =>
    simp only [RelList] at h1
    obtain ⟨m, l, rfl, h3, h4⟩ := h1
    exact ⟨m, l ++ ms, rfl, h3, ih h4⟩

theorem relList_one {n : PNode} {t : Tree (List Occ)} (h : Rel R n t) : RelList R [n] [t] := ⟨n, [], rfl, h, rfl⟩

theorem relList_cons {n : PNode} {ns : List PNode} {st : List (Tree (List Occ))} (h : RelList R (n :: ns) st) :
    ∃ l ts rest, st = .node n.command l ts :: rest ∧ R n l ∧ RelList R n.subs ts ∧ RelList R ns rest := by
  cases st with
  | nil => simp [RelList] at h
  | cons t rest =>
    obtain ⟨c, l, ts⟩ := t
    simp only [RelList, Rel] at h
    obtain ⟨m, ms, e, ⟨rfl, h1, h2⟩, h3⟩ := h
    simp only [List.cons.injEq] at e
    obtain ⟨rfl, rfl⟩ := e
    exact ⟨l, ts, rest, rfl, h1, h2, h3⟩

theorem relList_nil {st : List (Tree (List Occ))} (h : RelList R [] st) : st = [] := by
  cases st with
  | nil => rfl
  | cons t rest => simp [RelList] at h

theorem relList_mk {n : PNode} {ns : List PNode} {l : List Occ} {ts : List (Tree (List Occ))} {rest : List (Tree (List Occ))} (h1 : R n l)
    (h2 : RelList R n.subs ts) (h3 : RelList R ns rest) : RelList R (n :: ns) (.node n.command l ts :: rest) :=
  ⟨n, ns, rfl, ⟨rfl, h1, h2⟩, h3⟩

theorem rel_go (hb : Blind R) {a : PNode} {pre : List PNode} {p : PNode} {ps : List PNode} {t : Tree (List Occ)} {rest : Open}
    (ha : Rel R a t) (h : RelList R (pre ++ p :: ps) rest) (hp : p.command.multiCommand = true)
    (hpre : ∀ q ∈ pre, q.command.multiCommand = false) :
    ∃ st', Open.back.go t rest = some st' ∧ RelList R ({ p with subs := p.subs ++ [nest a pre] } :: ps) st' := by
  induction pre generalizing a t rest with
  | nil =>
    obtain ⟨l, ts, r, rfl, h1, h2, h3⟩ := relList_cons h
    unfold Open.back.go
    rw [if_pos hp]
    exact ⟨_, rfl, relList_mk (n := { p with subs := p.subs ++ [nest a []] }) (hb.subs _ h1) (relList_append h2 (relList_one ha)) h3⟩
  | cons q pre ih =>
    obtain ⟨l, ts, r, rfl, h1, h2, h3⟩ := relList_cons h
    unfold Open.back.go
    rw [if_neg (by rw [hpre q (by simp)]; simp)]
    exact ih (a := { q with subs := q.subs ++ [a] }) (t := .node q.command l (ts ++ [t])) (rest := r)
      ⟨rfl, hb.subs _ h1, relList_append h2 (relList_one ha)⟩ h3 (fun x hx => hpre x (by simp [hx]))

theorem rel_back (hb : Blind R) {a : PNode} {pre : List PNode} {p : PNode} {ps : List PNode} {st : Open}
    (h : RelList R (a :: pre ++ p :: ps) st) (hp : p.command.multiCommand = true)
    (hpre : ∀ q ∈ pre, q.command.multiCommand = false) :
    ∃ st', st.back = some st' ∧ RelList R ({ p with subs := p.subs ++ [nest a pre] } :: ps) st' := by
  obtain ⟨l, ts, r, rfl, h1, h2, h3⟩ := relList_cons h
  exact rel_go hb (t := .node a.command l ts) ⟨rfl, h1, h2⟩ h3 hp hpre

theorem rel_back_none {stack : List PNode} {st : Open} (h : RelList R stack st) (hn : findMultiParent stack = none) :
    st.back = none := by
  have go : ∀ (l : List PNode) (t : Tree (List Occ)) (rest : Open), RelList R l rest → findMultiParent.go l = none →
      Open.back.go t rest = none := by
    intro l
    induction l with
    | nil => intro t rest h _; rw [relList_nil h]; rfl
    | cons q l ih =>
      intro t rest h hn
      obtain ⟨l', ts, r, rfl, h1, h2, h3⟩ := relList_cons h
      unfold findMultiParent.go at hn
      unfold Open.back.go
      split at hn
      · simp at hn
      · rename_i hq
        rw [if_neg hq]
        exact ih _ _ h3 hn
  cases stack with
  | nil => rw [relList_nil h]; rfl
  | cons a l =>
    obtain ⟨l', ts, r, rfl, h1, h2, h3⟩ := relList_cons h
    exact go l _ _ h3 hn

theorem rel_close (hb : Blind R) {a : PNode} {l : List PNode} {st : Open} (h : RelList R (a :: l) st) :
    ∃ t, st.close = some t ∧ Rel R (nest a l) t := by
  have go : ∀ (l : List PNode) (a : PNode) (t : Tree (List Occ)) (rest : Open), Rel R a t → RelList R l rest →
      Rel R (nest a l) (Open.close.go t rest) := by
    intro l
    induction l with
    | nil => intro a t rest ha h; rw [relList_nil h]; exact ha
    | cons q l ih =>
      intro a t rest ha h
      obtain ⟨l', ts, r, rfl, h1, h2, h3⟩ := relList_cons h
      unfold Open.close.go
      exact ih { q with subs := q.subs ++ [a] } _ r ⟨rfl, hb.subs _ h1, relList_append h2 (relList_one ha)⟩ h3
  obtain ⟨l', ts, r, rfl, h1, h2, h3⟩ := relList_cons h
  exact ⟨_, rfl, go l a _ r ⟨rfl, h1, h2⟩ h3⟩

theorem rel_map (hb : Blind R) {k : PNode → PNode} (hk : ∀ n, (k n).command = n.command ∧ (k n).values = n.values ∧ (k n).subs = n.subs)
    {stack : List PNode} {st : Open} (h : RelList R stack st) : RelList R (stack.map k) st := by
  induction stack generalizing st with
  | nil => exact h
  | cons n ns ih =>
    obtain ⟨l, ts, rest, rfl, h1, h2, h3⟩ := relList_cons h
    obtain ⟨k1, k2, k3⟩ := hk n
    have := relList_mk (n := k n) (ns := ns.map k) (hb n _ k1.symm k2.symm l h1) (by rw [k3]; exact h2) (ih h3)
    rw [k1] at this
    exact this

theorem rel_headMap (hb : Blind R) {k : PNode → PNode} (hk : ∀ n, (k n).command = n.command ∧ (k n).values = n.values ∧ (k n).subs = n.subs)
    {stack : List PNode} {st : Open} (h : RelList R stack st) : RelList R (headMap k stack) st := by
  cases stack with
  | nil => exact h
  | cons n ns =>
    obtain ⟨l, ts, rest, rfl, h1, h2, h3⟩ := relList_cons h
    obtain ⟨k1, k2, k3⟩ := hk n
    have := relList_mk (n := k n) (ns := ns) (hb n _ k1.symm k2.symm l h1) (by rw [k3]; exact h2) h3
    rw [k1] at this
    exact this

/-- Something happens to the innermost command. -/
theorem rel_add {n : PNode} {ns : List PNode} {st : Open} (h : RelList R (n :: ns) st) {vs : Values} {x : Occ}
    (hx : ∀ l, R n l → R { n with values := vs } (l ++ [x])) : RelList R ({ n with values := vs } :: ns) (st.add x) := by
  obtain ⟨l, ts, rest, rfl, h1, h2, h3⟩ := relList_cons h
  exact relList_mk (n := { n with values := vs }) (hx l h1) h2 h3

end

/-- What has happened to the command of the node has led to its values. -/
def Explained (env : Env) (st : ParserSettings) (n : PNode) (l : List Occ) : Prop :=
  ∃ hs : List Happening, l = hs.map Happening.reported ∧ Told env st n.command hs (fun id => n.values.getValues id)

theorem explained_blind (env : Env) (st : ParserSettings) : Blind (Explained env st) := by
  rintro n m h1 h2 l ⟨hs, h3, h4⟩
  exact ⟨hs, h3, by rw [← h1, ← h2]; exact h4⟩

theorem explained_start (env : Env) (d : ParserData) (args : List Str) :
    RelList (Explained env d.settings) (start d args).2.stack (Open.start d.command) := by
  have h := agrees_start d args
  cases hs : (start d args).2.stack with
  | nil => rw [hs] at h; simp [Agrees, AgreesBy, Open.start] at h
  | cons n ns =>
    rw [hs] at h
    obtain ⟨l, ts, rest, e, h1, h2, h3⟩ := agrees_cons h
    simp only [Open.start, List.cons.injEq, Tree.node.injEq] at e
    obtain ⟨⟨e1, rfl, rfl⟩, rfl⟩ := e
    have hns : ns = [] := by simpa [AgreesBy] using h3
    have hsub : n.subs = [] := by simpa using h2
    rw [hns, Open.start, e1]
    refine relList_mk ⟨n.command.options.map fun o => ⟨.initial o, none⟩, ?_, ?_⟩ (by rw [hsub]; rfl) rfl
    · rw [List.map_map]
      rfl
    · have hv : (fun id => n.values.getValues id) = valuesOf (n.command.options.map .initial) := by
        rw [h1, e1]
        exact getValues_rawValues _
      rw [hv]
      exact .start _

theorem make_explained (env : Env) (st : ParserSettings) (c : Command) : Explained env st (PNode.make c) [] :=
  ⟨[], rfl, .start []⟩

theorem explained_unknown {env : Env} {st : ParserSettings} {stack : List PNode} {o : Open} (x : Str)
    (h : RelList (Explained env st) stack o) : RelList (Explained env st) stack (o.add (.unknown x)) := by
  cases stack with
  | nil => rw [relList_nil h]; rfl
  | cons n ns =>
    obtain ⟨l, ts, rest, rfl, ⟨hs, h1, h2⟩, h3, h4⟩ := relList_cons h
    exact relList_mk ⟨hs ++ [⟨.unknown x, none⟩], by rw [h1]; simp [Happening.reported], .unknown h2⟩ h3 h4

theorem OpRun.stored {o : OptData} {flag : Str} {s s2 : PState} {v : Str} {b : Bool} (h : OpRun o flag s (.ok (some (v, b))) s2) :
    ownId b o.valueId = ownOf o := by
  unfold ownOf ownId
  cases h with
  | plain hn =>
    exact (if_neg (by exact hn)).symm
  | value ht _ =>
    exact (if_pos (by exact ht)).symm
  | noValue _ _ he => cases he

/-- An option has been read and its callbacks have returned. -/
theorem option_explained {env : Env} {d : ParserData} {s s2 s3 : PState} (hg : Good d s) {o : OptData} {flag : Str}
    {it : Iter} {v : Str} {stored : Bool} {w : Option Str} (ht : Taken s (some flag) it)
    (h1 : OpRun o flag { s with iter := it } (.ok (some (v, stored))) s2)
    (h2 : calls env o.callback ParserSettings.optionCallback (.opt o) o.valueId stored (some v) s2 = (.ok w, s3)) {st : Open}
    (ha : RelList (Explained env d.settings) s.stack st) :
    RelList (Explained env d.settings) s3.stack (st.add (.option o (w.getD []))) := by
  have hg' := (hg.taken ht).2.2
  have hg2 := hg'.opRun h1
  obtain ⟨n, ns, hs, hcmd⟩ := hg.head
  have f := h1.ok_facts hg'.ne hg'.iterOk
  have hstk := (h1.write hg'.ne).2.2
  have hnode : ∃ vs : Values, s2.stack = { n with values := vs } :: ns ∧ vs.Reachable ∧
      (fun id => vs.getValues id) = (Occ.option o v).writes.foldl Write.run (fun id => n.values.getValues id) := by
    have hok : n.values.Reachable := (hg.trees n (by rw [hs]; simp)).self.values
    refine ⟨(Occ.option o v).writes.foldl Write.exec n.values, ?_, exec_reachable hok _, exec_values hok _⟩
    rw [hstk]
    unfold occWrite storeState
    cases ho : o.operation <;> simp only [hs, headMap, Occ.writes, ho] <;> first | rfl | (cases n; rfl)
  obtain ⟨vs, e1, e2, e3⟩ := hnode
  have hids : n.ids = makeIds n.command := (hg.trees n (by rw [hs]; simp)).self.ids
  obtain ⟨vs', g1, g2, g3⟩ := calls_acts (n := { n with values := vs }) e1 hids e2 hg2.iterOk h2
  rw [g2]
  rw [hs] at ha
  refine rel_add (n := n) ha ?_
  rintro l ⟨hs', k1, k2⟩
  refine ⟨hs' ++ [⟨.option o v, w⟩], by rw [k1]; simp [Happening.reported], .option k2 ?_⟩
  rw [← h1.stored, ← e3, ← hg2.settings]
  exact g3

theorem argument_explained {env : Env} {d : ParserData} {s s3 : PState} (hg : Good d s) {a : ArgData} {arg : Str}
    {it : Iter} {ct : Counter} {w : Option Str} (ht : Taken s (some arg) it) (h1 : s.counter.nextArgument = (some a, ct))
    (h2 : calls env a.callback ParserSettings.argumentCallback (.arg a) a.valueId true (some arg) (argState a ct arg { s with iter := it }) =
      (.ok w, s3)) {st : Open} (ha : RelList (Explained env d.settings) s.stack st) :
    RelList (Explained env d.settings) s3.stack (st.add (.argument a (w.getD []))) := by
  have hg' := (hg.taken ht).2.2
  have hg2 := hg'.arg (v := arg) h1
  obtain ⟨n, ns, hs, hcmd⟩ := hg.head
  have hok : n.values.Reachable := (hg.trees n (by rw [hs]; simp)).self.values
  have hids : n.ids = makeIds n.command := (hg.trees n (by rw [hs]; simp)).self.ids
  have e1 : (argState a ct arg { s with iter := it }).stack =
      { n with values := (Occ.argument a arg).writes.foldl Write.exec n.values } :: ns := by
    simp only [argState, storeState, hs, headMap]
    rfl
  obtain ⟨vs', g1, g2, g3⟩ := calls_acts (n := { n with values := _ }) e1 hids (exec_reachable hok _) hg2.iterOk h2
  rw [g2]
  rw [hs] at ha
  refine rel_add (n := n) ha ?_
  rintro l ⟨hs', k1, k2⟩
  refine ⟨hs' ++ [⟨.argument a arg, w⟩], by rw [k1]; simp [Happening.reported], .argument k2 ?_⟩
  rw [← exec_values hok, ← hg2.settings]
  exact g3

theorem same_unprocessed (l : List Str) (n : PNode) : ({ n with unprocessed := n.unprocessed ++ l } : PNode).command = n.command ∧
    ({ n with unprocessed := n.unprocessed ++ l } : PNode).values = n.values ∧
    ({ n with unprocessed := n.unprocessed ++ l } : PNode).subs = n.subs := ⟨rfl, rfl, rfl⟩

theorem same_stop (o : OptData) (n : PNode) : ({ n with code := .stop, stopOption := some o } : PNode).command = n.command ∧
    ({ n with code := .stop, stopOption := some o } : PNode).values = n.values ∧
    ({ n with code := .stop, stopOption := some o } : PNode).subs = n.subs := ⟨rfl, rfl, rfl⟩

theorem same_success (n : PNode) : (asSuccess n).command = n.command ∧ (asSuccess n).values = n.values ∧ (asSuccess n).subs = n.subs :=
  ⟨rfl, rfl, rfl⟩

theorem step_plain (st : Open) (o : OptData) (v : Option Str) (h : o.type ≠ .lastArgument) :
    st.step (.option o v) = st.add (.option o (v.getD [])) := by
  simp [Open.step, h]

/-- The values of the stack are explained by the results and the callbacks. -/
theorem Step.explained {env : Env} {d : ParserData} {s s' : PState} (hg : Good d s) {r : IterResult} {st : Open}
    (h : Step env s (.ok r) s') (hr : ¬ r.IsLast) (ha : RelList (Explained env d.settings) s.stack st) :
    RelList (Explained env d.settings) s'.stack (st.step r) := by
  have hb := explained_blind env d.settings
  have herr : ∀ {msg t}, ErrorRun msg t IterResult.error (.ok r) s' → False := by
    intro msg t he
    cases he with
    | error _ _ => exact hr trivial
  obtain ⟨n, ns, hs, hcmd⟩ := hg.head
  have hleaf : st.isLeaf = s.command.commands.isEmpty := by
    rw [hs] at ha
    obtain ⟨l, ts, rest, rfl, _⟩ := relList_cons ha
    rw [← hcmd]
    rfl
  cases h with
  | afterDone _ => exact absurd trivial hr
  | finished _ _ => exact absurd trivial hr
  | unfinished _ _ he => exact (herr he).elim
  | unknownOption _ _ _ _ _ he => exact (herr he).elim
  | ignoredOption ht _ _ _ _ _ => exact explained_unknown _ (rel_headMap hb (same_unprocessed _) ha)
  | option ht _ _ hrun =>
    cases hrun with
    | noValue _ _ he => exact (herr he).elim
    | normal h1 h2 hty =>
      rw [step_plain _ _ _ (by rw [hty]; simp)]
      exact option_explained hg ht h1 h2 ha
    | lastOption h1 h2 hty =>
      rw [step_plain _ _ _ (by rw [hty]; simp)]
      exact option_explained hg ht h1 h2 ha
    | stopped h1 h2 ho _ hre =>
      rw [step_plain _ _ _ (by rcases ho with ho | ho | ho <;> rw [ho] <;> simp)]
      exact rel_headMap hb (same_unprocessed _) (rel_headMap hb (same_stop _) (option_explained hg ht h1 h2 ha))
    | lastFails _ _ _ _ he => exact (herr he).elim
    | lastDone h1 h2 hty hok hnm hre =>
      have h3 := option_explained hg ht h1 h2 ha
      rw [findMultiParent_succ] at hnm
      simp only [Option.map_eq_none_iff] at hnm
      have h4 := rel_back_none h3 hnm
      simp only [Open.step, hty, if_true, h4, Option.getD_none]
      exact rel_headMap hb (same_unprocessed _) (rel_map hb same_success h3)
    | lastMulti h1 h2 hty hok hfm =>
      rename_i s3 v stored w sub
      have h3 := rel_map hb same_success (option_explained hg ht h1 h2 ha)
      obtain ⟨a, pre, p, ps, e1, rfl, e3, e4⟩ := findMultiParent_some hfm
      have e1' : s3.stack.map asSuccess = a :: pre ++ p :: ps := e1
      rw [e1'] at h3
      obtain ⟨st', h4, h5⟩ := rel_back hb h3 e3 e4
      have hg3 : Good d (succState s3) := (near_option hg ht h1 h2).2.succ
      have h6 := (hg3.react e1 e3).1
      simp only [Open.step, hty, if_true, h4, Option.getD_some]
      rw [List.length_cons, h6]
      exact h5
  | command ht hno hc hf hcur =>
    have : st.isLeaf = false := by rw [hleaf]; simpa using hc
    simp only [Open.step, this]
    exact relList_mk (n := PNode.make _) (make_explained env d.settings _) rfl ha
  | unknownCommand _ _ _ _ he => exact (herr he).elim
  | argument ht hno hce hrun =>
    cases hrun with
    | sibling hf hc =>
      obtain ⟨e0, a, pre, p, ps, e1, rfl, e3, e4, e5⟩ := findSibling_some hf
      have h6 := ((hg.taken ht).2.2.react e1 e3).1
      have e1' : s.stack = a :: pre ++ p :: ps := e1
      rw [e1'] at ha
      obtain ⟨st', h4, h5⟩ := rel_back hb ha e3 e4
      have hl : st.isLeaf = true := by rw [hleaf, hce]; rfl
      simp only [Open.step, hl, if_true, h4, Option.getD_some]
      refine relList_mk (n := PNode.make _) (ns := (reactState (ps.length + 1) _).stack) (make_explained env d.settings _) rfl ?_
      rw [h6]
      exact h5
    | argument _ hn hc => exact argument_explained hg ht hn hc ha
    | ignored _ _ _ _ => exact explained_unknown _ (rel_headMap hb (same_unprocessed _) ha)
    | tooMany _ _ _ he => exact (herr he).elim

theorem _root_.Argos.Trace.explained {env : Env} {d : ParserData} (hr : Ready d) {s s' : PState} {rs : List IterResult}
    (h : Trace env s rs s') (hg : Good d s) (hl : ∀ r ∈ rs, ¬ r.IsLast) {st : Open} (ha : RelList (Explained env d.settings) s.stack st) :
    RelList (Explained env d.settings) s'.stack (rs.foldl Open.step st) := by
  induction h generalizing st with
  | nil => exact ha
  | cons hn _ ih =>
    obtain ⟨hst, hg1⟩ := next_good hr hg hn
    exact ih hg1 (fun r hr => hl r (by simp [hr])) (hst.explained hg (hl _ (by simp)) ha)

theorem _root_.Argos.Parses.explained {env : Env} {d : ParserData} (hr : Ready d) {args : List Str} {rs : List IterResult}
    {s' : PState} (h : Parses env d args rs .done s') : RelList (Explained env d.settings) s'.stack (Open.after d.command rs) := by
  obtain ⟨s, ht, hg, hn, hst, hg'⟩ := h.good hr
  have h1 := ht.explained hr (start_good d args).2 h.before (explained_start env d args)
  rcases hst.done_cases with ⟨_, rfl⟩ | ⟨it, _, _, rfl⟩
  · exact h1
  · exact rel_map (explained_blind env d.settings) same_success h1

mutual
theorem rel_both {env : Env} {st : ParserSettings} : ∀ (t : Tree (List Occ)) (n : PNode), Rel (Explained env st) n t →
    ∃ u : Tree (List Happening), t = u.map (List.map Happening.reported) ∧ u.Both (Told env st) n.tree
  | .node c l ts, ⟨c', i, vs, un, code, stop, subs⟩, h => by
    simp only [Rel] at h
    obtain ⟨rfl, ⟨hs, h1, h2⟩, h3⟩ := h
    obtain ⟨us, h4, h5⟩ := relList_both ts subs h3
    refine ⟨.node c' hs us, ?_, ?_⟩
    · rw [Tree.map, ← h1, ← h4]
    · exact ⟨rfl, h2, h5⟩

theorem relList_both {env : Env} {st : ParserSettings} : ∀ (ts : List (Tree (List Occ))) (ns : List PNode), RelList (Explained env st) ns ts →
    ∃ us : List (Tree (List Happening)), ts = Tree.mapList (List.map Happening.reported) us ∧ Tree.BothList (Told env st) us (PNode.treeList ns)
  | [], ns, h => by
    simp only [RelList] at h
    subst h
    exact ⟨[], rfl, trivial⟩
  | t :: ts, ns, h => by
    simp only [RelList] at h
    obtain ⟨m, ms, rfl, h1, h2⟩ := h
    obtain ⟨u, h3, h4⟩ := rel_both t m h1
    obtain ⟨us, h5, h6⟩ := relList_both ts ms h2
    exact ⟨u :: us, by rw [Tree.mapList, ← h3, ← h5], h4, h6⟩
end

/-- The values of all commands are explained by the results and the callbacks. -/
theorem _root_.Argos.Returns.explained {env : Env} {d : ParserData} (hr : Ready d) {args : List Str} {rs : List IterResult}
    {n : PNode} (h : Returns env d args rs .done n) : ∃ u : Tree (List Happening),
      given d.command rs = some (u.map (List.map Happening.reported)) ∧ u.Both (Told env d.settings) n.tree := by
  obtain ⟨s', a, l, h1, hg, e, e2, _⟩ := h.facts hr
  have h2 := h1.explained hr
  rw [e] at h2
  obtain ⟨t, h3, h4⟩ := rel_close (explained_blind env d.settings) h2
  rw [← e2] at h4
  obtain ⟨u, rfl, h5⟩ := rel_both t n h4
  exact ⟨u, h3, h5⟩

end Parser
end Argos
