import Verif.Proofs.BareParser
import Verif.Props.Screen

/-!
# C78: what is only shown has no influence on parsing
-/

namespace Argos

open Spec Parser

/-- **C78**: two parsers that differ in what is shown only are both accepted, or rejected with the same message. -/
theorem C78_accepted {d1 d2 : ParserData} (h : SameSyntax d1 d2) : SameEnd SameSyntax (finishInitialization d1) (finishInitialization d2) :=
  sameSyntax_init h

mutual
theorem sameAnswers_of_bare : (n1 : PNode) → (n2 : PNode) → bareNode n1 = bareNode n2 → SameAnswers n1 n2
  | ⟨command, ids, values, unprocessed, code, stopOption, subs⟩, ⟨command', ids', values', unprocessed', code', stopOption', subs'⟩, h => by
    simp only [bareNode, PNode.mk.injEq] at h
    obtain ⟨h1, rfl, rfl, rfl, rfl, h6, h7⟩ := h
    obtain ⟨a, b⟩ := sameAnswers_of_bares subs subs' h7
    refine .intro ?_ rfl rfl (fun _ => rfl) (fun _ => rfl) (fun _ => rfl) ?_ a b
    · have := congrArg (·.name) h1
      simp only [bareCommand_name] at this
      exact this
    · have := congrArg (Option.map (·.flags)) h6
      simp only [Option.map_map] at this
      exact this
theorem sameAnswers_of_bares : (l1 : List PNode) → (l2 : List PNode) → bareNodes l1 = bareNodes l2 →
    l1.length = l2.length ∧ ∀ p ∈ l1.zip l2, SameAnswers p.1 p.2
  | [], [], _ => ⟨rfl, by simp⟩
  | [], _ :: _, h => by simp [bareNodes] at h
  | _ :: _, [], h => by simp [bareNodes] at h
  | n1 :: l1, n2 :: l2, h => by
    simp only [bareNodes, List.cons.injEq] at h
    have h1 := sameAnswers_of_bare n1 n2 h.1
    obtain ⟨h2, h3⟩ := sameAnswers_of_bares l1 l2 h.2
    refine ⟨by simp [h2], ?_⟩
    intro p hp
    rw [List.zip_cons_cons] at hp
    rcases List.mem_cons.mp hp with rfl | hp
    · exact h1
    · exact h3 p hp
end

theorem sameSyntax_of_init {d1 d2 e1 e2 : ParserData} (h : SameSyntax d1 d2) (h1 : finishInitialization d1 = .ok e1) (h2 : finishInitialization d2 = .ok e2) :
    bareData e1 = bareData e2 := by
  have := C78_accepted h
  rwa [h1, h2] at this

theorem parse_gives {d0 d : ParserData} (h : finishInitialization d0 = .ok d) {env : Env} {args : List Str} {fuel : Nat} {o : Option PNode}
    (ho : (parse env d args fuel).1 = .ok o) : ∃ n, o = some n := by
  have hr := ready_of_init h
  obtain ⟨rs, s1, ht, hl, hend⟩ := run_ends (env := env) hr fuel (start_good d args).2
  have hg := ht.good hr (start_good d args).2
  have hst := (start_good d args).1
  have key : ∀ {x s'}, run env fuel (start d args).2 = (x, s') → (parse env d args fuel).1 = x.bind fun _ => .ok (topLevel s') := by
    intro x s' hx
    unfold parse
    rw [hst] at hx ⊢
    simp only
    rw [hx]
    cases x <;> rfl
  rcases hend with ⟨_, h2⟩ | ⟨_, ⟨last, s', h3, h4, h5⟩ | ⟨c, s', h3, h5⟩ | ⟨m, s', h3, h5⟩⟩
  · rw [key h2] at ho; simp [Outcome.bind] at ho
  · obtain ⟨a, l, e, _⟩ := (next_good hr hg h3).2.head
    rw [key h5] at ho
    simp only [Outcome.bind, topLevel_eq e, Outcome.ok.injEq] at ho
    exact ⟨_, ho.symm⟩
  · rw [key h5] at ho; simp [Outcome.bind] at ho
  · rw [key h5] at ho; simp [Outcome.bind] at ho

/-- **C78**: they give the same results for every command line: the same end (returning, exception, exit), the same answers to all questions, the same
messages, help texts of the same commands, and the same calls of callbacks. -/
theorem C78_parse {d1 d2 e1 e2 : ParserData} (h : SameSyntax d1 d2) (h1 : finishInitialization d1 = .ok e1) (h2 : finishInitialization d2 = .ok e2)
    {env : Env} (he : Unseeing env) (args : List Str) (fuel : Nat) :
    SameEnd (fun a b => ∃ n1 n2, a = some n1 ∧ b = some n2 ∧ SameAnswers n1 n2) (parse env e1 args fuel).1 (parse env e2 args fuel).1 ∧
    (parse env e1 args fuel).2.log.map bareEvent = (parse env e2 args fuel).2.log.map bareEvent := by
  have hb := sameSyntax_of_init h h1 h2
  have k1 := parse_bare he e1 args fuel
  have k2 := parse_bare he e2 args fuel
  rw [hb, k2, Prod.mk.injEq] at k1
  obtain ⟨a, b⟩ := k1
  refine ⟨?_, (congrArg PState.log b).symm⟩
  have c := sameEnd_of_mapOk a.symm
  revert c
  cases hp1 : (parse env e1 args fuel).1 with
  | ok o1 =>
    cases hp2 : (parse env e2 args fuel).1 with
    | ok o2 =>
      intro c
      obtain ⟨n1, rfl⟩ := parse_gives h1 hp1
      obtain ⟨n2, rfl⟩ := parse_gives h2 hp2
      simp only [SameEnd, Option.map_some, Option.some.injEq] at c ⊢
      exact ⟨n1, n2, rfl, rfl, sameAnswers_of_bare n1 n2 c⟩
    | _ => exact fun c => c
  | _ => cases hp2 : (parse env e2 args fuel).1 <;> exact fun c => c

theorem width_exists (terminal lineWidth : Nat) : ∃ W, Width terminal lineWidth W := by
  by_cases h : lineWidth = 0
  · subst h
    by_cases h0 : terminal = 0
    · exact ⟨_, .unknown h0⟩
    · by_cases h1 : terminal < 32
      · exact ⟨_, .narrow h0 h1⟩
      · exact ⟨_, .terminal (by omega)⟩
  · exact ⟨_, .chosen h⟩

/-- **C78**: the same with all that is written, for widths of lines and rules that can be used (C74): no text has an influence on what `parse` returns. -/
theorem C78_seen {d1 d2 e1 e2 : ParserData} (h : SameSyntax d1 d2) (h1 : finishInitialization d1 = .ok e1) (h2 : finishInitialization d2 = .ok e2)
    {env : Env} (he : Unseeing env) (o1 : OwnCallbacks d1) (o2 : OwnCallbacks d2) (w1 : CanWrite e1) (w2 : CanWrite e2) (sc1 sc2 : Screen) (args : List Str) (fuel : Nat) :
    SameEnd (fun a b => ∃ n1 n2, a = some n1 ∧ b = some n2 ∧ SameAnswers n1 n2) (sc1.parse env e1 args fuel).1 (sc2.parse env e2 args fuel).1 := by
  obtain ⟨W1, hW1⟩ := width_exists sc1.terminal e1.helpSettings.lineWidth
  obtain ⟨W2, hW2⟩ := width_exists sc2.terminal e2.helpSettings.lineWidth
  rw [(parse_written h1 o1 w1 sc1 hW1 env args fuel).1, (parse_written h2 o2 w2 sc2 hW2 env args fuel).1]
  exact (C78_parse h h1 h2 he args fuel).1

theorem report_bare (r : IterResult) : bareReport (IterHandle.report r) = IterHandle.report (bareResult r) := by
  cases r <;> rfl

theorem reports_bare {env : Env} (he : Unseeing env) (k : Nat) (s1 s2 : PState) (h : bareState s1 = bareState s2) :
    Each (SameEnd fun r1 r2 => bareReport r1 = bareReport r2) (firstReports env k (some s1)) (firstReports env k (some s2)) := by
  induction k generalizing s1 s2 with
  | zero => exact .nil
  | succ k ih =>
    have k1 := next_bare he s1
    have k2 := next_bare he s2
    rw [h, k2, Prod.mk.injEq] at k1
    obtain ⟨a, b⟩ := k1
    refine .cons ?_ (ih _ _ b.symm)
    have c := sameEnd_of_mapOk a.symm
    show SameEnd _ (IterHandle.report <$> (next env s1).1) (IterHandle.report <$> (next env s2).1)
    revert c
    cases (next env s1).1 with
    | ok r1 =>
      cases (next env s2).1 with
      | ok r2 =>
        intro c
        show bareReport (IterHandle.report r1) = bareReport (IterHandle.report r2)
        rw [report_bare, report_bare, show bareResult r1 = bareResult r2 from c]
      | _ => exact fun c => c
    | _ => cases (next env s2).1 <;> exact fun c => c

/-- **C78**: iterators give the same reports one after the other, apart from what is shown. -/
theorem C78_next {d1 d2 e1 e2 : ParserData} (h : SameSyntax d1 d2) (h1 : finishInitialization d1 = .ok e1) (h2 : finishInitialization d2 = .ok e2)
    {env : Env} (he : Unseeing env) (args : List Str) (k : Nat) :
    Each (SameEnd fun r1 r2 => bareReport r1 = bareReport r2) (firstReports env k (IterHandle.make e1 args)) (firstReports env k (IterHandle.make e2 args)) := by
  refine reports_bare he k _ _ ?_
  have hb := sameSyntax_of_init h h1 h2
  have k1 := start_bare e1 args
  rw [hb, start_bare e2 args, Prod.mk.injEq] at k1
  exact k1.2.symm

/-- A parser with a sub-command, with texts or without. -/
def dressedData (dressed : Bool) : ParserData :=
  { command :=
      { name := b!"prog"
        texts := if dressed then [(.about, .text b!"A program.")] else []
        options := [{ flags := [b!"-n", b!"--number"], argument := (if dressed then b!"NUM" else b!"N"), operation := .append, callback := some 5
                      help := .text (if dressed then b!"A number." else []), id := (if dressed then 5 else 0), optional := false }]
        commands := [{ name := b!"open", visibility := (if dressed then ⟨false, false⟩ else .normal), section_ := (if dressed then b!"FILES" else [])
                       arguments := [{ name := b!"file", maxCount := 3, help := .text (if dressed then b!"The file." else [])
                                       visibility := if dressed then ⟨true, false⟩ else .normal }] }] }
    version := if dressed then b!"1.0" else b!"2"
    helpSettings := if dressed then { lineWidth := 30 } else {}
    settings := { autoExit := false } }

/-- A callback that stores the value another time. -/
def twiceEnv : Env := ⟨fun cb _ _ value _ => if cb = 5 then { ops := [.append b!"-n" (value.getD [])] } else {}⟩

set_option synthInstance.maxSize 1000 in
-- The conditions hold, and there is a result with values of both commands, and an error.
example : SameSyntax (dressedData true) (dressedData false) ∧ Unseeing twiceEnv ∧ (dressedData true).command.texts ≠ (dressedData false).command.texts ∧
    (∃ d, finishInitialization (dressedData true) = .ok d ∧
      parseTo (fun n => (n.valuesOf b!"--number", n.subs.map fun (m : PNode) => m.valuesOf b!"file")) twiceEnv d [b!"-n5", b!"open", b!"x", b!"y"] 9 =
        some (.ok [(b!"5", 2), (b!"5", 0)], [.ok [(b!"x", 6), (b!"y", 6)]]) ∧
      parseCode twiceEnv d [b!"-x"] 9 = some .failure) ∧
    ∃ d, finishInitialization (dressedData false) = .ok d ∧
      parseTo (fun n => (n.valuesOf b!"--number", n.subs.map fun (m : PNode) => m.valuesOf b!"file")) twiceEnv d [b!"-n5", b!"open", b!"x", b!"y"] 9 =
        some (.ok [(b!"5", 2), (b!"5", 0)], [.ok [(b!"x", 6), (b!"y", 6)]]) ∧
      parseCode twiceEnv d [b!"-x"] 9 = some .failure := by
  refine ⟨rfl, fun _ _ _ _ _ _ _ _ _ => rfl, by decide, ?_, ?_⟩
  all_goals
    refine Outcome.exists_ok ?_
    decide +kernel

end Argos
