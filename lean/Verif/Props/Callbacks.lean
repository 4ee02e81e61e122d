import Verif.Proofs.Calls
import Verif.Props.Outcome

/-! # C33: callbacks -/

set_option synthInstance.maxSize 1000

namespace Argos
open Spec Parser

/-- **C33**: after a parse without errors, exactly the callbacks of the reported options and arguments have
run, once for each report, in the order of the reports, each option's or argument's own callback before
the one of the parser. This holds whatever callbacks do, also if they insert arguments or change
values. -/
theorem C33_once {d0 d : ParserData} (h : finishInitialization d0 = .ok d) {env : Env} {args : List Str} {rs : List IterResult}
    {s' : PState} (hp : Parses env d args rs .done s') : callsIn s'.log = rs.flatMap (callsOf d0.settings) := by
  have hr := ready_of_init h
  obtain ⟨s, ht, hg, hn, hst, hg'⟩ := hp.good hr
  have h1 := (ht.append (.cons hn .nil)).calls hr (start_good d args).2 (by
    simp only [List.mem_append, List.mem_singleton, reduceCtorEq, or_false]
    exact fun hm => hp.before _ hm trivial)
  rw [h1, start_log, (finishInitialization_ok h).1]
  simp [callsIn, callsOf]

/-- **C33**, after any number of results of an iterator, before the end. -/
theorem C33_prefix {d0 d : ParserData} (h : finishInitialization d0 = .ok d) {env : Env} {args : List Str} {rs : List IterResult}
    {s' : PState} (ht : Trace env (start d args).2 rs s') (hl : .error ∉ rs) :
    callsIn s'.log = rs.flatMap (callsOf d0.settings) := by
  have hr := ready_of_init h
  rw [ht.calls hr (start_good d args).2 hl, start_log, (finishInitialization_ok h).1]
  rfl

/-- **C33**, when the parse ends with an error. Missing from the property: the callbacks of an option of type
`LAST_ARGUMENT` may have run although only an error is reported (`C33_violated`); no other callbacks
have. -/
theorem C33_error_partial {d0 d : ParserData} (h : finishInitialization d0 = .ok d) {env : Env} {args : List Str}
    {rs : List IterResult} {s' : PState} (hp : Parses env d args rs .error s') :
    callsIn s'.log = rs.flatMap (callsOf d0.settings) ∨
      ∃ o : OptData, o.type = .lastArgument ∧
        callsIn s'.log = rs.flatMap (callsOf d0.settings) ++ callsOf d0.settings (.option o none) := by
  have hr := ready_of_init h
  obtain ⟨s, ht, hg, hn, hst, hg'⟩ := hp.good hr
  have h1 := ht.calls hr (start_good d args).2 (fun hm => hp.before _ hm trivial)
  rw [start_log, (finishInitialization_ok h).1] at h1
  obtain ⟨es, h2, h3⟩ := hst.log hg
  rw [h3, callsIn_append, h1]
  rcases h2.error_calls with h4 | ⟨o, h4, h5⟩
  · left; rw [h4]; simp [callsIn]
  · right
    refine ⟨o, h4, ?_⟩
    rw [h5, hg.settings, (finishInitialization_ok h).1]
    rfl

/-- **C33**: callbacks run after the value has been stored. The first callback of an occurrence always gets
the value that was read, and sees the values as they were before with the occurrence's change applied. -/
theorem C33_stored_first {d0 d : ParserData} (h : finishInitialization d0 = .ok d) {env : Env} {args : List Str} {s s' : PState}
    (hs : Reach env d args s) {r : IterResult} (hn : next env s = (.ok r, s')) {c : Nat} {view : ViewRef}
    (hc : (callsOf d0.settings r).head? = some (c, view)) :
    ∃ (n : PNode) (v : Str) (x : Occ) (rest : List Event), s.stack.head? = some n ∧
      s'.log = s.log ++ .callback c view (some v) (x.writes.foldl Write.exec n.values) :: rest ∧
      ((∃ a w, r = .argument a w ∧ x = .argument a v) ∨ (∃ o w, r = .option o w ∧ x = .option o v)) := by
  have hr := ready_of_init h
  have hg := hs.good hr
  obtain ⟨hst, _⟩ := next_good hr hg hn
  obtain ⟨es, h1, h2⟩ := hst.log hg
  obtain ⟨n, ns, hstk, _⟩ := hg.head
  have hsv : storedValues s = n.values := by simp [storedValues, hstk]
  have hset : s.settings = d0.settings := by rw [hg.settings, (finishInitialization_ok h).1]
  have first : ∀ {cb g : Option Nat} {vw : ViewRef} {v : Str} {stored : Values} {es : List Event}, CallLog cb g vw v stored es →
      ((cb.toList ++ g.toList).map fun c => (c, vw)).head? = some (c, view) →
      vw = view ∧ ∃ rest, es = .callback c view (some v) stored :: rest := by
    rintro cb g vw v stored es ⟨v1, seen, _, h0, rfl⟩ hh
    cases cb with
    | some b =>
      simp only [Option.toList_some, List.cons_append, List.map_cons, List.head?_cons, Option.some.injEq, Prod.mk.injEq] at hh
      obtain ⟨rfl, rfl⟩ := hh
      exact ⟨rfl, _, rfl⟩
    | none =>
      obtain ⟨rfl, rfl⟩ := h0 rfl
      cases g with
      | none => simp at hh
      | some b =>
        simp only [Option.toList_none, Option.toList_some, List.nil_append, List.map_cons, List.head?_cons, Option.some.injEq,
          Prod.mk.injEq] at hh
        obtain ⟨rfl, rfl⟩ := hh
        exact ⟨rfl, _, rfl⟩
  cases h1 with
  | silent h1 h2 _ =>
    cases r with
    | option o w => exact absurd rfl (h1 o w)
    | argument a w => exact absurd rfl (h2 a w)
    | _ => simp [callsOf] at hc
  | @option o w it flag v es ht hol hlk hv hcl =>
    rw [hset, hsv] at hcl
    obtain ⟨rfl, rest, rfl⟩ := first hcl hc
    refine ⟨n, v, .option o v, rest ++ (if o.type = .help then [.help s.command] else []), by rw [hstk]; rfl, ?_, Or.inr ⟨o, w, rfl, rfl⟩⟩
    have : afterWrite (occWrite o v) n.values = (Occ.option o v).writes.foldl Write.exec n.values := by
      unfold afterWrite occWrite Occ.writes
      cases hop : o.operation <;> simp [hop]
    rw [h2, this]
    rfl
  | @argument a w it v es ht hol hct hcl =>
    rw [hset, hsv] at hcl
    obtain ⟨rfl, rest, rfl⟩ := first hcl hc
    exact ⟨n, v, .argument a v, _, by rw [hstk]; rfl, h2, Or.inl ⟨a, w, rfl, rfl⟩⟩
  | error _ => simp [callsOf] at hc
  | lastError _ _ _ _ _ _ _ => simp [callsOf] at hc

/-- **C33**, complete description for callbacks that only watch: every callback gets the value that the
iterator reports, and the values that it can read are those of all occurrences of the active command
so far, its own included (`calledAll`). -/
theorem C33_seen {d0 d : ParserData} (h : finishInitialization d0 = .ok d) {env : Env} (hp : env.Passive) {args : List Str}
    {rs : List IterResult} {s' : PState} (ht : Trace env (start d args).2 rs s') (hl : ∀ r ∈ rs, ¬ r.IsLast) :
    s'.log.filterMap Event.called = calledAll d0.settings (Open.start d.command) rs := by
  have hr := ready_of_init h
  rw [ht.called hp hr (start_good d args).2 hl (agrees_start d args), start_log, (finishInitialization_ok h).1]
  rfl

/-- The parser of the examples: callbacks 1 and 2 belong to options, 3 to an argument, 8 is the one for all
options and 9 the one for all arguments. -/
def callData : ParserData :=
  { command :=
      { name := b!"cli"
        options := [{ flags := [b!"-o"], argument := b!"FILE", callback := some 1 },
          { flags := [b!"-v"], constant := b!"1", operation := .append },
          { flags := [b!"--end"], type := .lastArgument, operation := .none, callback := some 2 }]
        arguments := [{ name := b!"IN", callback := some 3 }] }
    settings := { autoExit := false, optionCallback := some 8, argumentCallback := some 9 } }

/-- The ids of the callbacks that run. -/
def callIds (env : Env) (d : ParserData) (args : List Str) (fuel : Nat) : List Nat :=
  (callsIn (parse env d args fuel).2.log).map (·.1)

/-- The first callback that inserts an argument: only in its first call. -/
def insertEnv : Env := ⟨fun cb k _ _ _ => if cb = 1 ∧ k = 0 then { newArguments := [b!"-v"] } else {}⟩

-- Own callbacks before general ones; with an inserted "-v".
example : ∃ d, finishInitialization callData = .ok d ∧
    callIds Env.inert d [b!"-v", b!"-o", b!"x", b!"in"] 9 = [8, 1, 8, 3, 9] ∧
    callIds insertEnv d [b!"-o", b!"x", b!"in"] 9 = [1, 8, 8, 3, 9] ∧
    parseCode insertEnv d [b!"-o", b!"x", b!"in"] 9 = some .success := by
  refine Outcome.exists_ok ?_
  decide +kernel

-- The values seen by the callbacks for "-o" (a view of them).
example : ∃ d, finishInitialization callData = .ok d ∧
    (parse Env.inert d [b!"-v", b!"-o", b!"x", b!"in"] 9).2.log.filterMap (fun e => match e with
      | .callback 1 _ v seen => some (v, seen.map fun x => x.2.1)
      | _ => none) = [(some b!"x", [b!"x", b!"1"])] := by
  refine Outcome.exists_ok ?_
  decide +kernel

/-- **C33** is violated: "--end" is of type `LAST_ARGUMENT`. When an argument is missing, its callbacks run, but
the iterator reports only an error for it. -/
theorem C33_violated : ∃ d, finishInitialization callData = .ok d ∧
    (match (next Env.inert (start d [b!"--end"]).2).1 with | .ok .error => true | _ => false) = true ∧
    (callsIn (next Env.inert (start d [b!"--end"]).2).2.log).map (·.1) = [2, 8] := by
  refine Outcome.exists_ok ?_
  decide +kernel

end Argos
