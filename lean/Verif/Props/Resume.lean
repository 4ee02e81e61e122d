import Verif.Proofs.Resume
import Verif.Props.Nested

/-!
# C85: earlier sub-commands do not influence what follows
-/

namespace Argos

open Spec Parser

/-- **C85**: two command lines of the same parser that come to the same sub-command with the same words left, where the results of the enclosing commands are the same except that with
the second line there are results of `earlier` sub-commands: what follows is the same. Parsing ends in the same way, the same things are written and the same callbacks are called, and the
results are those of the first line with the `earlier` ones in front. Missing: commands that have arguments and sub-commands, see `C85_counting_violated`. -/
theorem C85_resumed_partial {d0 d : ParserData} (h : finishInitialization d0 = .ok d) (hx : Exclusive d.command) {env env' : Env} {line line' post : List Str}
    {rs rs' : List IterResult} {c : Command} {v v' : Str} {t t' : PState} (ht : Trace env (start d line).2 (rs ++ [.command c v]) t) (hl : ∀ r ∈ rs, ¬ r.IsLast)
    (ht' : Trace env' (start d line').2 (rs' ++ [.command c v']) t') (hl' : ∀ r ∈ rs', ¬ r.IsLast) (hrest : ∃ it, t.iter.remainingArguments = .ok (post, it))
    (hrest' : ∃ it, t'.iter.remainingArguments = .ok (post, it)) {earlier : List (List PNode)} (hup : Before earlier t.stack.tail t'.stack.tail)
    (henv : env'.later t'.calls = env.later t.calls) (fuel : Nat) :
    SameEnd (fun a b => ∃ n n', a = some n ∧ b = some n' ∧ Preceded earlier.reverse n n') (parse env d line (rs.length + 1 + fuel)).1
      (parse env' d line' (rs'.length + 1 + fuel)).1 ∧
    ∃ log, (parse env d line (rs.length + 1 + fuel)).2.log = t.log ++ log ∧ (parse env' d line' (rs'.length + 1 + fuel)).2.log = t'.log ++ log := by
  obtain ⟨it, hrest⟩ := hrest
  obtain ⟨it', hrest'⟩ := hrest'
  exact parse_resumed (ready_of_init h) hx ht hl ht' hl' hrest hrest' hup henv fuel

/-! ## Example -/

/-- Whether two stacks differ in sub-commands of the second one only, for the examples. -/
def beforeCheck : List PNode → List PNode → Bool
  | [], [] => true
  | n :: ns, n' :: ns' => n.command.equalCheck 5 n'.command && decide (n.ids = n'.ids) && decide (n.values = n'.values) && decide (n.unprocessed = n'.unprocessed) &&
      decide (n.stopOption = n'.stopOption) && n.subs.isEmpty && (decide (n'.code = n.code) || decide (n.code = .none)) && beforeCheck ns ns'
  | _, _ => false

theorem beforeCheck_sound : ∀ {ns ns' : List PNode}, beforeCheck ns ns' = true → Before (ns'.map (·.subs)) ns ns'
  | [], [], _ => .nil
  | [], _ :: _, h => by simp [beforeCheck] at h
  | _ :: _, [], h => by simp [beforeCheck] at h
  | n :: ns, n' :: ns', h => by
    simp only [beforeCheck, Bool.and_eq_true, decide_eq_true_eq, Bool.or_eq_true, List.isEmpty_iff] at h
    obtain ⟨⟨⟨⟨⟨⟨⟨h1, h2⟩, h3⟩, h4⟩, h5⟩, h6⟩, h7⟩, h8⟩ := h
    have h1 := Command.equalCheck_sound 5 h1
    have := Before.cons (n := n) (e := n'.subs) (code := n'.code) h7 (beforeCheck_sound h8)
    have e : ({ n with subs := n'.subs ++ n.subs, code := n'.code } : PNode) = n' := by
      cases n
      cases n'
      simp only at *
      subst h1 h2 h3 h4 h5 h6
      simp
    rw [e] at this
    exact this

/-- Whether two lines come to the same command with `post` left, for the examples: after `n` and after `n'` results. -/
def resumesCheck (env : Env) (d : ParserData) (line line' post : List Str) (n n' : Nat) : Bool :=
  match firstResults env n (start d line).2, firstResults env n' (start d line').2 with
  | some (_, s), some (_, s') =>
    match next env s, next env s' with
    | (.ok (.command c _), t), (.ok (.command c' _), t') => c.equalCheck 5 c' && (match t.iter.remainingArguments, t'.iter.remainingArguments with
        | .ok (l, _), .ok (l', _) => decide (l = post) && decide (l' = post)
        | _, _ => false) && beforeCheck t.stack.tail t'.stack.tail
    | _, _ => false
  | _, _ => false

theorem resumesCheck_sound {env : Env} {d : ParserData} {line line' post : List Str} {n n' : Nat} (h : resumesCheck env d line line' post n n' = true) :
    ∃ rs rs' c v v' t t', Trace env (start d line).2 (rs ++ [.command c v]) t ∧ (∀ r ∈ rs, ¬ r.IsLast) ∧ Trace env (start d line').2 (rs' ++ [.command c v']) t' ∧
      (∀ r ∈ rs', ¬ r.IsLast) ∧ (∃ it, t.iter.remainingArguments = .ok (post, it)) ∧ (∃ it, t'.iter.remainingArguments = .ok (post, it)) ∧
      Before (t'.stack.tail.map (·.subs)) t.stack.tail t'.stack.tail ∧ rs.length = n ∧ rs'.length = n' := by
  unfold resumesCheck at h
  split at h
  · rename_i rs s rs' s' h1 h2
    obtain ⟨a1, a2, a3⟩ := firstResults_sound n h1
    obtain ⟨b1, b2, b3⟩ := firstResults_sound n' h2
    split at h
    · rename_i c v t c' v' t' hn hn'
      simp only [Bool.and_eq_true] at h
      obtain ⟨⟨e1, e2⟩, e3⟩ := h
      have e1 := Command.equalCheck_sound 5 e1
      subst e1
      split at e2
      · rename_i l it l' it' hr hr'
        simp only [Bool.and_eq_true, decide_eq_true_eq] at e2
        obtain ⟨rfl, rfl⟩ := e2
        exact ⟨rs, rs', c, v, v', t, t', Parser.Trace.snoc a1 hn, a2, Parser.Trace.snoc b1 hn', b2, ⟨it, hr⟩, ⟨it', hr'⟩, beforeCheck_sound e3, a3, b3⟩
      · simp at e2
    · simp at h
  · simp at h

/-- A parser with several sub-commands on two levels. -/
def resumeData : ParserData :=
  { command :=
      { name := b!"tool"
        multiCommand := true
        options := [{ flags := [b!"-v"], constant := b!"1" }]
        commands :=
          [{ name := b!"add", arguments := [{ name := b!"FILE" }] },
            { name := b!"group"
              multiCommand := true
              options := [{ flags := [b!"-g"], argument := b!"G" }]
              commands :=
                [{ name := b!"make", options := [{ flags := [b!"--end"], type := .lastArgument, constant := b!"1" }] },
                  { name := b!"link", options := [{ flags := [b!"-s"], constant := b!"1", callback := some 3 }]
                    arguments := [{ name := b!"FROM", minCount := 0, maxCount := 2 }, { name := b!"TO" }] }] }] }
    settings := { autoExit := false } }

/-- A callback that complains about a second call. -/
def resumeEnv : Env := ⟨fun _ _ _ _ n => if n.values.length ≤ 1 then {} else { fin := .error b!"too late" }⟩

/-- The names and numbers of values of results, on two levels. -/
def shapeOf (n : PNode) : List (Str × ResultCode × List (Str × ResultCode × Nat)) :=
  n.subs.map fun m => (m.name, m.code, m.subs.map fun x => (x.name, x.code, x.values.length))

set_option synthInstance.maxSize 1000 in
-- The conditions hold: `-v group -g 1 link -s a b make` and `-v add f group -g 1 make --end link -s a b make` come to `link` with the same words left.
example : ∃ d, finishInitialization resumeData = .ok d ∧ Exclusive d.command ∧
    (∃ rs rs' c v v' t t', Trace resumeEnv (start d [b!"-v", b!"group", b!"-g", b!"1", b!"link", b!"-s", b!"a", b!"b", b!"make"]).2 (rs ++ [.command c v]) t ∧
      (∀ r ∈ rs, ¬ r.IsLast) ∧
      Trace resumeEnv (start d [b!"-v", b!"add", b!"f", b!"group", b!"-g", b!"1", b!"make", b!"--end", b!"link", b!"-s", b!"a", b!"b", b!"make"]).2
        (rs' ++ [.command c v']) t' ∧ (∀ r ∈ rs', ¬ r.IsLast) ∧ (∃ it, t.iter.remainingArguments = .ok ([b!"-s", b!"a", b!"b", b!"make"], it)) ∧
      (∃ it, t'.iter.remainingArguments = .ok ([b!"-s", b!"a", b!"b", b!"make"], it)) ∧ Before (t'.stack.tail.map (·.subs)) t.stack.tail t'.stack.tail ∧
      rs.length = 3 ∧ rs'.length = 7) ∧
    (∀ k k', resumeEnv.later k = resumeEnv.later k') ∧
    parseTo shapeOf resumeEnv d [b!"-v", b!"group", b!"-g", b!"1", b!"link", b!"-s", b!"a", b!"b", b!"make"] 99 =
      some [(b!"group", .success, [(b!"link", .none, 3), (b!"make", .success, 0)])] ∧
    parseTo shapeOf resumeEnv d [b!"-v", b!"add", b!"f", b!"group", b!"-g", b!"1", b!"make", b!"--end", b!"link", b!"-s", b!"a", b!"b", b!"make"] 99 =
      some [(b!"add", .none, []), (b!"group", .success, [(b!"make", .success, 1), (b!"link", .none, 3), (b!"make", .success, 0)])] := by
  have key : ∃ d, finishInitialization resumeData = .ok d ∧ (d.command.checkAll (fun x => x.commands.isEmpty || x.arguments.isEmpty) 4 = true ∧
      resumesCheck resumeEnv d [b!"-v", b!"group", b!"-g", b!"1", b!"link", b!"-s", b!"a", b!"b", b!"make"]
        [b!"-v", b!"add", b!"f", b!"group", b!"-g", b!"1", b!"make", b!"--end", b!"link", b!"-s", b!"a", b!"b", b!"make"] [b!"-s", b!"a", b!"b", b!"make"] 3 7 = true ∧
      parseTo shapeOf resumeEnv d [b!"-v", b!"group", b!"-g", b!"1", b!"link", b!"-s", b!"a", b!"b", b!"make"] 99 =
        some [(b!"group", .success, [(b!"link", .none, 3), (b!"make", .success, 0)])] ∧
      parseTo shapeOf resumeEnv d [b!"-v", b!"add", b!"f", b!"group", b!"-g", b!"1", b!"make", b!"--end", b!"link", b!"-s", b!"a", b!"b", b!"make"] 99 =
        some [(b!"add", .none, []), (b!"group", .success, [(b!"make", .success, 1), (b!"link", .none, 3), (b!"make", .success, 0)])]) := by
    refine Outcome.exists_ok ?_
    decide +kernel
  obtain ⟨d, h, h1, h2, h3, h4⟩ := key
  refine ⟨d, h, ?_, resumesCheck_sound h2, fun _ _ => rfl, h3, h4⟩
  intro c hc hne
  have := Command.checkAll_sound h1 hc
  simpa [hne] using this

/-- A parser whose command has an argument and sub-commands. -/
def hinderedData : ParserData :=
  { command :=
      { name := b!"tool"
        multiCommand := true
        arguments := [{ name := b!"NAME" }]
        commands := [{ name := b!"a" }, { name := b!"b", arguments := [{ name := b!"FROM", minCount := 0, maxCount := 2 }, { name := b!"TO" }] }] }
    settings := { autoExit := false } }

/-- **C85** is violated for commands with arguments and sub-commands: `b 1 2 a` takes `a` for an argument of `b`, whereas in `a b 1 2 a` it is the sub-command. -/
theorem C85_counting_violated : ∃ d, finishInitialization hinderedData = .ok d ∧
    (∃ rs rs' c v v' t t', Trace Env.inert (start d [b!"b", b!"1", b!"2", b!"a"]).2 (rs ++ [.command c v]) t ∧ (∀ r ∈ rs, ¬ r.IsLast) ∧
      Trace Env.inert (start d [b!"a", b!"b", b!"1", b!"2", b!"a"]).2 (rs' ++ [.command c v']) t' ∧ (∀ r ∈ rs', ¬ r.IsLast) ∧
      (∃ it, t.iter.remainingArguments = .ok ([b!"1", b!"2", b!"a"], it)) ∧ (∃ it, t'.iter.remainingArguments = .ok ([b!"1", b!"2", b!"a"], it)) ∧
      Before (t'.stack.tail.map (·.subs)) t.stack.tail t'.stack.tail ∧ rs.length = 0 ∧ rs'.length = 1) ∧
    parseTo (fun n => n.subs.map fun (m : PNode) => (m.name, m.values.length)) Env.inert d [b!"b", b!"1", b!"2", b!"a"] 99 = some [(b!"b", 3)] ∧
    parseTo (fun n => n.subs.map fun (m : PNode) => (m.name, m.values.length)) Env.inert d [b!"a", b!"b", b!"1", b!"2", b!"a"] 99 = some [(b!"a", 0), (b!"b", 2), (b!"a", 0)] := by
  have key : ∃ d, finishInitialization hinderedData = .ok d ∧ (resumesCheck Env.inert d [b!"b", b!"1", b!"2", b!"a"] [b!"a", b!"b", b!"1", b!"2", b!"a"]
        [b!"1", b!"2", b!"a"] 0 1 = true ∧
      parseTo (fun n => n.subs.map fun (m : PNode) => (m.name, m.values.length)) Env.inert d [b!"b", b!"1", b!"2", b!"a"] 99 = some [(b!"b", 3)] ∧
      parseTo (fun n => n.subs.map fun (m : PNode) => (m.name, m.values.length)) Env.inert d [b!"a", b!"b", b!"1", b!"2", b!"a"] 99 = some [(b!"a", 0), (b!"b", 2), (b!"a", 0)]) := by
    refine Outcome.exists_ok ?_
    decide +kernel
  obtain ⟨d, h, h1, h2, h3⟩ := key
  exact ⟨d, h, resumesCheck_sound h1, h2, h3⟩

end Argos
