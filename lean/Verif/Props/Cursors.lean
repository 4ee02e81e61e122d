import Verif.Proofs.Cursors
import Verif.Props.Objects

/-! # C95: iterators of values -/

namespace Argos
open Spec

/-! ## C95 -/

theorem carefulWalk_append {a b : List WalkOp} (h : CarefulWalk (a ++ b)) : ∃ t t', Route.run {} a = some t ∧ t.run b = some t' := by
  obtain ⟨t', ht⟩ := Option.isSome_iff_exists.mp h
  rw [route_append, Option.bind_eq_some_iff] at ht
  obtain ⟨t, h1, h2⟩ := ht
  exact ⟨t, t', h1, h2⟩

/-- **C95**, part 1: if a program that keeps to the rules has undefined behaviour, it is because it goes on from the end of a list or looks at what is there;
a comparison with `end()` would have shown it just before. The rules forbid the use of an iterator after its list has been destroyed or another list has been
assigned to it; see the violations below. -/
theorem C95_safe_partial {ops : List WalkOp} (h : CarefulWalk ops) (hub : Walker.run {} ops = .ub) :
    ∃ pre op rest i x ss w, ops = pre ++ op :: rest ∧ StepsFrom i op ∧ Walker.run {} pre = .ok (ss, w) ∧
      ((·.1) <$> w.run [.last x, .same i w.cursors.length]) = .ok [.nothing, .flag true] := by
  obtain ⟨t, ht⟩ := Option.isSome_iff_exists.mp h
  obtain ⟨pre, op, rest, i, x, ss, w, h1, h2, h3, c, vs, text, r, g1, g2, g3, g4⟩ := (walk_run ops travels_init ht).2 hub
  exact ⟨pre, op, rest, i, x, ss, w, h1, h3, h2, by rw [same_last g1 g2 g3]; simp [g4]⟩

/-- **C95**, part 2: if a comparison with `end()` shows a difference, the iterator can be looked at and can go on. -/
theorem C95_ready_partial {pre : List WalkOp} {i x : Nat} {ss : List Sight} {w : Walker} (h : CarefulWalk (pre ++ [.get i])) (hw : Walker.run {} pre = .ok (ss, w))
    (hd : ((·.1) <$> w.run [.last x, .same i w.cursors.length]) = .ok [.nothing, .flag false]) :
    (∃ w', w.step (.get i) = .ok (.nothing, w')) ∧ ∃ w', w.step (.next i) = .ok (.nothing, w') := by
  obtain ⟨t, t', ht, hr⟩ := carefulWalk_append h
  have ha := (walk_run pre travels_init ht).1 ss w hw
  simp only [Route.run, Option.bind_eq_some_iff] at hr
  obtain ⟨t1, hs, _⟩ := hr
  simp only [Route.step] at hs
  split at hs
  · rename_i y sh hp
    obtain ⟨c, n, vs, text, r, h1, h2, h3, h4, h5, h6, h7, h8, h9, h10, h11⟩ := ha.at_list hp
    have hxy : x = y := by
      by_cases e : x = y
      · exact e
      · exfalso
        cases ho : w.base.obj x with
        | none =>
          rw [show w.run [.last x, .same i w.cursors.length] = .ub by simp only [Walker.run, Walker.step, ho, Bind.bind, Outcome.bind]] at hd
          cases hd
        | some o =>
          cases o with
          | values vs2 text2 args2 =>
            have q1 : w.step (.last x) = .ok (.nothing, w.pushCursor (some x) vs2.values.length vs2.valueId args2) := by simp only [Walker.step, ho]
            have q2 : (w.pushCursor (some x) vs2.values.length vs2.valueId args2).cursor i = some c := by
              unfold Walker.pushCursor
              rw [cursor_push, if_neg (by have := cursor_lt h1; omega)]
              exact h1
            have q3 : (w.pushCursor (some x) vs2.values.length vs2.valueId args2).cursor w.cursors.length =
                some ⟨some x, vs2.values.length, vs2.valueId, w.base.vars.length⟩ := by
              unfold Walker.pushCursor
              rw [cursor_push, if_pos rfl]
            have q4 : (w.pushCursor (some x) vs2.values.length vs2.valueId args2).step (.same i w.cursors.length) = .ub := by
              simp only [Walker.step, q2, q3, h2]
              rw [if_neg]
              rintro ⟨_, e2⟩
              exact e (Option.some.inj e2).symm
            have q5 : w.run [.last x, .same i w.cursors.length] = .ub := by simp only [Walker.run, q1, Bind.bind, Outcome.bind, q4]
            rw [q5] at hd
            cases hd
          | _ =>
            rw [show w.run [.last x, .same i w.cursors.length] = .ub by simp only [Walker.run, Walker.step, ho, Bind.bind, Outcome.bind]] at hd
            cases hd
    subst hxy
    rw [same_last h1 h2 h6] at hd
    simp only [Outcome.ok.injEq, List.cons.injEq, Sight.flag.injEq, decide_eq_false_iff_not, and_true, true_and] at hd
    have hlt : c.pos < vs.values.length := by omega
    refine ⟨?_, ?_⟩
    · simp only [Walker.step, h1, h11, h3, h7, List.getElem?_eq_getElem hlt]
      exact ⟨_, rfl⟩
    · simp only [Walker.step, h1, h11, if_pos hlt]
      exact ⟨_, rfl⟩
  · cases hs

/-- **C95**, part 3: going `k` times on from `begin()` leads to the value that `value(k)` returns. -/
theorem C95_nth {pre : List WalkOp} {x k n : Nat} {d : Str} {ss : List Sight} {w : Walker} (h : CarefulWalk (pre ++ [.first x]))
    (hw : Walker.run {} pre = .ok (ss, w)) (hn : ((·.1) <$> w.base.step (.size x)) = .ok (.number n)) (hk : k < n) :
    ((·.1.getLast?) <$> w.run (.first x :: List.replicate k (.next w.cursors.length) ++
      [.get w.cursors.length, .base (.asString (w.base.vars.length + 1) d)])) =
    ((·.1.getLast?) <$> w.base.run [.item x k, .asString w.base.vars.length d]) := by
  obtain ⟨t, t', ht, hr⟩ := carefulWalk_append h
  have ha := (walk_run pre travels_init ht).1 ss w hw
  simp only [Route.run, Option.bind_eq_some_iff] at hr
  obtain ⟨t1, hs, _⟩ := hr
  have hs' := hs
  simp only [Route.step, Option.map_eq_some_iff] at hs
  obtain ⟨m, hu, rfl⟩ := hs
  obtain ⟨vs, text, r, h1, h2, h3, h4⟩ := uses_values ha.base hu
  have hn2 : (vs.values.length : Int) = n := by
    simp only [Client.step, h1] at hn
    cases hn
    rfl
  have hlt : k < vs.values.length := by omega
  have e1 : w.step (.first x) = .ok (.nothing, w.pushCursor (some x) 0 vs.valueId (some r)) := by simp only [Walker.step, h1]
  have ha1 := (walk_good ha hs').1 _ _ e1
  have hp : Route.place ⟨t.base.push (.live .results m), t.places ++ [some ⟨some x, t.base.vars.length⟩]⟩ w.cursors.length = some ⟨some x, t.base.vars.length⟩ := by
    rw [place_push, if_pos ha.count.symm]
  have hx : x < w.base.vars.length := by rw [← ha.base.vars]; exact uses_lt hu
  have hc : (w.pushCursor (some x) 0 vs.valueId (some r)).cursor w.cursors.length = some ⟨some x, 0, vs.valueId, w.base.vars.length⟩ := by
    unfold Walker.pushCursor
    rw [cursor_push, if_pos rfl]
  have ho : (w.pushCursor (some x) 0 vs.valueId (some r)).base.obj x = some (.values vs text (some r)) := by
    unfold Walker.pushCursor
    simp only
    rw [obj_push, if_neg (by omega)]
    exact h1
  obtain ⟨w2, g1, g2, g3, g4⟩ := run_next hp k ha1 hc (list_of (x := x) rfl ho) (by simp only; omega)
  have hb : w2.base.vars.length = w.base.vars.length + 1 := by rw [g3]; simp [Walker.pushCursor, Client.push]
  have hl2 : w2.list ⟨some x, 0 + k, vs.valueId, w.base.vars.length⟩ = some (vs, text) := list_of (x := x) rfl (by rw [g3]; exact ho)
  have hg := get_shows g2 hp g4 hl2 d
  rw [hb] at hg
  simp only [Nat.zero_add, List.getElem?_eq_getElem hlt] at hg
  have hrun : w.run (.first x :: List.replicate k (.next w.cursors.length)) = .ok (.nothing :: List.replicate k .nothing, w2) := by
    simp only [Walker.run, e1, Bind.bind, Outcome.bind, g1, Pure.pure]
  rw [walk_append hrun]
  have hne : vs.values.isEmpty = false := by
    cases e : vs.values with
    | nil => rw [e] at hlt; simp at hlt
    | cons _ _ => rfl
  have htx := h4 hne
  subst htx
  have hright : ∃ b, w.base.run [.item x k, .asString w.base.vars.length d] = .ok ([.nothing, .texts [(vs.values[k]).1]], b) := by
    have v1 : vs.value k = .ok ⟨some (vs.values[k]).1, vs.valueId, (vs.values[k]).2⟩ := by
      unfold ArgValues.value
      rw [if_neg (by simp [hne]), List.getElem?_eq_getElem hlt]
    have i1 : w.base.step (.item x k) = .ok (.nothing, w.base.push (.value ⟨some (vs.values[k]).1, vs.valueId, (vs.values[k]).2⟩ (some r) (some r))) := by
      simp only [Client.step, h1, v1, Bind.bind, Outcome.bind, Option.isSome_some, if_true]
    have hobj : (w.base.push (.value ⟨some (vs.values[k]).1, vs.valueId, (vs.values[k]).2⟩ (some r) (some r))).obj w.base.vars.length =
        some (.value ⟨some (vs.values[k]).1, vs.valueId, (vs.values[k]).2⟩ (some r) (some r)) := by rw [obj_push, if_pos rfl]
    have i2 : (w.base.push (.value ⟨some (vs.values[k]).1, vs.valueId, (vs.values[k]).2⟩ (some r) (some r))).step (.asString w.base.vars.length d) =
        .ok (.texts [(vs.values[k]).1], w.base.push (.value ⟨some (vs.values[k]).1, vs.valueId, (vs.values[k]).2⟩ (some r) (some r))) := by
      have hread := readText_alive hobj rfl
      simp only [Client.step, hobj, Client.readValue, Option.isSome_some, if_true, hread, Bind.bind, Outcome.bind]
      rfl
    exact ⟨w.base.push (.value ⟨some (vs.values[k]).1, vs.valueId, (vs.values[k]).2⟩ (some r) (some r)), by
      simp only [Client.run, i1, Bind.bind, Outcome.bind, i2, Pure.pure]⟩
  obtain ⟨b, hright⟩ := hright
  rw [hright]
  cases e : w2.run [.get w.cursors.length, .base (.asString (w.base.vars.length + 1) d)] with
  | ok p =>
    rw [e] at hg
    have hg2 : p.1 = [.nothing, .texts [(vs.values[k]).1]] := Outcome.ok.inj hg
    show Outcome.ok ((Sight.nothing :: List.replicate k Sight.nothing ++ p.1).getLast?) = .ok ([Sight.nothing, .texts [(vs.values[k]).1]].getLast?)
    rw [hg2, List.getLast?_append]
    rfl
  | _ => rw [e] at hg; cases hg

/-- **C95**, part 4: what an iterator refers to doesn't depend on what has been done to other objects since, as long as its list has not been destroyed or
assigned to. -/
theorem C95_unchanged_partial {pre more : List WalkOp} {i : Nat} {d : Str} {ss ss' : List Sight} {w w' : Walker} (h : CarefulWalk (pre ++ [.get i]))
    (h' : CarefulWalk (pre ++ more ++ [.get i])) (hn : ∀ o ∈ more, ¬ Changes i o) (hw : Walker.run {} pre = .ok (ss, w))
    (hw' : Walker.run {} (pre ++ more) = .ok (ss', w')) :
    ((·.1) <$> w'.run [.get i, .base (.asString w'.base.vars.length d)]) = ((·.1) <$> w.run [.get i, .base (.asString w.base.vars.length d)]) := by
  obtain ⟨t, t2, ht, hr⟩ := carefulWalk_append h
  obtain ⟨t', t2', ht', hr'⟩ := carefulWalk_append h'
  have place : ∀ {t t2 : Route}, t.run [.get i] = some t2 → ∃ x sh, t.place i = some ⟨some x, sh⟩ := by
    intro t t2 hr
    simp only [Route.run, Option.bind_eq_some_iff] at hr
    obtain ⟨t1, hs, _⟩ := hr
    simp only [Route.step] at hs
    split at hs
    · rename_i y sh hp; exact ⟨_, _, hp⟩
    · cases hs
  obtain ⟨x, sh, hp⟩ := place hr
  obtain ⟨x', sh', hp'⟩ := place hr'
  have ha := (walk_run pre travels_init ht).1 ss w hw
  have ha' := (walk_run _ travels_init ht').1 ss' w' hw'
  rw [route_append, ht] at ht'
  rw [walk_append hw] at hw'
  obtain ⟨⟨s2, w2⟩, e1, e2⟩ := bind_ok hw'
  simp only [Outcome.ok.injEq, Prod.mk.injEq] at e2
  obtain ⟨_, rfl⟩ := e2
  have hlook := (run_steady more ha ht' e1 hn (place_lt hp) hp').2
  obtain ⟨c, n, vs, text, r, h1, _, _, _, _, _, _, _, _, _, h11⟩ := ha.at_list hp
  obtain ⟨c', n', vs', text', r', k1, _, _, _, _, _, _, _, _, _, k11⟩ := ha'.at_list hp'
  simp only [lookAt, h1, k1, Option.map_some, Option.some.injEq, Prod.mk.injEq, h11, k11] at hlook
  obtain ⟨e3, _, ⟨e4, _⟩, _⟩ := hlook
  rw [get_shows ha hp h1 h11, get_shows ha' hp' k1 k11, e3, e4]

/-- What a program with iterators shows. -/
def walkShows (st : ParserSettings) (ops : List WalkOp) (n : PNode) : Option (List Sight) :=
  match Walker.run {} (.base (.parsed ⟨n, st⟩) :: ops) with
  | .ok (ss, _) => some ss
  | _ => none

/-- A program with iterators has undefined behaviour. -/
def walkUndefined (st : ParserSettings) (ops : List WalkOp) (n : PNode) : Bool :=
  match Walker.run {} (.base (.parsed ⟨n, st⟩) :: ops) with
  | .ub => true
  | _ => false

/-- A program that takes a list, splits it, goes through the parts while the list is moved, and reads what it has found when the lists are gone. The iterators
are in the variables 3 and 4. -/
def walkProgram : List WalkOp := [.base (.getValues 0 b!"--output"), .base (.splitValues 1 c!"," 0 9), .first 2, .last 2, .base (.destroy 0), .base (.destroy 1),
  .same 0 1, .next 0, .base (.move 2), .get 0, .next 0, .same 0 1, .base (.destroy 5), .destroyCursor 1, .destroyCursor 0, .base (.destroy 2), .base (.asString 6 b!"?")]

example (p : Parse) : CarefulWalk (.base (.parsed p) :: walkProgram) := rfl

example : ∃ d, finishInitialization cliData = .ok d ∧
    parseTo (walkShows d.settings walkProgram) Env.inert d [b!"-o", b!"a,b", b!"in"] 50 =
    some (some [.nothing, .nothing, .nothing, .nothing, .nothing, .nothing, .nothing, .flag false, .nothing, .nothing, .nothing, .nothing, .flag true, .nothing,
      .nothing, .nothing, .nothing, .texts [b!"b"]]) := by
  refine Outcome.exists_ok ?_
  decide +kernel

/-- A careful program may go beyond the end; the comparison shows it. -/
example : (∀ p : Parse, CarefulWalk [.base (.parsed p), .base (.getValues 0 b!"IN"), .first 1, .next 0, .get 0]) ∧ ∃ d, finishInitialization cliData = .ok d ∧
    parseTo (walkUndefined d.settings [.base (.getValues 0 b!"IN"), .first 1, .next 0, .get 0]) Env.inert d [b!"in"] 50 = some true ∧
    parseTo (walkShows d.settings [.base (.getValues 0 b!"IN"), .first 1, .next 0, .last 1, .same 0 1]) Env.inert d [b!"in"] 50 =
      some (some [.nothing, .nothing, .nothing, .nothing, .nothing, .flag true]) ∧
    parseTo (walkShows d.settings [.base (.getValues 0 b!"IN"), .first 1, .last 1, .same 0 1]) Env.inert d [b!"in"] 50 =
      some (some [.nothing, .nothing, .nothing, .nothing, .flag false]) := by
  refine ⟨fun p => rfl, Outcome.exists_ok ?_⟩
  decide +kernel

/-- The list of an iterator may be moved, and the results destroyed. -/
example : (∀ p : Parse, CarefulWalk ([.base (.parsed p), .base (.getValues 0 b!"IN"), .first 1] ++ [.base (.move 1), .base (.destroy 0), .last 3] ++ [.get 0])) ∧
    ∀ o ∈ [WalkOp.base (.move 1), .base (.destroy 0), .last 3], ¬ Changes 0 o := by
  refine ⟨fun p => rfl, fun o ho => ?_⟩
  simp only [List.mem_cons, List.not_mem_nil, or_false] at ho
  rcases ho with rfl | rfl | rfl <;> simp [Changes]

/-- An iterator keeps the results, so that a view can be used. -/
example : ∃ d, finishInitialization cliData = .ok d ∧
    parseTo (walkShows d.settings [.base (.command 0), .base (.getValues 0 b!"IN"), .first 2, .base (.destroy 0), .base (.destroy 2), .base (.names 1)]) Env.inert d
      [b!"in"] 50 = some (some [.nothing, .nothing, .nothing, .nothing, .nothing, .nothing, .texts [d.command.name]]) := by
  refine Outcome.exists_ok ?_
  decide +kernel

/-- **C95** is violated by iterators of a list that is gone, as after `auto it = args.values("IN").begin();`: they keep the results, but not the list. -/
theorem C95_temporary_violated : ∃ d, finishInitialization cliData = .ok d ∧
    parseTo (walkUndefined d.settings [.base (.getValues 0 b!"IN"), .first 1, .base (.destroy 1), .get 0]) Env.inert d [b!"in"] 50 = some true := by
  refine Outcome.exists_ok ?_
  decide +kernel

/-- **C95** is violated by default-constructed iterators, while a default-constructed `ArgumentValue` is empty. -/
theorem C95_default_violated : ∃ d, finishInitialization cliData = .ok d ∧
    parseTo (walkUndefined d.settings [.newCursor, .get 0]) Env.inert d [b!"in"] 50 = some true := by
  refine Outcome.exists_ok ?_
  decide +kernel

/-- **C95** is violated by the iterators of two lists with the same values: comparing them is undefined behaviour, as in
`std::copy(args.values("IN").begin(), args.values("IN").end(), …)`. -/
theorem C95_lists_violated : ∃ d, finishInitialization cliData = .ok d ∧
    parseTo (walkUndefined d.settings [.base (.getValues 0 b!"IN"), .base (.getValues 0 b!"IN"), .first 1, .last 2, .same 0 1]) Env.inert d [b!"in"] 50 =
    some true := by
  refine Outcome.exists_ok ?_
  decide +kernel

end Argos
