import Verif.Proofs.Iteration
import Verif.Proofs.Decide
import Verif.Props.Occurrences
import Verif.Props.World

/-! # Programs that use `ArgumentIterator`: C60, C61 -/

set_option synthInstance.maxSize 1000

namespace Argos
open Spec Parser

/-! ## C60 -/

/-- **C60**: a `ParsedArguments` that is obtained before the first call of `next()` holds, when `next()` has returned
false, exactly what `parse` would have returned. -/
theorem C60_parse {d0 d : ParserData} (h : finishInitialization d0 = .ok d) {env : Env} {args : List Str} {n : PNode} :
    (∃ r reps h', (IterHandle.make d args).parsedArguments = .ok r ∧ Iterates env (IterHandle.make d args) reps h' ∧ h'.look r = some n) ↔
      ∃ fuel s', parse env d args fuel = (.ok (some n), s') := by
  have hr := ready_of_init h
  have h0 : (IterHandle.make d args).parsedArguments = .ok [] := by
    have := shaped_ref (shaped_start d args)
    have hne : (start d args).2.stack ≠ [] := (start_good d args).2.ne
    unfold IterHandle.make IterHandle.parsedArguments
    simp only [this]
    rw [if_neg (by simpa using hne)]
    rfl
  have hlook : ∀ s', IterHandle.look (some s') [] = topLevel s' := by
    intro s'
    show (topLevel s').bind (fun n => some n) = _
    cases topLevel s' <;> rfl
  constructor
  · rintro ⟨r, reps, h', e1, hi, e2⟩
    rw [h0, Outcome.ok.injEq] at e1
    subst e1
    obtain ⟨rs, last, s', hp, rfl, rfl⟩ := iterates_iff.mp hi
    rw [hlook] at e2
    have := parses_parse hp 0
    rw [e2] at this
    exact ⟨_, s', this⟩
  · rintro ⟨fuel, s', hp⟩
    obtain ⟨e, rs, last, hps⟩ := parse_parses hp
    exact ⟨[], _, some s', h0, hps.iterates, by rw [hlook]; exact e.symm⟩

/-- **C60**: what `parsed_arguments()` returns refers to the innermost of the commands that are being read, which is
somewhere in the result. -/
theorem C60_innermost {d0 d : ParserData} (h : finishInitialization d0 = .ok d) {env : Env} {args : List Str} {rs : List IterResult}
    {s : PState} (ht : Trace env (start d args).2 rs s) :
    ∃ r m n, IterHandle.parsedArguments (some s) = .ok r ∧ IterHandle.look (some s) r = some m ∧ topLevel s = some n ∧ m.Within n ∧
      m.command = s.command ∧ (Open.after d.command rs).head?.map Tree.command = some m.command := by
  have hr := ready_of_init h
  have hg := ht.good hr (start_good d args).2
  have hsh := ht.shaped_any hr (start_good d args).2 (shaped_start d args)
  obtain ⟨a, l, hs, hcmd⟩ := hg.head
  have h1 : IterHandle.parsedArguments (some s) = .ok (IterHandle.backRef (a :: l)) := by
    unfold IterHandle.parsedArguments
    simp only [hs]
    rfl
  have h2 : NodeRef.node (IterHandle.backRef (a :: l)) (nest a l) = some a := nest_back a l
  refine ⟨_, a, nest a l, h1, ?_, topLevel_eq hs, NodeRef.within h2, hcmd, ?_⟩
  · simp only [IterHandle.look, Option.bind_some, topLevel_eq hs, h2]
  · rw [hs] at hsh
    obtain ⟨l', ts, rest, e, _, _⟩ := shaped_cons hsh
    unfold Open.after
    rw [e]
    rfl

theorem openRef_no_command {st : Open} {rs : List IterResult} (hst : st.length = 1) (h : ∀ c v, .command c v ∉ rs) :
    (rs.foldl Open.step st).length = 1 := by
  induction rs generalizing st with
  | nil => exact hst
  | cons r rs ih =>
    refine ih ?_ (fun c v hm => h c v (by simp [hm]))
    have hadd : ∀ x, (st.add x).length = 1 := by
      intro x
      match st, hst with
      | [.node c l ts], _ => rfl
    cases r with
    | option o v =>
      simp only [Open.step]
      split
      · have hb : (st.add (.option o (v.getD []))).back = none := by
          match st, hst with
          | [.node c l ts], _ => rfl
        rw [hb]
        exact hadd _
      · exact hadd _
    | argument a v => exact hadd _
    | unknown s => exact hadd _
    | command c v => exact absurd (by simp) (h c v)
    | done => exact hst
    | error => exact hst

/-- **C60**, without what is missing: if no sub-command was reported then `parsed_arguments()` also gives, at the end,
what `parse` would have returned. (With a sub-command it does not, see `C60_violated`.) -/
theorem C60_end_partial {d0 d : ParserData} (h : finishInitialization d0 = .ok d) {env : Env} {args : List Str} {reps : List IterReport}
    {h' : IterHandle} (hi : Iterates env (IterHandle.make d args) reps h') (hc : ∀ rep ∈ reps, ¬ IsCommandReport rep) :
    ∃ r n, h'.parsedArguments = .ok r ∧ h'.look r = some n ∧ ∃ fuel s', parse env d args fuel = (.ok (some n), s') := by
  have hr := ready_of_init h
  obtain ⟨rs, last, s', hp, rfl, rfl⟩ := iterates_iff.mp hi
  have hnc : ∀ c v, .command c v ∉ rs := by
    intro c v hm
    exact hc (IterHandle.report (.command c v)) (List.mem_map_of_mem hm) ⟨c, rfl⟩
  have hsh := hp.shaped hr
  have hlen := openRef_no_command (st := Open.start d.command) rfl hnc
  have hl : s'.stack.length = 1 := by rw [hsh.length]; exact hlen
  obtain ⟨a, e⟩ := List.length_eq_one_iff.mp hl
  have htop : topLevel s' = some a := topLevel_eq e
  refine ⟨[], a, ?_, ?_, rs.length + 1 + 0, s', ?_⟩
  · unfold IterHandle.parsedArguments
    simp only [e]
    rfl
  · simp only [IterHandle.look, Option.bind_some, htop]
    rfl
  · rw [← htop]
    exact parses_parse hp 0

/-- **C60**: a `ParsedArguments` obtained at any time goes on referring to the same use of the same command. -/
theorem C60_kept {d0 d : ParserData} (h : finishInitialization d0 = .ok d) {env env' : Env} {args : List Str} {rs rs' : List IterResult}
    {s s' : PState} (ht : Trace env (start d args).2 rs s) (ht' : Trace env' s rs' s') {r : NodeRef}
    (hp : IterHandle.parsedArguments (some s) = .ok r) :
    ∃ m m', IterHandle.look (some s) r = some m ∧ IterHandle.look (some s') r = some m' ∧ m'.command = m.command ∧ m.command = s.command := by
  have hr := ready_of_init h
  have hg := ht.good hr (start_good d args).2
  have hg' := ht'.good hr hg
  have hsh := ht.shaped_any hr (start_good d args).2 (shaped_start d args)
  have hsh' := ht'.shaped_any hr hg hsh
  obtain ⟨r1, m, n, e1, e2, e3, e4, e5, _⟩ := C60_innermost h ht
  rw [hp, Outcome.ok.injEq] at e1
  subst e1
  obtain ⟨a, l, hs, _⟩ := hg.head
  obtain ⟨a', l', hs', _⟩ := hg'.head
  rw [hs] at hsh
  rw [hs'] at hsh'
  obtain ⟨t, c1, c2⟩ := shaped_close hsh
  obtain ⟨t2, c3, c4⟩ := shaped_close hsh'
  obtain ⟨t3, c5, hk⟩ := Open.keeps_steps c1 rs'
  rw [c3, Option.some.injEq] at c5
  subst c5
  have k1 : NodeRef.node r (nest a l) = some m := by
    simpa only [IterHandle.look, Option.bind_some, topLevel_eq hs] using e2
  have k2 := NodeRef.shape r (nest a l)
  rw [k1, c2, Tree.shape_at] at k2
  cases hu : t.at? r with
  | none => rw [hu] at k2; simp at k2
  | some u =>
    rw [hu] at k2
    simp only [Option.map_some, Option.some.injEq] at k2
    obtain ⟨u', hu', eu⟩ := hk r u hu
    have k3 := NodeRef.shape r (nest a' l')
    rw [c4, Tree.shape_at, hu'] at k3
    cases hm : NodeRef.node r (nest a' l') with
    | none => rw [hm] at k3; simp at k3
    | some m' =>
      rw [hm] at k3
      simp only [Option.map_some, Option.some.injEq] at k3
      refine ⟨m, m', e2, ?_, ?_, e5⟩
      · simp only [IterHandle.look, Option.bind_some, topLevel_eq hs', hm]
      · rw [← PNode.shape_command m', k3, Tree.shape_command, eu, ← Tree.shape_command u, ← k2, PNode.shape_command]

/-- **C60**: an object that has been moved from throws, whatever is asked of it, and the new one has what the old one had. -/
theorem C60_moved (env : Env) (h : IterHandle) :
    h.move.1 = h ∧ h.move.2.next env = (.throw iterMoved, none) ∧ h.move.2.parsedArguments = .throw iterMoved := ⟨rfl, rfl, rfl⟩

/-- Calls `next` until it returns false, for the examples. -/
def iterateAll (env : Env) : Nat → IterHandle → Outcome (List IterReport × IterHandle)
  | 0, _ => .diverges
  | fuel + 1, h =>
    match h.next env with
    | (.ok rep, h1) =>
      if rep.more then
        match iterateAll env fuel h1 with
        | .ok (reps, h') => .ok (rep :: reps, h')
        | e => e
      else .ok ([], h1)
    | _ => .ub

theorem iterateAll_sound {env : Env} {fuel : Nat} {h h' : IterHandle} {reps : List IterReport}
    (hi : iterateAll env fuel h = .ok (reps, h')) : Iterates env h reps h' := by
  induction fuel generalizing h reps with
  | zero => simp [iterateAll] at hi
  | succ fuel ih =>
    unfold iterateAll at hi
    split at hi
    · rename_i rep h1 hn
      split at hi
      · rename_i hm
        split at hi
        · rename_i reps' h2 he
          simp only [Outcome.ok.injEq, Prod.mk.injEq] at hi
          obtain ⟨rfl, rfl⟩ := hi
          exact .more hn hm (ih he)
        · rename_i e hne
          exact absurd hi (hne reps h')
      · rename_i hm
        simp only [Outcome.ok.injEq, Prod.mk.injEq] at hi
        obtain ⟨rfl, rfl⟩ := hi
        exact .stop hn (by simpa using hm)
    · cases hi

/-- Calls `next` a number of times, for the examples. -/
def advanceAll (env : Env) : Nat → IterHandle → Outcome (List IterReport × IterHandle)
  | 0, h => .ok ([], h)
  | fuel + 1, h =>
    match h.next env with
    | (.ok rep, h1) =>
      if rep.more then
        match advanceAll env fuel h1 with
        | .ok (reps, h') => .ok (rep :: reps, h')
        | e => e
      else .ub
    | _ => .ub

theorem advanceAll_sound {env : Env} {fuel : Nat} {h h' : IterHandle} {reps : List IterReport}
    (hi : advanceAll env fuel h = .ok (reps, h')) : Advances env h reps h' := by
  induction fuel generalizing h reps with
  | zero =>
    simp only [advanceAll, Outcome.ok.injEq, Prod.mk.injEq] at hi
    obtain ⟨rfl, rfl⟩ := hi
    exact .nil
  | succ fuel ih =>
    unfold advanceAll at hi
    split at hi
    · rename_i rep h1 hn
      split at hi
      · rename_i hm
        split at hi
        · rename_i reps' h2 he
          simp only [Outcome.ok.injEq, Prod.mk.injEq] at hi
          obtain ⟨rfl, rfl⟩ := hi
          exact .cons hn hm (ih he)
        · rename_i e hne
          exact absurd hi (hne reps h')
      · cases hi
    · cases hi

/-- A condition on an object that `parsed_arguments()` gives. -/
def Seen (h : IterHandle) (r : Outcome NodeRef) (P : PNode → Prop) : Prop := ∃ r', r = .ok r' ∧ ∃ m, h.look r' = some m ∧ P m

instance {h : IterHandle} {r : Outcome NodeRef} {P : PNode → Prop} [DecidablePred P] : Decidable (Seen h r P) :=
  have : ∀ r', Decidable (∃ m, h.look r' = some m ∧ P m) := fun r' =>
    match hl : h.look r' with
    | some m => if hm : P m then .isTrue ⟨m, rfl, hm⟩ else .isFalse (by rintro ⟨m', e, h'⟩; cases e; exact hm h')
    | none => .isFalse (by rintro ⟨m, e, _⟩; cases e)
  inferInstanceAs (Decidable (∃ r', r = .ok r' ∧ ∃ m, h.look r' = some m ∧ P m))

instance {α : Type} {x : Outcome α} : Decidable (∃ msg, x = .throw msg) :=
  match x with
  | .throw m => .isTrue ⟨m, rfl⟩
  | .ok _ => .isFalse (by rintro ⟨_, h⟩; cases h)
  | .outOfRange => .isFalse (by rintro ⟨_, h⟩; cases h)
  | .exit _ => .isFalse (by rintro ⟨_, h⟩; cases h)
  | .ub => .isFalse (by rintro ⟨_, h⟩; cases h)
  | .diverges => .isFalse (by rintro ⟨_, h⟩; cases h)

/-- **C60** does not hold as documented: after `-v add x` the option `-v` has been processed, but the object that
`parsed_arguments()` returns does not even know it. It is in the object that was obtained at first. -/
theorem C60_violated : ∃ d, finishInitialization treeData = .ok d ∧ ∃ reps h',
    Iterates Env.inert (IterHandle.make d [b!"-v", b!"add", b!"x"]) reps h' ∧
    Seen h' (IterHandle.make d [b!"-v", b!"add", b!"x"]).parsedArguments (fun n => n.has b!"-v" = .ok true ∧ n.code = .success) ∧
    Seen h' h'.parsedArguments (fun m => (∃ msg, m.has b!"-v" = .throw msg) ∧ m.has b!"FILE" = .ok true) := by
  have key : ∃ d, finishInitialization treeData = .ok d ∧ ∃ p, iterateAll Env.inert 9 (IterHandle.make d [b!"-v", b!"add", b!"x"]) = .ok p ∧
      Seen p.2 (IterHandle.make d [b!"-v", b!"add", b!"x"]).parsedArguments (fun n => n.has b!"-v" = .ok true ∧ n.code = .success) ∧
      Seen p.2 p.2.parsedArguments (fun m => (∃ msg, m.has b!"-v" = .throw msg) ∧ m.has b!"FILE" = .ok true) := by
    decide +kernel
  obtain ⟨d, h1, ⟨reps, h'⟩, h2, h3⟩ := key
  exact ⟨d, h1, reps, h', iterateAll_sound h2, h3⟩

/-- Without sub-commands. -/
example : ∃ d, finishInitialization cliData = .ok d ∧ ∃ reps h', Iterates Env.inert (IterHandle.make d [b!"-v", b!"in", b!"-o", b!"f"]) reps h' ∧
    reps.length = 3 ∧ (∀ rep ∈ reps, ¬ IsCommandReport rep) ∧ Seen h' h'.parsedArguments (fun n => n.has b!"-v" = .ok true ∧ n.code = .success) := by
  have key : ∃ d, finishInitialization cliData = .ok d ∧ ∃ p, iterateAll Env.inert 9 (IterHandle.make d [b!"-v", b!"in", b!"-o", b!"f"]) = .ok p ∧
      p.1.length = 3 ∧ p.1.all (fun rep => match rep.arg with | some (.command _) => false | _ => true) = true ∧
      Seen p.2 p.2.parsedArguments (fun n => n.has b!"-v" = .ok true ∧ n.code = .success) := by
    decide +kernel
  obtain ⟨d, h1, ⟨reps, h'⟩, h2, h3, h4, h5⟩ := key
  refine ⟨d, h1, reps, h', iterateAll_sound h2, h3, ?_, h5⟩
  rintro rep hr ⟨c, hc⟩
  have := List.all_eq_true.mp h4 rep hr
  rw [hc] at this
  simp at this

/-! ## C61 -/

/-- What the objects show before and after a result that something is given to the active command. -/
theorem next_given {d0 d : ParserData} (h : finishInitialization d0 = .ok d) {env : Env} (hp : env.Passive) {args : List Str}
    {rs : List IterResult} {s s' : PState} (ht : Trace env (start d args).2 rs s) (hb : ∀ r ∈ rs, ¬ r.IsLast) {r : IterResult}
    (hn : Parser.next env s = (.ok r, s')) {x : Occ} (hl : ¬ r.IsLast)
    (hx : ∀ st : Open, (st.step r) = st.add x ∨ (st.step r) = ((st.add x).back.getD (st.add x))) :
    ∃ p m m', IterHandle.parsedArguments (some s) = .ok p ∧ IterHandle.look (some s) p = some m ∧ IterHandle.look (some s') p = some m' ∧
      m'.command = m.command ∧ (∀ id, m'.values.getValues id = x.writes.foldl Write.run (fun i => m.values.getValues i) id) ∧
      ((∀ st : Open, st.step r = st.add x) → IterHandle.parsedArguments (some s') = .ok p) := by
  have hr := ready_of_init h
  have hg := ht.good hr (start_good d args).2
  obtain ⟨hst, hg'⟩ := next_good hr hg hn
  have ha := ht.agrees hp hr (start_good d args).2 hb (agrees_start d args)
  have hsh := ht.shaped hr (start_good d args).2 hb (shaped_start d args)
  have ha' := hst.agrees hp hg hl ha
  have hsh' := Trace.shaped hr (.cons hn .nil) hg (by simpa using hl) hsh
  generalize rs.foldl Open.step (Open.start d.command) = st at ha hsh ha' hsh'
  obtain ⟨a, l, hs, _⟩ := hg.head
  obtain ⟨a', l', hs', _⟩ := hg'.head
  have hpa : IterHandle.parsedArguments (some s) = .ok (openRef st) := by
    simp only [IterHandle.parsedArguments]
    rw [shaped_ref hsh, if_neg (by simp [hs])]
  have hpa' : IterHandle.parsedArguments (some s') = .ok (openRef (st.step r)) := by
    simp only [IterHandle.parsedArguments]
    rw [shaped_ref hsh', if_neg (by simp [hs'])]
    rfl
  match st, ha, hsh, ha', hsh', hpa, hpa' with
  | [], ha, _, _, _, _, _ => rw [hs] at ha; simp [Agrees, AgreesBy] at ha
  | .node c occs ts :: rest, ha, hsh, ha', hsh', hpa, hpa' =>
    have hc' : Open.close (Open.step (.node c occs ts :: rest) r) = some (Open.close.go (.node c (occs ++ [x]) ts) rest) := by
      rcases hx (.node c occs ts :: rest) with e | e
      · rw [e]; rfl
      · rw [e, Open.close_backD]; rfl
    obtain ⟨m, e1, e2, e3⟩ := look_agrees ha rfl (close_head (.node c occs ts) rest)
    obtain ⟨m', e1', e2', e3'⟩ := look_agrees ha' hc' (close_head (.node c (occs ++ [x]) ts) rest)
    refine ⟨_, m, m', hpa, e1, e1', e2'.trans e2.symm, ?_, ?_⟩
    · intro id
      rw [e3' id]
      show valuesOf (occs ++ [x]) id = _
      rw [valuesOf_snoc]
      have e : (fun i => m.values.getValues i) = valuesOf occs := funext e3
      rw [e]
    · intro hadd
      rw [hpa', hadd]
      rfl

/-- **C61**: when `next()` reports a positional argument, its text has been stored for the argument and nothing else has
changed. (The text is what was read from the command line, C05 and C57.) -/
theorem C61_argument {d0 d : ParserData} (h : finishInitialization d0 = .ok d) {env : Env} (hp : env.Passive) {args : List Str}
    {reps : List IterReport} {rep : IterReport} {h1 h2 : IterHandle} (ha : Advances env (IterHandle.make d args) reps h1)
    (hn : h1.next env = (.ok rep, h2)) {a : ArgData} (hrep : rep.arg = some (.argument a)) :
    ∃ v p m m', rep.value = some v ∧ h1.parsedArguments = .ok p ∧ h2.parsedArguments = .ok p ∧ h1.look p = some m ∧ h2.look p = some m' ∧
      m'.valuesView (.arg a) = m.valuesView (.arg a) ++ [(v, a.argumentId)] ∧
      ∀ id, id ≠ a.valueId → m'.values.getValues id = m.values.getValues id := by
  have hr := ready_of_init h
  obtain ⟨rs, s, ht, hb, rfl, rfl⟩ := ha.trace _ rfl
  obtain ⟨r, s', hn', rfl, rfl⟩ := IterHandle.next_some hn
  have hg := ht.good hr (start_good d args).2
  obtain ⟨hst, _⟩ := next_good hr hg hn'
  cases r with
  | argument a' w =>
    simp only [IterHandle.report, Option.some.injEq, IterView.argument.injEq] at hrep
    subst hrep
    obtain ⟨v, rfl⟩ := (hst.value_passive hp hg).2 _ _ rfl
    obtain ⟨p, m, m', g1, g2, g3, _, g5, g6⟩ := next_given h hp ht hb hn' (x := .argument a' v) (fun h => h) (fun st => Or.inl rfl)
    refine ⟨v, p, m, m', rfl, g1, g6 (fun st => rfl), g2, g3, ?_, ?_⟩
    · have := g5 a'.valueId
      simp only [Occ.writes, List.foldl_cons, List.foldl_nil, Write.run, if_true] at this
      exact this
    · intro id hid
      have := g5 id
      simp only [Occ.writes, List.foldl_cons, List.foldl_nil, Write.run, if_neg hid] at this
      exact this
  | _ => simp [IterHandle.report] at hrep

/-- **C61**: when `next()` reports an option, the operation of the option has been carried out with the reported value on
the command that was being read, and nothing else has changed there. The value is empty unless the option takes one. -/
theorem C61_option {d0 d : ParserData} (h : finishInitialization d0 = .ok d) {env : Env} (hp : env.Passive) {args : List Str}
    {reps : List IterReport} {rep : IterReport} {h1 h2 : IterHandle} (ha : Advances env (IterHandle.make d args) reps h1)
    (hn : h1.next env = (.ok rep, h2)) {o : OptData} (hrep : rep.arg = some (.option o)) :
    ∃ v p m m', rep.value = some v ∧ (¬ NeedsValue o → v = []) ∧ h1.parsedArguments = .ok p ∧ h1.look p = some m ∧ h2.look p = some m' ∧
      m'.valuesView (.opt o) = optionValues o v (m.valuesView (.opt o)) ∧
      (∀ id, id ≠ o.valueId → m'.values.getValues id = m.values.getValues id) ∧
      (o.type ≠ .lastArgument → h2.parsedArguments = .ok p) := by
  have hr := ready_of_init h
  obtain ⟨rs, s, ht, hb, rfl, rfl⟩ := ha.trace _ rfl
  obtain ⟨r, s', hn', rfl, rfl⟩ := IterHandle.next_some hn
  have hg := ht.good hr (start_good d args).2
  obtain ⟨hst, _⟩ := next_good hr hg hn'
  cases r with
  | option o' w =>
    simp only [IterHandle.report, Option.some.injEq, IterView.option.injEq] at hrep
    subst hrep
    obtain ⟨v, rfl, hv⟩ := (hst.value_passive hp hg).1 _ _ rfl
    obtain ⟨p, m, m', g1, g2, g3, _, g5, g6⟩ := next_given h hp ht hb hn' (x := .option o' v) (fun h => h) (fun st => by
      simp only [Open.step, Option.getD_some]
      split
      · exact Or.inr rfl
      · exact Or.inl rfl)
    refine ⟨v, p, m, m', rfl, hv, g1, g2, g3, ?_, ?_, ?_⟩
    · have := g5 o'.valueId
      unfold optionValues
      simp only [Occ.writes] at this
      show m'.values.getValues o'.valueId = _
      rw [this]
      cases hop : o'.operation <;> simp [Write.run, PNode.valuesView, View.valueId]
    · intro id hid
      have := g5 id
      simp only [Occ.writes] at this
      rw [this]
      cases hop : o'.operation <;> simp [Write.run, hid]
    · intro hty
      refine g6 fun st => ?_
      simp only [Open.step, Option.getD_some, if_neg hty]
  | _ => simp [IterHandle.report] at hrep

/-- **C61**: `next()` returns false exactly at the end and after an error; then there is no view and the value is empty. -/
theorem C61_end {env : Env} {s : PState} {rep : IterReport} {h' : IterHandle} (hn : IterHandle.next env (some s) = (.ok rep, h')) :
    (rep.more = false ↔ ∃ s', Parser.next env s = (.ok .done, s') ∨ Parser.next env s = (.ok .error, s')) ∧
      (rep.more = false → rep.arg = none ∧ rep.value = some []) := by
  obtain ⟨r, s', hn', rfl, rfl⟩ := IterHandle.next_some hn
  cases r <;> simp [IterHandle.report, hn']

/-- **C61** does not hold as documented for sub-commands: a sub-command is neither an argument nor an option, so `value`
should be empty, but it is the text of the sub-command. -/
theorem C61_violated : ∃ d, finishInitialization treeData = .ok d ∧ ∃ rep h',
    (IterHandle.make d [b!"add", b!"x"]).next Env.inert = (.ok rep, h') ∧ IsCommandReport rep ∧ rep.value = some b!"add" := by
  have key : ∃ d, finishInitialization treeData = .ok d ∧ ∃ rep, ((IterHandle.make d [b!"add", b!"x"]).next Env.inert).1 = .ok rep ∧
      (match rep.arg with | some (.command _) => true | _ => false) = true ∧ rep.value = some b!"add" := by
    decide +kernel
  obtain ⟨d, h1, rep, h2, h3, h4⟩ := key
  refine ⟨d, h1, rep, _, Prod.ext h2 rfl, ?_, h4⟩
  revert h3
  unfold IsCommandReport
  cases rep.arg with
  | none => simp
  | some x => cases x <;> simp

/-- A run in which the theorems apply: an option with a value, then a positional argument. -/
example : ∃ d, finishInitialization cliData = .ok d ∧ Env.inert.Passive ∧ ∃ reps h1 rep h2,
    Advances Env.inert (IterHandle.make d [b!"-o", b!"f", b!"in"]) reps h1 ∧ h1.next Env.inert = (.ok rep, h2) ∧ reps.length = 1 ∧
    (∃ a, rep.arg = some (.argument a)) ∧ rep.value = some b!"in" := by
  have key : ∃ d, finishInitialization cliData = .ok d ∧ ∃ p, advanceAll Env.inert 1 (IterHandle.make d [b!"-o", b!"f", b!"in"]) = .ok p ∧
      p.1.length = 1 ∧ ∃ rep, (p.2.next Env.inert).1 = .ok rep ∧ (match rep.arg with | some (.argument _) => true | _ => false) = true ∧
      rep.value = some b!"in" := by
    decide +kernel
  obtain ⟨d, h1, ⟨reps, h'⟩, h2, h3, rep, h4, h5, h6⟩ := key
  refine ⟨d, h1, Env.inert_passive, reps, h', rep, _, advanceAll_sound h2, Prod.ext h4 rfl, h3, ?_, h6⟩
  revert h5
  cases rep.arg with
  | none => simp
  | some x => cases x <;> simp

end Argos
