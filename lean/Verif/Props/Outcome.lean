import Verif.Model.Parsed
import Verif.Proofs.Outcome
import Verif.Props.Parser

/-! # C23, C24, C26, C34: result codes, mandatory options, stop options, required sub-commands -/

set_option synthInstance.maxSize 1000

namespace Argos
open Spec Parser

/-! ## C23 -/

/-- `parse` returns exactly what the results lead to. -/
theorem returns_iff {env : Env} {d : ParserData} {args : List Str} {n : PNode} :
    (∃ rs last, Returns env d args rs last n) ↔ ∃ fuel s', parse env d args fuel = (.ok (some n), s') := by
  constructor
  · rintro ⟨rs, last, s', h1, h2⟩
    exact ⟨_, s', by rw [parses_parse h1 0, h2]⟩
  · rintro ⟨fuel, s', h⟩
    obtain ⟨rs, last, h1, h2⟩ := parse_returns h
    exact ⟨rs, last, s', h1, h2⟩

/-- **C23**: the code is `FAILURE` exactly when the last result was an error, whatever callbacks do. -/
theorem C23_failure {d0 d : ParserData} (h : finishInitialization d0 = .ok d) {env : Env} {args : List Str} {rs : List IterResult}
    {last : IterResult} {n : PNode} (hp : Returns env d args rs last n) : n.code = .failure ↔ last = .error := by
  have hr := ready_of_init h
  obtain ⟨s', a, l, h1, hg, e, _, subs, e2⟩ := hp.facts hr
  have hmem : (a :: l).getLast (by simp) ∈ s'.stack := by rw [e]; exact List.getLast_mem _
  have hcode : n.code = ((a :: l).getLast (by simp)).code := by rw [e2]
  rw [hcode]
  cases h1.ending hr with
  | @error _ t _ msg it hns hgt ha hre e3 =>
    refine iff_of_true ?_ rfl
    rw [e3] at hmem
    obtain ⟨k, _, hk⟩ := List.mem_map.mp hmem
    rw [← hk]
  | _ => exact iff_of_false (h1.noFailure hr _ hmem) (by simp)

/-- **C23**: the code is `FAILURE` exactly when an error message has been written. -/
theorem C23_failure_reported {d0 d : ParserData} (h : finishInitialization d0 = .ok d) {env : Env} {args : List Str} {fuel : Nat}
    {n : PNode} {s' : PState} (hp : parse env d args fuel = (.ok (some n), s')) :
    n.code = .failure ↔ ∃ cmd msg, .error cmd msg ∈ s'.log := by
  obtain ⟨rs, last, h1, h2⟩ := parse_returns hp
  rw [C23_failure h ⟨s', h1, h2⟩, ← h1.log (ready_of_init h)]
  constructor
  · rintro ⟨e, he, h3⟩
    cases e with
    | error c m => exact ⟨c, m, he⟩
    | _ => exact h3.elim
  · rintro ⟨c, m, he⟩
    exact ⟨_, he, trivial⟩

/-- **C23**: without an error and without an option that ends parsing the code is `SUCCESS`, and there is
no stop option. -/
theorem C23_success {d0 d : ParserData} (h : finishInitialization d0 = .ok d) {env : Env} {args : List Str} {rs : List IterResult}
    {n : PNode} (hp : Returns env d args rs .done n) (hs : NoStop rs) : n.code = .success ∧ n.stopOption = none := by
  have hr := ready_of_init h
  obtain ⟨s', a, l, h1, hg, e, _, subs, e2⟩ := hp.facts hr
  have := (h1.noStop hr hs rfl).1 ((a :: l).getLast (by simp)) (by rw [e]; exact List.getLast_mem _)
  rw [e2]
  exact this

/-- **C23** (what holds): the code is `STOP` exactly when an option that ends parsing was reported while
the main command was the active one. Missing: when a sub-command is active, the code is not `STOP`, see
`C23_violated`. -/
theorem C23_stop_partial {d0 d : ParserData} (h : finishInitialization d0 = .ok d) {env : Env} {args : List Str} {rs : List IterResult}
    {last : IterResult} {n : PNode} (hp : Returns env d args rs last n) :
    n.code = .stop ↔ (∃ o v, .option o v ∈ rs ∧ EndsParsing o) ∧ (Open.after d.command rs).length = 1 := by
  have hr := ready_of_init h
  obtain ⟨s', a, l, h1, hg, e, _, subs, e2⟩ := hp.facts hr
  have hcode : n.code = ((a :: l).getLast (by simp)).code := by rw [e2]
  have hlen : (Open.after d.command rs).length = (a :: l).length := by rw [← (h1.shaped hr).length, e]
  rw [hcode, hlen]
  by_cases hstop : ∃ o v, .option o v ∈ rs ∧ EndsParsing o
  · obtain ⟨o, v, hm, ho⟩ := hstop
    obtain ⟨_, rs0, s, t, it, _, _, _, _, _, _, hc, _, e4⟩ := h1.stops hr hm ho
    cases e5 : t.stack with
    | nil => rw [e4] at e; simp [copyState, stopState, e5, headMap] at e
    | cons k ks =>
      rw [e4] at e
      simp only [copyState, stopState, e5, headMap, List.cons.injEq] at e
      obtain ⟨rfl, rfl⟩ := e
      cases ks with
      | nil => exact iff_of_true rfl ⟨⟨o, v, hm, ho⟩, rfl⟩
      | cons q qs =>
        refine iff_of_false ?_ (by simp)
        rw [List.getLast_cons (by simp)]
        have := (hc ((q :: qs).getLast (by simp)) (by rw [e5]; exact List.mem_cons_of_mem _ (List.getLast_mem _))).1
        rcases this with h | h <;> rw [h] <;> simp
  · have hns : NoStop rs := fun o v hm ho => hstop ⟨o, v, hm, ho⟩
    refine iff_of_false ?_ (fun h => hstop h.1)
    cases hl : last with
    | done =>
      have := (h1.noStop hr hns hl).1 ((a :: l).getLast (by simp)) (by rw [e]; exact List.getLast_mem _)
      rw [this.1]
      simp
    | error =>
      rw [← hcode, (C23_failure h hp).mpr hl]
      simp
    | _ => have := h1.last; rw [hl] at this; exact this.elim

/-- **C23**: for parsers without sub-commands, everything that is claimed. -/
theorem C23_no_subcommands {d0 d : ParserData} (h : finishInitialization d0 = .ok d) (hc : d0.command.commands = [])
    {env : Env} {args : List Str} {rs : List IterResult} {last : IterResult} {n : PNode} (hp : Returns env d args rs last n) :
    n.code ≠ .none ∧ (n.code = .failure ↔ last = .error) ∧
    (n.code = .stop ↔ ∃ o v, .option o v ∈ rs ∧ EndsParsing o) ∧
    (n.code = .success ↔ last = .done ∧ NoStop rs) := by
  have hr := ready_of_init h
  have hd : d.command.commands = [] := by
    obtain ⟨_, _, _, fn, c, h1, h2⟩ := finishInitialization_ok h
    obtain ⟨c1, x, y, cmds, _, h3, h4⟩ := finishCommand_ok h1
    rw [h4]
    have := (finishCommands_get h3).1
    rw [h2] at this
    simp only [hc, List.length_nil] at this
    exact List.eq_nil_of_length_eq_zero this
  have hlen : (Open.after d.command rs).length = 1 := by
    obtain ⟨s', a, l, h1, hg, e, _⟩ := hp.facts hr
    rw [← (h1.shaped hr).length, e]
    cases l with
    | nil => rfl
    | cons p ps =>
      exfalso
      have hpath := hg.path
      rw [e] at hpath
      have hcmd : ∀ {l : List PNode}, Path d.command l → ∀ q qs, l = q :: qs → qs ≠ [] → False := by
        intro l hl
        induction hl with
        | top _ => intro q qs e hq; simp only [List.cons.injEq] at e; exact hq e.2.symm
        | @push n p ps hm hp ih =>
          intro q qs e hq
          cases ps with
          | nil =>
            cases hp with
            | top e1 => rw [e1, hd] at hm; simp at hm
          | cons r rs => exact ih p (r :: rs) rfl (by simp)
      exact hcmd hpath a (p :: ps) rfl (by simp)
  have h1 := C23_failure h hp
  have h2 := C23_stop_partial h hp
  simp only [hlen, and_true] at h2
  have hlast : last = .done ∨ last = .error := by
    obtain ⟨s', hpp, _⟩ := hp
    have := hpp.last
    cases last <;> simp_all [IterResult.IsLast]
  have h3 : n.code = .success ↔ last = .done ∧ NoStop rs := by
    constructor
    · intro hcode
      refine ⟨?_, ?_⟩
      · rcases hlast with h | h
        · exact h
        · rw [h1.mpr h] at hcode; simp at hcode
      · intro o v hm ho
        rw [h2.mpr ⟨o, v, hm, ho⟩] at hcode
        simp at hcode
    · rintro ⟨rfl, hns⟩
      exact (C23_success h hp hns).1
  refine ⟨?_, h1, h2, h3⟩
  intro hnone
  rcases hlast with rfl | rfl
  · by_cases hs : ∃ o v, .option o v ∈ rs ∧ EndsParsing o
    · rw [h2.mpr hs] at hnone; simp at hnone
    · rw [h3.mpr ⟨rfl, fun o v hm ho => hs ⟨o, v, hm, ho⟩⟩] at hnone; simp at hnone
  · rw [h1.mpr rfl] at hnone; simp at hnone

/-- A property of the returned node. -/
def parseTo {α : Type} (f : PNode → α) (env : Env) (d : ParserData) (args : List Str) (fuel : Nat) : Option α :=
  match (parse env d args fuel).1 with
  | .ok (some n) => some (f n)
  | _ => none

/-- The code of the returned node. -/
def parseCode := parseTo (·.code)

/-- **C23** is violated by a stop option of a sub-command: `parse` returns with the code `NONE`. -/
theorem C23_violated : ∃ d, finishInitialization treeData = .ok d ∧
    parseCode Env.inert d [b!"stop", b!"--now"] 9 = some .none := by
  refine Outcome.exists_ok ?_
  decide +kernel

-- All codes occur.
example : ∃ d, finishInitialization cliData = .ok d ∧ parseCode Env.inert d [b!"a"] 9 = some .success ∧
    parseCode Env.inert d [b!"--stop", b!"a"] 9 = some .stop ∧ parseCode Env.inert d [] 9 = some .failure := by
  refine Outcome.exists_ok ?_
  decide +kernel

/-! ## C26 -/

/-- **C26**: when an option that ends parsing has been reported, it is the last thing reported: parsing ends
without any error message, and the command it was given to records it as the stop option, has the code
`STOP`, and all that was not read is at the end of its unprocessed arguments. -/
theorem C26_stop {d0 d : ParserData} (h : finishInitialization d0 = .ok d) {env : Env} {args : List Str} {rs : List IterResult}
    {last : IterResult} {s' : PState} (hp : Parses env d args rs last s') {o : OptData} {v : Option Str} (hm : .option o v ∈ rs)
    (ho : EndsParsing o) :
    last = .done ∧ (∃ rs0, rs = rs0 ++ [.option o v] ∧ NoStop rs0) ∧ (¬ ∃ c m, .error c m ∈ s'.log) ∧
    ∃ (n m : PNode) (t : Tree (List Occ)) (rest : Open) (unread before : List Str), topLevel s' = some n ∧ m.Within n ∧ Open.after d.command rs = t :: rest ∧ m.command = t.command ∧
      m.code = .stop ∧ m.stopOption = some o ∧ m.unprocessed = before ++ unread ∧ s'.iter.reader = ⟨[], unread⟩ := by
  have hr := ready_of_init h
  obtain ⟨rfl, rs0, s, t, it, e1, e2, e3, e4, e5, e6, e7, e8, e9⟩ := hp.stops hr hm ho
  refine ⟨rfl, ⟨rs0, e1, e2⟩, ?_, ?_⟩
  · rintro ⟨c, m, he⟩
    have := (hp.log hr).mp ⟨_, he, trivial⟩
    simp at this
  · have hsh := hp.shaped hr
    cases e10 : t.stack with
    | nil => exact absurd e10 (e6.ne e4.ne)
    | cons k ks =>
      have e11 : s'.stack = { k with code := .stop, stopOption := some o, unprocessed := k.unprocessed ++ t.iter.reader.unread } :: ks := by
        rw [e9]
        simp [copyState, stopState, e10, headMap]
      rw [e11] at hsh
      obtain ⟨l, ts, rest, e12, _, _⟩ := shaped_cons hsh
      exact ⟨_, _, _, rest, t.iter.reader.unread, k.unprocessed, topLevel_eq e11, within_nest _ _, e12, rfl, rfl, rfl, rfl,
        by rw [e9]; exact e8.reader⟩

/-- **C26**: at the main command, `stop_option()` of the returned object is the option that ended parsing. -/
theorem C26_stop_option {d0 d : ParserData} (h : finishInitialization d0 = .ok d) {env : Env} {args : List Str} {rs : List IterResult}
    {last : IterResult} {n : PNode} (hp : Returns env d args rs last n) {o : OptData} {v : Option Str} (hm : .option o v ∈ rs)
    (ho : EndsParsing o) (hc : ∀ c x, .command c x ∉ rs) : n.code = .stop ∧ n.stopOption = some o := by
  have hr := ready_of_init h
  have hlen : (Open.after d.command rs).length = 1 := by
    have key : ∀ (l : List IterResult) (st : Open), st.length = 1 → (∀ c x, .command c x ∉ l) → (l.foldl Open.step st).length = 1 := by
      intro l
      induction l with
      | nil => intro st h _; exact h
      | cons r l ih =>
        intro st hst hc
        refine ih _ ?_ (fun c x hm => hc c x (by simp [hm]))
        match st, hst with
        | [.node c l' ts], _ =>
          cases r with
          | command c x => exact absurd List.mem_cons_self (hc c x)
          | option o v => simp only [Open.step, Open.add, Open.back, Open.back.go, Option.getD_none]; split <;> rfl
          | _ => rfl
    exact key rs _ rfl hc
  obtain ⟨s', h1, h2⟩ := hp
  obtain ⟨rfl, rs0, s, t, it, e1, e2, e3, e4, e5, e6, e7, e8, e9⟩ := h1.stops hr hm ho
  have hl := (h1.shaped hr).length
  rw [hlen, e9] at hl
  cases e10 : t.stack with
  | nil => exact absurd e10 (e6.ne e4.ne)
  | cons k ks =>
    simp only [copyState, stopState, e10, headMap, List.length_cons] at hl
    have : ks = [] := List.eq_nil_of_length_eq_zero (by omega)
    subst this
    have e11 : s'.stack = [{ k with code := .stop, stopOption := some o, unprocessed := k.unprocessed ++ t.iter.reader.unread }] := by
      rw [e9]
      simp [copyState, stopState, e10, headMap]
    rw [topLevel_eq e11, Option.some.injEq] at h2
    rw [← h2]
    exact ⟨rfl, rfl⟩

/-- **C26**: `stop_option()` returns the option that ended parsing at the main command, and throws if parsing went to the end of the
command line. -/
theorem C26_accessor {d0 d : ParserData} (h : finishInitialization d0 = .ok d) {env : Env} {args : List Str} {rs : List IterResult}
    {n : PNode} (hp : Returns env d args rs .done n) :
    (∀ o v, .option o v ∈ rs → EndsParsing o → (∀ c x, .command c x ∉ rs) → n.getStopOption = .ok o) ∧
    (NoStop rs → n.getStopOption = .throw b!"There is no special option.") := by
  refine ⟨fun o v hm ho hc => ?_, fun hs => ?_⟩
  · rw [PNode.getStopOption, (C26_stop_option h hp hm ho hc).2]
  · rw [PNode.getStopOption, (C23_success h hp hs).2]

example : ∃ d, finishInitialization cliData = .ok d ∧
    (parseTo (fun n => n.getStopOption >>= fun o => pure o.flags) Env.inert d [b!"-v", b!"--stop", b!"--bad", b!"x"] 9 = some (.ok [b!"--stop"])) ∧
    parseTo (fun n => n.getStopOption >>= fun o => pure o.flags) Env.inert d [b!"-v", b!"x"] 9 = some (.throw b!"There is no special option.") := by
  refine Outcome.exists_ok ?_
  decide +kernel

-- The missing argument is not reported, and what follows is unprocessed.
example : ∃ d, finishInitialization cliData = .ok d ∧
    parseTo (fun n => (n.code, n.stopOption.map (·.flags), n.unprocessed)) Env.inert d [b!"-v", b!"--stop", b!"--bad", b!"x"] 9 =
      some (.stop, some [b!"--stop"], [b!"--bad", b!"x"]) := by
  refine Outcome.exists_ok ?_
  decide +kernel

/-! ## C24 -/

/-- **C24** (what holds): when parsing ends without an error and without a stop option, every mandatory
option of the command that was active last has a value. Missing: the mandatory options of the commands
around it, and of sub-commands finished before, see `C24_violated`. -/
theorem C24_mandatory_partial {d0 d : ParserData} (h : finishInitialization d0 = .ok d) {env : Env} {args : List Str}
    {rs : List IterResult} {n : PNode} (hp : Returns env d args rs .done n) (hs : NoStop rs) :
    ∃ (m : PNode) (t : Tree (List Occ)) (rest : Open), m.Within n ∧ Open.after d.command rs = t :: rest ∧ m.command = t.command ∧
      ∀ o ∈ m.command.options, o.optional = false → m.values.has o.valueId = true := by
  have hr := ready_of_init h
  obtain ⟨s', a, l, h1, hg, e, e2, _⟩ := hp.facts hr
  obtain ⟨_, t, it, hok, hgt, he⟩ := h1.noStop hr hs rfl
  have hsh := h1.shaped hr
  rw [e] at hsh
  obtain ⟨l', ts, rest, e3, _, _⟩ := shaped_cons hsh
  refine ⟨a, _, rest, by rw [e2]; exact within_nest a l, e3, rfl, ?_⟩
  obtain ⟨k, ks, e4, e5⟩ := hgt.head
  have hman := hok.mandatory k (by rw [e4]; rfl)
  have hka : a.command = k.command ∧ a.values = k.values := by
    rcases he with he | he
    · rw [he] at e
      simp only [succState, e4, List.map_cons, List.cons.injEq] at e
      rw [← e.1]
      exact ⟨rfl, rfl⟩
    · rw [he] at e
      simp only [copyState, succState, e4, List.map_cons, headMap, List.cons.injEq] at e
      rw [← e.1]
      exact ⟨rfl, rfl⟩
  rw [hka.1, hka.2, e5]
  exact hman

/-- **C24**: if only commands without sub-commands have mandatory options, and no command allows several
sub-commands, every mandatory option of every given command has a value. -/
theorem C24_mandatory_leaves {d0 d : ParserData} (h : finishInitialization d0 = .ok d)
    (hc : ∀ c : Command, c.Within d.command → c.commands ≠ [] → c.multiCommand = false ∧ ∀ o ∈ c.options, o.optional = true)
    {env : Env} {args : List Str} {rs : List IterResult} {n : PNode} (hp : Returns env d args rs .done n) (hs : NoStop rs) :
    ∀ m : PNode, m.Within n → ∀ o ∈ m.command.options, o.optional = false → m.values.has o.valueId = true := by
  have hr := ready_of_init h
  obtain ⟨s', a, l, h1, hg, e, e2, _⟩ := hp.facts hr
  obtain ⟨_, t, it, hok, hgt, he⟩ := h1.noStop hr hs rfl
  obtain ⟨k, ks, e4, e5⟩ := hgt.head
  have hman := hok.mandatory k (by rw [e4]; rfl)
  have hka : a.command = k.command ∧ a.values = k.values := by
    rcases he with he | he
    · rw [he] at e
      simp only [succState, e4, List.map_cons, List.cons.injEq] at e
      rw [← e.1]
      exact ⟨rfl, rfl⟩
    · rw [he] at e
      simp only [copyState, succState, e4, List.map_cons, headMap, List.cons.injEq] at e
      rw [← e.1]
      exact ⟨rfl, rfl⟩
  have hsubs : ∀ q ∈ s'.stack, q.subs = [] := by
    intro q hq
    by_cases hcm : q.command.commands = []
    · have := (hg.trees q hq).self.subs
      rw [hcm] at this
      exact List.eq_nil_iff_forall_not_mem.mpr (fun x hx => by have := this x hx; simp at this)
    · exact hg.active q hq (hc _ (hg.path.within q hq) hcm).1
  intro m hm o ho hopt
  rw [e2] at hm
  rcases nest_within hm with hm | ⟨q, hq, ⟨x, rfl⟩ | ⟨k', hk, hm⟩⟩
  · rcases PNode.within_iff.mp hm with rfl | ⟨k', hk, _⟩
    · rw [hka.1, e5] at ho
      rw [hka.2]
      exact hman o ho hopt
    · rw [hsubs a (by rw [e]; simp)] at hk; simp at hk
  · exfalso
    have hne : q.command.commands ≠ [] := by
      obtain ⟨pre, post, rfl⟩ := List.append_of_mem hq
      have hpath := hg.path
      rw [e] at hpath
      exact hpath.below_commands
    have := (hc q.command (hg.path.within q (by rw [e]; simp [hq])) hne).2 o ho
    rw [hopt] at this
    simp at this
  · rw [hsubs q (by rw [e]; simp [hq])] at hk; simp at hk

/-- A parser with a mandatory option and a sub-command with a mandatory option. -/
def mandData : ParserData :=
  { command :=
      { name := b!"m"
        options := [{ flags := [b!"-o"], argument := b!"FILE", optional := false }]
        multiCommand := true
        commands := [
          { name := b!"run", options := [{ flags := [b!"-k"], argument := b!"KEY", optional := false }] },
          { name := b!"two" }] }
    settings := { autoExit := false } }

/-- **C24** is violated: the mandatory option of the main command is missing when a sub-command is given, and
the mandatory option of a sub-command when another sub-command follows; `parse` succeeds. -/
theorem C24_violated : ∃ d, finishInitialization mandData = .ok d ∧
    parseCode Env.inert d [b!"run", b!"-k", b!"1"] 9 = some .success ∧
    parseCode Env.inert d [b!"-o", b!"f", b!"run", b!"two"] 9 = some .success := by
  refine Outcome.exists_ok ?_
  decide +kernel

-- Missing and given mandatory option of the last command.
example : ∃ d, finishInitialization mandData = .ok d ∧
    parseCode Env.inert d [b!"run"] 9 = some .failure ∧ parseCode Env.inert d [b!"run", b!"-k1"] 9 = some .success := by
  refine Outcome.exists_ok ?_
  decide +kernel

-- A parser for `C24_mandatory_leaves`.
example : ∃ d, finishInitialization { mandData with command := { mandData.command with options := [], multiCommand := false } } = .ok d ∧
    parseCode Env.inert d [b!"run"] 9 = some .failure ∧ parseCode Env.inert d [b!"run", b!"-k1"] 9 = some .success ∧
    d.command.multiCommand = false ∧ (∀ o ∈ d.command.options, o.optional = true) ∧ (∀ c ∈ d.command.commands, c.commands.length = 0) := by
  refine Outcome.exists_ok ?_
  decide +kernel

/-! ## C34 -/

/-- **C34**: initialisation makes sub-commands required exactly when the client has said so or has said
nothing and there are sub-commands. It applies to every command. -/
theorem C34_default {d0 d : ParserData} (h : finishInitialization d0 = .ok d) (p : List Nat) {c c' : Command}
    (hc : d0.command.at p = some c) (hc' : d.command.at p = some c') :
    c'.requireSubcommand = some (c.requireSubcommand.getD (!c.commands.isEmpty)) := by
  obtain ⟨_, _, _, fn, c0, h1, h2⟩ := finishInitialization_ok h
  obtain ⟨x, fn', a', b', e1, e2, _⟩ := (finishCommand_at d0.settings p h1).1 c' hc'
  obtain ⟨c1, x1, y1, cmds, e3, _, e5⟩ := finishCommand_ok e2
  obtain ⟨_, _, e6, _⟩ := finishSelf_ok e3
  have hx : x.requireSubcommand = c.requireSubcommand ∧ x.commands = c.commands := by
    rw [h2] at e1
    cases p with
    | nil =>
      simp only [Command.at, Option.some.injEq] at e1 hc
      rw [← e1, ← hc]
      exact ⟨rfl, rfl⟩
    | cons i p =>
      have : ({ d0.command with options := addVersionOption d0.command.options d0.command.currentSection d0.version d0.settings } : Command).at (i :: p) = d0.command.at (i :: p) := by
        simp only [Command.at]
      rw [this, hc, Option.some.injEq] at e1
      rw [e1]
      exact ⟨rfl, rfl⟩
  rw [e5]
  simp only
  rw [hx.1, hx.2] at e6
  unfold updateRequireCommand at e6
  split at e6
  · simp at e6
  · cases hq : c.requireSubcommand with
    | none => rw [hq] at e6; simp only [Outcome.ok.injEq] at e6; rw [← e6]; rfl
    | some r => rw [hq] at e6; simp only [Outcome.ok.injEq] at e6; rw [← e6]; rfl

/-- **C34**: requiring sub-commands without declaring any is rejected, anywhere in the tree. -/
theorem C34_rejected {d0 : ParserData} (p : List Nat) {c : Command} (hc : d0.command.at p = some c)
    (hreq : c.requireSubcommand = some true) (hn : c.commands = []) (d : ParserData) : finishInitialization d0 ≠ .ok d := by
  intro h
  obtain ⟨_, _, _, fn, c0, h1, h2⟩ := finishInitialization_ok h
  have hat : ∃ x, c0.at p = some x ∧ x.requireSubcommand = some true ∧ x.commands = [] := by
    rw [h2]
    cases p with
    | nil =>
      simp only [Command.at, Option.some.injEq] at hc
      exact ⟨_, rfl, by simp only [hc, hreq], by simp only [hc, hn]⟩
    | cons i p => exact ⟨c, by simpa only [Command.at] using hc, hreq, hn⟩
  obtain ⟨x, hx, hx1, hx2⟩ := hat
  obtain ⟨x', hx'⟩ := (finishCommand_at d0.settings p h1).2 x hx
  obtain ⟨y, fn', a', b', e1, e2, _⟩ := (finishCommand_at d0.settings p h1).1 x' hx'
  rw [hx, Option.some.injEq] at e1
  subst e1
  obtain ⟨c1, x1, y1, cmds, e3, _, e5⟩ := finishCommand_ok e2
  obtain ⟨_, _, e6, _⟩ := finishSelf_ok e3
  rw [hx1, hx2] at e6
  simp [updateRequireCommand] at e6

/-- **C34**: when parsing ends without an error and without a stop option, every given command that requires a
sub-command has one, whatever callbacks do. -/
theorem C34_enforced {d0 d : ParserData} (h : finishInitialization d0 = .ok d) {env : Env} {args : List Str} {rs : List IterResult}
    {n : PNode} (hp : Returns env d args rs .done n) (hs : NoStop rs) :
    ∀ m : PNode, m.Within n → m.command.requireSubcommand = some true → m.subs ≠ [] := by
  have hr := ready_of_init h
  obtain ⟨s', a, l, h1, hg, e, e2, _⟩ := hp.facts hr
  obtain ⟨_, t, it, hok, hgt, he⟩ := h1.noStop hr hs rfl
  obtain ⟨s, ht, hg0, hn, hst, _⟩ := h1.good hr
  have hcl : ClosedAll HasRequired s' := by
    have := ht.required hr (start_good d args).2 h1.before (start_closed d args _)
    rcases hst.done_cases with ⟨_, rfl⟩ | ⟨it, _, _, rfl⟩
    · exact this
    · intro m hm
      obtain ⟨x, hx, rfl⟩ := List.mem_map.mp hm
      exact this x hx
  obtain ⟨k, ks, e4, e5⟩ := hgt.head
  have hreq := hok.subcommand k (by rw [e4]; rfl)
  rw [e2]
  intro m hm
  refine nest_required ?_ (by rw [← e]; exact hcl) m hm
  intro h2
  have hka : a.command = k.command ∧ a.subs = k.subs := by
    rcases he with he | he
    · rw [he] at e
      simp only [succState, e4, List.map_cons, List.cons.injEq] at e
      rw [← e.1]
      exact ⟨rfl, rfl⟩
    · rw [he] at e
      simp only [copyState, succState, e4, List.map_cons, headMap, List.cons.injEq] at e
      rw [← e.1]
      exact ⟨rfl, rfl⟩
  rw [hka.2]
  exact hreq (by rw [← e5, ← hka.1]; exact h2)

-- Required by default; not required when switched off; rejected without sub-commands.
example : (∃ d, finishInitialization treeData = .ok d ∧ d.command.requireSubcommand = some true ∧
      parseCode Env.inert d [b!"-v"] 9 = some .failure ∧ parseCode Env.inert d [b!"add", b!"x"] 9 = some .success) ∧
    (∃ d, finishInitialization { treeData with command := { treeData.command with requireSubcommand := some false } } = .ok d ∧
      parseCode Env.inert d [b!"-v"] 9 = some .success) ∧
    (finishInitialization { treeData with command := { name := b!"x", requireSubcommand := some true } }).isOk = false := by
  refine ⟨Outcome.exists_ok ?_, Outcome.exists_ok ?_, ?_⟩ <;> decide +kernel

end Argos
