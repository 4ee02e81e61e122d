import Verif.Proofs.Grammar
import Verif.Spec.Several

/-! # Several sub-commands: the grammar and the parser -/

namespace Argos
open Spec

namespace Parser
open ParserM Counter

/-- The assumptions about the parser: nothing is ignored, options and sub-commands are found by these rules, and, unless the style is STANDARD, nothing after
which only arguments or sub-commands may follow. -/
structure RulesMany (d : ParserData) (names : Command → Str → OptData → Prop) (subs : Command → Str → Command → Prop) : Prop where
  styled : d.settings.optionStyle = .standard ∨ ∀ c : Command, c.Within d.command → ∀ q o, names c q o → o.type ≠ .lastOption ∧
    (o.type = .lastArgument → ∀ c' : Command, c'.Within d.command → c'.multiCommand = false)
  names : ∀ c : Command, c.Within d.command → ∀ q o,
    findOption c.optionIndex q d.settings.allowAbbreviatedOptions d.settings.caseInsensitive = some o ↔ names c q o
  subs : ∀ c : Command, c.Within d.command → ∀ q c', findCommand c.commands q d.settings.caseInsensitive = some c' ↔ subs c q c'
  options : d.settings.ignoreUndefinedOptions = false
  arguments : d.settings.ignoreUndefinedArguments = false

section
variable {names : Command → Str → OptData → Prop} {subs : Command → Str → Command → Prop} {d : ParserData}

theorem RulesMany.lookup (h : RulesMany d names subs) {s : PState} (hg : Good d s) (q : Str) (o : OptData) :
    lookup s q = some o ↔ names s.command q o := by
  unfold Parser.lookup
  rw [hg.settings]
  exact h.names _ hg.within q o

theorem RulesMany.functional (h : RulesMany d names subs) {c : Command} (hc : c.Within d.command) (q : Str) (o o' : OptData) (h1 : names c q o)
    (h2 : names c q o') : o = o' := by
  have e1 := (h.names c hc q o).mpr h1
  rw [(h.names c hc q o').mpr h2] at e1
  exact (Option.some.inj e1).symm

theorem RulesMany.last_standard (hru : RulesMany d names subs) {c : Command} (hc : c.Within d.command) {q : Str} {o : OptData} (hn : names c q o)
    (ht : o.type = .lastOption) : d.settings.optionStyle = .standard := hru.styled.resolve_right fun h => (h c hc q o hn).1 ht

theorem RulesMany.closed_standard (hru : RulesMany d names subs) {c : Command} (hc : c.Within d.command) {q : Str} {o : OptData} (hn : names c q o)
    (ht : o.type = .lastArgument) {c' : Command} (hc' : c'.Within d.command) (hm : c'.multiCommand = true) : d.settings.optionStyle = .standard :=
  hru.styled.resolve_right fun h => by
    have := (h c hc q o hn).2 ht c' hc'
    rw [hm] at this
    simp at this

/-- What is left after a piece can be followed if what was there before could. -/
theorem written_tame (hru : RulesMany d names subs) {c : Command} (hc : c.Within d.command) {l l' : Line} {p : Piece}
    (h : Written d.settings.optionStyle names c l p l') (ht : l.Tame d.settings.optionStyle) : l'.Tame d.settings.optionStyle := by
  cases h with
  | option hx _ _ _ _ => exact tame_of_suffix (leftBy_rest hx _) ht
  | lastOption _ _ hn _ hty => exact hru.last_standard hc hn hty
  | lastArgument _ _ _ _ _ => trivial
  | argument hx _ _ => exact tame_of_suffix (readIn_rest hx).1 ht
  | plainArgument _ => exact ht

theorem writtenAll_tame (hru : RulesMany d names subs) {c : Command} (hc : c.Within d.command) {l l' : Line} {ps : List Piece}
    (h : WrittenAll d.settings.optionStyle names c l ps l') (ht : l.Tame d.settings.optionStyle) : l'.Tame d.settings.optionStyle := by
  induction h with
  | nil => exact ht
  | cons h _ ih => exact ih (written_tame hru hc h ht)

/-- A text that isn't a flag is read. -/
inductive TakesText (style : OptionStyle) : Line → Str → Line → Prop
  | mixed {r : Reader} {x : Reading} : r.readIn style = some x → ¬ IsFlag style x.flag → TakesText style (.mixed r) x.flag (.mixed x.afterFlag)
  | plain {v : Str} {rest : List Str} : TakesText style (.plain (v :: rest)) v (.mixed ⟨[], rest⟩)

theorem _root_.Argos.Parser.TakesText.tame {style : OptionStyle} {l l' : Line} {v : Str} (h : TakesText style l v l') (ht : l.Tame style) : l'.Tame style := by
  cases h with
  | mixed hx _ => exact tame_of_suffix (readIn_rest hx).1 ht
  | plain => exact Or.inl ht

theorem TakesText.size {style : OptionStyle} {l l' : Line} {v : Str} (h : TakesText style l v l') : lineSize l' ≤ lineSize l := by
  cases h with
  | mixed a1 _ => exact (readIn_size a1).1
  | plain => simp [lineSize]

theorem TakesText.goesOn {style : OptionStyle} {l l' : Line} {v : Str} {st : Open} {c' : Command} (h : TakesText style l v l')
    (hn : NamesNext subs st v c') : GoesOnTo style subs st l c' l' := by
  cases h with
  | mixed h1 h2 => exact .command h1 h2 hn
  | plain => exact .plainCommand hn

/-- What a step of the parser means for the grammar. -/
inductive PieceStep (d : ParserData) (names : Command → Str → OptData → Prop) (subs : Command → Str → Command → Prop) (s s' : PState) : IterResult → Prop
  | option {o : OptData} {v : Str} : Written d.settings.optionStyle names s.command (lineOf s) (.option o v) (lineOf s') → s'.command = s.command →
      s'.mode ≠ .error → (s'.mode = .done → CheckOk s') → s'.counter = s.counter → (o.type = .lastArgument → findMultiParent s.stack = none) →
      PieceStep d names subs s s' (.option o (some v))
  | argument {a : ArgData} {v : Str} : Written d.settings.optionStyle names s.command (lineOf s) (.argument v) (lineOf s') → s'.command = s.command →
      s'.mode = s.mode → s.mode ≠ .error → s.mode ≠ .done → s.counter.nextArgument = (some a, s'.counter) → findSibling s v = none →
      (∃ it, Taken s (some v) it ∧ ¬ OptionLike s v) → PieceStep d names subs s s' (.argument a (some v))
  | sub {c' : Command} {t : Str} {it : Iter} : Enters d.settings.optionStyle subs s.command (lineOf s) c' (lineOf s') →
      s' = enterState c' { s with iter := it } → PieceStep d names subs s s' (.command c' t)
  | next {c' : Command} {t v : Str} {size : Nat} {it : Iter} : s.command.commands = [] → TakesText d.settings.optionStyle (lineOf s) v (lineOf s') →
      findSibling s v = some (c', size) → s' = enterState c' (reactState size { s with iter := it }) → PieceStep d names subs s s' (.command c' t)
  | closed {o : OptData} {v : Str} {r : Reader} {x : Reading} {s3 : PState} : lineOf s = .mixed r → r.readIn d.settings.optionStyle = some x →
      IsFlag d.settings.optionStyle x.flag → names s.command x.flag o → x.valueFor o = some v → o.type = .lastArgument → CheckOk s3 →
      s3.stack = (storeState (occWrite o v) s).stack → s3.counter = s.counter → s3.command = s.command →
      (∃ p ps, findMultiParent s.stack = some (p :: ps) ∧ s'.command = p.command) → lineOf s' = .plain (x.plainBy o) → s'.mode = .argumentsOnly → s'.counter = {} →
      PieceStep d names subs s s' (.option o (some v))

theorem findMultiParent_store {s3 s : PState} {w : Option Write} (h : s3.stack = (storeState w s).stack) :
    (findMultiParent s3.stack).map (·.map (·.command)) = (findMultiParent s.stack).map (·.map (·.command)) := by
  have key : ∀ l l' : List PNode, l.map (·.command) = l'.map (·.command) →
      (findMultiParent.go l).map (·.map (·.command)) = (findMultiParent.go l').map (·.map (·.command)) := by
    intro l
    induction l with
    | nil => intro l' h; cases l' with
      | nil => rfl
      | cons _ _ => simp at h
    | cons p l ih =>
      intro l' h
      cases l' with
      | nil => simp at h
      | cons p' l' =>
        simp only [List.map_cons, List.cons.injEq] at h
        unfold findMultiParent.go
        rw [h.1]
        split
        · simp [h.1, h.2]
        · exact ih l' h.2
  have hc := storeState_commands w s
  rw [← h] at hc
  cases h1 : s3.stack with
  | nil => rw [h1] at hc; cases h2 : s.stack with
    | nil => rfl
    | cons _ _ => rw [h2] at hc; simp at hc
  | cons p l =>
    cases h2 : s.stack with
    | nil => rw [h1, h2] at hc; simp at hc
    | cons p' l' =>
      rw [h1, h2] at hc
      simp only [List.map_cons, List.cons.injEq] at hc
      exact key l l' hc.2

theorem findSibling_iter (s : PState) (it : Iter) (v : Str) : findSibling { s with iter := it } v = findSibling s v := rfl

theorem Step.pieceStep {env : Env} (hp : env.Passive) (hru : RulesMany d names subs) {s s' : PState} (hg : Good d s)
    (htm : (lineOf s).Tame d.settings.optionStyle) {r : IterResult}
    (h : Step env s (.ok r) s') (hr : ¬ r.IsLast) (hns : ∀ o v, r = .option o v → ¬ EndsParsing o) : PieceStep d names subs s s' r := by
  have herr : ∀ {msg t}, ErrorRun msg t IterResult.error (.ok r) s' → False := by
    intro msg t he
    cases he with
    | error _ _ => exact hr trivial
  cases h with
  | afterDone _ => exact absurd trivial hr
  | finished _ _ => exact absurd trivial hr
  | unfinished _ _ he => exact (herr he).elim
  | unknownOption _ _ _ _ _ he => exact (herr he).elim
  | ignoredOption _ _ _ _ hi _ => rw [hg.settings, hru.options] at hi; simp at hi
  | @option it flag o _ _ ht hol hlk hrun =>
    have hname := (hru.lookup hg flag o).mp hlk
    have key : ∀ {s2 s3 : PState} {v : Str} {st : Bool} {w : Option Str}, OpRun o flag { s with iter := it } (.ok (some (v, st))) s2 →
        calls env o.callback ParserSettings.optionCallback (.opt o) o.valueId st (some v) s2 = (.ok w, s3) →
        w = some v ∧ lineOf s = .mixed s.iter.reader ∧ ∃ x, s.iter.reader.readIn d.settings.optionStyle = some x ∧ IsFlag d.settings.optionStyle x.flag ∧ names s.command x.flag o ∧
          x.valueFor o = some v ∧ s3.iter.reader = x.leftBy o ∧ (d.settings.optionStyle = .standard → s3.iter.plainOf = x.plainBy o) ∧ s3.mode = .argumentsAndOptions ∧
          s3.command = s.command ∧ s3.counter = s.counter ∧ s3.stack = (storeState (occWrite o v) s).stack := by
      intro s2 s3 v st w h1 h2
      obtain ⟨e1, e2, x, e3, e4, e5, e6, e7, e8⟩ := option_read hp hg htm ht hol h1 h2
      have hn : s.iter.next = .ok (some flag, it) := by
        rcases ht with ⟨_, h⟩ | ⟨h, _⟩
        · exact h
        · rw [OptionLike, h] at hol; simp at hol
      obtain ⟨x', f1, f2, _⟩ := Iter.read_some hg.iterOk hg.pfx hn
      rw [e3] at f1
      obtain rfl := Option.some.inj f1
      exact ⟨e1, e2, x, e3, e4, f2 ▸ hname, e5, e6, e7, e8, (near_option hg ht h1 h2).1.command, option_passive_counter hp hg ht h1 h2,
        (option_passive hp hg ht h1 h2).2⟩
    cases hrun with
    | noValue _ _ he => exact (herr he).elim
    | lastFails _ _ _ _ he => exact (herr he).elim
    | normal h1 h2 hty =>
      obtain ⟨rfl, e2, x, e3, e4, e5, e6, e7, e8, e9, e10, e11, _⟩ := key h1 h2
      refine .option ?_ e10 (by rw [e9]; simp) (by rw [e9]; simp) e11 (by rw [hty]; simp)
      rw [e2, lineOf_mixed e9, e7]
      exact .option e3 e4 e5 e6 hty
    | lastOption h1 h2 hty =>
      obtain ⟨rfl, e2, x, e3, e4, e5, e6, e7, e8, e9, e10, e11, _⟩ := key h1 h2
      refine .option ?_ e10 (by simp) (by simp) e11 (by rw [hty]; simp)
      rw [e2, lineOf_plain rfl]
      show Written d.settings.optionStyle names _ _ _ (.plain (Iter.plainOf _))
      rw [e8 (hru.last_standard hg.within e5 hty)]
      exact .lastOption e3 e4 e5 e6 hty
    | stopped _ _ ho _ _ => exact absurd ho (hns _ _ rfl)
    | @lastDone s2 s3 v st w it' h1 h2 hty hok hnm hre =>
      obtain ⟨rfl, e2, x, e3, e4, e5, e6, e7, e8, e9, e10, e11, e12⟩ := key h1 h2
      refine .option ?_ e10 (by simp [copyState, succState]) ?_ e11 ?_
      · rw [e2, lineOf_done rfl]
        show Written d.settings.optionStyle names _ _ _ (.closed it'.reader.rest)
        rw [hre.reader]
        show Written d.settings.optionStyle names _ _ _ (.closed s3.iter.reader.unread)
        rw [e7]
        exact .lastArgument e3 e4 e5 e6 hty
      · intro _
        refine hok.congr rfl rfl ?_
        intro n hn
        obtain ⟨m, hm, rfl⟩ := headMap_head hn
        simp only [succState, List.head?_map, Option.map_eq_some_iff] at hm
        obtain ⟨k, hk, rfl⟩ := hm
        exact ⟨k, hk, rfl, rfl⟩
      · intro _
        rw [findMultiParent_succ, Option.map_eq_none_iff] at hnm
        have := findMultiParent_store e12
        rw [hnm] at this
        simpa using this.symm
    | @lastMulti s2 s3 v st w sub h1 h2 hty hok hfm =>
      obtain ⟨rfl, e2, x, e3, e4, e5, e6, e7, e8, e9, e10, e11, e12⟩ := key h1 h2
      have hg3 : Good d (succState s3) := (near_option hg ht h1 h2).2.succ
      obtain ⟨a, pre, p, ps, f1, rfl, f3, f4⟩ := findMultiParent_some hfm
      have hre := (hg3.react f1 f3).2.1
      have hst : d.settings.optionStyle = .standard :=
        hru.closed_standard hg.within e5 hty (hg3.path.within p (by rw [f1]; simp)) f3
      have hfs : ∃ q qs, findMultiParent s.stack = some (q :: qs) ∧ p.command = q.command := by
        have h3 := findMultiParent_store e12
        rw [findMultiParent_succ] at hfm
        obtain ⟨m, hm, hmm⟩ := Option.map_eq_some_iff.mp hfm
        rw [hm] at h3
        simp only [Option.map_some] at h3
        obtain ⟨m', hm', hmm'⟩ := Option.map_eq_some_iff.mp h3.symm
        have : m'.map (·.command) = (p :: ps).map (·.command) := by
          rw [hmm', ← hmm, List.map_map]
          rfl
        cases m' with
        | nil => simp at this
        | cons q qs =>
          simp only [List.map_cons, List.cons.injEq] at this
          exact ⟨q, qs, hm', this.1.symm⟩
      obtain ⟨q, qs, g1, g2⟩ := hfs
      refine .closed e2 e3 e4 e5 e6 hty hok e12 e11 e10 ⟨q, qs, g1, ?_⟩ ?_ rfl rfl
      · rw [← g2]; exact hre
      · rw [lineOf_plain (by rfl)]
        show Line.plain (Iter.plainOf s3.iter) = _
        rw [e8 hst]
  | @command it arg cur c ht hno hcc hf hcur =>
    rw [hg.settings] at hf
    have hsub := (hru.subs _ hg.within arg c).mp hf
    refine .sub (it := it) ?_ rfl
    rw [lineOf_mixed (s := enterState c _) rfl]
    show Enters d.settings.optionStyle subs _ _ _ (.mixed it.reader)
    rcases ht.modes with hm | hm
    · obtain ⟨x, f1, f2, f3, f4, _⟩ := current_std hg ht hm hno
      rw [lineOf_mixed hm, f4]
      exact .command f1 f3 hcc (f2 ▸ hsub)
    · obtain ⟨f1, f2⟩ := plain_read hg htm ht hm
      rw [f1, f2]
      exact .plainCommand hcc hsub
  | unknownCommand _ _ _ _ he => exact (herr he).elim
  | @argument it arg _ _ ht hno hce hrun =>
    have hg' := (hg.taken ht).2.2
    cases hrun with
    | @sibling c size cur hf hcur =>
      refine .next (it := it) (v := arg) hce ?_ hf rfl
      rw [lineOf_mixed (s := enterState c _) rfl]
      show TakesText d.settings.optionStyle _ _ (.mixed it.reader)
      rcases ht.modes with hm | hm
      · obtain ⟨x, f1, f2, f3, f4, _⟩ := current_std hg ht hm hno
        rw [lineOf_mixed hm, f4, f2]
        exact .mixed f1 f3
      · obtain ⟨f1, f2⟩ := plain_read hg htm ht hm
        rw [f1, f2]
        exact .plain
    | @argument a ct w _ hf hn hcl =>
      obtain ⟨rfl, e⟩ := argument_passive hp hg ht hn hcl
      have hct := argument_passive_counter hp hg ht hn hcl
      have hg2 := hg'.arg (v := arg) hn
      obtain ⟨e1, k, rfl⟩ := calls_passive hp _ _ _ _ _ _ _ hg2.ne hg2.iterOk hcl
      have e2 : ∀ st', st' = argState a ct arg { s with iter := it } → st'.mode = s.mode ∧ st'.iter = it ∧ st'.command = s.command := by
        rintro _ rfl
        exact ⟨rfl, rfl, rfl⟩
      obtain ⟨g1, g2, g3⟩ := e2 _ rfl
      refine .argument ?_ g3 g1 ?_ ?_ hn hf ⟨it, ht, hno⟩
      · rcases ht.modes with hm | hm
        · obtain ⟨x, f1, f2, f3, f4, _⟩ := current_std hg ht hm hno
          rw [lineOf_mixed hm, lineOf_mixed (by exact g1.trans hm)]
          show Written d.settings.optionStyle names _ _ _ (.mixed it.reader)
          rw [f2, f4]
          exact .argument f1 f3 hce
        · obtain ⟨f1, f2⟩ := plain_read hg htm ht hm
          rw [f1, lineOf_plain (by exact g1.trans hm)]
          exact .plainArgument hce
      · rcases ht.modes with h | h <;> rw [h] <;> simp
      · rcases ht.modes with h | h <;> rw [h] <;> simp
    | ignored _ _ hi _ =>
      have : s.settings.ignoreUndefinedArguments = true := hi
      rw [hg.settings, hru.arguments] at this
      simp at this
    | tooMany _ _ _ he => exact (herr he).elim


/-! ### Naming a further sub-command -/

theorem several_go (l : List PNode) :
    (findMultiParent.go l).bind (fun l => l.head?.map (·.command)) = (l.map (·.command)).find? (·.multiCommand) := by
  induction l with
  | nil => rfl
  | cons p l ih =>
    unfold findMultiParent.go
    rw [List.map_cons, List.find?_cons]
    split
    · rename_i h
      rw [h]; rfl
    · rename_i h
      rw [Bool.eq_false_iff.mpr h]
      exact ih

theorem several_eq {stack : List PNode} {st : Open} (h : stack.map (·.command) = st.map Tree.command) :
    (findMultiParent stack).bind (fun l => l.head?.map (·.command)) = st.several := by
  unfold Open.several
  cases stack with
  | nil =>
    cases st with
    | nil => rfl
    | cons _ _ => simp at h
  | cons a l =>
    cases st with
    | nil => simp at h
    | cons t st =>
      simp only [List.map_cons, List.cons.injEq] at h
      rw [List.tail_cons, ← h.2]
      exact several_go l

theorem agrees_commands : ∀ {stack : List PNode} {st : Open}, Agrees stack st → stack.map (·.command) = st.map Tree.command := by
  intro stack
  induction stack with
  | nil => intro st h; rw [agrees_nil h]; rfl
  | cons n ns ih =>
    intro st h
    obtain ⟨l, ts, rest, rfl, _, _, h3⟩ := agrees_cons h
    rw [List.map_cons, List.map_cons, ih h3]
    rfl

theorem several_none {stack : List PNode} {st : Open} (h : Agrees stack st) (hm : findMultiParent stack = none) : st.several = none := by
  rw [← several_eq (agrees_commands h), hm]; rfl

theorem several_none_iff {stack : List PNode} {st : Open} (h : Agrees stack st) : findMultiParent stack = none ↔ st.several = none := by
  refine ⟨several_none h, ?_⟩
  intro hs
  rw [← several_eq (agrees_commands h)] at hs
  cases hm : findMultiParent stack with
  | none => rfl
  | some sub =>
    obtain ⟨a, pre, p, ps, _, rfl, _⟩ := findMultiParent_some hm
    rw [hm] at hs
    simp at hs

/-- Which texts name a further sub-command. -/
theorem sibling_iff (hru : RulesMany d names subs) {s : PState} {st : Open} (hcm : s.stack.map (·.command) = st.map Tree.command)
    (hset : s.settings = d.settings) (hw : ∀ n ∈ s.stack, n.command.Within d.command) (hc : s.counter.isComplete = true) (v : Str) (c' : Command) :
    (∃ size, findSibling s v = some (c', size)) ↔ NamesNext subs st v c' := by
  unfold NamesNext
  rw [← several_eq hcm]
  unfold findSibling
  rw [hc]
  cases hm : findMultiParent s.stack with
  | none => simp
  | some sub =>
    obtain ⟨a, pre, p, ps, e1, rfl, _⟩ := findMultiParent_some hm
    have hp := hw p (by rw [e1]; simp)
    simp only [Bool.not_true, Bool.false_eq_true, if_false, Option.bind_some, List.head?_cons, Option.map_some, Option.some.injEq,
      exists_eq_left', hset]
    rw [← hru.subs _ hp]
    constructor
    · rintro ⟨size, h⟩
      obtain ⟨x, h1, h2⟩ := Option.map_eq_some_iff.mp h
      cases h2
      exact h1
    · intro h
      exact ⟨ps.length + 1, by rw [h]; rfl⟩

theorem sibling_named (hru : RulesMany d names subs) {s : PState} (hg : Good d s) {st : Open} (ha : Agrees s.stack st) {v : Str} {c' : Command} {size : Nat}
    (h : findSibling s v = some (c', size)) : NamesNext subs st v c' := by
  refine (sibling_iff hru (agrees_commands ha) hg.settings (fun n hn => hg.path.within n hn) ?_ v c').mp ⟨size, h⟩
  exact (findSibling_some h).1

theorem agrees_back_some {stack : List PNode} {st : Open} (h : Agrees stack st) {sub : List PNode} (hm : findMultiParent stack = some sub) :
    ∃ st', st.back = some st' := by
  obtain ⟨a, pre, p, ps, e1, _, e3, e4⟩ := findMultiParent_some hm
  rw [e1] at h
  obtain ⟨st', h1, _⟩ := agrees_back h e3 e4
  exact ⟨st', h1⟩

/-! ### What the look-ahead knows -/

/-- In the state `s0` the arguments were counted, which gave the counter of the present state. -/
structure Foresees (s0 s : PState) (k : Nat) : Prop where
  told : Foretold s0
  same : SameCommand s0 s
  free : s0.counter.isComplete = true
  count : CountFrom s0 (minTotal s.command.arguments) s.mode s.iter k (ahead s0)
  inv : Inv (makeCountersN s.command.arguments (ahead s0)) (makeCountersN s.command.arguments (ahead s0)).length k s.counter

theorem foretold_of (hru : RulesMany d names subs) {s0 : PState} (hset : s0.settings = d.settings) (hw : s0.command.Within d.command)
    (hreg : ∀ q o, names s0.command q o → o.Regular ∧ IsFlag d.settings.optionStyle q) : Foretold s0 := by
  have hlk : ∀ q o, Parser.lookup s0 q = some o → names s0.command q o := by
    intro q o h
    unfold Parser.lookup at h
    rw [hset] at h
    exact (hru.names _ hw q o).mp h
  refine ⟨fun q o h => (hreg q o (hlk q o h)).1, ?_⟩
  intro arg h
  cases hq : Parser.lookup s0 arg with
  | none => rfl
  | some o =>
    exfalso
    have := (hreg arg o (hlk arg o hq)).2
    rw [hset] at h
    have h' := (isOption_iff arg _).mpr this
    rw [h] at h'
    simp at h'

theorem forCount_counted {args : List ArgData} (hr : requiresArgumentCount args = true) (n : Nat) :
    Inv (makeCountersN args n) (makeCountersN args n).length 0 (forCount args n) := by
  simp only [forCount, hr, Bool.not_true, Bool.false_eq_true, if_false, ofArgsN, skip]
  exact Inv.start _ _

theorem foresees_start (hru : RulesMany d names subs) {s0 s : PState} (hset : s0.settings = d.settings) (hw : s0.command.Within d.command)
    (hcb : Reckonable d names s0.command) (hr : requiresArgumentCount s0.command.arguments = true) (hit : s0.iter.Ok) (hfree : s0.counter.isComplete = true)
    (hm : s.mode = .argumentsAndOptions) (hi : s.iter = s0.iter) (hsc : SameCommand s0 s) (hct : s.counter = forCount s0.command.arguments (ahead s0)) :
    Foresees s0 s 0 := by
  obtain ⟨n, hn⟩ := countArguments_ok s0 hit
  refine ⟨foretold_of hru hset hw (hcb.options hr), hsc, hfree, ?_, ?_⟩
  · rw [hm, hi]
    have : ahead s0 = n := by unfold ahead; rw [hn]
    rw [this, hsc.command]
    unfold countArguments at hn
    rw [getMinMaxCount_eq] at hn
    exact ⟨_, hn⟩
  · rw [hct, hsc.command]
    exact forCount_counted hr _

theorem foresees_enter (hru : RulesMany d names subs) {t : PState} {c' : Command} (hg : Good d (enterState c' t))
    (hcb : Reckonable d names c') (hr : requiresArgumentCount c'.arguments = true) (hfree : t.counter.isComplete = true) :
    Foresees { t with stack := PNode.make c' :: t.stack, command := c' } (enterState c' t) 0 :=
  foresees_start hru hg.settings hg.within hcb hr hg.iterOk hfree rfl rfl ⟨rfl, rfl, rfl⟩ rfl

/-- The counter of a command without arguments has no need of any. -/
theorem countOk_nil {given : List ArgData} {ct : Counter} (h : CountOk [] given ct) : ct.isComplete = true := by
  obtain ⟨cs, fo, k, ⟨n, ⟨hr, _⟩ | ⟨_, rfl, rfl⟩⟩, _, _, hb, hi⟩ := h
  · simp [requiresArgumentCount, requiresArgumentCountLoop] at hr
  · unfold isComplete
    rcases hi with hi | ⟨_, hi⟩
    · have : ct.firstOptional = 0 := hi.fo
      simp [this]
    · have : ct.firstOptional ≤ ct.index := by omega
      simp [this]

/-- When the look-ahead ends at an argument, this is what it has counted. -/
theorem count_stops {s0 s : PState} (hpl : Foretold s0) (hsc : SameCommand s0 s) {arg : Str} {it : Iter} (ht : Taken s (some arg) it)
    (hno : ¬ OptionLike s arg) {lo k n : Nat} (hst : countStops s0 lo k arg = true) (hc : CountFrom s0 lo s.mode s.iter k n) : n = k := by
  rcases ht with ⟨hm, hn⟩ | ⟨hm, hn⟩
  · have hio : isOption arg s0.settings.optionStyle = false := by
      rw [← hsc.settings]
      cases hq : isOption arg s.settings.optionStyle with
      | false => rfl
      | true => exact absurd ⟨hm, hq⟩ hno
    have hlk := hpl.flags arg hio
    unfold Parser.lookup at hlk
    rw [hm] at hc
    obtain ⟨fuel, hc⟩ := hc
    cases fuel with
    | zero => simp [countLoop] at hc
    | succ fuel =>
      unfold countLoop at hc
      rw [hn] at hc
      simp only [hlk, hio, hst, Bool.false_eq_true, if_false, if_true] at hc
      exact (Outcome.ok.inj hc).symm
  · rw [hm] at hc
    obtain ⟨fuel, hc⟩ := hc
    cases fuel with
    | zero => simp [countArgsOnly] at hc
    | succ fuel =>
      unfold countArgsOnly at hc
      rw [hn] at hc
      simp only [hst, if_true] at hc
      exact (Outcome.ok.inj hc).symm

/-- Where the look-ahead ends at an argument of a command without sub-commands. -/
theorem countStops_iff (hru : RulesMany d names subs) {s0 s : PState} (hsc : SameCommand s0 s) (hfree : s0.counter.isComplete = true) (hg : Good d s) {st : Open}
    (ha : Agrees s.stack st) (hce : s.command.commands = []) (lo k : Nat) (v : Str) :
    countStops s0 lo k v = true ↔ lo ≤ k ∧ ∃ c', NamesNext subs st v c' := by
  have hcm : s0.stack.map (·.command) = st.map Tree.command := by rw [← hsc.stack]; exact agrees_commands ha
  have hw : ∀ n ∈ s0.stack, n.command.Within d.command := by
    intro n hn
    have : n.command ∈ s.stack.map (·.command) := by rw [hsc.stack]; exact List.mem_map_of_mem hn
    obtain ⟨m, hm, e⟩ := List.mem_map.mp this
    rw [← e]
    exact hg.path.within m hm
  have key := fun c' => sibling_iff hru hcm (hsc.settings.symm.trans hg.settings) hw hfree v c'
  unfold countStops
  rw [← hsc.command, hce]
  simp only [findCommand, List.find?_nil, Option.isSome_none, Bool.false_or, Bool.and_eq_true, decide_eq_true_eq]
  refine and_congr Iff.rfl ?_
  rw [Option.isSome_iff_exists]
  constructor
  · rintro ⟨⟨c', size⟩, h⟩
    exact ⟨c', (key c').mp ⟨size, h⟩⟩
  · rintro ⟨c', h⟩
    obtain ⟨size, h⟩ := (key c').mpr h
    exact ⟨_, h⟩

/-! ### What is accepted is well-formed -/

theorem argPieces_append (ps qs : List Piece) : argPieces (ps ++ qs) = argPieces ps + argPieces qs := by
  simp [argPieces]

theorem report_append (ps qs : List Piece) (bs : List ArgData) : ∀ as : List ArgData, as.length = argPieces ps →
    report (ps ++ qs) (as ++ bs) = report ps as ++ report qs bs := by
  induction ps with
  | nil => intro as h; simp [argPieces] at h; subst h; rfl
  | cons p ps ih =>
    intro as h
    cases p with
    | option o v =>
      show IterResult.option o (some v) :: report (ps ++ qs) (as ++ bs) = _
      rw [ih as h]; rfl
    | argument v =>
      cases as with
      | nil => simp [argPieces] at h
      | cons a as =>
        show IterResult.argument a (some v) :: report (ps ++ qs) (as ++ bs) = _
        rw [ih as (by simpa [argPieces] using h)]; rfl

theorem report_forget (ps : List Piece) : ∀ as : List ArgData, (report ps as).map forgetText = report ps as := by
  induction ps with
  | nil => intro as; rfl
  | cons p ps ih =>
    intro as
    cases p with
    | option o v => simp only [report, List.map_cons, ih]; rfl
    | argument v =>
      cases as with
      | nil => rfl
      | cons a as => simp only [report, List.map_cons, ih]; rfl

theorem written_snoc {c : Command} {l l1 l2 : Line} {ps : List Piece} {p : Piece} (h : WrittenAll d.settings.optionStyle names c l ps l1)
    (h2 : Written d.settings.optionStyle names c l1 p l2) : WrittenAll d.settings.optionStyle names c l (ps ++ [p]) l2 := by
  induction h with
  | nil => exact .cons h2 .nil
  | cons h _ ih => exact .cons h (ih h2)

theorem written_append {c : Command} {l l1 l2 : Line} {ps qs : List Piece} (h : WrittenAll d.settings.optionStyle names c l ps l1)
    (h2 : WrittenAll d.settings.optionStyle names c l1 qs l2) : WrittenAll d.settings.optionStyle names c l (ps ++ qs) l2 := by
  induction h with
  | nil => exact h2
  | cons h _ ih => exact .cons h (ih h2)

theorem kept_option {st : Open} {c : Command} {ps : List Piece} (h : Kept subs st c ps) (o : OptData) (v : Str) :
    Kept subs st c (ps ++ [.option o v]) := by
  intro before w after e hm c'
  rcases List.eq_nil_or_concat after with rfl | ⟨after, x, h0⟩
  · have := congrArg List.getLast? e
    simp at this
  · rw [h0, List.concat_eq_append, ← List.cons_append, ← List.append_assoc] at e
    have := List.append_inj' e rfl
    exact h before w after this.1 hm c'

theorem kept_argument {st : Open} {c : Command} {ps : List Piece} (h : Kept subs st c ps) {v : Str}
    (hv : minTotal c.arguments ≤ argPieces ps → ∀ c', ¬ NamesNext subs st v c') : Kept subs st c (ps ++ [.argument v]) := by
  intro before w after e hm c'
  rcases List.eq_nil_or_concat after with rfl | ⟨after, x, h0⟩
  · obtain ⟨e1, e2⟩ := List.append_inj' e rfl
    cases e2
    exact hv (e1 ▸ hm) c'
  · rw [h0, List.concat_eq_append, ← List.cons_append, ← List.append_assoc] at e
    have := List.append_inj' e rfl
    exact h before w after this.1 hm c'

theorem kept_nil (st : Open) (c : Command) : Kept subs st c [] := by
  intro before w after e
  simp at e

/-- The state `s` after the pieces `ps` of the line `l0` have been read, with the arguments `as`. -/
structure Midway (d : ParserData) (names : Command → Str → OptData → Prop) (subs : Command → Str → Command → Prop) (s : PState) (l0 : Line) (occs : List Occ)
    (ts : List (Tree (List Occ))) (rest : Open) (ps : List Piece) (as : List ArgData) : Prop where
  good : Good d s
  tame : (lineOf s).Tame d.settings.optionStyle
  written : WrittenAll d.settings.optionStyle names s.command l0 ps (lineOf s)
  args : as.length = argPieces ps
  agrees : Agrees s.stack (.node s.command (occs ++ (report ps as).filterMap occOf) ts :: rest)
  counted : Counted s.counter (.node s.command (occs ++ (report ps as).filterMap occOf) ts :: rest)
  kept : Kept subs (.node s.command occs ts :: rest) s.command ps
  fresh : argsGiven occs = []
  ended : s.mode = .done → CheckOk s ∧ Open.several (.node s.command occs ts :: rest) = none
  size : argPieces ps + lineSize (lineOf s) ≤ sizeMax
  foresees : requiresArgumentCount s.command.arguments = true → ∃ s0, Foresees s0 s (argPieces ps)

theorem _root_.Argos.Counter.Inv.last_served {cs : List (Nat × ArgData)} {k : Nat} {c : Counter} (h : Inv cs cs.length k c) (hc : c.isComplete = true)
    (h2 : 2 ≤ cs.length) : ∃ m, (cs.map (·.1)).getLast? = some m ∧ 0 < m := by
  obtain ⟨h1, _, hs⟩ := h
  rcases hs with ⟨rfl, _, _, rfl⟩ | ⟨pre, n, a, rest, pre', r, rfl, hi, hcs, hl, hr, hk, hk0, hkr⟩
  · simp at h2
  · unfold isComplete at hc
    rw [h1, hi, hcs] at hc
    simp only [List.length_append, List.length_cons, Bool.or_eq_true, decide_eq_true_eq, Bool.and_eq_true] at hc h2
    rcases hc with hc | ⟨hc, hc2⟩
    · omega
    · have : rest = [] := List.eq_nil_of_length_eq_zero (by omega)
      subst this
      refine ⟨n, by simp, ?_⟩
      by_cases hk' : k = 0
      · rw [hk0 hk'] at h2
        simp at h2
      · have := hkr (by omega)
        omega

theorem midway_given {occs : List Occ} {ps : List Piece} {as : List ArgData} (h0 : argsGiven occs = []) (has : as.length = argPieces ps) :
    argsGiven (occs ++ (report ps as).filterMap occOf) = as := by
  rw [argsGiven_append, h0, List.nil_append, report_occs ps as has]

theorem Midway.served {s : PState} {l0 : Line} {occs : List Occ} {ts : List (Tree (List Occ))} {rest : Open} {ps : List Piece} {as : List ArgData}
    (h : Midway d names subs s l0 occs ts rest ps as) (hmm : ∀ a ∈ s.command.arguments, a.minCount ≤ a.maxCount) (hc : s.counter.isComplete = true) :
    ServedBy s.command (argPieces ps) := by
  intro hn
  have hreq := (requires_iff _).mpr hn
  obtain ⟨s0, hf⟩ := h.foresees hreq
  have hi := hf.inv
  obtain ⟨m, hm, e⟩ := makeCountersN_shape s.command.arguments hmm (ahead s0)
  have hl : (makeCountersN s.command.arguments (ahead s0)).map (·.2) = s.command.arguments := by rw [e]; exact distribute_snd _ _
  have h2 : 2 ≤ s.command.arguments.length := by
    obtain ⟨before, a, after, e1, e2, _⟩ := hn
    rw [e1, List.length_append, List.length_cons]
    have := List.length_pos_iff.mpr e2
    omega
  have hlen : (makeCountersN s.command.arguments (ahead s0)).length = s.command.arguments.length := by
    rw [← congrArg List.length hl, List.length_map]
  have h3 := hi.count_complete hc
  rw [e, distribute_total _ hmm m hm] at h3
  rw [h3]
  refine (allotment_last (distribute_allot _ hmm m hm) ?_).mp ?_
  · intro h0
    rw [h0] at h2
    simp at h2
  · rw [← e]
    exact hi.last_served hc (by omega)

theorem Midway.countOk {s : PState} {l0 : Line} {occs : List Occ} {ts : List (Tree (List Occ))} {rest : Open} {ps : List Piece} {as : List ArgData}
    (h : Midway d names subs s l0 occs ts rest ps as) : CountOk s.command.arguments as s.counter := by
  obtain ⟨t, rst, e, hco⟩ := h.counted.active
  simp only [List.cons.injEq] at e
  obtain ⟨rfl, rfl⟩ := e
  simp only [Tree.command, Tree.data, midway_given h.fresh h.args] at hco
  exact hco

theorem completeWith_of {s : PState} (hck : CheckOk s) (hne : s.stack ≠ []) {occs : List Occ} {ts : List (Tree (List Occ))} {rest : Open} {c : Command}
    (hc : s.command = c) (ha : Agrees s.stack (.node c occs ts :: rest)) : CompleteWith c occs ts := by
  cases hs : s.stack with
  | nil => exact absurd hs hne
  | cons k ks =>
    rw [hs] at ha
    obtain ⟨l, ts', rst', f1, f2, f3, _⟩ := agrees_cons ha
    simp only [List.cons.injEq, Tree.node.injEq] at f1
    obtain ⟨⟨_, rfl, rfl⟩, rfl⟩ := f1
    constructor
    · intro o ho hop
      have := hck.mandatory k (by rw [hs]; rfl) o (by rw [hc]; exact ho) hop
      rw [f2, rawValues_has] at this
      exact this
    · rintro hreq rfl
      refine hck.subcommand k (by rw [hs]; rfl) (by rw [hc]; exact hreq) ?_
      simpa using f3

/-- An argument that is reported doesn't name a sub-command, unless there were too few arguments before it. -/
theorem Midway.keeps (hru : RulesMany d names subs) (hmm : CountsOk d.command) {s : PState} {l0 : Line} {occs : List Occ} {ts : List (Tree (List Occ))}
    {rest : Open} {ps : List Piece} {as : List ArgData} (h : Midway d names subs s l0 occs ts rest ps as) {a : ArgData} {ct : Counter}
    (hn : s.counter.nextArgument = (some a, ct)) {v : Str} (hf : findSibling s v = none) {it : Iter} (ht : Taken s (some v) it) (hno : ¬ OptionLike s v)
    (hce : s.command.commands = []) :
    minTotal s.command.arguments ≤ argPieces ps → ∀ c', ¬ NamesNext subs (.node s.command occs ts :: rest) v c' := by
  intro hmin c' hnm
  have hgs : s.stack.map (·.command) = List.map Tree.command (.node s.command occs ts :: rest) := (agrees_commands h.agrees).trans rfl
  have hcount := hmm _ h.good.within
  cases hr : requiresArgumentCount s.command.arguments with
  | false =>
    obtain ⟨cs, fo, k, ⟨n, ⟨hr', _⟩ | ⟨_, rfl, rfl⟩⟩, hk, hgv, hb, hi⟩ := h.countOk
    · rw [hr] at hr'; simp at hr'
    · obtain ⟨f1, f2, f3⟩ := ofArgs_complete_facts s.command.arguments hcount hr
      rcases hi with hi | ⟨_, hi⟩
      · have hlen : as.length = k := by
          rw [hgv, List.length_take, expand_length]; omega
        have hcomp := (hi.complete f1 f2).mpr (by rw [f3, ← hlen, h.args]; exact hmin)
        obtain ⟨size, e⟩ := (sibling_iff hru hgs h.good.settings (fun n hn => h.good.path.within n hn) hcomp v c').mpr hnm
        rw [e] at hf
        simp at hf
      · rw [next_full hi] at hn
        simp at hn
  | true =>
    obtain ⟨s0, hfs⟩ := h.foresees hr
    have hst := (countStops_iff hru hfs.same hfs.free h.good h.agrees hce (minTotal s.command.arguments) (argPieces ps) v).mpr ⟨hmin, c', hnm⟩
    have hk := count_stops hfs.told hfs.same ht hno hst hfs.count
    have hsz := h.size
    have htot := makeCountersN_total s.command.arguments hcount (by omega) (ahead s0)
    have hle := hfs.inv.le
    have : argPieces ps = total (makeCountersN s.command.arguments (ahead s0)) := by
      have := minTotal_le_maxTotal _ hcount
      omega
    obtain ⟨c2, e⟩ := hfs.inv.next_none this
    rw [hn] at e
    simp at e

theorem stack_node {s : PState} (hg : Good d s) {st : Open} (ha : Agrees s.stack st) :
    ∃ l ts rest, st = .node s.command l ts :: rest := by
  obtain ⟨n, ns, hs, hc⟩ := hg.head
  rw [hs] at ha
  obtain ⟨l, ts, rest, rfl, _⟩ := agrees_cons ha
  rw [hc]
  exact ⟨l, ts, rest, rfl⟩

theorem option_add {s : PState} {st : Open} (ha : Agrees s.stack st) {o : OptData} (hml : o.type = .lastArgument → findMultiParent s.stack = none) (v : Str) :
    st.step (.option o (some v)) = st.add (.option o v) := by
  by_cases hty : o.type = .lastArgument
  · have h1 := agrees_occWrite ha o v
    have h2 : findMultiParent (storeState (occWrite o v) s).stack = none := by
      rw [findMultiParent_none_iff, storeState_commands, ← findMultiParent_none_iff]
      exact hml hty
    have h3 := agrees_back_none h1 h2
    simp only [Open.step, Option.getD_some, h3, Option.getD_none]
    split <;> rfl
  · exact step_option _ _ _ hty

/-- A new segment begins. -/
theorem midway_new {s : PState} (hg : Good d s) (htm : (lineOf s).Tame d.settings.optionStyle) {occs : List Occ} {ts : List (Tree (List Occ))} {rest : Open}
    (ha : Agrees s.stack (.node s.command occs ts :: rest)) (hc : Counted s.counter (.node s.command occs ts :: rest)) (h0 : argsGiven occs = [])
    (hm : s.mode ≠ .done) (hsz : lineSize (lineOf s) ≤ sizeMax)
    (hf : requiresArgumentCount s.command.arguments = true → ∃ s0, Foresees s0 s 0) :
    Midway d names subs s (lineOf s) occs ts rest [] [] where
  good := hg
  tame := htm
  written := .nil
  args := rfl
  agrees := by simpa [report] using ha
  counted := by simpa [report] using hc
  kept := kept_nil _ _
  fresh := h0
  ended := fun h => absurd h hm
  size := by simpa [argPieces] using hsz
  foresees := hf

/-- What the parser reads to a successful end is well-formed. -/
theorem sound_many {env : Env} (hp : env.Passive) (hru : RulesMany d names subs) (hrd : Ready d) (hx : Exclusive d.command) (hmm : CountsOk d.command)
    (hcb : ∀ c : Command, c.Within d.command → Reckonable d names c) {s s1 s' : PState} {rs : List IterResult} (ht : Trace env s rs s1)
    (hl : ∀ r ∈ rs, ¬ r.IsLast) (hns : NoStop rs) (hd : next env s1 = (.ok .done, s')) {l0 : Line} {occs : List Occ} {ts : List (Tree (List Occ))}
    {rest : Open} {ps : List Piece} {as : List ArgData} (hmid : Midway d names subs s l0 occs ts rest ps as) :
    AcceptsMany d.settings.optionStyle names subs ServedBy (.node s.command occs ts :: rest) l0 (report ps as ++ rs.map forgetText) := by
  induction ht generalizing l0 occs ts rest ps as with
  | @nil s =>
    have hg := hmid.good
    have hstep := (next_good hrd hg hd).1
    have hend := (hstep.line_done hg hmid.tame).1
    have hck : CheckOk s := by
      rcases hstep.done_cases with ⟨hm, _⟩ | ⟨it, _, hok, _⟩
      · exact (hmid.ended hm).1
      · exact hok.congr rfl rfl (fun n hn => ⟨n, hn, rfl, rfl⟩)
    obtain ⟨ks, g1, g2⟩ := hmid.countOk.complete (hmm _ hg.within) hck.complete
    have hcw := completeWith_of hck hg.ne rfl hmid.agrees
    rw [List.map_nil, List.append_nil]
    rw [g2] at hcw ⊢
    refine .last hmid.written hend ?_ hmid.kept (hmid.args ▸ g1) (hmid.served (hmm _ hg.within) hck.complete) hcw
    intro x hx
    have hm : s.mode = .done := by
      rcases hstep.done_cases with ⟨hm, _⟩ | ⟨it, htk, _⟩
      · exact hm
      · rcases htk.modes with h | h
        · rw [lineOf_mixed h] at hx; cases hx
        · rw [lineOf_plain h] at hx; cases hx
    exact (hmid.ended hm).2
  | @cons s s2 s1 r rs hn ht ih =>
    have hg := hmid.good
    obtain ⟨hst, hg1⟩ := next_good hrd hg hn
    have hr := hl r (by simp)
    have ha1 := hst.agrees hp hg hr hmid.agrees
    have hc1 := hst.counted hp hx hg hr hmid.agrees hmid.counted
    have ih := fun {l0 occs ts rest ps as} => ih (l0 := l0) (occs := occs) (ts := ts) (rest := rest) (ps := ps) (as := as)
      (fun r hr => hl r (by simp [hr])) (fun o v hm => hns o v (by simp [hm])) hd
    have hia : d.settings.ignoreUndefinedArguments = false := hru.arguments
    cases hst.pieceStep hp hru hg hmid.tame hr (fun o v e => hns o v (by simp [e])) with
    | @option o v hw hcm _ hm1 hct hml =>
      rw [option_add hmid.agrees hml] at ha1 hc1
      have e2 : report (ps ++ [.option o v]) as = report ps as ++ [.option o (some v)] := by
        have := report_append ps [.option o v] [] as hmid.args
        simpa [report] using this
      have hmid2 : Midway d names subs s2 l0 occs ts rest (ps ++ [.option o v]) as := by
        refine ⟨hg1, written_tame hru hg.within hw hmid.tame, ?_, ?_, ?_, ?_, ?_, hmid.fresh, ?_, ?_, ?_⟩
        · rw [hcm]; exact written_snoc hmid.written hw
        · rw [argPieces_append]; exact hmid.args
        · rw [hcm, e2]
          simpa [Open.add, occOf] using ha1
        · rw [hcm, e2]
          simpa [Open.add, occOf] using hc1
        · rw [hcm]; exact kept_option hmid.kept o v
        · intro hm
          refine ⟨hm1 hm, ?_⟩
          have hlast : o.type = .lastArgument := by
            have key : ∀ {l l'}, Written d.settings.optionStyle names s.command l (.option o v) l' → (∃ x, l' = .closed x) → o.type = .lastArgument := by
              rintro l l' hw ⟨x, hx⟩
              cases hw with
              | option => cases hx
              | lastOption => cases hx
              | lastArgument => assumption
            exact key hw ⟨_, lineOf_done hm⟩
          rw [hcm]
          have hsn := several_none hmid.agrees (hml hlast)
          exact hsn
        · have := hw.size
          have := hmid.size
          rw [argPieces_append]
          omega
        · intro hreq
          rw [hcm] at hreq
          obtain ⟨s0, hf⟩ := hmid.foresees hreq
          obtain ⟨k1, k2⟩ := hst.follow hp hf.told hf.same hg (by rw [← hf.same.settings, hg.settings]; exact hia) hr (by simp) (by
            rintro o' v' e; cases e; exact hml) (by simp) hf.count
          refine ⟨s0, hf.told, k1, hf.free, ?_, ?_⟩
          · rw [hcm, argPieces_append]; exact k2
          · rw [hcm, hct, argPieces_append]; exact hf.inv
      have := ih hmid2
      rw [hcm, e2] at this
      simpa [forgetText] using this
    | @argument a v hw hcm hmo hme hmd hna hfs htk =>
      obtain ⟨it, htk, hno⟩ := htk
      have hce := hw.argument_leaf
      have hkeep := hmid.keeps hru hmm hna hfs htk hno hce
      have e2 : report (ps ++ [.argument v]) (as ++ [a]) = report ps as ++ [.argument a (some v)] :=
        report_append ps [.argument v] [a] as hmid.args
      have hmid2 : Midway d names subs s2 l0 occs ts rest (ps ++ [.argument v]) (as ++ [a]) := by
        refine ⟨hg1, written_tame hru hg.within hw hmid.tame, ?_, ?_, ?_, ?_, ?_, hmid.fresh, ?_, ?_, ?_⟩
        · rw [hcm]; exact written_snoc hmid.written hw
        · rw [argPieces_append, List.length_append, hmid.args]; rfl
        · rw [hcm, e2]
          simpa [Open.step, Open.add, occOf] using ha1
        · rw [hcm, e2]
          simpa [Open.step, Open.add, occOf] using hc1
        · rw [hcm]; exact kept_argument hmid.kept hkeep
        · intro hm
          rw [hmo] at hm
          exact absurd hm hmd
        · have := hw.size
          have := hmid.size
          rw [argPieces_append]
          omega
        · intro hreq
          rw [hcm] at hreq
          obtain ⟨s0, hf⟩ := hmid.foresees hreq
          have hns : countStops s0 (minTotal s.command.arguments) (argPieces ps) v = false := by
            cases hq : countStops s0 (minTotal s.command.arguments) (argPieces ps) v with
            | false => rfl
            | true =>
              obtain ⟨q1, c', q2⟩ := (countStops_iff hru hf.same hf.free hg hmid.agrees hce _ _ v).mp hq
              exact absurd q2 (hkeep q1 c')
          obtain ⟨k1, k2⟩ := hst.follow hp hf.told hf.same hg (by rw [← hf.same.settings, hg.settings]; exact hia) hr (by simp) (by simp)
            (by rintro a' v' e; cases e; exact hns) hf.count
          refine ⟨s0, hf.told, k1, hf.free, ?_, ?_⟩
          · rw [hcm, argPieces_append]; exact k2
          · rw [hcm, argPieces_append]
            by_cases hk : argPieces ps < total (makeCountersN s.command.arguments (ahead s0))
            · obtain ⟨a', c', q1, _, q3⟩ := hf.inv.next_some hk
              rw [hna] at q1
              simp only [Prod.mk.injEq] at q1
              rw [q1.2]
              exact q3
            · have := hf.inv.le
              obtain ⟨c', q⟩ := hf.inv.next_none (by omega)
              rw [hna] at q
              simp at q
      have := ih hmid2
      rw [hcm, e2] at this
      simpa [forgetText] using this
    | @sub c' t it hen hs' =>
      have hc := hen.commands_ne
      have h0 := hmid.written.no_arguments hc
      have has : as = [] := List.eq_nil_of_length_eq_zero (hmid.args.trans h0)
      subst has
      have hleaf : Open.isLeaf (.node s.command (occs ++ (report ps []).filterMap occOf) ts :: rest) = false := by
        simpa [Open.isLeaf, Tree.command] using hc
      simp only [Open.step, hleaf] at ha1 hc1
      have hcm : s2.command = c' := by rw [hs']; rfl
      subst hcm
      have hmid2 : Midway d names subs s2 (lineOf s2) [] [] (.node s.command (occs ++ (report ps []).filterMap occOf) ts :: rest) [] [] := by
        refine midway_new hg1 (hen.tame hmid.tame) ha1 hc1 rfl (by rw [hs']; simp [enterState]) ?_ ?_
        · have := hen.size
          have := hmid.size
          omega
        · intro hreq
          have hfree : s.counter.isComplete = true := by
            have := hmid.countOk
            rw [hx _ hg.within hc] at this
            exact countOk_nil this
          have hg1' := hg1
          rw [hs'] at hg1'
          have := foresees_enter hru hg1' (hcb _ hg1.within) hreq hfree
          rw [← hs'] at this
          exact ⟨_, this⟩
      have := ih hmid2
      exact .sub hmid.written hen this
    | @next c' t v size it hce htx hfs hs' =>
      have hcm : s2.command = c' := by rw [hs']; rfl
      subst hcm
      have hleaf : Open.isLeaf (.node s.command (occs ++ (report ps as).filterMap occOf) ts :: rest) = true := by
        simpa [Open.isLeaf, Tree.command] using hce
      obtain ⟨hcomp, a, pre, p, pst, q1, q2, q3, q4, q5⟩ := findSibling_some hfs
      have hagr := hmid.agrees
      rw [q1] at hagr
      obtain ⟨st', hb, _⟩ := agrees_back hagr q3 q4
      simp only [Open.step, hleaf, if_true, hb, Option.getD_some] at ha1 hc1
      obtain ⟨ks, g1, g2⟩ := hmid.countOk.complete (hmm _ hg.within) hcomp
      have hnm := sibling_named hru hg hmid.agrees hfs
      have hmid2 : Midway d names subs s2 (lineOf s2) [] [] st' [] [] := by
        refine midway_new hg1 (htx.tame hmid.tame) ha1 hc1 rfl (by rw [hs']; simp [enterState]) ?_ ?_
        · have := htx.size
          have := hmid.size
          omega
        · intro hreq
          have hg1' := hg1
          rw [hs'] at hg1'
          have := foresees_enter hru hg1' (hcb _ hg1.within) hreq rfl
          rw [← hs'] at this
          exact ⟨_, this⟩
      have := ih hmid2
      rw [g2] at hb ⊢
      exact .next hce hmid.written hmid.kept (hmid.args ▸ g1) (hmid.served (hmm _ hg.within) hcomp) (htx.goesOn hnm) hb this
    | @closed o v r x s3 hlr hrd' hfl hnm hvf hty hck hs3 hct hcm3 hpp hl2 hmo hct2 =>
      obtain ⟨p, pst, q1, q2⟩ := hpp
      have hadd := agrees_occWrite hmid.agrees o v
      have hfm : ∃ sub, findMultiParent (storeState (occWrite o v) s).stack = some sub := by
        cases hq : findMultiParent (storeState (occWrite o v) s).stack with
        | none =>
          rw [findMultiParent_none_iff, storeState_commands, ← findMultiParent_none_iff, q1] at hq
          simp at hq
        | some sub => exact ⟨sub, rfl⟩
      obtain ⟨sub, hfm⟩ := hfm
      obtain ⟨st', hb⟩ := agrees_back_some hadd hfm
      simp only [Open.step, Option.getD_some, hty, if_true, hb] at ha1 hc1
      obtain ⟨l, tsn, rst, rfl⟩ := stack_node hg1 ha1
      have hcmds : s2.command.commands ≠ [] := by
        obtain ⟨a, pre, p', ps', w1, w2, _⟩ := findMultiParent_some q1
        simp only [List.cons.injEq] at w2
        obtain ⟨rfl, rfl⟩ := w2
        have hpath := hg.path
        rw [w1] at hpath
        have := path_last a pre p pst hpath
        rw [q2]
        exact List.ne_nil_of_mem this
      have hnil := hx _ hg1.within hcmds
      have hmid2 : Midway d names subs s2 (lineOf s2) l tsn rst [] [] := by
        refine midway_new hg1 ?_ ha1 hc1 (hc1.none _ List.mem_cons_self hcmds) (by rw [hmo]; simp) ?_ ?_
        · rw [hl2]
          obtain ⟨a, pre, p', ps', w1, w2, w3, _⟩ := findMultiParent_some q1
          exact hru.closed_standard hg.within hnm hty (hg.path.within p' (by rw [w1]; simp)) w3
        · obtain ⟨h1, h2, h3, h4, h5⟩ := readIn_size hrd'
          have hsz := hmid.size
          rw [hlr] at hsz
          rw [hl2]
          show (x.plainBy o).length ≤ _
          unfold Reading.plainBy
          split
          · omega
          · rw [List.length_append]; omega
        · intro hreq
          rw [hnil] at hreq
          simp [requiresArgumentCount, requiresArgumentCountLoop] at hreq
      have := ih hmid2
      obtain ⟨ks, g1, g2⟩ := hmid.countOk.complete (hmm _ hg.within) (by rw [← hct]; exact hck.complete)
      have hcw := completeWith_of hck (by rw [hs3]; exact storeState_ne hg.ne) hcm3 (by rw [hs3]; exact hadd)
      have hw := hmid.written
      rw [hlr] at hw
      rw [hl2] at this
      simp only [List.map_cons, forgetText]
      rw [g2] at hb hcw ⊢
      exact .closed hw hmid.kept (hmid.args ▸ g1) (hmid.served (hmm _ hg.within) (by rw [← hct]; exact hck.complete)) hrd' hfl hnm hvf hty hcw hb this

/-! ### What is well-formed is accepted -/

/-- The counter gives these arguments to the pieces, and where it could do without more the text isn't one of those that must not be. -/
inductive Serves (free : Str → Prop) : Counter → List Piece → List ArgData → Counter → Prop
  | nil {ct : Counter} : Serves free ct [] [] ct
  | option {ct ct' : Counter} {ps : List Piece} {as : List ArgData} {o : OptData} {v : Str} : Serves free ct ps as ct' → Serves free ct (.option o v :: ps) as ct'
  | argument {ct ct1 ct' : Counter} {ps : List Piece} {as : List ArgData} {a : ArgData} {v : Str} : ct.nextArgument = (some a, ct1) →
      (ct.isComplete = true → free v) → Serves free ct1 ps as ct' → Serves free ct (.argument v :: ps) (a :: as) ct'

theorem Serves.length {free : Str → Prop} {ct ct' : Counter} {ps : List Piece} {as : List ArgData} (h : Serves free ct ps as ct') : as.length = argPieces ps := by
  induction h with
  | nil => rfl
  | option _ ih => exact ih
  | argument _ _ _ ih => simpa [argPieces] using ih

theorem serves_none (free : Str → Prop) (ct : Counter) : ∀ {ps : List Piece}, argPieces ps = 0 → Serves free ct ps [] ct := by
  intro ps
  induction ps with
  | nil => intro _; exact .nil
  | cons p ps ih =>
    intro h
    cases p with
    | option o v => exact .option (ih h)
    | argument v => simp [argPieces] at h

theorem serves_of_hands {free : Str → Prop} {cs : List (Nat × ArgData)} {fo : Nat} : ∀ {ps : List Piece} {ct ct' : Counter} {as : List ArgData} {k : Nat},
    Hands ct as ct' → as.length = argPieces ps → Inv cs fo k ct →
    (∀ before v after, ps = before ++ .argument v :: after → ∀ ct, Inv cs fo (k + argPieces before) ct → ct.isComplete = true → free v) →
    Serves free ct ps as ct' := by
  intro ps
  induction ps with
  | nil =>
    intro ct ct' as k hh hl hi hf
    have : as = [] := List.eq_nil_of_length_eq_zero hl
    subst this
    cases hh
    exact .nil
  | cons p ps ih =>
    intro ct ct' as k hh hl hi hf
    cases p with
    | option o v =>
      exact .option (ih hh hl hi (fun before w after e => by
        intro ct hi hc
        exact hf (.option o v :: before) w after (by rw [e]; rfl) ct hi hc))
    | argument v =>
      cases hh with
      | nil => simp [argPieces] at hl
      | @cons _ ct1 _ a as hn hh =>
        have hk : k < total cs := by
          have := hi.le
          apply Classical.byContradiction
          intro hk
          obtain ⟨c', e⟩ := hi.next_none (by omega)
          rw [hn] at e
          simp at e
        obtain ⟨a', c1, e1, _, e3⟩ := hi.next_some hk
        rw [hn] at e1
        simp only [Prod.mk.injEq] at e1
        obtain ⟨_, rfl⟩ := e1
        refine .argument hn (fun hc => hf [] v ps rfl ct (by simpa [argPieces] using hi) hc) (ih hh (by simpa [argPieces] using hl) e3 ?_)
        intro before w after e ct hi hc
        refine hf (.argument v :: before) w after (by rw [e]; rfl) ct ?_ hc
        have : argPieces (.argument v :: before) = 1 + argPieces before := by simp [argPieces, Nat.add_comm]
        rw [this, ← Nat.add_assoc]
        exact hi

/-- A counter that gives these arguments, and needs all of them. -/
def strictCounter (as : List ArgData) : Counter := { counters := as.map fun a => (1, a), firstOptional := (as.map fun a => (1, a)).length }

theorem strictCounter_serves (free : Str → Prop) {ps : List Piece} {as : List ArgData} (h : as.length = argPieces ps) :
    ∃ ct', Serves free (strictCounter as) ps as ct' ∧ ct'.isComplete = true := by
  have h0 := Inv.start (as.map fun a => (1, a)) (as.map fun a => (1, a)).length
  have ht : expand (as.map fun a => (1, a)) = as := by
    clear h0 h
    induction as with
    | nil => rfl
    | cons a as ih =>
      simp only [expand, List.map_cons, List.flatMap_cons] at ih ⊢
      rw [ih]
      rfl
  have htot : total (as.map fun a => (1, a)) = as.length := by rw [← expand_length, ht]
  obtain ⟨h1, h2⟩ := h0.hand as.length (by omega)
  rw [ht, List.drop_zero, List.take_length] at h1
  have hpos : ∀ (h : (as.map fun a => (1, a)).length - 1 < (as.map fun a => (1, a)).length), 0 < (as.map fun a => (1, a)).length →
      0 < ((as.map fun a => (1, a))[(as.map fun a => (1, a)).length - 1]).1 := by
    intro h _
    rw [List.getElem_map]
    exact Nat.one_pos
  have hcomp := fun {k c} (hi : Inv (as.map fun a => (1, a)) (as.map fun a => (1, a)).length k c) => hi.complete (Nat.le_refl _) hpos
  refine ⟨_, serves_of_hands (hand_hands h1) h h0 ?_, ?_⟩
  · intro before v after e ct hi hc
    have := (hcomp hi).mp hc
    rw [List.take_length, htot, h, e, argPieces_append] at this
    have h3 : argPieces (.argument v :: after) = 1 + argPieces after := by simp [argPieces, Nat.add_comm]
    omega
  · refine (hcomp h2).mpr ?_
    rw [List.take_length, htot]
    omega

theorem checkOk_with {s : PState} {c : Command} {occs : List Occ} {ts : List (Tree (List Occ))} {rest : Open} (ha : Agrees s.stack (.node c occs ts :: rest))
    (hcm : s.command = c) (hco : CompleteWith c occs ts) (hct : s.counter.isComplete = true) : CheckOk s := by
  refine ⟨?_, ?_, hct⟩
  · intro n hn o ho hop
    cases hs : s.stack with
    | nil => rw [hs] at hn; simp at hn
    | cons k ks =>
      rw [hs] at hn ha
      obtain rfl : k = n := by simpa using hn
      obtain ⟨l, ts', rst', f1, f2, _⟩ := agrees_cons ha
      simp only [List.cons.injEq, Tree.node.injEq] at f1
      rw [f2, ← f1.1.2.1, rawValues_has]
      exact hco.mandatory o (hcm ▸ ho) hop
  · intro n hn hr hsub
    cases hs : s.stack with
    | nil => rw [hs] at hn; simp at hn
    | cons k ks =>
      rw [hs] at hn ha
      obtain rfl : k = n := by simpa using hn
      obtain ⟨l, ts', rst', f1, f2, f3, _⟩ := agrees_cons ha
      simp only [List.cons.injEq, Tree.node.injEq] at f1
      obtain ⟨⟨_, rfl, rfl⟩, rfl⟩ := f1
      refine hco.subcommand (hcm ▸ hr) ?_
      rw [hsub] at f3
      simpa using f3.symm

theorem free_sibling (hru : RulesMany d names subs) {s : PState} (hg : Good d s) {st : Open} (ha : Agrees s.stack st) {v : Str}
    (h : s.counter.isComplete = true → ∀ c', ¬ NamesNext subs st v c') : findSibling s v = none := by
  cases hf : findSibling s v with
  | none => rfl
  | some x =>
    obtain ⟨c', size⟩ := x
    exact absurd (sibling_named hru hg ha hf) (h (findSibling_some hf).1 c')

/-- The pieces on a line are read one after the other. -/
theorem segment_pieces {env : Env} (hsi : env.Silent) (hru : RulesMany d names subs) (hrd : Ready d) {c : Command} {l l' : Line} {ps : List Piece}
    (hw : WrittenAll d.settings.optionStyle names c l ps l') {s : PState} (hg : Good d s) (htm : (lineOf s).Tame d.settings.optionStyle) (hcm : s.command = c) (hl : lineOf s = l) (hne : s.mode ≠ .error)
    {occs : List Occ} {ts : List (Tree (List Occ))} {rest : Open} (ha : Agrees s.stack (.node c occs ts :: rest))
    {as : List ArgData} {ct' : Counter} {free : Str → Prop} (hh : Serves free s.counter ps as ct')
    (hfree : ∀ v, free v → ∀ c', ¬ NamesNext subs (.node c occs ts :: rest) v c')
    (hcl : (∃ x, l' = .closed x) → Open.several (.node c occs ts :: rest) = none ∧ ct'.isComplete = true ∧ CompleteWith c (occs ++ (report ps as).filterMap occOf) ts) :
    ∃ s1, Trace env s (report ps as) s1 ∧ Good d s1 ∧ s1.command = c ∧ lineOf s1 = l' ∧ s1.counter = ct' ∧ s1.mode ≠ .error ∧
      Agrees s1.stack (.node c (occs ++ (report ps as).filterMap occOf) ts :: rest) := by
  have hp := hsi.passive
  induction hw generalizing s as occs with
  | nil =>
    cases hh
    exact ⟨s, .nil, hg, hcm, hl, rfl, hne, by simpa [report] using ha⟩
  | @cons l l1 l' p ps hw hws ih =>
    have hfun := hru.functional (c := s.command) hg.within
    subst hcm
    have hlu := fun {x o} h => (hru.lookup hg x o).mpr h
    have opt : ∀ (o : OptData) (v : Str), p = .option o v → (∃ w s', next env s = (.ok (.option o w), s') ∧ ((o.type = .lastArgument → findMultiParent s.stack = none) → s'.counter = s.counter)) →
        ¬ EndsParsing o → (o.type = .lastArgument → findMultiParent s.stack = none) → ∃ s1, Trace env s (report (p :: ps) as) s1 ∧ Good d s1 ∧ s1.command = s.command ∧ lineOf s1 = l' ∧ s1.counter = ct' ∧
          s1.mode ≠ .error ∧ Agrees s1.stack (.node s.command (occs ++ (report (p :: ps) as).filterMap occOf) ts :: rest) := by
      rintro o v rfl ⟨w, s', hn, hc⟩ hty hml
      obtain ⟨hst, hg1⟩ := next_good hrd hg hn
      have ha1 := hst.agrees hp hg (by simp [IterResult.IsLast]) ha
      cases hh with
      | option hh =>
      have hps := hst.pieceStep hp hru hg htm (by simp [IterResult.IsLast]) (by rintro o' v' h; cases h; exact hty)
      generalize hr : IterResult.option o w = r at hps
      cases hps with
      | argument => cases hr
      | sub => cases hr
      | next => cases hr
      | closed _ _ _ _ _ hty' _ _ _ _ hpp =>
        cases hr
        obtain ⟨_, _, e, _⟩ := hpp
        rw [hml hty'] at e
        simp at e
      | @option _ v' hw' hcm' hme _ hct' =>
        cases hr
        rw [hl] at hw'
        obtain ⟨e, rfl⟩ := hw.unique hfun hw'
        cases e
        rw [option_add ha hml] at ha1
        obtain ⟨s1, g1, g2, g3, g4, g5, g6, g7⟩ := ih hg1 (written_tame hru hg.within hw' (hl ▸ htm)) hcm' rfl hme ha1 (by rw [hct']; exact hh) hfree (by
          intro h
          obtain ⟨j1, j2, j3⟩ := hcl h
          exact ⟨j1, j2, by simpa [report, occOf] using j3⟩)
        exact ⟨s1, .cons hn g1, g2, g3, g4, g5, g6, by simpa [report, occOf] using g7⟩
    have arg : ∀ v, p = .argument v → (∃ it, Taken s (some v) it ∧ ¬ OptionLike s v) → s.command.commands = [] →
        ∃ s1, Trace env s (report (p :: ps) as) s1 ∧ Good d s1 ∧ s1.command = s.command ∧ lineOf s1 = l' ∧ s1.counter = ct' ∧
          s1.mode ≠ .error ∧ Agrees s1.stack (.node s.command (occs ++ (report (p :: ps) as).filterMap occOf) ts :: rest) := by
      rintro v rfl ⟨it, ht, hno⟩ hce
      cases hh with
      | @argument _ ct1 _ _ as a _ hna hf hh =>
        have hfs := free_sibling hru hg ha (fun hc => hfree v (hf hc))
        obtain ⟨w, s', hn, hc⟩ := argument_ok hsi hrd hg ht hno hce hna hfs
        obtain ⟨hst, hg1⟩ := next_good hrd hg hn
        have ha1 := hst.agrees hp hg (by simp [IterResult.IsLast]) ha
        have hps := hst.pieceStep hp hru hg htm (by simp [IterResult.IsLast]) (by rintro o' v' h; cases h)
        generalize hr : IterResult.argument a w = r at hps
        cases hps with
        | option => cases hr
        | sub => cases hr
        | next => cases hr
        | closed => cases hr
        | @argument a' v' hw' hcm' hmo hme hmd hct' _ _ =>
          cases hr
          rw [hl] at hw'
          obtain ⟨e, rfl⟩ := hw.unique hfun hw'
          cases e
          obtain ⟨s1, g1, g2, g3, g4, g5, g6, g7⟩ := ih hg1 (written_tame hru hg.within hw' (hl ▸ htm)) hcm' rfl (by rw [hmo]; exact hme) ha1 (by rw [hc]; exact hh) hfree (by
            intro h
            obtain ⟨j1, j2, j3⟩ := hcl h
            exact ⟨j1, j2, by simpa [report, occOf] using j3⟩)
          exact ⟨s1, .cons hn g1, g2, g3, g4, g5, g6, by simpa [report, occOf] using g7⟩
    cases hw with
    | option a1 a2 a3 a4 a5 =>
      have hty := not_ends (Or.inl a5)
      exact opt _ _ rfl (option_ok hsi hrd hg htm hl a1 a2 (hlu a3) a4 hty (by rw [a5]; simp)) hty (by rw [a5]; simp)
    | lastOption a1 a2 a3 a4 a5 =>
      have hty := not_ends (Or.inr (Or.inl a5))
      exact opt _ _ rfl (option_ok hsi hrd hg htm hl a1 a2 (hlu a3) a4 hty (by rw [a5]; simp)) hty (by rw [a5]; simp)
    | lastArgument a1 a2 a3 a4 a5 =>
      have hty := not_ends (Or.inr (Or.inr a5))
      obtain ⟨rfl, rfl⟩ := written_closed hws
      obtain ⟨k0, k1, k2⟩ := hcl ⟨_, rfl⟩
      refine opt _ _ rfl (option_ok hsi hrd hg htm hl a1 a2 (hlu a3) a4 hty ?_) hty (fun _ => (several_none_iff ha).mpr k0)
      intro _ s3 h1 h2 h3
      cases hh with
      | option hh =>
      cases hh
      refine checkOk_with (rest := rest) ?_ h3 k2 (by rw [h2]; exact k1)
      rw [h1]
      simpa [report, occOf, Open.add] using agrees_occWrite ha _ _
    | argument a1 a2 a3 =>
      obtain ⟨it, ht, hol, _⟩ := taken_mixed hg hl a1
      exact arg _ rfl ⟨it, ht, fun h => a2 (hol.mp h)⟩ a3
    | plainArgument a3 =>
      obtain ⟨it, ht⟩ := taken_plain hg htm hl
      refine arg _ rfl ⟨it, ht, ?_⟩ a3
      intro h
      have := (lineOf_plain_iff hl).1
      rw [h.1] at this
      simp at this

/-- The look-ahead follows the parser through the pieces. -/
theorem follow_pieces {env : Env} (hp : env.Passive) (hrd : Ready d) {s0 : PState} (hpl : Foretold s0)
    (hia : s0.settings.ignoreUndefinedArguments = false) {lo n : Nat} {ps : List Piece}
    (hml : ∀ o v, .option o v ∈ ps → o.type = .lastArgument → findMultiParent s0.stack = none) :
    ∀ {s s1 : PState} {as : List ArgData} {k : Nat}, as.length = argPieces ps → SameCommand s0 s → Good d s → Trace env s (report ps as) s1 →
    (∀ before v after, ps = before ++ .argument v :: after → countStops s0 lo (k + argPieces before) v = false) →
    CountFrom s0 lo s.mode s.iter k n → SameCommand s0 s1 ∧ CountFrom s0 lo s1.mode s1.iter (k + argPieces ps) n := by
  induction ps with
  | nil =>
    intro s s1 as k _ hsc hg ht _ hc
    cases ht
    exact ⟨hsc, by simpa [argPieces] using hc⟩
  | cons p ps ih =>
    intro s s1 as k hlen hsc hg ht hcs hc
    have ih := fun {s s1 as k} => ih (fun o v h => hml o v (by simp [h])) (s := s) (s1 := s1) (as := as) (k := k)
    cases p with
    | option o v =>
      cases ht with
      | cons hn ht =>
        obtain ⟨hst, hg1⟩ := next_good hrd hg hn
        obtain ⟨k1, k2⟩ := hst.follow hp hpl hsc hg hia (by simp [IterResult.IsLast]) (by simp) (by
          rintro o' v' e hty
          cases e
          exact hsc.multi (hml _ v (by simp) hty)) (by simp) hc
        exact ih (k := k) hlen k1 hg1 ht (fun before w after e => by
          have := hcs (.option o v :: before) w after (by rw [e]; rfl)
          exact this) k2
    | argument v =>
      cases as with
      | nil => simp [argPieces] at hlen
      | cons a as =>
        cases ht with
        | cons hn ht =>
          obtain ⟨hst, hg1⟩ := next_good hrd hg hn
          obtain ⟨k1, k2⟩ := hst.follow hp hpl hsc hg hia (by simp [IterResult.IsLast]) (by simp) (by simp) (by
            rintro a' v' e
            cases e
            have := hcs [] v ps rfl
            simpa [argPieces] using this) hc
          have e1 : ∀ qs : List Piece, argPieces (.argument v :: qs) = 1 + argPieces qs := by intro qs; simp [argPieces, Nat.add_comm]
          obtain ⟨j1, j2⟩ := ih (k := k + 1) (by simpa [argPieces] using hlen) k1 hg1 ht (fun before w after e => by
            have := hcs (.argument v :: before) w after (by rw [e]; rfl)
            rw [e1, ← Nat.add_assoc] at this
            exact this) k2
          refine ⟨j1, ?_⟩
          rw [e1, ← Nat.add_assoc]
          exact j2

/-- When the look-ahead meets an option after which nothing follows, this is what it has counted. -/
theorem count_closed {s0 s : PState} (hsc : SameCommand s0 s) {flag : Str} {o : OptData} {it : Iter} (hm : s.mode = .argumentsAndOptions)
    (hn : s.iter.next = .ok (some flag, it)) (hlk : lookup s flag = some o) (hty : o.type = .lastArgument) {lo k n : Nat}
    (hc : CountFrom s0 lo s.mode s.iter k n) : n = k := by
  rw [hsc.lookup] at hlk
  unfold Parser.lookup at hlk
  rw [hm] at hc
  obtain ⟨fuel, hc⟩ := hc
  cases fuel with
  | zero => simp [countLoop] at hc
  | succ fuel =>
    unfold countLoop at hc
    rw [hn] at hc
    simp only [hlk, hty] at hc
    split at hc <;> try simp at hc
    exact hc.symm

theorem written_last {c : Command} {l l' : Line} {ps : List Piece} (h : WrittenAll d.settings.optionStyle names c l ps l') {o : OptData} {v : Str}
    (hm : .option o v ∈ ps) (ht : o.type = .lastArgument) : ∃ x, l' = .closed x := by
  induction h with
  | nil => simp at hm
  | @cons l l1 l' p ps hw hws ih =>
    rcases List.mem_cons.mp hm with e | hm
    · subst e
      cases hw with
      | option _ _ _ _ h => rw [ht] at h; simp at h
      | lastOption _ _ _ _ h => rw [ht] at h; simp at h
      | lastArgument => exact ⟨_, (written_closed hws).2⟩
    · exact ih hm

/-- A command begins, or goes on after one of its sub-commands. -/
structure Begins (d : ParserData) (s : PState) (st : Open) (l : Line) : Prop where
  good : Good d s
  tame : l.Tame d.settings.optionStyle
  line : lineOf s = l
  mode : s.mode ≠ .error
  agrees : Agrees s.stack st
  size : lineSize l ≤ sizeMax
  counter : ∃ n, s.counter = forCount s.command.arguments n ∧
    (requiresArgumentCount s.command.arguments = true → ∃ s0, Foresees s0 s 0 ∧ n = ahead s0)

theorem Begins.command {s : PState} {c : Command} {occs : List Occ} {ts : List (Tree (List Occ))} {rest : Open} {l : Line}
    (h : Begins d s (.node c occs ts :: rest) l) : s.command = c := by
  obtain ⟨_, _, _, e⟩ := stack_node h.good h.agrees
  simp only [List.cons.injEq, Tree.node.injEq] at e
  exact e.1.1.symm

/-- The arguments of a command are read. -/
theorem segment_many {env : Env} (hsi : env.Silent) (hru : RulesMany d names subs) (hrd : Ready d) (hx : Exclusive d.command) (hmm : CountsOk d.command)
    (hcb : ∀ c : Command, c.Within d.command → Reckonable d names c) {s : PState} {c : Command} {occs : List Occ} {ts : List (Tree (List Occ))} {rest : Open}
    {l l' : Line} {ps : List Piece} {ks : List Nat} (hb : Begins d s (.node c occs ts :: rest) l)
    (hw : WrittenAll d.settings.optionStyle names c l ps l') (hk : Kept subs (.node c occs ts :: rest) c ps) (hal : IsAllotment c.arguments (argPieces ps) ks)
    (hsd : ServedBy c (argPieces ps)) (hcl : (∃ x, l' = .closed x) → Open.several (.node c occs ts :: rest) = none ∧
      CompleteWith c (occs ++ (report ps (handedOut c.arguments ks)).filterMap occOf) ts)
    (hend : ∀ s0 s1 : PState, Foretold s0 → s0.counter.isComplete = true → SameCommand s0 s1 → Good d s1 → s1.command = c → lineOf s1 = l' → c.commands = [] →
      Agrees s1.stack (.node c (occs ++ (report ps (handedOut c.arguments ks)).filterMap occOf) ts :: rest) →
      ∀ n, CountFrom s0 (minTotal c.arguments) s1.mode s1.iter (argPieces ps) n → n = argPieces ps) :
    ∃ s1, Trace env s (report ps (handedOut c.arguments ks)) s1 ∧ Good d s1 ∧ s1.command = c ∧ lineOf s1 = l' ∧ s1.counter.isComplete = true ∧
      s1.mode ≠ .error ∧ Agrees s1.stack (.node c (occs ++ (report ps (handedOut c.arguments ks)).filterMap occOf) ts :: rest) := by
  have hcm := hb.command
  subst hcm
  have hg := hb.good
  have hlen : (handedOut s.command.arguments ks).length = argPieces ps := handedOut_length hal
  obtain ⟨hmin, hmax⟩ := IsAllotment.totals hal
  have hn : argPieces ps ≤ sizeMax := by have := hw.size; have := hb.size; omega
  have hmm' := hmm _ hg.within
  obtain ⟨n, hct, hfo⟩ := hb.counter
  have htm : (lineOf s).Tame d.settings.optionStyle := by rw [hb.line]; exact hb.tame
  have hahead : requiresArgumentCount s.command.arguments = true → n = argPieces ps := by
    intro hr
    obtain ⟨s0, hfs, rfl⟩ := hfo hr
    have hce : s.command.commands = [] := by
      apply Classical.byContradiction
      intro h
      rw [hx _ hg.within h] at hr
      simp [requiresArgumentCount, requiresArgumentCountLoop] at hr
    obtain ⟨ct', h1, h2⟩ := strictCounter_serves (fun _ => False) hlen
    have hgF : Good d { s with counter := strictCounter (handedOut s.command.arguments ks) } :=
      hg.keep rfl rfl hg.iterOk rfl (Or.inl rfl) (Nat.le_refl _)
    obtain ⟨s1, g1, g2, g3, g4, g5, g6, g7⟩ := segment_pieces (s := { s with counter := strictCounter (handedOut s.command.arguments ks) })
      hsi hru hrd hw hgF htm rfl hb.line hb.mode hb.agrees h1 (fun _ h => h.elim) (fun h => ⟨(hcl h).1, h2, (hcl h).2⟩)
    obtain ⟨k1, k2⟩ := follow_pieces (s := { s with counter := strictCounter (handedOut s.command.arguments ks) }) (k := 0) hsi.passive hrd hfs.told
      (by rw [← hfs.same.settings, hg.settings]; exact hru.arguments) (by
        intro o v hm ht
        have := (several_none_iff hb.agrees).mpr (hcl (written_last hw hm ht)).1
        rw [findMultiParent_none_iff, hfs.same.stack, ← findMultiParent_none_iff] at this
        exact this) hlen ⟨hfs.same.command, hfs.same.settings, hfs.same.stack⟩ hgF g1 (by
        intro before v after e
        cases hq : countStops s0 (minTotal s.command.arguments) (0 + argPieces before) v with
        | false => rfl
        | true =>
          obtain ⟨q1, c', q2⟩ := (countStops_iff hru hfs.same hfs.free hg hb.agrees hce _ _ v).mp hq
          exact absurd q2 (hk before v after e (by omega) c')) hfs.count
    rw [Nat.zero_add] at k2
    exact hend s0 s1 hfs.told hfs.free k1 g2 g3 g4 hce g7 _ k2
  obtain ⟨ct', g1, g2⟩ := forCount_hands (m := n) hmm' hn hal (fun hr => ⟨hahead hr, hsd ((requires_iff _).mp hr)⟩)
  have hsv : Serves (fun v => ∀ c', ¬ NamesNext subs (.node s.command occs ts :: rest) v c') s.counter ps (handedOut s.command.arguments ks) ct' := by
    rw [hct]
    cases hr : requiresArgumentCount s.command.arguments with
    | false =>
      obtain ⟨f1, f2, f3⟩ := ofArgs_complete_facts s.command.arguments hmm' hr
      refine serves_of_hands (cs := makeCountersLoop (findFirstOptional s.command.arguments) s.command.arguments 0)
        (fo := findFirstOptional s.command.arguments) (k := 0) g1 hlen ?_ ?_
      · simp only [forCount, hr, Bool.not_false, if_true, ofArgs]
        exact Inv.start _ _
      · intro before v after e ct hi hc
        have := (hi.complete f1 f2).mp hc
        rw [f3] at this
        exact hk before v after e (by omega)
    | true =>
      have hnn := hahead hr
      refine serves_of_hands (k := 0) g1 hlen (forCount_counted hr n) ?_
      intro before v after e ct hi hc
      exfalso
      have h1 := hi.count_complete hc
      have htot := makeCountersN_total s.command.arguments hmm' (by omega) n
      have h3 : argPieces ps = argPieces before + (1 + argPieces after) := by
        rw [e, argPieces_append]
        simp [argPieces, Nat.add_comm]
      omega
  obtain ⟨s1, j1, j2, j3, j4, j5, j6, j7⟩ := segment_pieces hsi hru hrd hw hg htm rfl hb.line hb.mode hb.agrees hsv (fun _ h => h)
    (fun h => ⟨(hcl h).1, g2, (hcl h).2⟩)
  exact ⟨s1, j1, j2, j3, j4, by rw [j5]; exact g2, j6, j7⟩

/-- A further sub-command is entered. -/
theorem sibling_ok {env : Env} (hrd : Ready d) {s : PState} (hg : Good d s) {arg : Str} {it : Iter}
    (ht : Taken s (some arg) it) (hno : ¬ OptionLike s arg) (hce : s.command.commands = []) {c' : Command} {size : Nat}
    (hf : findSibling s arg = some (c', size)) : ∃ t s', next env s = (.ok (.command c' t), s') := by
  have hst := next_step env s hg.iterOk hg.ne (hg.cmdReady hrd)
  generalize hq : next env s = q at hst
  obtain ⟨q, s'⟩ := q
  simp only at hst
  cases hst with
  | afterError h => rcases ht.modes with hm | hm <;> rw [hm] at h <;> simp at h
  | afterDone h => rcases ht.modes with hm | hm <;> rw [hm] at h <;> simp at h
  | finished h _ => exact absurd (ht.unique h).1 (by simp)
  | unfinished h _ _ => exact absurd (ht.unique h).1 (by simp)
  | unknownOption h hol _ _ _ _ =>
    obtain ⟨e, rfl⟩ := ht.unique h
    obtain rfl := Option.some.inj e
    exact absurd hol hno
  | ignoredOption h hol _ _ _ _ =>
    obtain ⟨e, rfl⟩ := ht.unique h
    obtain rfl := Option.some.inj e
    exact absurd hol hno
  | option h hol _ _ =>
    obtain ⟨e, rfl⟩ := ht.unique h
    obtain rfl := Option.some.inj e
    exact absurd hol hno
  | command _ _ hcc _ _ => exact absurd hce hcc
  | unknownCommand _ _ hcc _ _ => exact absurd hce hcc
  | argument h _ _ hrun =>
    obtain ⟨e, rfl⟩ := ht.unique h
    obtain rfl := Option.some.inj e
    have hf : findSibling { s with iter := it } arg = some (c', size) := hf
    cases hrun with
    | sibling hf' _ =>
      rw [hf] at hf'
      simp only [Option.some.injEq, Prod.mk.injEq] at hf'
      obtain ⟨rfl, rfl⟩ := hf'
      exact ⟨_, _, rfl⟩
    | callThrow hf' => rw [hf] at hf'; simp at hf'
    | callExit hf' => rw [hf] at hf'; simp at hf'
    | argument hf' => rw [hf] at hf'; simp at hf'
    | ignored hf' => rw [hf] at hf'; simp at hf'
    | tooMany hf' => rw [hf] at hf'; simp at hf'

theorem GoesOnTo.takes {style : OptionStyle} {st : Open} {l l' : Line} {c' : Command} (h : GoesOnTo style subs st l c' l') :
    ∃ v, TakesText style l v l' ∧ NamesNext subs st v c' := by
  cases h with
  | command h1 h2 h3 => exact ⟨_, .mixed h1 h2, h3⟩
  | plainCommand h => exact ⟨_, .plain, h⟩

theorem TakesText.unique {style : OptionStyle} {l l1 l2 : Line} {v w : Str} (h1 : TakesText style l v l1) (h2 : TakesText style l w l2) : v = w ∧ l1 = l2 := by
  cases h1 with
  | mixed a1 _ =>
    cases h2 with
    | mixed b1 _ =>
      rw [a1] at b1
      obtain rfl := Option.some.inj b1
      exact ⟨rfl, rfl⟩
  | plain => cases h2 with | plain => exact ⟨rfl, rfl⟩

theorem TakesText.taken {s : PState} (hg : Good d s) (htm : (lineOf s).Tame d.settings.optionStyle) {v : Str} {l : Line}
    (h : TakesText d.settings.optionStyle (lineOf s) v l) : ∃ it, Taken s (some v) it ∧ ¬ OptionLike s v := by
  generalize hl : lineOf s = l0 at h
  cases h with
  | mixed a1 a2 =>
    obtain ⟨it, ht, hol, _⟩ := taken_mixed hg hl a1
    exact ⟨it, ht, fun h => a2 (hol.mp h)⟩
  | plain =>
    obtain ⟨it, ht⟩ := taken_plain hg htm hl
    refine ⟨it, ht, ?_⟩
    intro h
    have := (lineOf_plain_iff hl).1
    rw [h.1] at this
    simp at this

theorem begins_enter (hru : RulesMany d names subs) (hcb : ∀ c : Command, c.Within d.command → Reckonable d names c) {c' : Command} {t : PState} {st : Open}
    (hg : Good d (enterState c' t)) (htm : (lineOf (enterState c' t)).Tame d.settings.optionStyle) (ha : Agrees (enterState c' t).stack st)
    (hsz : lineSize (lineOf (enterState c' t)) ≤ sizeMax) (hfree : t.counter.isComplete = true) :
    Begins d (enterState c' t) st (lineOf (enterState c' t)) :=
  ⟨hg, htm, rfl, by simp [enterState], ha, hsz, _, rfl, fun hr => ⟨_, foresees_enter hru hg (hcb _ hg.within) hr hfree, rfl⟩⟩

theorem back_several {c : Command} {occs : List Occ} {ts : List (Tree (List Occ))} {rest st' : Open} (h : Open.back (.node c occs ts :: rest) = some st') :
    Open.several (.node c occs ts :: rest) ≠ none := by
  have go : ∀ (l : Open) (t : Tree (List Occ)) (st' : Open), Open.back.go t l = some st' → (l.map Tree.command).find? (·.multiCommand) ≠ none := by
    intro l
    induction l with
    | nil => intro t st' h; simp [Open.back.go] at h
    | cons q l ih =>
      intro t st' h
      obtain ⟨c, d, ts⟩ := q
      unfold Open.back.go at h
      split at h
      · rename_i hm
        simp [Tree.command, hm]
      · rename_i hm
        have := ih _ _ h
        simpa [Tree.command, List.find?_cons, hm] using this
  exact go _ _ _ h

theorem back_commands {t : Tree (List Occ)} {rest st' : Open} (h : Open.back (t :: rest) = some st') : ∀ c ∈ st'.map Tree.command, c ∈ rest.map Tree.command := by
  have go : ∀ (l : Open) (t : Tree (List Occ)) (st' : Open), Open.back.go t l = some st' → ∀ c ∈ st'.map Tree.command, c ∈ l.map Tree.command := by
    intro l
    induction l with
    | nil => intro t st' h; simp [Open.back.go] at h
    | cons q l ih =>
      intro t st' h c hc
      obtain ⟨cq, lq, tq⟩ := q
      simp only [Open.back.go] at h
      split at h
      · cases h
        simpa [Tree.command] using hc
      · exact List.mem_cons_of_mem _ (ih _ _ h c hc)
  exact go _ _ _ h

/-- What else must be true of the commands can be replaced by something weaker. -/
theorem _root_.Argos.Spec.AcceptsMany.weaken {style : OptionStyle} {P : Command → Prop} {ok ok' : Command → Nat → Prop}
    (hP : ∀ c q c', P c → subs c q c' → P c') (hok : ∀ c n, P c → ok c n → ok' c n)
    {st : Open} {l : Line} {rs : List IterResult} (h : AcceptsMany style names subs ok st l rs) (hst : ∀ c ∈ st.map Tree.command, P c) :
    AcceptsMany style names subs ok' st l rs := by
  induction h with
  | last hw he hse hk hal hsv hco => exact .last hw he hse hk hal (hok _ _ (hst _ (by simp [Tree.command])) hsv) hco
  | @sub c c' occs ts rest l l1 l2 ps rs hw hen _ ih =>
    refine .sub hw hen (ih ?_)
    have hc : P c := hst _ (by simp [Tree.command])
    intro x hx
    simp only [List.map_cons, List.mem_cons, Tree.command] at hx
    rcases hx with rfl | rfl | hx
    · cases hen with
      | command _ _ _ h => exact hP _ _ _ hc h
      | plainCommand _ h => exact hP _ _ _ hc h
    · exact hc
    · exact hst _ (by simp only [List.map_cons, List.mem_cons]; exact Or.inr hx)
  | @next c c' occs ts rest st' l l1 l2 ps ks rs hce hw hk hal hsv hgo hbk _ ih =>
    have hrest : ∀ x ∈ rest.map Tree.command, P x := fun x hx => hst _ (by simp only [List.map_cons, List.mem_cons]; exact Or.inr hx)
    refine .next hce hw hk hal (hok _ _ (hst _ (by simp [Tree.command])) hsv) hgo hbk (ih ?_)
    intro x hx
    simp only [List.map_cons, List.mem_cons, Tree.command] at hx
    rcases hx with rfl | hx
    · obtain ⟨q, m, hm, hs⟩ : ∃ q m, Open.several (.node c occs ts :: rest) = some m ∧ subs m q x := by
        cases hgo with
        | command _ _ h => obtain ⟨m, h⟩ := h; exact ⟨_, m, h⟩
        | plainCommand h => obtain ⟨m, h⟩ := h; exact ⟨_, m, h⟩
      exact hP _ _ _ (hrest _ (List.mem_of_find?_eq_some hm)) hs
    · exact hrest _ (back_commands hbk _ hx)
  | closed hw hk hal hsv h1 h2 h3 h4 h5 h6 hbk _ ih =>
    refine .closed hw hk hal (hok _ _ (hst _ (by simp [Tree.command])) hsv) h1 h2 h3 h4 h5 h6 hbk (ih ?_)
    intro x hx
    exact hst _ (by simp only [List.map_cons, List.mem_cons]; exact Or.inr (back_commands hbk _ hx))

/-- Every well-formed line is read to a successful end. -/
theorem complete_many {env : Env} (hsi : env.Silent) (hru : RulesMany d names subs) (hrd : Ready d) (hx : Exclusive d.command) (hmm : CountsOk d.command)
    (hcb : ∀ c : Command, c.Within d.command → Reckonable d names c) {st : Open} {l : Line} {rs : List IterResult}
    (hacc : AcceptsMany d.settings.optionStyle names subs ServedBy st l rs) {s : PState} (hb : Begins d s st l) :
    ∃ rs' s1 s', Trace env s rs' s1 ∧ next env s1 = (.ok .done, s') ∧ rs'.map forgetText = rs := by
  have hp := hsi.passive
  induction hacc generalizing s with
  | @last c occs ts rest l l' ps ks hw he hse hk hal hsv hco =>
    have hgoal := segment_many hsi hru hrd hx hmm hcb hb hw hk hal hsv (fun ⟨x, h⟩ => ⟨hse x h, hco⟩) ?_
    · obtain ⟨s1, g1, g2, g3, g4, g5, g6, g7⟩ := hgoal
      have hwc := hb.command
      have htm := writtenAll_tame hru (hwc ▸ hb.good.within) hw hb.tame
      obtain ⟨s', h⟩ := end_ok (env := env) hrd g2 (by rw [g4]; exact htm) (by rw [g4]; exact he) g6 (fun _ => checkOk_with g7 g3 hco g5)
      exact ⟨_, s1, s', g1, h, report_forget _ _⟩
    · intro s0 s1 hf0 _ hsc hg1 hcm hl1 _ _ n hcf
      have hwc := hb.command
      have htm := writtenAll_tame hru (hwc ▸ hb.good.within) hw hb.tame
      have ht : s1.mode = .done ∨ s1.mode = .error ∨ ∃ it, Taken s1 none it := by
        cases hl : lineOf s1 with
        | mixed r =>
          rw [hl] at hl1
          rw [← hl1] at he
          exact Or.inr (Or.inr (taken_mixed_none hg1 hl he))
        | plain x =>
          rw [hl] at hl1
          rw [← hl1] at he
          obtain ⟨it, h⟩ := taken_plain hg1 (by rw [hl, hl1]; exact htm) hl
          rw [show x = [] from he] at h
          exact Or.inr (Or.inr ⟨it, h⟩)
        | closed x =>
          cases hm : s1.mode with
          | done => exact Or.inl rfl
          | error => exact Or.inr (Or.inl rfl)
          | argumentsAndOptions => rw [lineOf_mixed hm] at hl; cases hl
          | argumentsOnly => rw [lineOf_plain hm] at hl; cases hl
      rcases ht with hm | hm | ⟨it, ht⟩
      · rw [hm] at hcf; exact hcf
      · rw [hm] at hcf; exact hcf.elim
      · exact ht.count_none hcf
  | @sub c c' occs ts rest l l1 l2 ps rs hw hen hacc ih =>
    have hwc := hb.command
    subst hwc
    have hg := hb.good
    have hc := hen.commands_ne
    have h0 := hw.no_arguments hc
    have htm := writtenAll_tame hru hg.within hw hb.tame
    obtain ⟨s1, g1, g2, g3, g4, g5, g6, g7⟩ := segment_pieces hsi hru hrd hw hg (by rw [hb.line]; exact hb.tame) rfl hb.line hb.mode hb.agrees
      (serves_none (fun _ => False) s.counter h0) (fun _ h => h.elim) (by
        rintro ⟨x, rfl⟩
        cases hen)
    have hnx : ∃ t s2, next env s1 = (.ok (.command c' t), s2) := by
      cases hen with
      | command a1 a2 a3 a4 =>
        obtain ⟨it, ht, hol, _⟩ := taken_mixed g2 g4 a1
        exact command_ok hrd g2 ht (fun h => a2 (hol.mp h)) (by rw [g3]; exact hc) (by rw [g3, g2.settings]; exact (hru.subs _ hg.within _ _).mpr a4)
      | plainCommand a3 a4 =>
        obtain ⟨it, ht⟩ := taken_plain g2 (g4 ▸ htm) g4
        refine command_ok hrd g2 ht ?_ (by rw [g3]; exact hc) (by rw [g3, g2.settings]; exact (hru.subs _ hg.within _ _).mpr a4)
        intro h
        have := (lineOf_plain_iff g4).1
        rw [h.1] at this
        simp at this
    obtain ⟨t, s2, hnx⟩ := hnx
    obtain ⟨hst, hg2⟩ := next_good hrd g2 hnx
    have ha2 := hst.agrees hp g2 (by simp [IterResult.IsLast]) g7
    have hleaf : Open.isLeaf (.node s.command (occs ++ List.filterMap occOf (report ps [])) ts :: rest) = false := by
      simpa [Open.isLeaf, Tree.command] using hc
    simp only [Open.step, hleaf] at ha2
    have hps := hst.pieceStep hp hru g2 (g4 ▸ htm) (by simp [IterResult.IsLast]) (by rintro o' v' h; cases h)
    generalize hr : IterResult.command c' t = r at hps
    cases hps with
    | option => cases hr
    | argument => cases hr
    | closed => cases hr
    | next hce => rw [g3] at hce; exact absurd hce hc
    | @sub c2 t2 it hen2 hs2 =>
      cases hr
      rw [g3, g4] at hen2
      have hl2 : lineOf s2 = l2 := hen2.line_unique hen
      have hfree : s1.counter.isComplete = true := by
        obtain ⟨n, hct, _⟩ := hb.counter
        rw [g5, hct, hx _ hg.within hc]
        exact countOk_nil (forCount_countOk [] n)
      have hb2 : Begins d s2 (.node c' [] [] :: .node s.command (occs ++ List.filterMap occOf (report ps [])) ts :: rest) l2 := by
        rw [← hl2]
        subst hs2
        refine begins_enter hru hcb hg2 (hl2 ▸ hen.tame htm) ha2 ?_ hfree
        rw [hl2]
        have := hen.size; have := hw.size; have := hb.size; omega
      obtain ⟨rs', s3, s', j1, j2, j3⟩ := ih hb2
      refine ⟨report ps [] ++ .command c' t :: rs', s3, s', g1.append (.cons hnx j1), j2, ?_⟩
      rw [List.map_append, List.map_cons, report_forget, j3]
      rfl
  | @next c c' occs ts rest st' l l1 l2 ps ks rs hce hw hk hal hsv hgo hbk hacc ih =>
    have hwc := hb.command
    have htm := writtenAll_tame hru (hwc ▸ hb.good.within) hw hb.tame
    obtain ⟨v, htx, hnm⟩ := GoesOnTo.takes hgo
    obtain ⟨hmin, _⟩ := IsAllotment.totals hal
    have hgoal := segment_many hsi hru hrd hx hmm hcb hb hw hk hal hsv (by
      rintro ⟨x, rfl⟩
      cases htx) ?_
    · obtain ⟨s1, g1, g2, g3, g4, g5, g6, g7⟩ := hgoal
      have htx1 := htx
      rw [← g4] at htx1
      obtain ⟨it, ht, hno⟩ := TakesText.taken g2 (by rw [g4]; exact htm) htx1
      obtain ⟨size, hfs⟩ := (sibling_iff hru ((agrees_commands g7).trans rfl) g2.settings (fun n hn => g2.path.within n hn) g5 v c').mpr hnm
      obtain ⟨t, s2, hnx⟩ := sibling_ok (env := env) hrd g2 ht hno (by rw [g3]; exact hce) hfs
      obtain ⟨hst, hg2⟩ := next_good hrd g2 hnx
      have ha2 := hst.agrees hp g2 (by simp [IterResult.IsLast]) g7
      have hleaf : Open.isLeaf (.node c (occs ++ List.filterMap occOf (report ps (handedOut c.arguments ks))) ts :: rest) = true := by
        simpa [Open.isLeaf, Tree.command] using hce
      simp only [Open.step, hleaf, if_true, hbk, Option.getD_some] at ha2
      have hps := hst.pieceStep hp hru g2 (by rw [g4]; exact htm) (by simp [IterResult.IsLast]) (by rintro o' v' h; cases h)
      generalize hr : IterResult.command c' t = r at hps
      cases hps with
      | option => cases hr
      | argument => cases hr
      | closed => cases hr
      | sub hen => have := hen.commands_ne; rw [g3] at this; exact absurd hce this
      | @next c2 t2 v2 size2 it2 hce2 htx2 hfs2 hs2 =>
        cases hr
        obtain ⟨rfl, rfl⟩ := htx1.unique htx2
        have hb2 : Begins d s2 (.node c' [] [] :: st') (lineOf s2) := by
          subst hs2
          refine begins_enter hru hcb hg2 (htx.tame htm) ha2 ?_ rfl
          have := htx.size; have := hw.size; have := hb.size; omega
        obtain ⟨rs', s3, s', j1, j2, j3⟩ := ih hb2
        refine ⟨_ ++ .command c' t :: rs', s3, s', g1.append (.cons hnx j1), j2, ?_⟩
        rw [List.map_append, List.map_cons, report_forget, j3]
        rfl
    · intro s0 s1 hf0 hfree hsc hg1 hcm hl1 hce ha1 n hcf
      subst hl1
      obtain ⟨it, ht, hno⟩ := TakesText.taken hg1 htm htx
      subst hcm
      refine count_stops hf0 hsc ht hno ?_ hcf
      exact (countStops_iff hru hsc hfree hg1 ha1 hce _ _ v).mpr ⟨hmin, c', hnm⟩
  | @closed c occs ts rest st' l r x ps ks o v rs hw hk hal hsv hrx hfl hnm hvf hty hco hbk hacc ih =>
    have hwc := hb.command
    have htm := writtenAll_tame hru (hwc ▸ hb.good.within) hw hb.tame
    have hends := not_ends (o := o) (Or.inr (Or.inr hty))
    have hgoal := segment_many hsi hru hrd hx hmm hcb hb hw hk hal hsv (by rintro ⟨x, h⟩; cases h) ?_
    · obtain ⟨s1, g1, g2, g3, g4, g5, g6, g7⟩ := hgoal
      obtain ⟨w, s2, hnx, _⟩ := option_ok hsi hrd g2 (by rw [g4]; exact htm) g4 hrx hfl ((hru.lookup g2 _ _).mpr (by rw [g3]; exact hnm)) hvf hends (by
        intro _ s3 h1 h2 h3
        refine checkOk_with (rest := rest) ?_ (h3.trans g3) hco (by rw [h2]; exact g5)
        rw [h1]
        simpa [Open.add] using agrees_occWrite g7 o v)
      obtain ⟨hst, hg2⟩ := next_good hrd g2 hnx
      have ha2 := hst.agrees hp g2 (by simp [IterResult.IsLast]) g7
      have hps := hst.pieceStep hp hru g2 (by rw [g4]; exact htm) (by simp [IterResult.IsLast]) (by rintro o' v' h; cases h; exact hends)
      generalize hr : IterResult.option o w = r at hps
      cases hps with
      | argument => cases hr
      | sub => cases hr
      | next => cases hr
      | option _ _ _ _ _ hml =>
        cases hr
        have hsn := several_none g7 (hml hty)
        have hbs := back_several hbk
        exact absurd hsn hbs
      | @closed _ v' r' x' s3 hl1 hrx' _ _ hvf' _ _ _ _ _ hpp hl2 hmo hct2 =>
        cases hr
        rw [g4] at hl1
        obtain rfl := Line.mixed.inj hl1
        rw [hrx] at hrx'
        obtain rfl := Option.some.inj hrx'
        rw [hvf] at hvf'
        obtain rfl := Option.some.inj hvf'
        simp only [Open.step, Option.getD_some, hty, if_true] at ha2
        have hcmds : s2.command.commands ≠ [] := by
          obtain ⟨p, pst, q1, q2⟩ := hpp
          obtain ⟨a, pre, p', ps', w1, w2, _⟩ := findMultiParent_some q1
          simp only [List.cons.injEq] at w2
          obtain ⟨rfl, rfl⟩ := w2
          have hpath := g2.path
          rw [w1] at hpath
          have := path_last a pre p pst hpath
          rw [q2]
          exact List.ne_nil_of_mem this
        have hnil := hx _ hg2.within hcmds
        have hb2 : Begins d s2 st' (.plain (x.plainBy o)) := by
          refine ⟨hg2, ?_, hl2, by rw [hmo]; simp, ?_, ?_, ?_⟩
          · obtain ⟨p, pst, q1, q2⟩ := hpp
            obtain ⟨a, pre, p', ps', w1, w2, w3, _⟩ := findMultiParent_some q1
            exact hru.closed_standard g2.within (g3 ▸ hnm) hty (g2.path.within p' (by rw [w1]; simp)) w3
          · have : Open.back (Open.add (.option o v) (.node c (occs ++ List.filterMap occOf (report ps (handedOut c.arguments ks))) ts :: rest)) = some st' := hbk
            rw [this] at ha2
            exact ha2
          · obtain ⟨h1, h2, h3, h4, h5⟩ := readIn_size hrx
            have := hw.size
            have := hb.size
            show (x.plainBy o).length ≤ _
            unfold Reading.plainBy
            split
            · omega
            · rw [List.length_append]; omega
          · refine ⟨0, ?_, ?_⟩
            · rw [hct2, hnil]; rfl
            · intro hreq
              rw [hnil] at hreq
              simp [requiresArgumentCount, requiresArgumentCountLoop] at hreq
        obtain ⟨rs', s3, s', j1, j2, j3⟩ := ih hb2
        refine ⟨_ ++ .option o (some v) :: rs', s3, s', g1.append (.cons hnx j1), j2, ?_⟩
        rw [List.map_append, List.map_cons, report_forget, j3]
        rfl
    · intro s0 s1 hf0 hfree hsc hg1 hcm hl1 hce ha1 n hcf
      obtain ⟨it, ht, _⟩ := taken_mixed hg1 hl1 hrx
      have hm := (lineOf_mixed_iff hl1).1
      have hn : s1.iter.next = .ok (some x.flag, it) := by
        rcases ht with ⟨_, h⟩ | ⟨h, _⟩
        · exact h
        · rw [hm] at h; simp at h
      exact count_closed hsc hm hn ((hru.lookup hg1 _ _).mpr (by rw [hcm]; exact hnm)) hty hcf

end
end Parser
end Argos
