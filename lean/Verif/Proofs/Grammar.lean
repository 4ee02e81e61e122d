import Verif.Proofs.Ahead
import Verif.Proofs.LineFacts
import Verif.Proofs.Counted
import Verif.Proofs.Given
import Verif.Props.Counts
import Verif.Spec.Grammar

/-! # The grammar of command lines and the parser -/

namespace Argos
open Spec

namespace Parser
open ParserM Counter

/-- The assumptions about the parser: the STANDARD style or no LAST_OPTION options, nothing is ignored, no command allows several
sub-commands; options and sub-commands are found by these rules. -/
structure Rules (d : ParserData) (names : Command → Str → OptData → Prop) (subs : Command → Str → Command → Prop) : Prop where
  styled : d.settings.optionStyle = .standard ∨ ∀ c : Command, c.Within d.command → ∀ q o, names c q o → o.type ≠ .lastOption
  names : ∀ c : Command, c.Within d.command → ∀ q o,
    findOption c.optionIndex q d.settings.allowAbbreviatedOptions d.settings.caseInsensitive = some o ↔ names c q o
  subs : ∀ c : Command, c.Within d.command → ∀ q c', findCommand c.commands q d.settings.caseInsensitive = some c' ↔ subs c q c'
  single : ∀ c : Command, c.Within d.command → c.multiCommand = false
  options : d.settings.ignoreUndefinedOptions = false
  arguments : d.settings.ignoreUndefinedArguments = false

section
variable {names : Command → Str → OptData → Prop} {subs : Command → Str → Command → Prop} {d : ParserData}

theorem Rules.multi (h : Rules d names subs) {s : PState} (hg : Good d s) : findMultiParent s.stack = none := by
  rw [findMultiParent_none_iff]
  intro c hc
  rw [← List.map_tail] at hc
  obtain ⟨m, hm, rfl⟩ := List.mem_map.mp hc
  exact h.single _ (hg.path.within m (List.mem_of_mem_tail hm))

theorem Rules.lookup (h : Rules d names subs) {s : PState} (hg : Good d s) (q : Str) (o : OptData) :
    lookup s q = some o ↔ names s.command q o := by
  unfold Parser.lookup
  rw [hg.settings]
  exact h.names _ hg.within q o

theorem CheckOk.congr {s t : PState} (h : CheckOk s) (h1 : t.command = s.command) (h2 : t.counter = s.counter)
    (h3 : ∀ n, t.stack.head? = some n → ∃ m, s.stack.head? = some m ∧ n.values = m.values ∧ n.subs = m.subs) : CheckOk t := by
  refine ⟨?_, ?_, by rw [h2]; exact h.complete⟩
  · intro n hn
    obtain ⟨m, hm, e1, _⟩ := h3 n hn
    rw [h1]
    intro o ho hop
    rw [e1]
    exact h.mandatory m hm o ho hop
  · intro n hn hr
    obtain ⟨m, hm, _, e2⟩ := h3 n hn
    rw [e2]
    rw [h1] at hr
    exact h.subcommand m hm hr

theorem headMap_head {f : PNode → PNode} {l : List PNode} {n : PNode} (h : (headMap f l).head? = some n) : ∃ m, l.head? = some m ∧ n = f m := by
  cases l with
  | nil => simp [headMap] at h
  | cons m l =>
    simp only [headMap, List.head?_cons, Option.some.injEq] at h ⊢
    exact ⟨m, rfl, h.symm⟩

theorem tame_of_suffix {style : OptionStyle} {r r' : Reader} (h : r'.rest <:+ r.rest) (ht : (Line.mixed r).Tame style) : (Line.mixed r').Tame style :=
  ht.imp id fun ht hm => ht (h.subset hm)

theorem Rules.last_standard (hru : Rules d names subs) {c : Command} (hc : c.Within d.command) {q : Str} {o : OptData} (hn : names c q o)
    (ht : o.type = .lastOption) : d.settings.optionStyle = .standard := hru.styled.resolve_right fun h => h c hc q o hn ht

theorem _root_.Argos.Spec.Written.tame (hru : Rules d names subs) {c : Command} (hc : c.Within d.command) {l l' : Line} {p : Piece}
    (h : Written d.settings.optionStyle names c l p l') (ht : l.Tame d.settings.optionStyle) : l'.Tame d.settings.optionStyle := by
  cases h with
  | option hx _ _ _ _ => exact tame_of_suffix (leftBy_rest hx _) ht
  | lastOption _ _ hn _ hty => exact hru.last_standard hc hn hty
  | lastArgument _ _ _ _ _ => trivial
  | argument hx _ _ => exact tame_of_suffix (readIn_rest hx).1 ht
  | plainArgument _ => exact ht

theorem _root_.Argos.Spec.Enters.tame {c c' : Command} {l l' : Line} (h : Enters d.settings.optionStyle subs c l c' l')
    (ht : l.Tame d.settings.optionStyle) : l'.Tame d.settings.optionStyle := by
  cases h with
  | command hx _ _ _ => exact tame_of_suffix (readIn_rest hx).1 ht
  | plainCommand _ _ => exact Or.inl ht

theorem _root_.Argos.Spec.WrittenAll.tame (hru : Rules d names subs) {c : Command} (hc : c.Within d.command) {l l' : Line} {ps : List Piece}
    (h : WrittenAll d.settings.optionStyle names c l ps l') (ht : l.Tame d.settings.optionStyle) : l'.Tame d.settings.optionStyle := by
  induction h with
  | nil => exact ht
  | cons h _ ih => exact ih (h.tame hru hc ht)

/-- What a step of the parser means for the grammar. -/
theorem Step.piece {env : Env} (hp : env.Passive) (hru : Rules d names subs) {s s' : PState} (hg : Good d s)
    (htm : (lineOf s).Tame d.settings.optionStyle) {r : IterResult}
    (h : Step env s (.ok r) s') (hr : ¬ r.IsLast) (hns : ∀ o v, r = .option o v → ¬ EndsParsing o) :
    (∃ p, Written d.settings.optionStyle names s.command (lineOf s) p (lineOf s') ∧ s'.command = s.command ∧ s'.mode ≠ .error ∧ (s'.mode = .done → CheckOk s') ∧
      ((∃ o v, p = .option o v ∧ r = .option o (some v)) ∨ ∃ a v, p = .argument v ∧ r = .argument a (some v))) ∨
    ∃ c' t, r = .command c' t ∧ Enters d.settings.optionStyle subs s.command (lineOf s) c' (lineOf s') ∧ s'.command = c' ∧ s'.mode = .argumentsAndOptions ∧
      ∃ it, s' = enterState c' { s with iter := it } := by
  have herr : ∀ {msg t}, ErrorRun msg t IterResult.error (.ok r) s' → False := by
    intro msg t he
    cases he with
    | error _ _ => exact hr trivial
  have hm0 := hru.multi hg
  cases h with
  | afterDone _ => exact absurd trivial hr
  | finished _ _ => exact absurd trivial hr
  | unfinished _ _ he => exact (herr he).elim
  | unknownOption _ _ _ _ _ he => exact (herr he).elim
  | ignoredOption _ _ _ _ hi _ => rw [hg.settings, hru.options] at hi; simp at hi
  | @option it flag o _ _ ht hol hlk hrun =>
    have hname := (hru.lookup hg flag o).mp hlk
    left
    have key : ∀ {s2 s3 : PState} {v : Str} {st : Bool} {w : Option Str}, OpRun o flag { s with iter := it } (.ok (some (v, st))) s2 →
        calls env o.callback ParserSettings.optionCallback (.opt o) o.valueId st (some v) s2 = (.ok w, s3) →
        w = some v ∧ lineOf s = .mixed s.iter.reader ∧ ∃ x, s.iter.reader.readIn d.settings.optionStyle = some x ∧ IsFlag d.settings.optionStyle x.flag ∧ names s.command x.flag o ∧
          x.valueFor o = some v ∧ s3.iter.reader = x.leftBy o ∧ (d.settings.optionStyle = .standard → s3.iter.plainOf = x.plainBy o) ∧ s3.mode = .argumentsAndOptions ∧
          s3.command = s.command := by
      intro s2 s3 v st w h1 h2
      obtain ⟨e1, e2, x, e3, e4, e5, e6, e7, e8⟩ := option_read hp hg htm ht hol h1 h2
      have hn : s.iter.next = .ok (some flag, it) := by
        rcases ht with ⟨_, h⟩ | ⟨h, _⟩
        · exact h
        · rw [OptionLike, h] at hol; simp at hol
      obtain ⟨x', f1, f2, _⟩ := Iter.read_some hg.iterOk hg.pfx hn
      rw [e3] at f1
      obtain rfl := Option.some.inj f1
      exact ⟨e1, e2, x, e3, e4, f2 ▸ hname, e5, e6, e7, e8, (near_option hg ht h1 h2).1.command⟩
    cases hrun with
    | noValue _ _ he => exact (herr he).elim
    | lastFails _ _ _ _ he => exact (herr he).elim
    | normal h1 h2 hty =>
      obtain ⟨rfl, e2, x, e3, e4, e5, e6, e7, e8, e9, e10⟩ := key h1 h2
      refine ⟨_, ?_, e10, by rw [e9]; simp, by rw [e9]; simp, Or.inl ⟨_, _, rfl, rfl⟩⟩
      rw [e2, lineOf_mixed e9, e7]
      exact .option e3 e4 e5 e6 hty
    | lastOption h1 h2 hty =>
      obtain ⟨rfl, e2, x, e3, e4, e5, e6, e7, e8, e9, e10⟩ := key h1 h2
      refine ⟨_, ?_, e10, by simp, by simp, Or.inl ⟨_, _, rfl, rfl⟩⟩
      rw [e2, lineOf_plain rfl]
      show Written d.settings.optionStyle names _ _ _ (.plain (Iter.plainOf _))
      rw [e8 (hru.last_standard hg.within e5 hty)]
      exact .lastOption e3 e4 e5 e6 hty
    | stopped _ _ ho _ _ => exact absurd ho (hns _ _ rfl)
    | @lastDone s2 s3 v st w it' h1 h2 hty hok _ hre =>
      obtain ⟨rfl, e2, x, e3, e4, e5, e6, e7, e8, e9, e10⟩ := key h1 h2
      refine ⟨_, ?_, e10, by simp [copyState, succState], ?_, Or.inl ⟨_, _, rfl, rfl⟩⟩
      · rw [e2, lineOf_done rfl]
        show Written d.settings.optionStyle names _ _ _ (.closed it'.reader.rest)
        rw [hre.reader]
        show Written d.settings.optionStyle names _ _ _ (.closed s3.iter.reader.unread)
        rw [e7]
        exact .lastArgument e3 e4 e5 e6 hty
      · intro _
        refine hok.congr rfl rfl ?_
        intro n hn
        obtain ⟨m, hm, rfl⟩ := headMap_head hn
        simp only [succState, List.head?_map, Option.map_eq_some_iff] at hm
        obtain ⟨k, hk, rfl⟩ := hm
        exact ⟨k, hk, rfl, rfl⟩
    | lastMulti h1 h2 _ _ hfm =>
      have := hru.multi (near_option hg ht h1 h2).2.succ
      rw [this] at hfm
      simp at hfm
  | @command it arg cur c ht hno hcc hf hcur =>
    right
    rw [hg.settings] at hf
    have hsub := (hru.subs _ hg.within arg c).mp hf
    refine ⟨c, cur, rfl, ?_, rfl, rfl, it, rfl⟩
    rw [lineOf_mixed (s := enterState c _) rfl]
    show Enters d.settings.optionStyle subs _ _ _ (.mixed it.reader)
    rcases ht.modes with hm | hm
    · obtain ⟨x, f1, f2, f3, f4, _⟩ := current_std hg ht hm hno
      rw [lineOf_mixed hm, f4]
      exact .command f1 f3 hcc (f2 ▸ hsub)
    · obtain ⟨f1, f2⟩ := plain_read hg htm ht hm
      rw [f1, f2]
      exact .plainCommand hcc hsub
  | unknownCommand _ _ _ _ he => exact (herr he).elim
  | @argument it arg _ _ ht hno hce hrun =>
    left
    have hg' := (hg.taken ht).2.2
    cases hrun with
    | sibling hf _ => rw [findSibling_none (hru.multi hg')] at hf; simp at hf
    | @argument a ct w _ _ hn hcl =>
      obtain ⟨rfl, e⟩ := argument_passive hp hg ht hn hcl
      have hg2 := hg'.arg (v := arg) hn
      obtain ⟨e1, k, rfl⟩ := calls_passive hp _ _ _ _ _ _ _ hg2.ne hg2.iterOk hcl
      have e2 : ∀ st', st' = argState a ct arg { s with iter := it } → st'.mode = s.mode ∧ st'.iter = it ∧ st'.command = s.command := by
        rintro _ rfl
        exact ⟨rfl, rfl, rfl⟩
      obtain ⟨g1, g2, g3⟩ := e2 _ rfl
      refine ⟨.argument arg, ?_, g3, ?_, ?_, Or.inr ⟨a, arg, rfl, rfl⟩⟩
      · rcases ht.modes with hm | hm
        · obtain ⟨x, f1, f2, f3, f4, _⟩ := current_std hg ht hm hno
          rw [lineOf_mixed hm, lineOf_mixed (by exact g1.trans hm)]
          show Written d.settings.optionStyle names _ _ _ (.mixed it.reader)
          rw [f2, f4]
          exact .argument f1 f3 hce
        · obtain ⟨f1, f2⟩ := plain_read hg htm ht hm
          rw [f1, lineOf_plain (by exact g1.trans hm)]
          exact .plainArgument hce
      · intro hm
        have : s.mode = .error := g1.symm.trans hm
        rcases ht.modes with h | h <;> rw [h] at this <;> simp at this
      · intro hm
        have : s.mode = .done := g1.symm.trans hm
        rcases ht.modes with h | h <;> rw [h] at this <;> simp at this
    | ignored _ _ hi _ =>
      have : s.settings.ignoreUndefinedArguments = true := hi
      rw [hg.settings, hru.arguments] at this
      simp at this
    | tooMany _ _ _ he => exact (herr he).elim

theorem _root_.Argos.Spec.Enters.commands_ne {c c' : Command} {l l' : Line} (h : Enters d.settings.optionStyle subs c l c' l') : c.commands ≠ [] := by
  cases h <;> assumption

theorem _root_.Argos.Spec.Written.argument_leaf {c : Command} {l l' : Line} {v : Str} (h : Written d.settings.optionStyle names c l (.argument v) l') : c.commands = [] := by
  cases h <;> assumption

/-- A result that isn't a command only adds an occurrence. -/
theorem Rules.step_add (hru : Rules d names subs) {s : PState} (hg : Good d s) {st : Open} (ha : Agrees s.stack st) (o : OptData) (v : Str) :
    st.step (.option o (some v)) = st.add (.option o v) := by
  have h1 := agrees_occWrite ha o v
  have h2 : findMultiParent (storeState (occWrite o v) s).stack = none := by
    rw [findMultiParent_none_iff, storeState_commands, ← findMultiParent_none_iff]
    exact hru.multi hg
  have h3 := agrees_back_none h1 h2
  simp only [Open.step, Option.getD_some, h3, Option.getD_none]
  split <;> rfl

/-- The results up to the next command, or up to the end. -/
theorem _root_.Argos.Trace.segment {env : Env} (hp : env.Passive) (hru : Rules d names subs) (hrd : Ready d) (hx : Exclusive d.command)
    {s s1 : PState} {rs : List IterResult} (ht : Trace env s rs s1) (hg : Good d s) (htm : (lineOf s).Tame d.settings.optionStyle)
    (hl : ∀ r ∈ rs, ¬ r.IsLast) (hns : NoStop rs) (hm : s.mode = .done → CheckOk s) {occs : List Occ} {rest : Open} (ha : Agrees s.stack (.node s.command occs [] :: rest))
    (hc : Counted s.counter (.node s.command occs [] :: rest)) :
    (∃ ps as, rs = report ps as ∧ as.length = argPieces ps ∧ WrittenAll d.settings.optionStyle names s.command (lineOf s) ps (lineOf s1) ∧
      s1.command = s.command ∧ (s1.mode = .done → CheckOk s1) ∧ Good d s1 ∧ as = argsGiven (rs.filterMap occOf) ∧
      Agrees s1.stack (.node s.command (occs ++ rs.filterMap occOf) [] :: rest) ∧
      Counted s1.counter (.node s.command (occs ++ rs.filterMap occOf) [] :: rest)) ∨
    (∃ ps c' t rs2 sa sb rest', rs = report ps [] ++ .command c' t :: rs2 ∧ WrittenAll d.settings.optionStyle names s.command (lineOf s) ps (lineOf sa) ∧
      Enters d.settings.optionStyle subs s.command (lineOf sa) c' (lineOf sb) ∧ Trace env sb rs2 s1 ∧ Good d sb ∧ sb.command = c' ∧
      sb.mode = .argumentsAndOptions ∧ Agrees sb.stack (.node c' [] [] :: rest') ∧ Counted sb.counter (.node c' [] [] :: rest') ∧
      rs2.length < rs.length ∧ ∃ it, sb = enterState c' { sa with iter := it }) := by
  induction ht generalizing occs with
  | nil => exact Or.inl ⟨[], [], rfl, rfl, .nil, rfl, hm, hg, rfl, by simpa using ha, by simpa using hc⟩
  | @cons s s' s1 r rs hn ht ih =>
    obtain ⟨hst, hg1⟩ := next_good hrd hg hn
    have hr := hl r (by simp)
    have ha1 := hst.agrees hp hg hr ha
    have hc1 := hst.counted hp hx hg hr ha hc
    rcases hst.piece hp hru hg htm hr (fun o v e => hns o v (by simp [e])) with ⟨p, hw, hcm, _, hm1, hpr⟩ | ⟨c', t, rfl, hen, hcm, hm1, it, hs'⟩
    · have ih := fun occs => ih (occs := occs) hg1 (hw.tame hru hg.within htm) (fun r hr => hl r (by simp [hr])) (fun o v hm => hns o v (by simp [hm])) hm1
      rw [hcm] at ih
      rcases hpr with ⟨o, v, rfl, rfl⟩ | ⟨a, v, rfl, rfl⟩
      · rw [hru.step_add hg ha] at ha1 hc1
        rcases ih _ ha1 hc1 with ⟨ps, as, e1, e2, e3, e4, e5, e6, e7, e8, e9⟩ | ⟨ps, c', t, rs2, sa, sb, rest', e1, e2, e3, e4, e5, e6, e7, e8, e9, e10, e11⟩
        · left
          refine ⟨.option o v :: ps, as, by rw [e1]; rfl, e2, .cons hw e3, e4, e5, e6, ?_, ?_, ?_⟩
          · rw [e7]; rfl
          · simpa [occOf] using e8
          · simpa [occOf] using e9
        · right
          exact ⟨.option o v :: ps, c', t, rs2, sa, sb, rest', by rw [e1]; rfl, .cons hw e2, e3, e4, e5, e6, e7, e8, e9,
            by simp only [List.length_cons]; omega, e11⟩
      · rcases ih _ ha1 hc1 with ⟨ps, as, e1, e2, e3, e4, e5, e6, e7, e8, e9⟩ | ⟨ps, c', t, rs2, sa, sb, rest', e1, e2, e3, e4, e5, e6, e7, e8, e9, e10, e11⟩
        · left
          refine ⟨.argument v :: ps, a :: as, by rw [e1]; rfl, ?_, .cons hw e3, e4, e5, e6, ?_, ?_, ?_⟩
          · simp only [List.length_cons, e2, argPieces, List.filter_cons, if_true]
          · rw [e7]; rfl
          · simpa [occOf] using e8
          · simpa [occOf] using e9
        · exact absurd hw.argument_leaf e3.commands_ne
    · right
      have hleaf : Open.isLeaf (.node s.command occs [] :: rest) = false := by
        have := hen.commands_ne
        simpa [Open.isLeaf, Tree.command] using this
      simp only [Open.step, hleaf] at ha1 hc1
      exact ⟨[], c', t, rs, s, s', _, rfl, .nil, hen, ht, hg1, hcm, hm1, ha1, hc1, by simp, it, hs'⟩

theorem report_occs (ps : List Piece) : ∀ as : List ArgData, as.length = argPieces ps → argsGiven ((report ps as).filterMap occOf) = as := by
  induction ps with
  | nil => intro as h; simp [argPieces] at h; subst h; rfl
  | cons p ps ih =>
    intro as h
    cases p with
    | option o v => exact ih as h
    | argument v =>
      cases as with
      | nil => simp [argPieces] at h
      | cons a as =>
        have := ih as (by simpa [argPieces] using h)
        simp only [report, List.filterMap_cons, occOf, argsGiven] at this ⊢
        simpa using this

theorem rawValues_has (occs : List Occ) (id : Nat) : (rawValues occs).has id = true ↔ valuesOf occs id ≠ [] := by
  rw [Values.has_eq, ← getValues_rawValues]
  obtain ⟨h1, h2⟩ := exec_all (occs.flatMap Occ.writes) (vs := []) List.Pairwise.nil
  have : (rawValues occs).getValues id = (rawValues occs).entries id := Values.getValues_eq h1 id
  simp only [this]

theorem argsGiven_map_initial (os : List OptData) : argsGiven (os.map Occ.initial) = [] := by
  induction os with
  | nil => rfl
  | cons o os ih => simp [argsGiven]

/-- What the parser reads to a successful end is well-formed. -/
theorem sound {env : Env} (hp : env.Passive) (hru : Rules d names subs) (hrd : Ready d) (hx : Exclusive d.command) (hmm : CountsOk d.command)
    {s s1 s' : PState} {rs : List IterResult} (ht : Trace env s rs s1) (hg : Good d s) (htm : (lineOf s).Tame d.settings.optionStyle)
    (hl : ∀ r ∈ rs, ¬ r.IsLast) (hns : NoStop rs)
    (hd : next env s1 = (.ok .done, s')) (hm : s.mode = .argumentsAndOptions) {occs : List Occ} (h0 : argsGiven occs = []) {rest : Open}
    (ha : Agrees s.stack (.node s.command occs [] :: rest)) (hc : Counted s.counter (.node s.command occs [] :: rest)) :
    Accepts d.settings.optionStyle names subs s.command occs (lineOf s) (rs.map forgetText) := by
  induction hn : rs.length using Nat.strongRecOn generalizing rs s occs rest with
  | ind n ih =>
    rcases ht.segment hp hru hrd hx hg htm hl hns (by rw [hm]; simp) ha hc with
      ⟨ps, as, e1, e2, e3, e4, e5, e6, e7, e8, e9⟩ | ⟨ps, c', t, rs2, sa, sb, rest', e1, e2, e3, e4, e5, e6, e7, e8, e9, e10, _⟩
    · have hstep := (next_good hrd e6 hd).1
      have hend := (hstep.line_done e6 (e3.tame hru hg.within htm)).1
      have hck : CheckOk s1 := by
        rcases hstep.done_cases with ⟨hm, _⟩ | ⟨it, _, hok, _⟩
        · exact e5 hm
        · exact hok.congr rfl rfl (fun n hn => ⟨n, hn, rfl, rfl⟩)
      obtain ⟨⟨t, rst, e, hco⟩, _⟩ := e9
      simp only [List.cons.injEq] at e
      obtain ⟨rfl, rfl⟩ := e
      simp only [Tree.command, Tree.data, argsGiven_append, h0, List.nil_append, ← e7] at hco
      obtain ⟨ks, g1, g2⟩ := hco.complete (hmm _ hg.within) hck.complete
      have hrs : rs.map forgetText = rs := by
        have : ∀ (ps : List Piece) (as : List ArgData), (report ps as).map forgetText = report ps as := by
          intro ps
          induction ps with
          | nil => intro as; rfl
          | cons p ps ih =>
            intro as
            cases p with
            | option o v => simp only [report, List.map_cons, ih]; rfl
            | argument v =>
              cases as with
              | nil => rfl
              | cons a as => simp only [report, List.map_cons, ih]; rfl
        rw [e1, this]
      rw [hrs, e1, g2]
      obtain ⟨k, ks', hk1, hk2⟩ := e6.head
      refine .last e3 hend (e2 ▸ g1) ⟨?_, ?_⟩
      · intro o ho hop
        have := hck.mandatory k (by rw [hk1]; rfl) o (by rw [e4]; exact ho) hop
        rw [hk1] at e8
        obtain ⟨l, ts, rst', f1, f2, _⟩ := agrees_cons e8
        simp only [List.cons.injEq, Tree.node.injEq] at f1
        rw [f2, ← f1.1.2.1, rawValues_has, e1, g2] at this
        exact this
      · intro hreq
        refine hck.subcommand k (by rw [hk1]; rfl) (by rw [e4]; exact hreq) ?_
        refine e6.active k (by rw [hk1]; simp) (hru.single _ ?_)
        rw [hk2]; exact e6.within
    · subst e6
      have := ih rs2.length (by omega) e4 e5 (e3.tame (e2.tame hru hg.within htm)) (fun r hr => hl r (by rw [e1]; simp [hr])) (fun o v hm => hns o v (by rw [e1]; simp [hm]))
        e7 rfl e8 e9 rfl
      rw [e1]
      have hrep : (report ps []).map forgetText = report ps [] := by
        clear e1 e2
        induction ps with
        | nil => rfl
        | cons p ps ih =>
          cases p with
          | option o v => simp only [report, List.map_cons, ih]; rfl
          | argument v => rfl
      rw [List.map_append, List.map_cons, hrep]
      exact .sub e2 e3 this

/-! ### Every well-formed line is read to its end -/

/-- Callbacks do nothing and return. -/
def _root_.Argos.Env.Silent (env : Env) : Prop :=
  ∀ cb k v x n, (env.callback cb k v x n).newArguments = [] ∧ (env.callback cb k v x n).ops = [] ∧ (env.callback cb k v x n).fin = .returns

theorem _root_.Argos.Env.Silent.passive {env : Env} (h : env.Silent) : env.Passive := fun cb k v x n => ⟨(h cb k v x n).1, (h cb k v x n).2.1⟩

theorem runCallbackOpt_silent {env : Env} (h : env.Silent) (cb : Option Nat) (view : ViewRef) (vid : Nat) (stored : Bool) (value : Option Str)
    (s : PState) (hs : s.stack ≠ []) : ∃ v s', runCallbackOpt env cb view vid stored value s = (.ok v, s') ∧ s'.stack = s.stack := by
  cases cb with
  | none => exact ⟨_, _, rfl, rfl⟩
  | some cb =>
    cases hn : s.stack with
    | nil => exact absurd hn hs
    | cons n ns =>
      obtain ⟨h1, h2, h3⟩ := h cb s.calls view value n
      refine ⟨if stored && false then none else value, called cb view value n.values s, ?_, hn⟩
      show runCallback env cb view vid stored value s = _
      unfold runCallback
      rw [bind_ok (back_run hn), get_bind]
      simp only [h1, h2, h3]
      rfl

theorem calls_silent {env : Env} (h : env.Silent) (cb : Option Nat) (sel : ParserSettings → Option Nat) (view : ViewRef) (vid : Nat)
    (stored : Bool) (value : Option Str) (s : PState) (hs : s.stack ≠ []) : ∃ v s', calls env cb sel view vid stored value s = (.ok v, s') := by
  unfold calls
  obtain ⟨v, s1, h1, h2⟩ := runCallbackOpt_silent h cb view vid stored value s hs
  rw [bind_ok h1, get_bind]
  obtain ⟨v2, s2, h3, _⟩ := runCallbackOpt_silent h (sel s1.settings) view vid stored v s1 (by rw [h2]; exact hs)
  exact ⟨_, _, h3⟩

theorem lineOf_mixed_iff {s : PState} {r : Reader} (h : lineOf s = .mixed r) : s.mode = .argumentsAndOptions ∧ s.iter.reader = r := by
  unfold lineOf at h
  split at h <;> simp_all

theorem lineOf_plain_iff {s : PState} {l : List Str} (h : lineOf s = .plain l) : s.mode = .argumentsOnly ∧ s.iter.plainOf = l := by
  unfold lineOf at h
  split at h <;> simp_all

theorem Taken.unique {s : PState} {a b : Option Str} {i j : Iter} (h1 : Taken s a i) (h2 : Taken s b j) : a = b ∧ i = j := by
  rcases h1 with ⟨m1, e1⟩ | ⟨m1, e1⟩ <;> rcases h2 with ⟨m2, e2⟩ | ⟨m2, e2⟩
  · rw [e1] at e2; simpa using e2
  · rw [m1] at m2; simp at m2
  · rw [m1] at m2; simp at m2
  · rw [e1] at e2; simpa using e2

/-- What is taken from a mixed line. -/
theorem taken_mixed {s : PState} (hg : Good d s) {r : Reader} (hl : lineOf s = .mixed r) {x : Reading}
    (hx : r.readIn d.settings.optionStyle = some x) : ∃ it, Taken s (some x.flag) it ∧ (OptionLike s x.flag ↔ IsFlag d.settings.optionStyle x.flag) ∧ it.valueState = (x.value, x.afterValue) := by
  obtain ⟨hm, rfl⟩ := lineOf_mixed_iff hl
  obtain ⟨a, it, h1, h2, _⟩ := s.iter.next_ok hg.iterOk
  cases a with
  | none => rw [Iter.read_none hg.iterOk hg.pfx h1] at hx; simp at hx
  | some f =>
    obtain ⟨x', f1, rfl, f3, f4, f5, f6⟩ := Iter.read_some hg.iterOk hg.pfx h1
    rw [f1] at hx
    obtain rfl := Option.some.inj hx
    refine ⟨it, Or.inl ⟨hm, h1⟩, ?_, f6⟩
    unfold OptionLike
    rw [hg.settings, isOption_iff]
    simp [hm]

theorem taken_mixed_none {s : PState} (hg : Good d s) {r : Reader} (hl : lineOf s = .mixed r)
    (hx : r.readIn d.settings.optionStyle = none) : ∃ it, Taken s none it := by
  obtain ⟨hm, rfl⟩ := lineOf_mixed_iff hl
  obtain ⟨a, it, h1, h2, _⟩ := s.iter.next_ok hg.iterOk
  cases a with
  | none => exact ⟨it, Or.inl ⟨hm, h1⟩⟩
  | some f =>
    obtain ⟨x', f1, _⟩ := Iter.read_some hg.iterOk hg.pfx h1
    rw [f1] at hx
    simp at hx

theorem taken_plain {s : PState} (hg : Good d s) (htm : (lineOf s).Tame d.settings.optionStyle) {l : List Str} (hl : lineOf s = .plain l) :
    ∃ it, Taken s l.head? it := by
  have hstd : d.settings.optionStyle = .standard := by rw [hl] at htm; exact htm
  obtain ⟨hm, rfl⟩ := lineOf_plain_iff hl
  have hpfx : s.iter.pfx = none := by rw [hg.pfx, hstd]; rfl
  obtain ⟨a, it, h1, h2, _⟩ := s.iter.nextValue_ok hg.iterOk
  obtain ⟨e1, _⟩ := Iter.value_read hg.iterOk (Or.inl hpfx) h1
  refine ⟨it, Or.inr ⟨hm, ?_⟩⟩
  rw [h1, e1]
  unfold Iter.plainOf
  cases hv : s.iter.valueState.1 with
  | some v => rfl
  | none =>
    have : s.iter.valueState.2.rest = [] := by
      obtain ⟨i, hi⟩ := Iter.standard hpfx
      rw [hi] at hv ⊢
      revert hv
      simp only [Iter.valueState]
      unfold StdIt.valueState
      split
      · intro h
        match i.args, h with
        | [], _ => rfl
        | [_], _ => rfl
      · simp
      · simp
    rw [this]; rfl

/-- An option that is named and has a value is reported. -/
theorem option_ok {env : Env} (hsi : env.Silent) (hrd : Ready d) {s : PState} (hg : Good d s)
    (htm : (lineOf s).Tame d.settings.optionStyle) {r : Reader}
    (hl : lineOf s = .mixed r) {x : Reading} {o : OptData} {v : Str} (hx : r.readIn d.settings.optionStyle = some x) (hf : IsFlag d.settings.optionStyle x.flag)
    (hlk : lookup s x.flag = some o) (hv : x.valueFor o = some v) (hty : ¬ EndsParsing o)
    (hck : o.type = .lastArgument → ∀ s3 : PState, s3.stack = (storeState (occWrite o v) s).stack → s3.counter = s.counter →
      s3.command = s.command → CheckOk s3) :
    ∃ w s', next env s = (.ok (.option o w), s') ∧ ((o.type = .lastArgument → findMultiParent s.stack = none) → s'.counter = s.counter) := by
  obtain ⟨it, ht, hol, hvs⟩ := taken_mixed hg hl hx
  have hol := hol.mpr hf
  have hst := next_step env s hg.iterOk hg.ne (hg.cmdReady hrd)
  have hm := (lineOf_mixed_iff hl).1
  have hg' := (hg.taken ht).2.2
  generalize hq : next env s = q at hst
  obtain ⟨q, s'⟩ := q
  simp only at hst
  cases hst with
  | afterError h => rw [hm] at h; simp at h
  | afterDone h => rw [hm] at h; simp at h
  | finished h _ => exact absurd (ht.unique h).1 (by simp)
  | unfinished h _ _ => exact absurd (ht.unique h).1 (by simp)
  | unknownOption h _ hlk' => 
    obtain ⟨e, rfl⟩ := ht.unique h
    obtain rfl := Option.some.inj e
    rw [hlk] at hlk'; simp at hlk'
  | ignoredOption h _ hlk' =>
    obtain ⟨e, rfl⟩ := ht.unique h
    obtain rfl := Option.some.inj e
    rw [hlk] at hlk'; simp at hlk'
  | command h hno _ _ _ =>
    obtain ⟨e, rfl⟩ := ht.unique h
    obtain rfl := Option.some.inj e
    exact absurd hol hno
  | unknownCommand h hno _ _ _ =>
    obtain ⟨e, rfl⟩ := ht.unique h
    obtain rfl := Option.some.inj e
    exact absurd hol hno
  | argument h hno _ _ =>
    obtain ⟨e, rfl⟩ := ht.unique h
    obtain rfl := Option.some.inj e
    exact absurd hol hno
  | @option it' flag o' _ _ h _ hlk' hrun =>
    obtain ⟨e, rfl⟩ := ht.unique h
    obtain rfl := Option.some.inj e
    rw [hlk] at hlk'
    obtain rfl := Option.some.inj hlk'
    have sil : ∀ {s2 s3 : PState} {v : Str} {st : Bool} {y : Outcome (Option Str)}, OpRun o x.flag { s with iter := it } (.ok (some (v, st))) s2 →
        calls env o.callback ParserSettings.optionCallback (.opt o) o.valueId st (some v) s2 = (y, s3) → ∃ w, y = .ok w := by
      intro s2 s3 v st y h1 h2
      obtain ⟨w, s4, h3⟩ := calls_silent hsi o.callback ParserSettings.optionCallback (.opt o) o.valueId st (some v) s2 (hg'.opRun h1).ne
      rw [h2] at h3
      exact ⟨w, by simpa using congrArg Prod.fst h3⟩
    have sval : ∀ {s2 s3 : PState} {v' : Str} {st : Bool} {w : Option Str}, OpRun o x.flag { s with iter := it } (.ok (some (v', st))) s2 →
        calls env o.callback ParserSettings.optionCallback (.opt o) o.valueId st (some v') s2 = (.ok w, s3) → v' = v := by
      intro s2 s3 v' st w h1 h2
      obtain ⟨_, _, x', e3, _, e5, _⟩ := option_read hsi.passive hg htm ht hol h1 h2
      rw [(lineOf_mixed_iff hl).2, hx] at e3
      obtain rfl := Option.some.inj e3
      rw [hv] at e5
      exact (Option.some.inj e5).symm
    cases hrun with
    | noValue htv hnv _ =>
      exfalso
      have hnv : it.nextValue = .ok (none, _) := hnv
      have e1 : none = x.value := by
        have := Iter.nextValue_fst (hg.taken ht).1 hnv
        rw [hvs] at this; exact this
      unfold Reading.valueFor at hv
      rw [if_pos ((takesValue_iff o).mp htv), ← e1] at hv
      simp at hv
    | callThrow h1 h2 => obtain ⟨w, e⟩ := sil h1 h2; simp at e
    | callExit h1 h2 _ => obtain ⟨w, e⟩ := sil h1 h2; simp at e
    | normal h1 h2 _ => exact ⟨_, _, rfl, fun _ => option_passive_counter hsi.passive hg ht h1 h2⟩
    | lastOption h1 h2 _ => exact ⟨_, _, rfl, fun _ => (option_passive_counter hsi.passive hg ht h1 h2 :)⟩
    | stopExit _ _ hty' _ => exact absurd (by rcases hty' with h | h <;> simp [EndsParsing, h]) hty
    | stopped _ _ hty' _ _ => exact absurd hty' hty
    | @lastFails s2 s3 v' st w msg _ _ h1 h2 hty' hcf _ =>
      exfalso
      obtain rfl := sval h1 h2
      have hok := hck hty' { s3 with mode := .done } (option_passive hsi.passive hg ht h1 h2).2 (option_passive_counter hsi.passive hg ht h1 h2 :)
        (near_option hg ht h1 h2).1.command
      cases hcf with
      | mandatory hh ho hop hno =>
        have := hok.mandatory _ hh _ ho hop
        rw [this] at hno
        simp at hno
      | noCommand hh _ hr hs => exact hok.subcommand _ hh hr hs
      | tooFew _ _ _ hi => rw [hok.complete] at hi; simp at hi
    | lastDone h1 h2 _ _ _ _ => exact ⟨_, _, rfl, fun _ => (option_passive_counter hsi.passive hg ht h1 h2 :)⟩
    | lastMulti h1 h2 hty' _ hfm =>
      refine ⟨_, _, rfl, fun hno => ?_⟩
      have hno := hno hty'
      have hs3 := (option_passive hsi.passive hg ht h1 h2).2
      rw [findMultiParent_succ, hs3] at hfm
      rw [findMultiParent_none_iff, ← storeState_commands (occWrite o _) s, ← findMultiParent_none_iff] at hno
      rw [hno] at hfm
      simp at hfm

/-- An argument is reported, if the counter has one. -/
theorem argument_ok {env : Env} (hsi : env.Silent) (hrd : Ready d) {s : PState} (hg : Good d s) {arg : Str} {it : Iter}
    (ht : Taken s (some arg) it) (hno : ¬ OptionLike s arg) (hce : s.command.commands = []) {a : ArgData} {ct : Counter}
    (hn : s.counter.nextArgument = (some a, ct)) (hfs : findSibling s arg = none) : ∃ w s', next env s = (.ok (.argument a w), s') ∧ s'.counter = ct := by
  have hst := next_step env s hg.iterOk hg.ne (hg.cmdReady hrd)
  have hg' := (hg.taken ht).2.2
  generalize hq : next env s = q at hst
  obtain ⟨q, s'⟩ := q
  simp only at hst
  cases hst with
  | afterError h => rcases ht.modes with hm | hm <;> rw [hm] at h <;> simp at h
  | afterDone h => rcases ht.modes with hm | hm <;> rw [hm] at h <;> simp at h
  | finished h _ => exact absurd (ht.unique h).1 (by simp)
  | unfinished h _ _ => exact absurd (ht.unique h).1 (by simp)
  | unknownOption h hol _ _ _ _ => 
    obtain ⟨e, rfl⟩ := ht.unique h
    obtain rfl := Option.some.inj e
    exact absurd hol hno
  | ignoredOption h hol _ _ _ _ =>
    obtain ⟨e, rfl⟩ := ht.unique h
    obtain rfl := Option.some.inj e
    exact absurd hol hno
  | option h hol _ _ =>
    obtain ⟨e, rfl⟩ := ht.unique h
    obtain rfl := Option.some.inj e
    exact absurd hol hno
  | command _ _ hcc _ _ => exact absurd hce hcc
  | unknownCommand _ _ hcc _ _ => exact absurd hce hcc
  | argument h _ _ hrun =>
    obtain ⟨e, rfl⟩ := ht.unique h
    obtain rfl := Option.some.inj e
    have sil : ∀ {ct : Counter} {y : Outcome (Option Str)} {s3 : PState} {a : ArgData}, s.counter.nextArgument = (some a, ct) →
        calls env a.callback ParserSettings.argumentCallback (.arg a) a.valueId true (some arg) (argState a ct arg { s with iter := it }) = (y, s3) →
        ∃ w, y = .ok w := by
      intro ct y s3 a hn h2
      obtain ⟨w, s4, h3⟩ := calls_silent hsi a.callback ParserSettings.argumentCallback (.arg a) a.valueId true (some arg) _
        (hg'.arg (v := arg) hn).ne
      rw [h2] at h3
      exact ⟨w, by simpa using congrArg Prod.fst h3⟩
    cases hrun with
    | sibling hf _ =>
      have hf : findSibling s arg = _ := hf
      rw [hfs] at hf; simp at hf
    | callThrow _ hn' hcl => obtain ⟨w, e⟩ := sil hn' hcl; simp at e
    | callExit _ hn' hcl _ => obtain ⟨w, e⟩ := sil hn' hcl; simp at e
    | argument _ hn' hcl =>
      have hn'' : s.counter.nextArgument = _ := hn'
      rw [hn] at hn''
      simp only [Prod.mk.injEq, Option.some.injEq] at hn''
      obtain ⟨rfl, rfl⟩ := hn''
      exact ⟨_, _, rfl, argument_passive_counter hsi.passive hg ht hn hcl⟩
    | ignored _ hn' _ _ =>
      have hn'' : s.counter.nextArgument = _ := hn'
      rw [hn] at hn''; simp at hn''
    | tooMany _ hn' _ _ =>
      have hn'' : s.counter.nextArgument = _ := hn'
      rw [hn] at hn''; simp at hn''

/-- A sub-command is entered. -/
theorem command_ok {env : Env} (hrd : Ready d) {s : PState} (hg : Good d s) {arg : Str} {it : Iter}
    (ht : Taken s (some arg) it) (hno : ¬ OptionLike s arg) (hcc : s.command.commands ≠ []) {c' : Command}
    (hf : findCommand s.command.commands arg s.settings.caseInsensitive = some c') : ∃ t s', next env s = (.ok (.command c' t), s') := by
  have hst := next_step env s hg.iterOk hg.ne (hg.cmdReady hrd)
  generalize hq : next env s = q at hst
  obtain ⟨q, s'⟩ := q
  simp only at hst
  cases hst with
  | afterError h => rcases ht.modes with hm | hm <;> rw [hm] at h <;> simp at h
  | afterDone h => rcases ht.modes with hm | hm <;> rw [hm] at h <;> simp at h
  | finished h _ => exact absurd (ht.unique h).1 (by simp)
  | unfinished h _ _ => exact absurd (ht.unique h).1 (by simp)
  | unknownOption h hol _ _ _ _ => 
    obtain ⟨e, rfl⟩ := ht.unique h
    obtain rfl := Option.some.inj e
    exact absurd hol hno
  | ignoredOption h hol _ _ _ _ =>
    obtain ⟨e, rfl⟩ := ht.unique h
    obtain rfl := Option.some.inj e
    exact absurd hol hno
  | option h hol _ _ =>
    obtain ⟨e, rfl⟩ := ht.unique h
    obtain rfl := Option.some.inj e
    exact absurd hol hno
  | command h _ _ hf' _ =>
    obtain ⟨e, rfl⟩ := ht.unique h
    obtain rfl := Option.some.inj e
    rw [hf] at hf'
    obtain rfl := Option.some.inj hf'
    exact ⟨_, _, rfl⟩
  | unknownCommand h _ _ hf' _ =>
    obtain ⟨e, rfl⟩ := ht.unique h
    obtain rfl := Option.some.inj e
    rw [hf] at hf'; simp at hf'
  | argument _ _ hce _ => exact absurd hce hcc

/-- The end of the line. -/
theorem end_ok {env : Env} (hrd : Ready d) {s : PState} (hg : Good d s) (htm : (lineOf s).Tame d.settings.optionStyle)
    (he : (lineOf s).AtEnd d.settings.optionStyle)
    (hne : s.mode ≠ .error) (hck : s.mode ≠ .done → CheckOk s) : ∃ s', next env s = (.ok .done, s') := by
  have hst := next_step env s hg.iterOk hg.ne (hg.cmdReady hrd)
  cases hm : s.mode with
  | error => exact absurd hm hne
  | done =>
    refine ⟨s, ?_⟩
    unfold next
    rw [get_bind, hm]
    rfl
  | _ =>
    have hck := hck (by rw [hm]; simp)
    have ht : ∃ it, Taken s none it := by
      cases hl : lineOf s with
      | mixed r => rw [hl] at he; exact taken_mixed_none hg hl he
      | plain l =>
        rw [hl] at he
        obtain ⟨it, h⟩ := taken_plain hg htm hl
        rw [show l = [] from he] at h
        exact ⟨it, h⟩
      | closed l => unfold lineOf at hl; rw [hm] at hl; simp at hl
    obtain ⟨it, ht⟩ := ht
    generalize hq : next env s = q at hst
    obtain ⟨q, s'⟩ := q
    simp only at hst
    cases hst with
    | afterError h => rw [hm] at h; simp at h
    | afterDone h => rw [hm] at h; simp at h
    | finished _ _ => exact ⟨_, rfl⟩
    | unfinished h hcf _ =>
      exfalso
      obtain ⟨e, rfl⟩ := ht.unique h
      have hok : CheckOk { s with iter := it } := hck.congr rfl rfl (fun n hn => ⟨n, hn, rfl, rfl⟩)
      cases hcf with
      | mandatory hh ho hop hno =>
        have := hok.mandatory _ hh _ ho hop
        rw [this] at hno
        simp at hno
      | noCommand hh _ hr hs => exact hok.subcommand _ hh hr hs
      | tooFew _ _ _ hi => rw [hok.complete] at hi; simp at hi
    | unknownOption h _ _ _ _ _ => exact absurd (ht.unique h).1 (by simp)
    | ignoredOption h _ _ _ _ _ => exact absurd (ht.unique h).1 (by simp)
    | option h _ _ _ => exact absurd (ht.unique h).1 (by simp)
    | command h _ _ _ _ => exact absurd (ht.unique h).1 (by simp)
    | unknownCommand h _ _ _ _ => exact absurd (ht.unique h).1 (by simp)
    | argument h _ _ _ => exact absurd (ht.unique h).1 (by simp)

/-- The grammar is deterministic. -/
theorem _root_.Argos.Spec.Written.unique {c : Command} (hf : ∀ q o o', names c q o → names c q o' → o = o') {l l1 l2 : Line} {p q : Piece}
    (h1 : Written d.settings.optionStyle names c l p l1) (h2 : Written d.settings.optionStyle names c l q l2) : p = q ∧ l1 = l2 := by
  have two : ∀ {r : Reader} {x y : Reading}, r.readIn d.settings.optionStyle = some x → r.readIn d.settings.optionStyle = some y → x = y := by
    intro r x y h h'
    rw [h] at h'
    exact Option.some.inj h'
  cases h1 with
  | option a1 a2 a3 a4 a5 =>
    cases h2 with
    | argument b1 b2 _ => rw [two b1 a1] at b2; exact absurd a2 b2
    | _ =>
      rename_i b2 b3 b4 b5 b1
      obtain rfl := two b1 a1
      obtain rfl := hf _ _ _ a3 b3
      rw [a4] at b4
      obtain rfl := Option.some.inj b4
      rw [a5] at b5
      first
        | exact ⟨rfl, rfl⟩
        | simp at b5
  | lastOption a1 a2 a3 a4 a5 =>
    cases h2 with
    | argument b1 b2 _ => rw [two b1 a1] at b2; exact absurd a2 b2
    | _ =>
      rename_i b2 b3 b4 b5 b1
      obtain rfl := two b1 a1
      obtain rfl := hf _ _ _ a3 b3
      rw [a4] at b4
      obtain rfl := Option.some.inj b4
      rw [a5] at b5
      first
        | exact ⟨rfl, rfl⟩
        | simp at b5
  | lastArgument a1 a2 a3 a4 a5 =>
    cases h2 with
    | argument b1 b2 _ => rw [two b1 a1] at b2; exact absurd a2 b2
    | _ =>
      rename_i b2 b3 b4 b5 b1
      obtain rfl := two b1 a1
      obtain rfl := hf _ _ _ a3 b3
      rw [a4] at b4
      obtain rfl := Option.some.inj b4
      rw [a5] at b5
      first
        | exact ⟨rfl, rfl⟩
        | simp at b5
  | argument a1 a2 _ =>
    cases h2 with
    | argument b1 b2 _ => obtain rfl := two b1 a1; exact ⟨rfl, rfl⟩
    | _ =>
      rename_i b2 b3 b4 b5 b1
      rw [two b1 a1] at b2; exact absurd b2 a2
  | plainArgument _ =>
    cases h2 with
    | plainArgument _ => exact ⟨rfl, rfl⟩

theorem Rules.functional (h : Rules d names subs) {c : Command} (hc : c.Within d.command) (q : Str) (o o' : OptData) (h1 : names c q o)
    (h2 : names c q o') : o = o' := by
  have e1 := (h.names c hc q o).mpr h1
  rw [(h.names c hc q o').mpr h2] at e1
  exact (Option.some.inj e1).symm

/-- The counter gives these arguments, in that order. -/
inductive Hands : Counter → List ArgData → Counter → Prop
  | nil {ct : Counter} : Hands ct [] ct
  | cons {ct ct1 ct' : Counter} {a : ArgData} {as : List ArgData} : ct.nextArgument = (some a, ct1) → Hands ct1 as ct' → Hands ct (a :: as) ct'

theorem hand_hands {ct : Counter} {n : Nat} : ∀ {as : List ArgData}, (hand ct n).1 = as.map some → Hands ct as (hand ct n).2 := by
  induction n generalizing ct with
  | zero =>
    intro as h
    have : as = [] := by simpa [hand] using h.symm
    subst this
    exact .nil
  | succ n ih =>
    intro as h
    simp only [hand] at h ⊢
    cases as with
    | nil => simp at h
    | cons a as =>
      simp only [List.map_cons, List.cons.injEq] at h
      refine .cons (ct1 := ct.nextArgument.2) ?_ (ih h.2)
      rw [← h.1]

theorem checkOk_of {s : PState} {c : Command} {occs : List Occ} {rest : Open} (ha : Agrees s.stack (.node c occs [] :: rest))
    (hcm : s.command = c) (hco : Complete c occs) (hct : s.counter.isComplete = true) : CheckOk s := by
  refine ⟨?_, ?_, hct⟩
  · intro n hn o ho hop
    cases hs : s.stack with
    | nil => rw [hs] at hn; simp at hn
    | cons k ks =>
      rw [hs] at hn ha
      obtain rfl : k = n := by simpa using hn
      obtain ⟨l, ts, rst', f1, f2, _⟩ := agrees_cons ha
      simp only [List.cons.injEq, Tree.node.injEq] at f1
      rw [f2, ← f1.1.2.1, rawValues_has]
      exact hco.mandatory o (hcm ▸ ho) hop
  · intro n _ hr
    rw [hcm] at hr
    exact absurd hr hco.subcommand

theorem written_closed {c : Command} {l' : Line} {ps : List Piece} {x : List Str} (h : WrittenAll d.settings.optionStyle names c (.closed x) ps l') :
    ps = [] ∧ l' = .closed x := by
  cases h with
  | nil => exact ⟨rfl, rfl⟩
  | cons h _ => cases h

theorem not_ends {o : OptData} (h : o.type = .normal ∨ o.type = .lastOption ∨ o.type = .lastArgument) : ¬ EndsParsing o := by
  unfold EndsParsing
  rcases h with h | h | h <;> rw [h] <;> simp

/-- The pieces on a line are read one after the other. -/
theorem complete_segment {env : Env} (hsi : env.Silent) (hru : Rules d names subs) (hrd : Ready d) {c : Command} {l l' : Line} {ps : List Piece}
    (hw : WrittenAll d.settings.optionStyle names c l ps l') {s : PState} (hg : Good d s) (htm : (lineOf s).Tame d.settings.optionStyle) (hcm : s.command = c) (hl : lineOf s = l) (hne : s.mode ≠ .error)
    {as : List ArgData} (has : as.length = argPieces ps) {ct' : Counter} (hh : Hands s.counter as ct') {occs : List Occ} {rest : Open}
    (ha : Agrees s.stack (.node c occs [] :: rest))
    (hcl : (∃ x, l' = .closed x) → ct'.isComplete = true ∧ Complete c (occs ++ (report ps as).filterMap occOf)) :
    ∃ s1, Trace env s (report ps as) s1 ∧ Good d s1 ∧ s1.command = c ∧ lineOf s1 = l' ∧ s1.counter = ct' ∧ s1.mode ≠ .error ∧
      Agrees s1.stack (.node c (occs ++ (report ps as).filterMap occOf) [] :: rest) := by
  have hp := hsi.passive
  induction hw generalizing s as occs with
  | nil =>
    have : as = [] := List.eq_nil_of_length_eq_zero has
    subst this
    cases hh
    exact ⟨s, .nil, hg, hcm, hl, rfl, hne, by simpa [report] using ha⟩
  | @cons l l1 l' p ps hw hws ih =>
    have hfun := hru.functional (c := s.command) hg.within
    subst hcm
    -- after an option has been read
    have opt : ∀ (o : OptData) (v : Str), p = .option o v → (∃ w s', next env s = (.ok (.option o w), s') ∧ ((o.type = .lastArgument → findMultiParent s.stack = none) → s'.counter = s.counter)) →
        ¬ EndsParsing o → ∃ s1, Trace env s (report (p :: ps) as) s1 ∧ Good d s1 ∧ s1.command = s.command ∧ lineOf s1 = l' ∧ s1.counter = ct' ∧
          s1.mode ≠ .error ∧ Agrees s1.stack (.node s.command (occs ++ (report (p :: ps) as).filterMap occOf) [] :: rest) := by
      rintro o v rfl ⟨w, s', hn, hc⟩ hty
      have hc := hc (fun _ => hru.multi hg)
      obtain ⟨hst, hg1⟩ := next_good hrd hg hn
      have ha1 := hst.agrees hp hg (by simp [IterResult.IsLast]) ha
      rcases hst.piece hp hru hg htm (by simp [IterResult.IsLast]) (by rintro o' v' h; cases h; exact hty) with ⟨p', hw', hcm', hme, _, hpr⟩ | ⟨c', t, e, _⟩
      · rw [hl] at hw'
        obtain ⟨rfl, rfl⟩ := hw.unique hfun hw'
        rcases hpr with ⟨o', v', e1, e2⟩ | ⟨a, v', e1, _⟩
        · cases e1
          cases e2
          rw [hru.step_add hg ha] at ha1
          obtain ⟨s1, g1, g2, g3, g4, g5, g6, g7⟩ := ih hg1 (hw'.tame hru hg.within (hl ▸ htm)) hcm' rfl hme has (by rw [hc]; exact hh) ha1 (by
            intro h
            have := hcl h
            simpa [report, occOf] using this)
          exact ⟨s1, .cons hn g1, g2, g3, g4, g5, g6, by simpa [report, occOf] using g7⟩
        · cases e1
      · cases e
    have arg : ∀ v, p = .argument v → (∃ it, Taken s (some v) it ∧ ¬ OptionLike s v) → s.command.commands = [] →
        ∃ s1, Trace env s (report (p :: ps) as) s1 ∧ Good d s1 ∧ s1.command = s.command ∧ lineOf s1 = l' ∧ s1.counter = ct' ∧
          s1.mode ≠ .error ∧ Agrees s1.stack (.node s.command (occs ++ (report (p :: ps) as).filterMap occOf) [] :: rest) := by
      rintro v rfl ⟨it, ht, hno⟩ hce
      cases hh with
      | nil => simp [argPieces] at has
      | @cons _ ct1 _ a as hna hh =>
        obtain ⟨w, s', hn, hc⟩ := argument_ok hsi hrd hg ht hno hce hna (findSibling_none (hru.multi hg) _)
        obtain ⟨hst, hg1⟩ := next_good hrd hg hn
        have ha1 := hst.agrees hp hg (by simp [IterResult.IsLast]) ha
        rcases hst.piece hp hru hg htm (by simp [IterResult.IsLast]) (by rintro o' v' h; cases h) with ⟨p', hw', hcm', hme, _, hpr⟩ | ⟨c', t, e, _⟩
        · rw [hl] at hw'
          obtain ⟨rfl, rfl⟩ := hw.unique hfun hw'
          rcases hpr with ⟨o', v', e1, e2⟩ | ⟨a', v', e1, e2⟩
          · cases e1
          · cases e1
            cases e2
            obtain ⟨s1, g1, g2, g3, g4, g5, g6, g7⟩ := ih hg1 (hw'.tame hru hg.within (hl ▸ htm)) hcm' rfl hme (by simpa [argPieces] using has) (by rw [hc]; exact hh) ha1 (by
              intro h
              have := hcl h
              simpa [report, occOf] using this)
            exact ⟨s1, .cons hn g1, g2, g3, g4, g5, g6, by simpa [report, occOf] using g7⟩
        · cases e
    cases hw with
    | option a1 a2 a3 a4 a5 =>
      have hty := not_ends (Or.inl a5)
      exact opt _ _ rfl (option_ok hsi hrd hg htm hl a1 a2 ((hru.lookup hg _ _).mpr a3) a4 hty (by rw [a5]; simp)) hty
    | lastOption a1 a2 a3 a4 a5 =>
      have hty := not_ends (Or.inr (Or.inl a5))
      exact opt _ _ rfl (option_ok hsi hrd hg htm hl a1 a2 ((hru.lookup hg _ _).mpr a3) a4 hty (by rw [a5]; simp)) hty
    | lastArgument a1 a2 a3 a4 a5 =>
      have hty := not_ends (Or.inr (Or.inr a5))
      refine opt _ _ rfl (option_ok hsi hrd hg htm hl a1 a2 ((hru.lookup hg _ _).mpr a3) a4 hty ?_) hty
      intro _ s3 h1 h2 h3
      obtain ⟨rfl, rfl⟩ := written_closed hws
      have : as = [] := List.eq_nil_of_length_eq_zero has
      subst this
      cases hh
      obtain ⟨k1, k2⟩ := hcl ⟨_, rfl⟩
      refine checkOk_of (rest := rest) ?_ h3 k2 (by rw [h2]; exact k1)
      rw [h1]
      simpa [report, occOf, Open.add] using agrees_occWrite ha _ _
    | argument a1 a2 a3 =>
      obtain ⟨it, ht, hol, _⟩ := taken_mixed hg hl a1
      exact arg _ rfl ⟨it, ht, fun h => a2 (hol.mp h)⟩ a3
    | plainArgument a3 =>
      obtain ⟨it, ht⟩ := taken_plain hg htm hl
      refine arg _ rfl ⟨it, ht, ?_⟩ a3
      intro h
      have := (lineOf_plain_iff hl).1
      rw [h.1] at this
      simp at this

/-- The rest of a well-formed line is read to its end. -/
theorem complete_last {env : Env} (hsi : env.Silent) (hru : Rules d names subs) (hrd : Ready d) {l' : Line} {ps : List Piece}
    {s : PState} (hw : WrittenAll d.settings.optionStyle names s.command (lineOf s) ps l') (he : l'.AtEnd d.settings.optionStyle) (hg : Good d s) (htm : (lineOf s).Tame d.settings.optionStyle) (hne : s.mode ≠ .error)
    {as : List ArgData} (has : as.length = argPieces ps) {ct' : Counter} (hh : Hands s.counter as ct') (hct : ct'.isComplete = true)
    {occs : List Occ} {rest : Open} (ha : Agrees s.stack (.node s.command occs [] :: rest))
    (hco : Complete s.command (occs ++ (report ps as).filterMap occOf)) :
    ∃ s1 s', Trace env s (report ps as) s1 ∧ next env s1 = (.ok .done, s') := by
  obtain ⟨s1, g1, g2, g3, g4, g5, g6, g7⟩ := complete_segment hsi hru hrd hw hg htm rfl rfl hne has hh ha (fun _ => ⟨hct, hco⟩)
  obtain ⟨s', h⟩ := end_ok (env := env) hrd g2 (by rw [g4]; exact hw.tame hru hg.within htm) (by rw [g4]; exact he) g6 (fun _ => checkOk_of g7 g3 hco (by rw [g5]; exact hct))
  exact ⟨s1, s', g1, h⟩

/-- A counter that gives these arguments. -/
def fakeCounter (as : List ArgData) : Counter := { counters := as.map fun a => (1, a) }

theorem fakeCounter_hands (as : List ArgData) : ∃ ct', Hands (fakeCounter as) as ct' ∧ ct'.isComplete = true := by
  have h0 := Inv.start (as.map fun a => (1, a)) 0
  have ht : expand (as.map fun a => (1, a)) = as := by
    induction as with
    | nil => rfl
    | cons a as ih =>
      simp only [expand, List.map_cons, List.flatMap_cons] at ih ⊢
      rw [ih (Inv.start _ _)]
      rfl
  have htot : total (as.map fun a => (1, a)) = as.length := by rw [← expand_length, ht]
  obtain ⟨h1, h2⟩ := h0.hand as.length (by omega)
  rw [ht, List.drop_zero, List.take_length] at h1
  refine ⟨_, hand_hands h1, ?_⟩
  have := h2.fo
  unfold isComplete fakeCounter
  rw [this]
  simp

/-- The command's arguments can be counted ahead, if that is needed: every option takes a value exactly if it has an
argument name and isn't an EXIT option. -/
structure Reckonable (d : ParserData) (names : Command → Str → OptData → Prop) (c : Command) : Prop where
  options : requiresArgumentCount c.arguments = true → ∀ q o, names c q o → o.Regular ∧ IsFlag d.settings.optionStyle q

/-- The command's arguments can be counted ahead, if that is needed, and the last argument is mandatory then. -/
structure Countable (d : ParserData) (names : Command → Str → OptData → Prop) (c : Command) : Prop extends Reckonable d names c where
  last : requiresArgumentCount c.arguments = true → ∃ a, c.arguments.getLast? = some a ∧ 0 < a.minCount

theorem report_argCount (ps : List Piece) : ∀ as : List ArgData, as.length = argPieces ps →
    ((report ps as).map IterResult.argCount).sum = argPieces ps ∧ (∀ r ∈ report ps as, ¬ r.IsLast) ∧ ∀ c t, .command c t ∉ report ps as := by
  induction ps with
  | nil => intro as _; simp [report, argPieces]
  | cons p ps ih =>
    intro as h
    cases p with
    | option o v =>
      obtain ⟨h1, h2, h3⟩ := ih as h
      refine ⟨?_, ?_, ?_⟩
      · simpa [report, IterResult.argCount, argPieces] using h1
      · simpa [report, IterResult.IsLast] using h2
      · simpa [report] using h3
    | argument v =>
      cases as with
      | nil => simp [argPieces] at h
      | cons a as =>
        obtain ⟨h1, h2, h3⟩ := ih as (by simpa [argPieces] using h)
        refine ⟨?_, ?_, ?_⟩
        · simp only [report, List.map_cons, List.sum_cons, IterResult.argCount, h1, argPieces, List.filter_cons, if_true, List.length_cons]
          omega
        · simpa [report, IterResult.IsLast] using h2
        · simpa [report] using h3

/-- Counting ahead on a well-formed line gives the number of arguments on it. -/
theorem ahead_ok {env : Env} (hsi : env.Silent) (hru : Rules d names subs) (hrd : Ready d) {l' : Line} {ps : List Piece}
    {s s0 : PState} (hw : WrittenAll d.settings.optionStyle names s.command (lineOf s) ps l') (he : l'.AtEnd d.settings.optionStyle) (hg : Good d s) (htm : (lineOf s).Tame d.settings.optionStyle) (hm : s.mode = .argumentsAndOptions)
    {as : List ArgData} (has : as.length = argPieces ps) {occs : List Occ} {rest : Open} (ha : Agrees s.stack (.node s.command occs [] :: rest))
    (hco : Complete s.command (occs ++ (report ps as).filterMap occOf)) (hsc : SameCommand s0 s) (hit : s0.iter = s.iter)
    (hreg : ∀ q o, names s.command q o → o.Regular ∧ IsFlag d.settings.optionStyle q) : ahead s0 = argPieces ps := by
  obtain ⟨ct', h1, h2⟩ := fakeCounter_hands as
  have hgF : Good d { s with counter := fakeCounter as } := hg.keep rfl rfl hg.iterOk rfl (Or.inl rfl) (Nat.zero_le _)
  obtain ⟨s1, s', ht, hd⟩ := complete_last (s := { s with counter := fakeCounter as }) hsi hru hrd hw he hgF htm (by rw [hm]; simp) has h1 h2 ha hco
  obtain ⟨c1, c2, c3⟩ := report_argCount ps as has
  obtain ⟨n, hn⟩ := countArguments_ok s0 (by rw [hit]; exact hg.iterOk)
  have hlk : ∀ q o, Parser.lookup s0 q = some o → names s.command q o := by
    intro q o h
    rw [← hsc.lookup, hru.lookup hg] at h
    exact h
  have hpl : Plain s0 := by
    refine ⟨⟨fun q o h => (hreg q o (hlk q o h)).1, ?_⟩, ?_⟩
    rotate_left
    · rw [findMultiParent_none_iff, ← hsc.stack, ← findMultiParent_none_iff]
      exact hru.multi hg
    · intro arg h
      cases hq : Parser.lookup s0 arg with
      | none => rfl
      | some o =>
        exfalso
        have := (hreg arg o (hlk arg o hq)).2
        rw [← hsc.settings, hg.settings] at h
        have h' := (isOption_iff arg _).mpr this
        rw [h] at h'
        simp at h'
  have := Trace.count hsi.passive hrd hpl (s := { s with counter := fakeCounter as }) ⟨hsc.command, hsc.settings, hsc.stack⟩ hgF
    (by rw [← hsc.settings, hg.settings]; exact hru.arguments) ht c2 c3 hd (lo := (Counter.getMinMaxCount s0.command.arguments).1) (k := 0) (n := n)
    (by
      show CountFrom s0 _ s.mode s.iter 0 n
      rw [hm, ← hit]
      exact ⟨_, hn⟩)
  unfold ahead
  rw [hn, this, c1, Nat.zero_add]

/-- How many arguments may still follow. -/
def lineSize : Line → Nat
  | .mixed r => r.rest.length + (if r.pending = [] then 0 else 1)
  | .plain rest => rest.length
  | .closed _ => 0

theorem readStandard_size {r : Reader} {x : Reading} (h : r.readStandard = some x) :
    lineSize (.mixed x.afterFlag) ≤ lineSize (.mixed r) ∧ lineSize (.mixed x.afterValue) ≤ lineSize (.mixed r) ∧
      x.value.toList.length + x.afterValue.rest.length ≤ lineSize (.mixed r) ∧
      x.afterValue.rest.length ≤ lineSize (.mixed r) ∧ (¬ IsFlag .standard x.flag → lineSize (.mixed x.afterFlag) + 1 ≤ lineSize (.mixed r)) := by
  have hwf : ∀ (f : Str) (rest : List Str), lineSize (.mixed (wholeFlag f rest).afterFlag) = rest.length ∧
      lineSize (.mixed (wholeFlag f rest).afterValue) ≤ rest.length ∧
      (wholeFlag f rest).value.toList.length + (wholeFlag f rest).afterValue.rest.length ≤ rest.length ∧
      (wholeFlag f rest).afterValue.rest.length ≤ rest.length := by
    intro f rest
    cases rest with
    | nil => simp [wholeFlag, lineSize]
    | cons a rest =>
      simp [wholeFlag, lineSize, Nat.add_comm]
  have hsf : ∀ (c : UInt8) (cs : Str) (rest : List Str), lineSize (.mixed (shortFlag c cs rest).afterFlag) ≤ rest.length + 1 ∧
      lineSize (.mixed (shortFlag c cs rest).afterValue) ≤ rest.length ∧
      (shortFlag c cs rest).value.toList.length + (shortFlag c cs rest).afterValue.rest.length ≤ rest.length + 1 ∧
      (shortFlag c cs rest).afterValue.rest.length ≤ rest.length ∧ IsFlag .standard (shortFlag c cs rest).flag := by
    intro c cs rest
    unfold shortFlag
    split
    · obtain ⟨h1, h2, h3, h4⟩ := hwf [c!"-", c] rest
      refine ⟨by omega, h2, by omega, h4, ?_⟩
      simp [wholeFlag, IsFlag, flagChar]
    · rename_i hc
      refine ⟨?_, ?_, ?_, ?_, ?_⟩ <;> simp [lineSize, hc, IsFlag, flagChar, Nat.add_comm]
  obtain ⟨pend, rest⟩ := r
  cases pend with
  | cons c cs =>
    simp only [Reader.readStandard, Option.some.injEq] at h
    subst h
    obtain ⟨h1, h2, h3, h4, h5⟩ := hsf c cs rest
    have : lineSize (.mixed ⟨c :: cs, rest⟩) = rest.length + 1 := by simp [lineSize]
    rw [this]
    exact ⟨h1, by omega, h3, by omega, fun h => absurd h5 h⟩
  | nil =>
    cases rest with
    | nil => simp [Reader.readStandard] at h
    | cons a rest =>
      have hsz : lineSize (.mixed ⟨[], a :: rest⟩) = rest.length + 1 := by simp [lineSize]
      rw [hsz]
      have hw : ∀ f : Str, x = wholeFlag f rest → lineSize (.mixed x.afterFlag) ≤ rest.length + 1 ∧ lineSize (.mixed x.afterValue) ≤ rest.length + 1 ∧
          x.value.toList.length + x.afterValue.rest.length ≤ rest.length + 1 ∧
          x.afterValue.rest.length ≤ rest.length + 1 ∧ (¬ IsFlag .standard x.flag → lineSize (.mixed x.afterFlag) + 1 ≤ rest.length + 1) := by
        rintro f rfl
        obtain ⟨h1, h2, h3, h4⟩ := hwf f rest
        exact ⟨by omega, by omega, by omega, by omega, fun _ => by omega⟩
      have hs : ∀ c cs, x = shortFlag c cs rest → lineSize (.mixed x.afterFlag) ≤ rest.length + 1 ∧ lineSize (.mixed x.afterValue) ≤ rest.length + 1 ∧
          x.value.toList.length + x.afterValue.rest.length ≤ rest.length + 1 ∧
          x.afterValue.rest.length ≤ rest.length + 1 ∧ (¬ IsFlag .standard x.flag → lineSize (.mixed x.afterFlag) + 1 ≤ rest.length + 1) := by
        rintro c cs rfl
        obtain ⟨h1, h2, h3, h4, h5⟩ := hsf c cs rest
        exact ⟨by omega, by omega, by omega, by omega, fun h => absurd h5 h⟩
      simp only [Reader.readStandard] at h
      split at h
      · split at h
        · exact hw _ (Option.some.inj h).symm
        · split at h
          · exact hs _ _ (Option.some.inj h).symm
          · split at h
            · obtain rfl := (Option.some.inj h).symm
              refine ⟨?_, ?_, ?_, ?_, fun _ => ?_⟩ <;> simp [equalFlag, lineSize]
              omega
            · exact hw _ (Option.some.inj h).symm
      · exact hw _ (Option.some.inj h).symm

theorem readIn_size {style : OptionStyle} {r : Reader} {x : Reading} (h : r.readIn style = some x) :
    lineSize (.mixed x.afterFlag) ≤ lineSize (.mixed r) ∧ lineSize (.mixed x.afterValue) ≤ lineSize (.mixed r) ∧
      x.value.toList.length + x.afterValue.rest.length ≤ lineSize (.mixed r) ∧
      x.afterValue.rest.length ≤ lineSize (.mixed r) ∧ (¬ IsFlag style x.flag → lineSize (.mixed x.afterFlag) + 1 ≤ lineSize (.mixed r)) := by
  rcases readIn_cases h with ⟨rfl, h⟩ | ⟨c, _, h⟩
  · exact readStandard_size h
  · obtain ⟨a, rest, e, hx⟩ := readPrefixed_cases h
    have hsz : rest.length + 1 ≤ lineSize (.mixed r) := by simp [lineSize, e]
    rcases hx with rfl | ⟨flag, value, _, _, _, rfl⟩
    · have : lineSize (.mixed ⟨[], rest⟩) = rest.length ∧ lineSize (.mixed ⟨[], rest.tail⟩) ≤ rest.length ∧
          rest.head?.toList.length + rest.tail.length = rest.length := by
        cases rest <;> simp [lineSize, Nat.add_comm]
      simp only [wholeFlag]
      have h3 : rest.tail.length ≤ rest.length := by simp
      omega
    · have : lineSize (.mixed ⟨[], rest⟩) = rest.length := by simp [lineSize]
      simp only [equalFlag, Option.toList_some, List.length_singleton]
      omega

theorem _root_.Argos.Spec.Written.size {c : Command} {l l' : Line} {p : Piece} (h : Written d.settings.optionStyle names c l p l') :
    lineSize l' + argPieces [p] ≤ lineSize l := by
  cases h with
  | option a1 _ _ _ _ =>
    obtain ⟨h1, h2, h3, h4, h5⟩ := readIn_size a1
    show lineSize (.mixed _) + 0 ≤ _
    unfold Reading.leftBy
    split <;> omega
  | lastOption a1 _ _ _ _ =>
    obtain ⟨h1, h2, h3, h4, h5⟩ := readIn_size a1
    show (Reading.plainBy _ _).length + 0 ≤ _
    unfold Reading.plainBy
    split
    · omega
    · rw [List.length_append]; omega
  | lastArgument a1 _ _ _ _ => exact Nat.zero_le _
  | argument a1 a2 _ => exact (readIn_size a1).2.2.2.2 a2
  | plainArgument _ => exact Nat.le_refl _

theorem _root_.Argos.Spec.WrittenAll.size {c : Command} {l l' : Line} {ps : List Piece} (h : WrittenAll d.settings.optionStyle names c l ps l') :
    lineSize l' + argPieces ps ≤ lineSize l := by
  induction h with
  | nil => exact Nat.le_refl _
  | @cons l l1 l' p ps h _ ih =>
    have := h.size
    have e : argPieces (p :: ps) = argPieces [p] + argPieces ps := by
      unfold argPieces
      rw [← List.length_append, ← List.filter_append]
      rfl
    omega

theorem _root_.Argos.Spec.Enters.size {c c' : Command} {l l' : Line} (h : Enters d.settings.optionStyle subs c l c' l') : lineSize l' ≤ lineSize l := by
  cases h with
  | command a1 _ _ _ => exact (readIn_size a1).1
  | plainCommand _ _ => simp [lineSize]

theorem _root_.Argos.Spec.WrittenAll.no_arguments {c : Command} {l l' : Line} {ps : List Piece} (h : WrittenAll d.settings.optionStyle names c l ps l')
    (hc : c.commands ≠ []) : argPieces ps = 0 := by
  induction h with
  | nil => rfl
  | @cons l l1 l' p ps h _ ih =>
    cases p with
    | option o v => exact ih
    | argument v => exact absurd h.argument_leaf hc

theorem getLast_allot {args : List ArgData} {n : Nat} {ks : List Nat} (h : IsAllotment args n ks) {a : ArgData} (ha : args.getLast? = some a)
    (hm : 0 < a.minCount) : ∃ k, ks.getLast? = some k ∧ 0 < k := by
  have hne : args ≠ [] := by rintro rfl; simp at ha
  have h0 : 0 < args.length := List.length_pos_iff.mpr hne
  have hl := h.length
  rw [List.getLast?_eq_getElem?] at ha ⊢
  rw [List.getElem?_eq_getElem (by omega)] at ha
  rw [hl, List.getElem?_eq_getElem (by omega)]
  refine ⟨_, rfl, ?_⟩
  have := (h.within (args.length - 1) (by omega) (by omega)).1
  rw [Option.some.inj ha] at this
  omega

theorem IsAllotment.totals {args : List ArgData} {n : Nat} {ks : List Nat} (h : IsAllotment args n ks) :
    minTotal args ≤ n ∧ n ≤ maxTotal args := by
  have key : ∀ (args : List ArgData) (ks : List Nat), ks.length = args.length →
      (∀ (i : Nat) (h : i < args.length) (h' : i < ks.length), args[i].minCount ≤ ks[i] ∧ ks[i] ≤ args[i].maxCount) →
      minTotal args ≤ ks.sum ∧ ks.sum ≤ maxTotal args := by
    intro args
    induction args with
    | nil => intro ks hl _; rw [List.eq_nil_of_length_eq_zero hl]; simp [minTotal, maxTotal]
    | cons a args ih =>
      intro ks hl hw
      cases ks with
      | nil => simp at hl
      | cons k ks =>
        have h0 := hw 0 (by simp) (by simp)
        have h1 := ih ks (by simpa using hl) (fun i h h' => hw (i + 1) (by simpa using h) (by simpa using h'))
        simp only [List.getElem_cons_zero] at h0
        simp only [minTotal, maxTotal, List.map_cons, List.sum_cons] at h1 ⊢
        omega
  rw [← h.total]
  exact key args ks h.length h.within

theorem handedOut_length {args : List ArgData} {n : Nat} {ks : List Nat} (h : IsAllotment args n ks) : (handedOut args ks).length = n := by
  have key : ∀ (args : List ArgData) (ks : List Nat), ks.length = args.length → (handedOut args ks).length = ks.sum := by
    intro args
    induction args with
    | nil => intro ks hl; rw [List.eq_nil_of_length_eq_zero hl]; rfl
    | cons a args ih =>
      intro ks hl
      cases ks with
      | nil => simp at hl
      | cons k ks =>
        have := ih ks (by simpa using hl)
        simp only [handedOut, List.zip_cons_cons, List.flatMap_cons, List.length_append, List.length_replicate, List.sum_cons] at this ⊢
        rw [this]
  rw [key args ks h.length, h.total]

theorem _root_.Argos.Spec.Enters.line_unique {c c' : Command} {l l1 l2 : Line} (h1 : Enters d.settings.optionStyle subs c l c' l1) (h2 : Enters d.settings.optionStyle subs c l c' l2) :
    l1 = l2 := by
  cases h1 with
  | command a1 _ _ _ =>
    cases h2 with
    | command b1 _ _ _ =>
      rw [a1] at b1
      rw [Option.some.inj b1]
  | plainCommand _ _ => cases h2 with | plainCommand _ _ => rfl

/-- The counter hands out what the allotment says. -/
theorem forCount_hands {args : List ArgData} (hmm : ∀ a ∈ args, a.minCount ≤ a.maxCount) {n m : Nat} (hn : n ≤ sizeMax) {ks : List Nat}
    (h : IsAllotment args n ks) (hl : requiresArgumentCount args = true → m = n ∧ LastServed args n) :
    ∃ ct', Hands (forCount args m) (handedOut args ks) ct' ∧ ct'.isComplete = true := by
  obtain ⟨h1, h2⟩ := IsAllotment.totals h
  have hm : forCount args m = forCount args n := by
    cases hr : requiresArgumentCount args with
    | false => unfold forCount; rw [hr]; rfl
    | true => rw [(hl hr).1]
  rw [hm]
  obtain ⟨ks', g1, g2⟩ := C13_distribution args hmm n hn h1 h2
  obtain rfl := C13_unique args n ks ks' h g1
  refine ⟨_, hand_hands g2, ?_⟩
  exact ((C14_exact args hmm n hn).mpr ⟨h1, h2, fun h => (hl ((requires_iff args).mpr h)).2⟩).2

/-- The results of the pieces on a line: no command is entered, and the number of arguments. -/
theorem report_last (c : Command) (ps : List Piece) : ∀ as : List ArgData, as.length = argPieces ps →
    ∀ rs, lastCommand c (report ps as ++ rs) = lastCommand c rs ∧ argumentCount (report ps as ++ rs) = argPieces ps + argumentCount rs := by
  induction ps with
  | nil => intro as _ rs; simp [report, argPieces]
  | cons p ps ih =>
    intro as h rs
    cases p with
    | option o v =>
      obtain ⟨h1, h2⟩ := ih as h rs
      exact ⟨h1, h2⟩
    | argument v =>
      cases as with
      | nil => simp [argPieces] at h
      | cons a as =>
        obtain ⟨h1, h2⟩ := ih as (by simpa [argPieces] using h) rs
        refine ⟨h1, ?_⟩
        simp only [argumentCount, argPieces] at h2 ⊢
        simp only [report, List.cons_append, List.filter_cons, if_true, List.length_cons, h2]
        omega

theorem served_last {c : Command} {ps : List Piece} {as : List ArgData} (h : as.length = argPieces ps) :
    Served c (report ps as) ↔ (requiresArgumentCount c.arguments = true → LastServed c.arguments (argPieces ps)) := by
  obtain ⟨h1, h2⟩ := report_last c ps as h []
  simp only [List.append_nil, lastCommand] at h1 h2
  unfold Served NeedsCount
  rw [h1, h2, requires_iff]
  rfl

theorem served_sub {c c' : Command} {ps : List Piece} {t : Str} {rs : List IterResult} (h : argPieces ps = 0) :
    Served c (report ps [] ++ .command c' t :: rs) ↔ Served c' rs := by
  obtain ⟨h1, h2⟩ := report_last c ps [] h.symm (.command c' t :: rs)
  unfold Served
  rw [h1, h2, h, Nat.zero_add]
  rfl

theorem makeCountersN_total (args : List ArgData) (hmm : ∀ a ∈ args, a.minCount ≤ a.maxCount) (hcap : minTotal args ≤ sizeMax) (n : Nat) :
    (n ≤ minTotal args ∧ total (makeCountersN args n) = minTotal args) ∨
    (min sizeMax (maxTotal args) ≤ n ∧ total (makeCountersN args n) = min sizeMax (maxTotal args)) ∨
    (minTotal args ≤ n ∧ n ≤ maxTotal args ∧ total (makeCountersN args n) = n) := by
  have hle := minTotal_le_maxTotal args hmm
  unfold makeCountersN
  simp only [getMinMaxCount_eq]
  rw [distribute_total args hmm _ (by split <;> (try split) <;> omega)]
  split <;> (try split) <;> omega

/-- Every well-formed line is read to a successful end, if the last argument is served. -/
theorem complete {env : Env} (hsi : env.Silent) (hru : Rules d names subs) (hrd : Ready d) (hmm : CountsOk d.command)
    (hcb : ∀ c : Command, c.Within d.command → Reckonable d names c) {c : Command} {occs : List Occ} {l : Line} {rs : List IterResult}
    (hacc : Accepts d.settings.optionStyle names subs c occs l rs) (hsv : Served c rs) {s s0 : PState} (hg : Good d s) (htm : (lineOf s).Tame d.settings.optionStyle) (hcm : s.command = c) (hl : lineOf s = l)
    (hm : s.mode = .argumentsAndOptions) (hsz : lineSize l ≤ sizeMax) {rest : Open} (ha : Agrees s.stack (.node c occs [] :: rest))
    (hsc : SameCommand s0 s) (hit : s0.iter = s.iter) (hct : s.counter = forCount c.arguments (ahead s0)) :
    ∃ rs' s1 s', Trace env s rs' s1 ∧ next env s1 = (.ok .done, s') ∧ rs'.map forgetText = rs := by
  have hforget : ∀ (ps : List Piece) (as : List ArgData), (report ps as).map forgetText = report ps as := by
    intro ps
    induction ps with
    | nil => intro as; rfl
    | cons p ps ih =>
      intro as
      cases p with
      | option o v => simp only [report, List.map_cons, ih]; rfl
      | argument v =>
        cases as with
        | nil => rfl
        | cons a as => simp only [report, List.map_cons, ih]; rfl
  induction hacc generalizing s s0 rest with
  | @last c inits l l' ps ks hw he hal hco =>
    subst hcm hl
    have hb := hcb _ hg.within
    have hn : argPieces ps ≤ sizeMax := by have := hw.size; omega
    have hlen : (handedOut s.command.arguments ks).length = argPieces ps :=
      handedOut_length hal
    obtain ⟨ct', g1, g2⟩ := forCount_hands (m := ahead s0) (hmm _ hg.within) hn hal (fun hr =>
      ⟨ahead_ok hsi hru hrd hw he hg htm hm hlen ha hco hsc hit (hb.options hr), (served_last hlen).mp hsv hr⟩)
    rw [← hct] at g1
    obtain ⟨s1, s', h1, h2⟩ := complete_last hsi hru hrd hw he hg htm (by rw [hm]; simp) hlen g1 g2 ha hco
    exact ⟨_, s1, s', h1, h2, hforget _ _⟩
  | @sub c c' inits l l1 l2 ps rs hw hen hacc ih =>
    subst hcm hl
    have hc := hen.commands_ne
    have h0 := hw.no_arguments hc
    obtain ⟨s1, g1, g2, g3, g4, g5, g6, g7⟩ := complete_segment hsi hru hrd hw hg htm rfl rfl (by rw [hm]; simp) (as := []) h0.symm .nil ha (by
      rintro ⟨x, rfl⟩
      cases hen)
    have hnx : ∃ t s2, next env s1 = (.ok (.command c' t), s2) := by
      cases hen with
      | command a1 a2 a3 a4 =>
        obtain ⟨it, ht, hol, _⟩ := taken_mixed g2 g4 a1
        exact command_ok hrd g2 ht (fun h => a2 (hol.mp h)) (by rw [g3]; exact hc) (by rw [g3, g2.settings]; exact (hru.subs _ hg.within _ _).mpr a4)
      | plainCommand a3 a4 =>
        obtain ⟨it, ht⟩ := taken_plain g2 (g4 ▸ hw.tame hru hg.within htm) g4
        refine command_ok hrd g2 ht ?_ (by rw [g3]; exact hc) (by rw [g3, g2.settings]; exact (hru.subs _ hg.within _ _).mpr a4)
        intro h
        have := (lineOf_plain_iff g4).1
        rw [h.1] at this
        simp at this
    obtain ⟨t, s2, hnx⟩ := hnx
    obtain ⟨hst, hg2⟩ := next_good hrd g2 hnx
    have ha2 := hst.agrees hsi.passive g2 (by simp [IterResult.IsLast]) g7
    have hleaf : Open.isLeaf (.node s.command (inits ++ List.filterMap occOf (report ps [])) [] :: rest) = false := by
      simpa [Open.isLeaf, Tree.command] using hc
    simp only [Open.step, hleaf] at ha2
    rcases hst.piece hsi.passive hru g2 (g4 ▸ hw.tame hru hg.within htm) (by simp [IterResult.IsLast]) (by rintro o' v' h; cases h) with
      ⟨p', _, _, _, _, ⟨o, v, _, e⟩ | ⟨a, v, _, e⟩⟩ | ⟨c2, t2, e, hen2, k1, k2, it, k3⟩
    · cases e
    · cases e
    · cases e
      rw [g3, g4] at hen2
      have hl2 : lineOf s2 = l2 := hen2.line_unique hen
      obtain ⟨rs', s3, s', j1, j2, j3⟩ := ih ((served_sub h0).mp hsv) (s := s2)
        (s0 := { s1 with iter := it, stack := PNode.make c' :: s1.stack, command := c' }) hg2 (hl2 ▸ hen.tame (hw.tame hru hg.within htm)) k1 hl2 k2
        (by have := hen.size; have := hw.size; omega) ha2 (by subst k3; exact ⟨rfl, rfl, rfl⟩) (by subst k3; rfl) (by subst k3; rfl)
      refine ⟨report ps [] ++ .command c' t :: rs', s3, s', g1.append (.cons hnx j1), j2, ?_⟩
      rw [List.map_append, List.map_cons, hforget, j3]
      rfl

/-- What the counter does when options and arguments are read. -/
theorem Step.hands {env : Env} (hp : env.Passive) (hru : Rules d names subs) {s s' : PState} (hg : Good d s) {r : IterResult}
    (h : Step env s (.ok r) s') : (∀ o v, r = .option o v → s'.counter = s.counter) ∧
      ∀ a v, r = .argument a v → s.counter.nextArgument = (some a, s'.counter) := by
  have herr : ∀ {msg t r' s'}, ErrorRun msg t IterResult.error (.ok r') s' → r' = .error := by
    intro msg t r' s' he
    cases he with
    | error _ _ => rfl
  refine ⟨?_, ?_⟩
  · rintro o v rfl
    cases h with
    | unfinished _ _ he => have := herr he; simp at this
    | unknownOption _ _ _ _ _ he => have := herr he; simp at this
    | unknownCommand _ _ _ _ he => have := herr he; simp at this
    | option ht _ _ hrun =>
      cases hrun with
      | noValue _ _ he => have := herr he; simp at this
      | normal h1 h2 hty => have e := option_passive_counter hp hg ht h1 h2; exact e
      | lastOption h1 h2 hty => have e := option_passive_counter hp hg ht h1 h2; exact e
      | stopped h1 h2 ho _ hre => have e := option_passive_counter hp hg ht h1 h2; exact e
      | lastFails _ _ _ _ he => have := herr he; simp at this
      | lastDone h1 h2 hty hok hnm hre => have e := option_passive_counter hp hg ht h1 h2; exact e
      | lastMulti h1 h2 hty hok hfm =>
        have := hru.multi (near_option hg ht h1 h2).2.succ
        rw [this] at hfm
        simp at hfm
    | argument ht hno hce hrun =>
      cases hrun with
      | tooMany _ _ _ he => have := herr he; simp at this
  · rintro a v rfl
    cases h with
    | unfinished _ _ he => have := herr he; simp at this
    | unknownOption _ _ _ _ _ he => have := herr he; simp at this
    | unknownCommand _ _ _ _ he => have := herr he; simp at this
    | option ht _ _ hrun =>
      cases hrun with
      | noValue _ _ he => have := herr he; simp at this
      | lastFails _ _ _ _ he => have := herr he; simp at this
    | argument ht hno hce hrun =>
      cases hrun with
      | argument _ hn hcl => rw [argument_passive_counter hp hg ht hn hcl]; exact hn
      | tooMany _ _ _ he => have := herr he; simp at this

/-- What is read to the end has been handed out by the counter. -/
theorem _root_.Argos.Trace.hands {env : Env} (hp : env.Passive) (hru : Rules d names subs) (hrd : Ready d) {s s1 : PState} {rs : List IterResult}
    (ht : Trace env s rs s1) (hg : Good d s) : ∀ (ps : List Piece) (as : List ArgData), as.length = argPieces ps → rs = report ps as →
      Hands s.counter as s1.counter := by
  induction ht with
  | nil =>
    intro ps as h e
    cases ps with
    | nil => rw [List.eq_nil_of_length_eq_zero h]; exact .nil
    | cons p ps =>
      cases p with
      | option o v => simp [report] at e
      | argument v =>
        cases as with
        | nil => simp [argPieces] at h
        | cons a as => simp [report] at e
  | @cons s s' s1 r rs hn ht ih =>
    obtain ⟨hst, hg1⟩ := next_good hrd hg hn
    obtain ⟨k1, k2⟩ := hst.hands hp hru hg
    intro ps as h e
    cases ps with
    | nil => simp [report] at e
    | cons p ps =>
      cases p with
      | option o v =>
        simp only [report, List.cons.injEq] at e
        rw [← k1 o _ e.1]
        exact ih hg1 ps as h e.2
      | argument v =>
        cases as with
        | nil => simp [argPieces] at h
        | cons a as =>
          simp only [report, List.cons.injEq] at e
          exact .cons (k2 a _ e.1) (ih hg1 ps as (by simpa [argPieces] using h) e.2)

theorem Hands.hand {ct ct' : Counter} {as : List ArgData} (h : Hands ct as ct') : Counter.hand ct as.length = (as.map some, ct') := by
  induction h with
  | nil => rfl
  | cons h _ ih => simp only [List.length_cons, Counter.hand, h, ih, List.map_cons]

theorem served_forget (c : Command) (rs : List IterResult) : Served c (rs.map forgetText) ↔ Served c rs := by
  have h : ∀ (rs : List IterResult) (c : Command), lastCommand c (rs.map forgetText) = lastCommand c rs ∧ argumentCount (rs.map forgetText) = argumentCount rs := by
    intro rs
    induction rs with
    | nil => intro c; exact ⟨rfl, rfl⟩
    | cons r rs ih =>
      intro c
      cases r with
      | command c' t => exact ⟨(ih c').1, (ih c').2⟩
      | argument a v =>
        refine ⟨(ih c).1, ?_⟩
        have := (ih c).2
        unfold argumentCount at this ⊢
        simp only [List.map_cons, forgetText, List.filter_cons, if_true, List.length_cons, this]
      | option _ _ => exact ⟨(ih c).1, (ih c).2⟩
      | unknown _ => exact ⟨(ih c).1, (ih c).2⟩
      | done => exact ⟨(ih c).1, (ih c).2⟩
      | error => exact ⟨(ih c).1, (ih c).2⟩
  unfold Served
  rw [(h rs c).1, (h rs c).2]

/-- What the parser reads to a successful end serves the last argument. -/
theorem sound_served {env : Env} (hp : env.Passive) (hru : Rules d names subs) (hrd : Ready d) (hx : Exclusive d.command) (hmm : CountsOk d.command)
    (hcb : ∀ c : Command, c.Within d.command → Reckonable d names c)
    {s s0 s1 s' : PState} {rs : List IterResult} (ht : Trace env s rs s1) (hg : Good d s) (htm : (lineOf s).Tame d.settings.optionStyle)
    (hl : ∀ r ∈ rs, ¬ r.IsLast) (hns : NoStop rs)
    (hd : next env s1 = (.ok .done, s')) (hm : s.mode = .argumentsAndOptions) {occs : List Occ} (h0 : argsGiven occs = []) {rest : Open}
    (ha : Agrees s.stack (.node s.command occs [] :: rest)) (hc : Counted s.counter (.node s.command occs [] :: rest))
    (hsz : lineSize (lineOf s) ≤ sizeMax) (hsc : SameCommand s0 s) (hit : s0.iter = s.iter) (hct : s.counter = forCount s.command.arguments (ahead s0)) :
    Served s.command rs := by
  induction hn : rs.length using Nat.strongRecOn generalizing rs s s0 occs rest with
  | ind n ih =>
    rcases ht.segment hp hru hrd hx hg htm hl hns (by rw [hm]; simp) ha hc with
      ⟨ps, as, e1, e2, e3, e4, e5, e6, e7, e8, e9⟩ | ⟨ps, c', t, rs2, sa, sb, rest', e1, e2, e3, e4, e5, e6, e7, e8, e9, e10, it, e11⟩
    · have hstep := (next_good hrd e6 hd).1
      have hend := (hstep.line_done e6 (e3.tame hru hg.within htm)).1
      have hck : CheckOk s1 := by
        rcases hstep.done_cases with ⟨hm, _⟩ | ⟨it, _, hok, _⟩
        · exact e5 hm
        · exact hok.congr rfl rfl (fun n hn => ⟨n, hn, rfl, rfl⟩)
      obtain ⟨k, ks', hk1, hk2⟩ := e6.head
      have hcomp : Complete s.command (occs ++ (report ps as).filterMap occOf) := by
        refine ⟨?_, ?_⟩
        · intro o ho hop
          have := hck.mandatory k (by rw [hk1]; rfl) o (by rw [e4]; exact ho) hop
          rw [hk1] at e8
          obtain ⟨l, ts, rst', f1, f2, _⟩ := agrees_cons e8
          simp only [List.cons.injEq, Tree.node.injEq] at f1
          rw [f2, ← f1.1.2.1, rawValues_has, e1] at this
          exact this
        · intro hreq
          refine hck.subcommand k (by rw [hk1]; rfl) (by rw [e4]; exact hreq) ?_
          refine e6.active k (by rw [hk1]; simp) (hru.single _ ?_)
          rw [hk2]; exact e6.within
      rw [e1, served_last e2]
      intro hr
      have hah := ahead_ok (env := Env.inert) (fun _ _ _ _ _ => ⟨rfl, rfl, rfl⟩) hru hrd e3 hend hg htm hm e2 ha hcomp hsc hit ((hcb _ hg.within).options hr)
      have hh := (ht.hands hp hru hrd hg ps as e2 e1).hand
      rw [hct, hah, e2] at hh
      have hn : argPieces ps ≤ sizeMax := by have := e3.size; omega
      refine ((C14_exact _ (hmm _ hg.within) (argPieces ps) hn).mp ⟨?_, ?_⟩).2.2 ((requires_iff _).mp hr)
      · rw [hh]; simp
      · rw [hh]; exact hck.complete
    · have hsub : Served sb.command rs2 := by
        refine ih rs2.length (by omega) e4 e5 (e3.tame (e2.tame hru hg.within htm)) (fun r hr => hl r (by rw [e1]; simp [hr]))
          (fun o v hm => hns o v (by rw [e1]; simp [hm])) e7 rfl (by rw [e6]; exact e8) (by rw [e6]; exact e9)
          (by have := e3.size; have := e2.size; omega) (s0 := { sa with iter := it, stack := PNode.make c' :: sa.stack, command := c' }) ?_ ?_ ?_ rfl
        · subst e11; exact ⟨rfl, rfl, rfl⟩
        · subst e11; rfl
        · subst e11; rfl
      rw [e1, served_sub (e2.no_arguments e3.commands_ne)]
      rwa [e6] at hsub

/-- Silent callbacks throw no exceptions. -/
theorem Step.no_throw {env : Env} (hsi : env.Silent) {s s' : PState} (hg : Good d s) {m : Str} (h : Step env s (.throw m) s') :
    s.mode = .error := by
  cases h with
  | afterError h => exact h
  | unfinished _ _ he => cases he
  | unknownOption _ _ _ _ _ he => cases he
  | unknownCommand _ _ _ _ he => cases he
  | option ht _ _ hr =>
    have hg' := (hg.taken ht).2.2
    cases hr with
    | noValue _ _ he => cases he
    | callThrow h1 h2 =>
      obtain ⟨v, s2, h3⟩ := calls_silent hsi _ ParserSettings.optionCallback _ _ _ _ _ (hg'.opRun h1).ne
      rw [h3] at h2
      simp at h2
    | lastFails _ _ _ _ he => cases he
  | argument ht _ _ hr =>
    have hg' := (hg.taken ht).2.2
    cases hr with
    | callThrow _ _ h2 =>
      obtain ⟨v, s2, h3⟩ := calls_silent hsi _ ParserSettings.argumentCallback _ _ _ _ (argState _ _ _ _) (by
        simp only [argState, storeState]
        exact storeState_ne (w := some _) (s := { s with iter := _ }) hg'.ne)
      rw [h3] at h2
      simp at h2
    | tooMany _ _ _ he => cases he

theorem OpRun.mode {o : OptData} {flag : Str} {s s' : PState} {v : Str} {st : Bool} (h : OpRun o flag s (.ok (some (v, st))) s') :
    s'.mode = s.mode := by
  cases h with
  | plain _ => rw [storeState_mode]
  | value _ _ => rw [storeState_mode]
  | noValue _ _ he => cases he

/-- Only an error sets the error mode. -/
theorem Step.mode_ok {env : Env} (hp : env.Passive) {s s' : PState} (hg : Good d s) {r : IterResult} (h : Step env s (.ok r) s')
    (hr : ¬ r.IsLast) : s'.mode ≠ .error := by
  have herr : ∀ {msg t}, ErrorRun msg t IterResult.error (.ok r) s' → False := by
    intro msg t he
    cases he with
    | error _ _ => exact hr trivial
  cases h with
  | afterDone _ => exact absurd trivial hr
  | finished _ _ => exact absurd trivial hr
  | unfinished _ _ he => exact (herr he).elim
  | unknownOption _ _ _ _ _ he => exact (herr he).elim
  | unknownCommand _ _ _ _ he => exact (herr he).elim
  | ignoredOption ht _ _ _ _ _ => exact ht.mode.2
  | command _ _ _ _ _ => simp [enterState]
  | option ht _ _ hrun =>
    have hg' := (hg.taken ht).2.2
    cases hrun with
    | noValue _ _ he => exact (herr he).elim
    | normal h1 h2 _ =>
      have hg2 := hg'.opRun h1
      obtain ⟨_, k, rfl⟩ := calls_passive hp _ _ _ _ _ _ _ hg2.ne hg2.iterOk h2
      show (PState.mode _) ≠ _
      rw [show (PState.mode _) = _ from h1.mode]
      exact ht.mode.2
    | lastOption _ _ _ => simp
    | stopped h1 h2 _ _ _ => simp [copyState, stopState]
    | lastFails _ _ _ _ he => exact (herr he).elim
    | lastDone _ _ _ _ _ _ => simp [copyState, succState]
    | lastMulti _ _ _ _ _ => simp [reactState]
  | argument ht _ _ hrun =>
    have hg' := (hg.taken ht).2.2
    cases hrun with
    | sibling _ _ => simp [enterState]
    | argument _ _ h2 =>
      obtain ⟨_, k, rfl⟩ := calls_passive hp _ _ _ _ _ _ _ (by exact storeState_ne hg'.ne) (by exact hg'.iterOk) h2
      exact ht.mode.2
    | ignored _ _ _ _ => exact ht.mode.2
    | tooMany _ _ _ he => exact (herr he).elim

theorem run_no_throw {env : Env} (hsi : env.Silent) (hrd : Ready d) (fuel : Nat) {m : Str} : ∀ {s : PState}, Good d s → s.mode ≠ .error →
    (run env fuel s).1 ≠ .throw m := by
  induction fuel with
  | zero => intro s _ _; simp [run, ParserM.lift_apply]
  | succ fuel ih =>
    intro s hg hm
    obtain ⟨hst, hg'⟩ := hg.next env hrd
    rw [run_succ]
    generalize hn : next env s = q at hst hg'
    obtain ⟨o, s1⟩ := q
    simp only at hst hg'
    rcases hst.outcome with ⟨x, rfl⟩ | ⟨m, rfl⟩ | ⟨c, rfl⟩
    · rw [bind_ok hn]
      have key : ¬ x.IsLast → (run env fuel s1).1 ≠ .throw m := fun hl => ih hg' (hst.mode_ok hsi.passive hg hl)
      cases x with
      | done => simp [pure_apply]
      | error => simp [pure_apply]
      | argument a v => exact key id
      | option a v => exact key id
      | command a v => exact key id
      | unknown a => exact key id
    · exact absurd (hst.no_throw hsi hg) hm
    · rw [bind_exit hn]; simp

theorem _root_.Argos.Spec.WrittenAll.results {c : Command} {l l' : Line} {ps : List Piece} (hw : WrittenAll d.settings.optionStyle names c l ps l') :
    ∀ (as : List ArgData), ∀ r ∈ report ps as, ¬ r.IsLast ∧ ∀ o v, r = .option o v → ¬ EndsParsing o := by
  induction hw with
  | nil => intro as r hr; simp [report] at hr
  | @cons l l1 l' p ps h _ ih =>
    intro as r hr
    cases p with
    | option o v =>
      simp only [report, List.mem_cons] at hr
      rcases hr with rfl | hr
      · refine ⟨id, ?_⟩
        rintro o' v' e
        cases e
        cases h with
        | option _ _ _ _ h => exact not_ends (Or.inl h)
        | lastOption _ _ _ _ h => exact not_ends (Or.inr (Or.inl h))
        | lastArgument _ _ _ _ h => exact not_ends (Or.inr (Or.inr h))
      · exact ih as r hr
    | argument v =>
      cases as with
      | nil => simp [report] at hr
      | cons a as =>
        simp only [report, List.mem_cons] at hr
        rcases hr with rfl | hr
        · exact ⟨id, by simp⟩
        · exact ih as r hr

/-- What the grammar reports never is the end or an error, and no option that ends parsing. -/
theorem _root_.Argos.Spec.Accepts.results {c : Command} {occs : List Occ} {l : Line} {rs : List IterResult} (h : Accepts d.settings.optionStyle names subs c occs l rs) :
    ∀ r ∈ rs, ¬ r.IsLast ∧ ∀ o v, r = .option o v → ¬ EndsParsing o := by
  induction h with
  | last hw _ _ _ => exact hw.results _
  | sub hw _ _ ih =>
    intro r hr
    simp only [List.mem_append, List.mem_cons] at hr
    rcases hr with hr | rfl | hr
    · exact hw.results _ r hr
    · exact ⟨id, by simp⟩
    · exact ih r hr

theorem forgetText_results {rs : List IterResult} (h : ∀ r ∈ rs.map forgetText, ¬ r.IsLast ∧ ∀ o v, r = .option o v → ¬ EndsParsing o) :
    (∀ r ∈ rs, ¬ r.IsLast) ∧ NoStop rs := by
  constructor
  · intro r hr hl
    refine (h _ (List.mem_map_of_mem hr)).1 ?_
    cases r <;> first | exact hl | exact trivial
  · intro o v hm
    exact (h _ (List.mem_map_of_mem hm)).2 o v rfl

/-- Nothing can be read at the end. -/
theorem _root_.Argos.Spec.Written.not_end {c : Command} {l l' : Line} {p : Piece} (h : Written d.settings.optionStyle names c l p l') : ¬ l.AtEnd d.settings.optionStyle := by
  cases h with
  | plainArgument _ => simp [Line.AtEnd]
  | _ => simp_all [Line.AtEnd]

theorem _root_.Argos.Spec.Enters.not_end {c c' : Command} {l l' : Line} (h : Enters d.settings.optionStyle subs c l c' l') : ¬ l.AtEnd d.settings.optionStyle := by
  cases h with
  | plainCommand _ _ => simp [Line.AtEnd]
  | _ => simp_all [Line.AtEnd]

theorem _root_.Argos.Spec.Enters.not_written {c c' : Command} {l l1 l' : Line} {p : Piece} (h : Enters d.settings.optionStyle subs c l c' l') : ¬ Written d.settings.optionStyle names c l p l1 := by
  intro hw
  cases h with
  | command a1 a2 a3 _ =>
    cases hw with
    | argument _ _ h => exact a3 h
    | option b1 b2 _ _ _ => rw [a1] at b1; cases b1; exact a2 b2
    | lastOption b1 b2 _ _ _ => rw [a1] at b1; cases b1; exact a2 b2
    | lastArgument b1 b2 _ _ _ => rw [a1] at b1; cases b1; exact a2 b2
  | plainCommand a1 _ =>
    cases hw with
    | plainArgument h => exact a1 h

/-- How the pieces go on, and what follows them, is determined. -/
theorem _root_.Argos.Spec.WrittenAll.unique {c : Command} (hf : ∀ q o o', names c q o → names c q o' → o = o') {l l1 l2 : Line}
    {ps qs : List Piece} (h1 : WrittenAll d.settings.optionStyle names c l ps l1) (h2 : WrittenAll d.settings.optionStyle names c l qs l2) (e1 : ∀ p l', ¬ Written d.settings.optionStyle names c l1 p l')
    (e2 : ∀ p l', ¬ Written d.settings.optionStyle names c l2 p l') : ps = qs ∧ l1 = l2 := by
  induction h1 generalizing qs with
  | nil =>
    cases h2 with
    | nil => exact ⟨rfl, rfl⟩
    | cons h _ => exact absurd h (e1 _ _)
  | cons h _ ih =>
    cases h2 with
    | nil => exact absurd h (e2 _ _)
    | cons h' hs' =>
      obtain ⟨rfl, rfl⟩ := h.unique hf h'
      obtain ⟨rfl, rfl⟩ := ih hs' e1
      exact ⟨rfl, rfl⟩

theorem _root_.Argos.Spec.Enters.named {c c1 c2 : Command} {l l1 l2 : Line} (h1 : Enters d.settings.optionStyle subs c l c1 l1) (h2 : Enters d.settings.optionStyle subs c l c2 l2) :
    ∃ q, subs c q c1 ∧ subs c q c2 := by
  cases h1 with
  | command a1 _ _ a2 =>
    cases h2 with
    | command b1 _ _ b2 => rw [a1] at b1; cases b1; exact ⟨_, a2, b2⟩
  | plainCommand _ a2 => cases h2 with | plainCommand _ b2 => exact ⟨_, a2, b2⟩

/-- A line is well-formed in one way at most. -/
theorem _root_.Argos.Spec.Accepts.unique (hf : ∀ c : Command, c.Within d.command → ∀ q o o', names c q o → names c q o' → o = o')
    (hs : ∀ c q c1 c2, subs c q c1 → subs c q c2 → c1 = c2) (hm : ∀ c q c', subs c q c' → c' ∈ c.commands)
    {c : Command} (hc : c.Within d.command) {occs : List Occ} {l : Line} {rs rs' : List IterResult}
    (h : Accepts d.settings.optionStyle names subs c occs l rs) (h' : Accepts d.settings.optionStyle names subs c occs l rs') : rs = rs' := by
  induction h generalizing rs' with
  | last hw he hal _ =>
    cases h' with
    | last hw' he' hal' _ =>
      obtain ⟨rfl, _⟩ := hw.unique (hf _ hc) hw' (fun p l' h => h.not_end he) (fun p l' h => h.not_end he')
      rw [C13_unique _ _ _ _ hal hal']
    | sub hw' he' _ =>
      obtain ⟨_, rfl⟩ := hw.unique (hf _ hc) hw' (fun p l' h => h.not_end he) (fun p l' h => he'.not_written h)
      exact absurd he he'.not_end
  | sub hw hen hacc ih =>
    cases h' with
    | last hw' he' _ _ =>
      obtain ⟨_, rfl⟩ := hw.unique (hf _ hc) hw' (fun p l' h => hen.not_written h) (fun p l' h => h.not_end he')
      exact absurd he' hen.not_end
    | sub hw' hen' hacc' =>
      obtain ⟨rfl, rfl⟩ := hw.unique (hf _ hc) hw' (fun p l' h => hen.not_written h) (fun p l' h => hen'.not_written h)
      obtain ⟨q, g1, g2⟩ := hen.named hen'
      obtain rfl := hs _ _ _ _ g1 g2
      obtain rfl := hen.line_unique hen'
      rw [ih (Command.Within.trans (.sub (hm _ _ _ g1) .self) hc) hacc']

/-! ### Lines that are read alike -/

/-- What can be read first is the same. -/
structure SameFirst (d : ParserData) (names : Command → Str → OptData → Prop) (subs : Command → Str → Command → Prop) (c : Command) (l1 l2 : Line) : Prop where
  written : ∀ p l', Written d.settings.optionStyle names c l1 p l' ↔ Written d.settings.optionStyle names c l2 p l'
  enters : ∀ c' l', Enters d.settings.optionStyle subs c l1 c' l' ↔ Enters d.settings.optionStyle subs c l2 c' l'
  atEnd : l1.AtEnd d.settings.optionStyle ↔ l2.AtEnd d.settings.optionStyle

theorem SameFirst.symm {c : Command} {l1 l2 : Line} (h : SameFirst d names subs c l1 l2) : SameFirst d names subs c l2 l1 :=
  ⟨fun p l' => (h.written p l').symm, fun p l' => (h.enters p l').symm, h.atEnd.symm⟩

theorem sameFirst_of_read {c : Command} {r r' : Reader} (h : r.readIn d.settings.optionStyle = r'.readIn d.settings.optionStyle) :
    SameFirst d names subs c (.mixed r) (.mixed r') := by
  have key : ∀ {r r' : Reader}, r.readIn d.settings.optionStyle = r'.readIn d.settings.optionStyle → (∀ p l', Written d.settings.optionStyle names c (.mixed r) p l' → Written d.settings.optionStyle names c (.mixed r') p l') ∧
      (∀ c' l', Enters d.settings.optionStyle subs c (.mixed r) c' l' → Enters d.settings.optionStyle subs c (.mixed r') c' l') ∧ ((Line.mixed r).AtEnd d.settings.optionStyle → (Line.mixed r').AtEnd d.settings.optionStyle) := by
    intro r r' h
    refine ⟨?_, ?_, ?_⟩
    · intro p l' hw
      cases hw with
      | option a1 a2 a3 a4 a5 => exact .option (h ▸ a1) a2 a3 a4 a5
      | lastOption a1 a2 a3 a4 a5 => exact .lastOption (h ▸ a1) a2 a3 a4 a5
      | lastArgument a1 a2 a3 a4 a5 => exact .lastArgument (h ▸ a1) a2 a3 a4 a5
      | argument a1 a2 a3 => exact .argument (h ▸ a1) a2 a3
    · intro c' l' he
      cases he with
      | command a1 a2 a3 a4 => exact .command (h ▸ a1) a2 a3 a4
    · intro he
      simp only [Line.AtEnd] at he ⊢
      rw [← h]; exact he
  obtain ⟨a1, a2, a3⟩ := key h
  obtain ⟨b1, b2, b3⟩ := key h.symm
  exact ⟨fun p l' => ⟨a1 p l', b1 p l'⟩, fun p l' => ⟨a2 p l', b2 p l'⟩, ⟨a3, b3⟩⟩

/-- Lines that begin alike are well-formed alike. -/
theorem SameFirst.all {c : Command} {l1 l2 : Line} (h : SameFirst d names subs c l1 l2) {ps : List Piece} {l' : Line}
    (hw : WrittenAll d.settings.optionStyle names c l1 ps l') : ∃ l3, WrittenAll d.settings.optionStyle names c l2 ps l3 ∧ SameFirst d names subs c l' l3 := by
  cases hw with
  | nil => exact ⟨l2, .nil, h⟩
  | cons h1 h2 => exact ⟨l', .cons ((h.written _ _).mp h1) h2, ⟨fun _ _ => Iff.rfl, fun _ _ => Iff.rfl, Iff.rfl⟩⟩

/-- The same piece is written first, and what follows begins alike. -/
theorem accepts_step {c : Command} (hf : ∀ q o o', names c q o → names c q o' → o = o') {l1 l2 m1 m2 : Line} {p : Piece}
    (h1 : Written d.settings.optionStyle names c l1 p m1) (h2 : Written d.settings.optionStyle names c l2 p m2) (hm : SameFirst d names subs c m1 m2) {occs : List Occ} {rs : List IterResult}
    (ha : Accepts d.settings.optionStyle names subs c occs l1 rs) : Accepts d.settings.optionStyle names subs c occs l2 rs := by
  have key : ∀ {ps l'}, WrittenAll d.settings.optionStyle names c l1 ps l' → (∀ q l'', Written d.settings.optionStyle names c l' q l'' → False) →
      ∃ l3, WrittenAll d.settings.optionStyle names c l2 ps l3 ∧ SameFirst d names subs c l' l3 := by
    intro ps l' hw hno
    cases hw with
    | nil => exact absurd h1 (fun h => hno _ _ h)
    | cons g1 g2 =>
      obtain ⟨rfl, rfl⟩ := g1.unique hf h1
      obtain ⟨l3, k1, k2⟩ := hm.all g2
      exact ⟨l3, .cons h2 k1, k2⟩
  cases ha with
  | last hw he hal hco =>
    obtain ⟨l3, k1, k2⟩ := key hw (fun q l'' h => h.not_end he)
    exact .last k1 (k2.atEnd.mp he) hal hco
  | sub hw hen hacc =>
    obtain ⟨l3, k1, k2⟩ := key hw (fun q l'' h => hen.not_written h)
    exact .sub k1 ((k2.enters _ _).mp hen) hacc

/-- Short flags that are left of an argument are read like an argument of their own. -/
theorem read_pending {c : UInt8} {cs : Str} (hc : c ≠ c!"-") (rest : List Str) :
    Reader.readStandard ⟨c :: cs, rest⟩ = Reader.readStandard ⟨[], (c!"-" :: c :: cs) :: rest⟩ := by
  cases cs with
  | nil => simp [Reader.readStandard, shortFlag]
  | cons x xs => simp [Reader.readStandard, hc]

end

end Parser

end Argos
