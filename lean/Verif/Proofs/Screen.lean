import Verif.Spec.Screen
import Verif.Proofs.Faults
import Verif.Proofs.Shape
import Verif.Proofs.Belongs
import Verif.Proofs.Results
import Verif.Proofs.Sound
import Verif.Proofs.Calls
import Verif.Props.Help

/-! # What is written -/

namespace Argos
open Spec

/-! ### Settings -/

namespace Splitter

theorem splitsOf_iff (rule : Str) : ∀ (prev : Option UInt8) (n : Nat),
    ((∃ l, splitsOf rule prev n = .ok l) ∨ splitsOf rule prev n = .throw b!"Invalid split rule") ∧
    ((∃ l, splitsOf rule prev n = .ok l) ↔
      ((prev = none ∨ prev = some c!" ") → ¬ ∃ t, rule = c!" " :: t) ∧ ¬ ∃ s t, rule = s ++ b!"  " ++ t) := by
  induction rule with
  | nil => intro prev n; simp [splitsOf]
  | cons c rule ih =>
    intro prev n
    by_cases hc : c = c!" "
    · subst hc
      by_cases hp : prev = none ∨ prev = some c!" "
      · have : splitsOf (c!" " :: rule) prev n = .throw b!"Invalid split rule" := by
          rcases hp with rfl | rfl <;> simp [splitsOf]
        rw [this]
        refine ⟨Or.inr rfl, iff_of_false (by simp) ?_⟩
        rintro ⟨h, _⟩
        exact h hp ⟨_, rfl⟩
      · obtain ⟨p, rfl, hp'⟩ : ∃ p, prev = some p ∧ p ≠ c!" " := by
          cases prev with
          | none => exact absurd (Or.inl rfl) hp
          | some p => exact ⟨p, rfl, fun h => hp (Or.inr (by rw [h]))⟩
        have e : splitsOf (c!" " :: rule) (some p) n =
            (splitsOf rule (some c!" ") n).bind fun rest => .ok (⟨n, p ≠ c!"-"⟩ :: rest) := by
          simp only [splitsOf, if_true]
          rw [if_neg hp']
          rfl
        obtain ⟨h1, h2⟩ := ih (some c!" ") n
        have e2 : (∃ l, splitsOf (c!" " :: rule) (some p) n = .ok l) ↔ ∃ l, splitsOf rule (some c!" ") n = .ok l := by
          rw [e]
          rcases h1 with ⟨l, h1⟩ | h1 <;> rw [h1] <;> simp [Outcome.bind]
        refine ⟨?_, e2.trans (h2.trans ?_)⟩
        · rw [e]
          rcases h1 with ⟨l, h1⟩ | h1 <;> rw [h1] <;> simp [Outcome.bind]
        · constructor
          · rintro ⟨g1, g2⟩
            refine ⟨fun h => absurd h hp, ?_⟩
            rintro ⟨s, t, h⟩
            cases s with
            | nil =>
              simp only [List.nil_append, List.cons_append, List.cons.injEq] at h
              exact g1 (Or.inr rfl) ⟨t, h.2⟩
            | cons x s =>
              simp only [List.cons_append, List.cons.injEq] at h
              exact g2 ⟨s, t, h.2⟩
          · rintro ⟨_, g2⟩
            refine ⟨fun _ => ?_, ?_⟩
            · rintro ⟨t, rfl⟩
              exact g2 ⟨[], t, rfl⟩
            · rintro ⟨s, t, rfl⟩
              exact g2 ⟨c!" " :: s, t, rfl⟩
    · have e : splitsOf (c :: rule) prev n = splitsOf rule (some c) (n + 1) := by simp [splitsOf, hc]
      rw [e]
      obtain ⟨h1, h2⟩ := ih (some c) (n + 1)
      refine ⟨h1, h2.trans ?_⟩
      constructor
      · rintro ⟨_, g2⟩
        refine ⟨fun _ => ?_, ?_⟩
        · rintro ⟨t, h⟩
          simp only [List.cons.injEq] at h
          exact hc h.1
        · rintro ⟨s, t, h⟩
          cases s with
          | nil =>
            simp only [List.nil_append, List.cons_append, List.cons.injEq] at h
            exact hc h.1
          | cons x s =>
            simp only [List.cons_append, List.cons.injEq] at h
            exact g2 ⟨s, t, h.2⟩
      · rintro ⟨_, g2⟩
        refine ⟨fun h => ?_, ?_⟩
        · rcases h with h | h
          · simp at h
          · exact absurd (Option.some.inj h) hc
        · rintro ⟨s, t, rfl⟩
          exact g2 ⟨c :: s, t, rfl⟩

theorem goodRule_iff (rule : Str) : (∃ l, splitsOf rule none 0 = .ok l) ↔ GoodRule rule := by
  rw [(splitsOf_iff rule none 0).2]
  constructor
  · rintro ⟨h1, h2⟩
    exact ⟨fun ⟨t, h⟩ => h1 (Or.inl rfl) ⟨t, h⟩, h2⟩
  · rintro ⟨h1, h2⟩
    exact ⟨fun _ ⟨t, h⟩ => h1 ⟨t, h⟩, h2⟩

theorem addWords_iff (rules : List Str) : ∀ sp : Splitter,
    ((∃ l, addWords sp rules = .ok l) ∨ addWords sp rules = .throw b!"Invalid split rule") ∧
    ((∃ l, addWords sp rules = .ok l) ↔ ∀ r ∈ rules, GoodRule r) := by
  induction rules with
  | nil => intro sp; simp [addWords]
  | cons r rs ih =>
    intro sp
    have h1 := (splitsOf_iff r none 0).1
    have h2 := goodRule_iff r
    rcases h1 with ⟨l, h1⟩ | h1
    · have hg : GoodRule r := h2.mp ⟨l, h1⟩
      obtain ⟨sp', hsp⟩ : ∃ sp', addWord sp r = .ok sp' := by
        unfold addWord
        rw [h1]
        simp only [Outcome.bind_ok]
        split <;> exact ⟨_, rfl⟩
      have e : addWords sp (r :: rs) = addWords sp' rs := by
        show Outcome.bind _ _ = _
        rw [hsp]; rfl
      rw [e]
      refine ⟨(ih sp').1, (ih sp').2.trans ?_⟩
      simp [hg]
    · have e : addWords sp (r :: rs) = .throw b!"Invalid split rule" := by
        have : addWord sp r = .throw b!"Invalid split rule" := by
          unfold addWord
          rw [h1]; rfl
        show Outcome.bind _ _ = _
        rw [this]; rfl
      rw [e]
      refine ⟨Or.inr rfl, iff_of_false (by simp) ?_⟩
      intro h
      obtain ⟨l, hl⟩ := h2.mpr (h r (by simp))
      rw [h1] at hl
      simp at hl

end Splitter

theorem consoleWidth_le (t : Nat) : 2 < consoleWidth t := by
  unfold consoleWidth getConsoleWidth
  simp only
  split
  · omega
  · split <;> omega

theorem width_iff (t n w : Nat) : Width t n w ↔ w = if n = 0 then consoleWidth t else n := by
  unfold consoleWidth getConsoleWidth
  simp only
  constructor
  · intro h
    cases h with
    | chosen h => rw [if_neg h]
    | unknown h => rw [if_pos rfl, if_pos h]
    | narrow h1 h2 => rw [if_pos rfl, if_neg h1, if_pos h2]
    | terminal h => rw [if_pos rfl, if_neg (by omega), if_neg (by omega)]
  · rintro rfl
    by_cases hn : n = 0
    · subst hn
      rw [if_pos rfl]
      by_cases h1 : t = 0
      · rw [if_pos h1]; exact .unknown h1
      · rw [if_neg h1]
        by_cases h2 : t < 32
        · rw [if_pos h2]; exact .narrow h1 h2
        · rw [if_neg h2]; exact .terminal (by omega)
    · rw [if_neg hn]; exact .chosen hn

theorem makeFormatter_iff (t : Nat) (d : ParserData) :
    ((∃ f, makeFormatter (consoleWidth t) d = .ok f) ∨ ∃ m, makeFormatter (consoleWidth t) d = .throw m) ∧
    ((∃ f, makeFormatter (consoleWidth t) d = .ok f) ↔ Writable d.helpSettings) := by
  have hc := consoleWidth_le t
  unfold makeFormatter
  rw [if_neg (by omega)]
  by_cases hw : d.helpSettings.lineWidth ≠ 0 ∧ d.helpSettings.lineWidth ≤ 2
  · rw [if_pos hw]
    refine ⟨Or.inr ⟨_, rfl⟩, iff_of_false (by simp) ?_⟩
    rintro ⟨⟨h1, h2⟩, _⟩
    omega
  · rw [if_neg hw]
    obtain ⟨h1, h2⟩ := Splitter.addWords_iff d.helpSettings.wordSplitRules []
    rcases h1 with ⟨sp, h1⟩ | h1
    · rw [h1]
      refine ⟨Or.inl ⟨_, rfl⟩, iff_of_true ⟨_, rfl⟩ ⟨by omega, h2.mp ⟨_, h1⟩⟩⟩
    · rw [h1]
      refine ⟨Or.inr ⟨_, rfl⟩, iff_of_false (by rintro ⟨f, hf⟩; simp [Bind.bind, Outcome.bind] at hf) ?_⟩
      rintro ⟨_, h⟩
      obtain ⟨l, hl⟩ := h2.mpr h
      rw [h1] at hl
      simp at hl

theorem writable_facts {h : HelpSettings} (hw : Writable h) :
    (h.lineWidth = 0 ∨ 2 < h.lineWidth) ∧ ∃ sp, Splitter.addWords [] h.wordSplitRules = .ok sp := by
  refine ⟨?_, (Splitter.addWords_iff _ _).2.mpr hw.rules⟩
  have := hw.width
  omega


/-! ### Events -/

/-- What an event shows. -/
def Event.notices : Event → List Notice
  | .help c => [.help c]
  | .error c m => [.error c m]
  | .callback cb _ _ _ => if cb = versionCallback then [.version] else []

/-- What events show. -/
def noticesIn (es : List Event) : List Notice := es.flatMap Event.notices

theorem noticesIn_append (a b : List Event) : noticesIn (a ++ b) = noticesIn a ++ noticesIn b := by simp [noticesIn]

/-- The version option is the only one with its callback, and it ends parsing. -/
structure VersionOnly (d : ParserData) : Prop where
  options : ∀ c : Command, c.Within d.command → ∀ o ∈ c.options, o.callback = some versionCallback → o.type = .stop
  arguments : ∀ c : Command, c.Within d.command → ∀ a ∈ c.arguments, a.callback ≠ some versionCallback
  settings : d.settings.optionCallback ≠ some versionCallback ∧ d.settings.argumentCallback ≠ some versionCallback

theorem Each.mem_right {α β : Type} {R : α → β → Prop} {xs : List α} {ys : List β} (h : Each R xs ys) {y : β} (hy : y ∈ ys) :
    ∃ x ∈ xs, R x y := by
  induction h with
  | nil => simp at hy
  | cons h1 _ ih =>
    rcases List.mem_cons.mp hy with rfl | hy
    · exact ⟨_, List.mem_cons_self, h1⟩
    · obtain ⟨x, hx, hr⟩ := ih hy
      exact ⟨x, List.mem_cons_of_mem _ hx, hr⟩

theorem versionOnly_of_init {d0 d : ParserData} (h : finishInitialization d0 = .ok d) (ho : OwnCallbacks d0) : VersionOnly d := by
  obtain ⟨hs, _, _, fn, c0, h1, hc0⟩ := finishInitialization_ok h
  have root : ∀ x : Command, x.Within c0 → (∀ o ∈ x.options, o.callback = some versionCallback → o.type = .stop) ∧
      ∀ a ∈ x.arguments, a.callback ≠ some versionCallback := by
    intro x hx
    rcases hx with _ | ⟨hm, hx⟩
    · rw [hc0]
      refine ⟨?_, fun a ha => ho.arguments d0.command .self a ha⟩
      intro o hmo hcb
      rcases addVersionOption_cases d0.command.options d0.command.currentSection d0.version d0.settings with e | ⟨_, _, e⟩
      · simp only at hmo
        rw [e] at hmo
        exact absurd hcb (ho.options _ .self o hmo)
      · simp only at hmo
        rw [e] at hmo
        rcases List.mem_append.mp hmo with hmo | hmo
        · exact absurd hcb (ho.options _ .self o hmo)
        · simp only [List.mem_singleton] at hmo
          rw [hmo]
    · have hw : x.Within d0.command := by
        rw [hc0] at hm
        exact .sub hm hx
      exact ⟨fun o hmo hcb => absurd hcb (ho.options _ hw o hmo), ho.arguments _ hw⟩
  have key : ∀ c : Command, c.Within d.command → (∀ o ∈ c.options, o.callback = some versionCallback → o.type = .stop) ∧
      ∀ a ∈ c.arguments, a.callback ≠ some versionCallback := by
    intro c hc
    obtain ⟨p, hp⟩ := Command.at_of_within hc
    obtain ⟨x, fn', a', b', g1, g2, _, _⟩ := (finishCommand_at d0.settings p h1).1 c hp
    obtain ⟨r1, r2⟩ := root x (Command.within_of_at p g1)
    obtain ⟨c1, _, _, cmds, g3, _, rfl⟩ := finishCommand_ok g2
    obtain ⟨opts, g4, _, ⟨g5, g6, _⟩, _⟩ := finishSelf_ok g3
    constructor
    · intro o hmo hcb
      simp only at hmo
      rw [g6] at hmo
      have hm1 : o.noIds ∈ (addHelpOption opts x.currentSection d0.settings).map OptData.noIds := by
        rw [← setOptIds_noIds]
        exact List.mem_map_of_mem hmo
      obtain ⟨o1, hm1, he1⟩ := List.mem_map.mp hm1
      have hcb1 : o1.callback = some versionCallback := by
        have := congrArg OptData.callback he1
        exact this.trans hcb
      have hty : o1.type = o.type := by
        have := congrArg OptData.type he1
        exact this
      rw [← hty]
      have hmem : o1 ∈ opts := by
        rcases addHelpOption_cases opts x.currentSection d0.settings with e | ⟨_, _, _, e⟩
        · rw [e] at hm1; exact hm1
        · rw [e] at hm1
          rcases List.mem_append.mp hm1 with hm1 | hm1
          · exact hm1
          · simp only [List.mem_singleton] at hm1
            rw [hm1] at hcb1
            simp at hcb1
      obtain ⟨o2, hm2, he2⟩ := Each.mem_right (validateAll_updated g4) hmem
      unfold Updated at he2
      rw [he2] at hcb1 ⊢
      exact r1 o2 hm2 hcb1
    · intro a hma
      simp only at hma
      rw [g5] at hma
      have hm1 : a.noIds ∈ x.arguments.map ArgData.noIds := by
        rw [← setArgIds_noIds]
        exact List.mem_map_of_mem hma
      obtain ⟨a1, hm1, he1⟩ := List.mem_map.mp hm1
      have := congrArg ArgData.callback he1
      intro hcb
      exact r2 a1 hm1 (this.trans hcb)
  exact ⟨fun c hc => (key c hc).1, fun c hc => (key c hc).2, by rw [hs]; exact ho.settings⟩

namespace Parser

theorem noticesIn_call {cb : Option Nat} {view : ViewRef} {v : Option Str} {seen : Values} :
    noticesIn (callEvents cb view v seen) = if cb = some versionCallback then [.version] else [] := by
  cases cb with
  | none => rfl
  | some c =>
    by_cases h : c = versionCallback
    · subst h; rfl
    · simp [noticesIn, callEvents, Event.notices, h]

theorem CallLog.notices {cb g : Option Nat} {view : ViewRef} {v : Str} {stored : Values} {es : List Event}
    (h : CallLog cb g view v stored es) (hg : g ≠ some versionCallback) :
    noticesIn es = if cb = some versionCallback then [.version] else [] := by
  obtain ⟨v1, seen, _, _, rfl⟩ := h
  rw [noticesIn_append, noticesIn_call, noticesIn_call, if_neg hg, List.append_nil]

theorem CutLog.notices {cb g : Option Nat} {view : ViewRef} {v : Str} {stored : Values} {es : List Event}
    (h : CutLog cb g view v stored es) (hg : g ≠ some versionCallback) :
    noticesIn es = [] ∨ noticesIn es = [.version] ∧ cb = some versionCallback := by
  cases h with
  | @own c h =>
    by_cases hc : c = versionCallback
    · right; subst hc; exact ⟨rfl, h⟩
    · left; simp [noticesIn, Event.notices, hc]
  | @general c _ _ h =>
    have hc : c ≠ versionCallback := fun e => hg (by rw [h, e])
    rw [noticesIn_append, noticesIn_call]
    have : noticesIn [.callback c view ‹_› ‹_›] = [] := by simp [noticesIn, Event.notices, hc]
    rw [this, List.append_nil]
    by_cases hcb : cb = some versionCallback
    · right; rw [if_pos hcb]; exact ⟨rfl, hcb⟩
    · left; rw [if_neg hcb]

/-- What one call of `next` shows. -/
inductive Told (c : Command) (st : ParserSettings) : Outcome IterResult → List Notice → Prop
  | option {o : OptData} {w : Option Str} : o ∈ c.options → Told c st (.ok (.option o w)) (shownFor c o)
  | other {r : IterResult} : (∀ o w, r ≠ .option o w) → r ≠ .error → Told c st (.ok r) []
  | error {m : Str} : Told c st (.ok .error) [.error c m]
  | errorExit {v : List Notice} {m : Str} : st.autoExit = true → v = [] ∨ v = [.version] →
      Told c st (.exit st.errorExitCode) (v ++ [.error c m])
  | stopExit {o : OptData} : st.autoExit = true → o ∈ c.options → o.type = .help ∨ o.type = .exit →
      Told c st (.exit st.normalExitCode) (shownFor c o)
  | throw {v e : List Notice} {m : Str} : v = [] ∨ v = [.version] → e = [] ∨ (∃ m, e = [.error c m]) → Told c st (.throw m) (v ++ e)

theorem StepLog.told {d : ParserData} (hv : VersionOnly d) (hr : Ready d) {s : PState} (hg : Good d s) (hs : Sound s)
    {r : Outcome IterResult} {es : List Event} (h : StepLog s r es) : Told s.command s.settings r (noticesIn es) := by
  have hgo : s.settings.optionCallback ≠ some versionCallback := by rw [hg.settings]; exact hv.settings.1
  have hga : s.settings.argumentCallback ≠ some versionCallback := by rw [hg.settings]; exact hv.settings.2
  have opt : ∀ {flag : Str} {o : OptData}, lookup s flag = some o → o ∈ s.command.options ∧ (o.callback = some versionCallback → o.type = .stop) :=
    fun h => ⟨lookup_mem hr hg h, hv.options _ hg.within _ (lookup_mem hr hg h)⟩
  have shown : ∀ {o : OptData} {es : List Event} {view : ViewRef} {v : Str} {stored : Values}, (o.callback = some versionCallback → o.type = .stop) →
      CallLog o.callback s.settings.optionCallback view v stored es →
      noticesIn (es ++ if o.type = .help then [.help s.command] else []) = shownFor s.command o := by
    intro o es view v stored ho hc
    rw [noticesIn_append, hc.notices hgo]
    unfold shownFor
    by_cases hcb : o.callback = some versionCallback
    · rw [if_pos hcb, if_pos hcb, if_neg (by rw [ho hcb]; simp)]; rfl
    · rw [if_neg hcb, if_neg hcb]
      by_cases hh : o.type = .help
      · rw [if_pos hh, if_pos hh]; rfl
      · rw [if_neg hh, if_neg hh]; rfl
  have arg : ∀ {a : ArgData}, (∃ ct, s.counter.nextArgument = (some a, ct)) → a.callback ≠ some versionCallback :=
    fun ⟨ct, h⟩ => hv.arguments _ hg.within _ (nextArgument_own h hs)
  have last : ∀ {o : OptData}, (o.callback = some versionCallback → o.type = .stop) → o.type = .lastArgument → o.callback ≠ some versionCallback := by
    intro o ho hl hcb
    rw [ho hcb] at hl
    simp at hl
  cases h with
  | silent h1 _ h3 => exact .other h1 h3
  | afterError _ => exact .throw (Or.inl rfl) (Or.inl rfl)
  | option _ _ hlk _ hc =>
    rw [shown (opt hlk).2 hc]
    exact .option (opt hlk).1
  | argument _ _ hn hc =>
    rw [hc.notices hga, if_neg (arg hn)]
    exact .other (by simp) (by simp)
  | error _ => exact .error
  | errorExit ha => exact .errorExit (v := []) ha (Or.inl rfl)
  | lastError _ _ _ hlk hty _ hc =>
    rw [noticesIn_append, hc.notices hgo, if_neg (last (opt hlk).2 hty)]
    exact .error
  | lastErrorExit ha _ _ hlk hty _ hc =>
    rw [noticesIn_append]
    refine .errorExit ha (Or.inl ?_)
    rw [hc.notices hgo, if_neg (last (opt hlk).2 hty)]
  | optionThrow _ _ _ _ hc ht =>
    rw [noticesIn_append]
    refine .throw ?_ ?_
    · rcases hc.notices hgo with h | ⟨h, _⟩
      · exact Or.inl h
      · exact Or.inr h
    · rcases ht with rfl | ⟨m, rfl⟩
      · exact Or.inl rfl
      · exact Or.inr ⟨m, rfl⟩
  | optionExit ha _ _ _ _ hc =>
    rw [noticesIn_append]
    refine .errorExit ha ?_
    rcases hc.notices hgo with h | ⟨h, _⟩
    · exact Or.inl h
    · exact Or.inr h
  | argumentThrow _ _ hn hc ht =>
    rw [noticesIn_append]
    refine .throw ?_ ?_
    · rcases hc.notices hga with h | ⟨h, _⟩
      · exact Or.inl h
      · exact Or.inr h
    · rcases ht with rfl | ⟨m, rfl⟩
      · exact Or.inl rfl
      · exact Or.inr ⟨m, rfl⟩
  | argumentExit ha _ _ hn hc =>
    rw [noticesIn_append]
    refine .errorExit ha ?_
    rcases hc.notices hga with h | ⟨h, _⟩
    · exact Or.inl h
    · exact Or.inr h
  | stopExit ha _ _ hlk hty _ hc =>
    rw [shown (opt hlk).2 hc]
    exact .stopExit ha (opt hlk).1 hty


theorem shownFor_nil {c : Command} {o : OptData} (hv : o.callback = some versionCallback → o.type = .stop) (h : ¬ EndsParsing o) : shownFor c o = [] := by
  unfold shownFor
  unfold EndsParsing at h
  rw [if_neg (fun hc => h (Or.inr (Or.inr (hv hc)))), if_neg (fun hc => h (Or.inl hc))]

/-- The option of a result belongs to the active command. -/
theorem next_told {env : Env} {d : ParserData} (hv : VersionOnly d) (hr : Ready d) {s s' : PState} (hg : Good d s) (hs : Sound s)
    {r : Outcome IterResult} (hn : next env s = (r, s')) :
    ∃ ns, Told s.command d.settings r ns ∧ noticesIn s'.log = noticesIn s.log ++ ns := by
  have hst := (next_good hr hg hn).1
  obtain ⟨es, h1, h2⟩ := hst.log hg
  have := h1.told hv hr hg hs
  rw [hg.settings] at this
  exact ⟨_, this, by rw [h2, noticesIn_append]⟩

/-- Nothing is shown before the end. -/
theorem _root_.Argos.Trace.untold {env : Env} {d : ParserData} (hv : VersionOnly d) (hr : Ready d) {s s' : PState} {rs : List IterResult}
    (h : Trace env s rs s') (hg : Good d s) (hs : Sound s) (hl : ∀ r ∈ rs, ¬ r.IsLast) (hns : NoStop rs) :
    noticesIn s'.log = noticesIn s.log := by
  induction h with
  | nil => rfl
  | @cons s s1 s' r rs hn _ ih =>
    have hg1 := (next_good hr hg hn).2
    have hs1 := (next_good hr hg hn).1.sound hg hs
    rw [ih hg1 hs1 (fun r hr => hl r (List.mem_cons_of_mem _ hr)) (fun o v hm => hns o v (List.mem_cons_of_mem _ hm))]
    obtain ⟨ns, h1, h2⟩ := next_told hv hr hg hs hn
    rw [h2]
    cases h1 with
    | option hm => rw [shownFor_nil (hv.options _ hg.within _ hm) (hns _ _ List.mem_cons_self), List.append_nil]
    | other _ _ => rw [List.append_nil]
    | error => exact absurd trivial (hl _ List.mem_cons_self)

theorem shaped_command {d : ParserData} {s : PState} (hg : Good d s) {root : Command} {rs : List IterResult} (h : Shaped s.stack (Open.after root rs)) :
    activeCommand root rs = s.command := by
  obtain ⟨n, ns, h1, h2⟩ := hg.head
  rw [h1] at h
  obtain ⟨l, ts, rest, h3, _, _⟩ := shaped_cons h
  unfold activeCommand
  rw [h3]
  exact h2

theorem activeCommand_option {root : Command} {rs : List IterResult} {o : OptData} {v : Option Str} (h : EndsParsing o) :
    activeCommand root (rs ++ [.option o v]) = activeCommand root rs := by
  unfold activeCommand Open.after
  rw [List.foldl_append]
  generalize rs.foldl Open.step (Open.start root) = st
  show (match Open.step st (.option o v) with | t :: _ => t.command | [] => root) = _
  unfold Open.step
  simp only
  rw [if_neg (by unfold EndsParsing at h; intro hc; rw [hc] at h; simp at h)]
  cases st with
  | nil => rfl
  | cons t rest => cases t; rfl

/-- What has been shown after some results. -/
theorem _root_.Argos.Trace.told {env : Env} {d : ParserData} (hv : VersionOnly d) (hr : Ready d) {args : List Str} {s' : PState} {rs : List IterResult}
    (h : Trace env (start d args).2 rs s') (hl : ∀ r ∈ rs, ¬ r.IsLast) :
    activeCommand d.command rs = s'.command ∧ Good d s' ∧ Sound s' ∧
    noticesIn s'.log = shownAtEnd (activeCommand d.command rs) rs ∧ (shownAtEnd (activeCommand d.command rs) rs = [] ∨ s'.mode = .done) := by
  have hg := (start_good d args).2
  have hs := start_sound d args
  have h0 : noticesIn (start d args).2.log = [] := by rw [start_log]; rfl
  have hg' := h.good hr hg
  have hs' := h.sound hr hg hs
  have hc := shaped_command hg' (h.shaped hr hg hl (shaped_start d args))
  refine ⟨hc, hg', hs', ?_⟩
  by_cases hns : NoStop rs
  · have hn : shownAtEnd (activeCommand d.command rs) rs = [] := by
      rcases List.eq_nil_or_concat rs with rfl | ⟨rs0, r, rfl⟩
      · rfl
      · rw [List.concat_eq_append] at h hns hl ⊢
        obtain ⟨s1, h1, h2⟩ := h.split
        cases h2 with
        | cons hn h3 =>
        cases h3
        unfold shownAtEnd
        rw [List.getLast?_concat]
        cases r with
        | option o w =>
          show shownFor _ o = []
          obtain ⟨ns, h4, _⟩ := next_told hv hr (h1.good hr hg) (h1.sound hr hg hs) hn
          cases h4 with
          | option hm => exact shownFor_nil (hv.options _ (h1.good hr hg).within _ hm) (hns o w (List.mem_append_right _ List.mem_cons_self))
          | other h5 _ => exact absurd rfl (h5 _ _)
        | _ => rfl
    rw [hn, h.untold hv hr hg hs hl hns]
    exact ⟨h0, Or.inl rfl⟩
  · have : ∃ o v, .option o v ∈ rs ∧ EndsParsing o := by
      apply Classical.byContradiction
      intro hne
      exact hns fun o v hm he => hne ⟨o, v, hm, he⟩
    obtain ⟨o, v, hm, he⟩ := this
    obtain ⟨rs0, s1, rfl, hns0, ht0, hn, hg1, hd⟩ := h.stop_last hr hg hl hm he
    have hs1 := ht0.sound hr hg hs
    refine ⟨?_, Or.inr hd⟩
    obtain ⟨ns, h1, h2⟩ := next_told hv hr hg1 hs1 hn
    rw [h2, ht0.untold hv hr hg hs (fun r hr => hl r (List.mem_append_left _ hr)) hns0, h0, List.nil_append]
    have hc0 := shaped_command hg1 (ht0.shaped hr hg (fun r hr => hl r (List.mem_append_left _ hr)) (shaped_start d args))
    have hcc : activeCommand d.command (rs0 ++ [.option o v]) = activeCommand d.command rs0 := by
      exact activeCommand_option he
    rw [hcc, hc0]
    unfold shownAtEnd
    rw [List.getLast?_concat]
    show ns = shownFor _ o
    cases h1 with
    | option _ => rfl
    | other h5 _ => exact absurd rfl (h5 _ _)

/-- How a run ends. -/
theorem run_ends {env : Env} {d : ParserData} (hr : Ready d) (fuel : Nat) : ∀ {s : PState}, Good d s →
    ∃ rs s1, Trace env s rs s1 ∧ (∀ r ∈ rs, ¬ r.IsLast) ∧
      (rs.length = fuel ∧ run env fuel s = (.diverges, s1) ∨ rs.length < fuel ∧
       ((∃ last s', next env s1 = (.ok last, s') ∧ last.IsLast ∧ run env fuel s = (.ok (), s')) ∨
       (∃ c s', next env s1 = (.exit c, s') ∧ run env fuel s = (.exit c, s')) ∨
       (∃ m s', next env s1 = (.throw m, s') ∧ run env fuel s = (.throw m, s')))) := by
  induction fuel with
  | zero => intro s _; exact ⟨[], s, .nil, by simp, Or.inl ⟨rfl, rfl⟩⟩
  | succ fuel ih =>
    intro s hg
    rw [run_succ, ParserM.bind_apply]
    generalize hn : next env s = q
    obtain ⟨o, s1⟩ := q
    obtain ⟨hst, hg1⟩ := next_good hr hg hn
    obtain ⟨es, hlog, _⟩ := hst.log hg
    cases o with
    | ok r =>
      have cont : ¬ r.IsLast → ∃ rs s2, Trace env s rs s2 ∧ (∀ r ∈ rs, ¬ r.IsLast) ∧
          (rs.length = fuel + 1 ∧ run env fuel s1 = (.diverges, s2) ∨ rs.length < fuel + 1 ∧
           ((∃ last s', next env s2 = (.ok last, s') ∧ last.IsLast ∧ run env fuel s1 = (.ok (), s')) ∨
           (∃ c s', next env s2 = (.exit c, s') ∧ run env fuel s1 = (.exit c, s')) ∨
           (∃ m s', next env s2 = (.throw m, s') ∧ run env fuel s1 = (.throw m, s')))) := by
        intro hl
        obtain ⟨rs, s2, h1, h2, h3⟩ := ih hg1
        refine ⟨r :: rs, s2, .cons hn h1, ?_, by simpa using h3⟩
        intro r' hr'
        rcases List.mem_cons.mp hr' with rfl | hr'
        · exact hl
        · exact h2 _ hr'
      cases r with
      | error => exact ⟨[], s, .nil, by simp, Or.inr ⟨by simp, Or.inl ⟨_, _, hn, trivial, rfl⟩⟩⟩
      | done => exact ⟨[], s, .nil, by simp, Or.inr ⟨by simp, Or.inl ⟨_, _, hn, trivial, rfl⟩⟩⟩
      | argument a v => exact cont (by simp [IterResult.IsLast])
      | option o v => exact cont (by simp [IterResult.IsLast])
      | command c t => exact cont (by simp [IterResult.IsLast])
      | unknown x => exact cont (by simp [IterResult.IsLast])
    | exit c => exact ⟨[], s, .nil, by simp, Or.inr ⟨by simp, Or.inr (Or.inl ⟨_, _, hn, rfl⟩)⟩⟩
    | throw m => exact ⟨[], s, .nil, by simp, Or.inr ⟨by simp, Or.inr (Or.inr ⟨_, _, hn, rfl⟩)⟩⟩
    | outOfRange => cases hlog
    | ub => cases hlog
    | diverges => cases hlog

end Parser

/-! ### Writing -/

theorem event_looks {sc : Screen} {d0 d : ParserData} (hd : finishInitialization d0 = .ok d) (hw : CanWrite d) {W : Nat}
    (hW : Width sc.terminal d.helpSettings.lineWidth W) {e : Event} (he : ∀ c m, (e = .help c ∨ e = .error c m) → c.Within d.command) :
    ∃ out, sc.event d e = .ok out ∧ Each (Notice.Looks sc d W) e.notices out := by
  obtain ⟨h1, sp, h2⟩ := writable_facts hw.settings
  rw [width_iff] at hW
  cases e with
  | help c =>
    have hc := he c [] (Or.inl rfl)
    obtain ⟨f, g1, g2, g3⟩ := C50_help_partial (consoleWidth sc.terminal) sc.texts d0 d hd c hc (consoleWidth_le _) h1 sp h2 hw.rules (hw.names c hc)
    refine ⟨[(sc.helpStream, f.writer.out)], ?_, ?_⟩
    · simp [Screen.event, g1, Bind.bind, Outcome.bind, pure]
    · rw [C52_help _ _ _ _ _ g1]
      rw [← hW] at g3
      exact .cons (.help g2 g3) .nil
  | error c m =>
    have hc := he c m (Or.inr rfl)
    obtain ⟨f, g1, g2, g3⟩ := C50_error_partial (consoleWidth sc.terminal) sc.texts d0 d hd c hc m (consoleWidth_le _) h1 sp h2 hw.rules (hw.names c hc)
    refine ⟨[(sc.errorStream, f.writer.out)], ?_, ?_⟩
    · simp [Screen.event, g1, Bind.bind, Outcome.bind, pure]
    · rw [C52_error _ _ _ _ _ _ g1]
      rw [← hW] at g3
      exact .cons (.error g2 g3) .nil
  | callback cb v w vs =>
    simp only [Screen.event, Event.notices]
    by_cases hc : cb = versionCallback
    · rw [if_pos hc, if_pos hc]
      exact ⟨_, rfl, .cons .version .nil⟩
    · rw [if_neg hc, if_neg hc]
      exact ⟨_, rfl, .nil⟩

theorem Each.append {α β : Type} {R : α → β → Prop} {xs xs' : List α} {ys ys' : List β} (h : Each R xs ys) (h' : Each R xs' ys') :
    Each R (xs ++ xs') (ys ++ ys') := by
  induction h with
  | nil => exact h'
  | cons h1 _ ih => exact .cons h1 ih

theorem events_look {sc : Screen} {d0 d : ParserData} (hd : finishInitialization d0 = .ok d) (hw : CanWrite d) {W : Nat}
    (hW : Width sc.terminal d.helpSettings.lineWidth W) {es : List Event} (he : ∀ e ∈ es, ∀ c m, (e = .help c ∨ e = .error c m) → c.Within d.command) :
    ∃ out, sc.events d es = .ok out ∧ Each (Notice.Looks sc d W) (noticesIn es) out := by
  induction es with
  | nil => exact ⟨[], rfl, .nil⟩
  | cons e es ih =>
    obtain ⟨o1, h1, h2⟩ := event_looks hd hw hW (he e List.mem_cons_self)
    obtain ⟨o2, h3, h4⟩ := ih (fun e h => he e (List.mem_cons_of_mem _ h))
    refine ⟨o1 ++ o2, ?_, ?_⟩
    · simp [Screen.events, h1, h3, Bind.bind, Outcome.bind, pure]
    · exact Each.append h2 h4

end Argos
