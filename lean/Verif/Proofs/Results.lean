import Verif.Spec.Results
import Verif.Proofs.Links
import Verif.Proofs.Given

/-! # What a client sees in the results -/

namespace Argos
open Spec

theorem get_isText (texts : Nat → Str) (t : TextSource) : IsTextOf texts t (t.get texts) := by
  cases t with
  | text s => exact Or.inl rfl
  | callback n => exact Or.inr ⟨n, rfl, rfl⟩

/-- All the ids that were given are positive. -/
def IdMaker.Pos (m : IdMaker) : Prop := ∀ n v, m.find n = some v → 0 < v

theorem IdMaker.Pos.emplace {m : IdMaker} (h : m.Pos) (n : Str) {v : Nat} (hv : 0 < v) : (m.emplace n v).Pos := by
  unfold IdMaker.emplace
  split
  · exact h
  · rename_i hn
    intro n' v' h'
    simp only [IdMaker.find, List.lookup_append, Option.or_eq_some_iff] at h'
    rcases h' with h' | ⟨_, h'⟩
    · exact h n' v' h'
    · simp only [List.lookup] at h'
      split at h'
      · simp only [Option.some.injEq] at h'; omega
      · simp at h'

theorem IdMaker.Pos.emplaceAll {m : IdMaker} (h : m.Pos) (ns : List Str) {v : Nat} (hv : 0 < v) : (m.emplaceAll ns v).Pos := by
  unfold IdMaker.emplaceAll
  induction ns generalizing m with
  | nil => exact h
  | cons n ns ih => exact ih (h.emplace n hv)

theorem IdMaker.Pos.bump {m : IdMaker} (h : m.Pos) (i : Nat) : (IdMaker.mk m.ids i).Pos := h

theorem IdMaker.Pos.getValueId {m : IdMaker} (h : m.Pos) (n : Str) : 0 < (m.getValueId n).1 ∧ (m.getValueId n).2.Pos := by
  unfold IdMaker.getValueId
  split
  · rename_i v hv; exact ⟨h _ _ hv, h⟩
  · exact ⟨Nat.succ_pos _, IdMaker.Pos.emplace (h.bump _) _ (Nat.succ_pos _)⟩

theorem IdMaker.Pos.getValueIds {m : IdMaker} (h : m.Pos) (ns : List Str) : 0 < (m.getValueIds ns).1 ∧ (m.getValueIds ns).2.Pos := by
  unfold IdMaker.getValueIds
  split
  · rename_i v hv
    obtain ⟨n, _, hn⟩ := List.exists_of_findSome?_eq_some hv
    exact ⟨h _ _ hn, h⟩
  · exact ⟨Nat.succ_pos _, IdMaker.Pos.emplaceAll (h.bump _) _ (Nat.succ_pos _)⟩

theorem setArgIds_shown (texts : Nat → Str) (as : List ArgData) (k : Nat) {m : IdMaker} (h : m.Pos) :
    Each (fun a x => ArgShown texts a (ArgData.info texts x)) as (setArgIds as k m).1 ∧ (setArgIds as k m).2.2.Pos := by
  induction as generalizing k m with
  | nil => exact ⟨.nil, h⟩
  | cons a as ih =>
    have hstep : ∀ r, r = (if !a.alias_.isEmpty then
        let (v, m1) := m.getValueId a.alias_
        (v, m1.emplace a.name v)
      else m.getValueId a.name) → 0 < r.1 ∧ r.2.Pos := by
      rintro r rfl
      split
      · exact ⟨(h.getValueId _).1, (h.getValueId _).2.emplace _ (h.getValueId _).1⟩
      · exact h.getValueId _
    unfold setArgIds
    obtain ⟨h1, h2⟩ := hstep _ rfl
    obtain ⟨i1, i2⟩ := ih (k + 1) h2
    refine ⟨.cons ⟨rfl, get_isText texts a.help, rfl, rfl, rfl, rfl, ⟨rfl, rfl⟩, by simp [ArgData.info], h1⟩ i1, i2⟩

/-- What the initialisation does to an option: the constant may be set. -/
def Updated (o o' : OptData) : Prop :=
  o' = { o with constant :=
    if (o.operation = .assign ∧ o.argument = [] ∧ o.constant = []) ∨ (o.operation = .clear ∧ (o.argument ≠ [] ∨ o.constant ≠ [])) then b!"1" else o.constant }

theorem validateAndUpdate_updated {o : OptData} {style : OptionStyle} {o' : OptData} (h : validateAndUpdate o style = .ok o') : Updated o o' := by
  unfold validateAndUpdate at h
  split at h
  · simp at h
  rw [Outcome.bind_eq_ok] at h
  obtain ⟨u, _, h2⟩ := h
  split at h2
  · simp at h2
  unfold Updated
  obtain ⟨fl, he, se, al, ar, co, iv, cb, op, ty, vi, opt, id, ai, vid⟩ := o
  cases op with
  | none =>
    simp only at h2
    split at h2
    · simp at h2
    · split at h2
      · simp at h2
      · simp at h2; subst h2; simp
  | assign =>
    simp only at h2
    split at h2
    · rename_i hc
      simp at h2 hc
      subst h2
      simp [hc]
    · rename_i hc
      simp at h2 hc
      subst h2
      simpa using fun h1 h2 => absurd h2 (hc h1)
  | append =>
    simp only at h2
    split at h2
    · simp at h2
    · simp at h2; subst h2; simp
  | clear =>
    simp only at h2
    by_cases hc : (!ar.isEmpty || !co.isEmpty) = true
    · simp only [if_pos hc] at h2
      split at h2
      · simp at h2
      · simp at h2 hc
        subst h2
        simpa using fun h1 h2 => absurd hc (by simp [h1, h2])
    · simp only [if_neg hc] at h2
      split at h2
      · simp at h2
      · simp at h2 hc
        subst h2
        simp [hc]

theorem validateAll_updated {style : OptionStyle} {os os' : List OptData} (h : validateAll style os = .ok os') : Each Updated os os' := by
  induction os generalizing os' with
  | nil => simp [validateAll] at h; subst h; exact .nil
  | cons o os ih =>
    simp only [validateAll] at h
    rw [Outcome.bind_eq_ok] at h
    obtain ⟨o', h1, h2⟩ := h
    rw [Outcome.bind_eq_ok] at h2
    obtain ⟨os'', h2, h3⟩ := h2
    simp only [Outcome.pure_eq, Outcome.ok.injEq] at h3
    subst h3
    exact .cons (validateAndUpdate_updated h1) (ih h2)

/-- The option got its ids. -/
def WithIds (o o' : OptData) : Prop :=
  ∃ a v, o' = { o with argumentId := a, valueId := v } ∧ (o.operation ≠ .none → 0 < v) ∧ (o.operation = .none → v = o.valueId)

theorem setOptIds_each (os : List OptData) (k : Nat) {m : IdMaker} (h : m.Pos) :
    Each WithIds os (setOptIds os k m).1 := by
  induction os generalizing k m with
  | nil => exact .nil
  | cons o os ih =>
    unfold setOptIds
    by_cases hn : o.operation = .none
    · rw [if_pos hn]
      exact .cons ⟨k + 1, o.valueId, rfl, fun hc => absurd hn hc, fun _ => rfl⟩ (ih _ h)
    · rw [if_neg hn]
      have hstep : ∀ r, r = (if !o.alias_.isEmpty then
          let (v, m1) := m.getValueId o.alias_
          (v, m1.emplaceAll o.flags v)
        else m.getValueIds o.flags) → 0 < r.1 ∧ r.2.Pos := by
        rintro r rfl
        split
        · exact ⟨(h.getValueId _).1, (h.getValueId _).2.emplaceAll _ (h.getValueId _).1⟩
        · exact h.getValueIds _
      obtain ⟨h1, h2⟩ := hstep _ rfl
      exact .cons ⟨_, _, rfl, fun _ => h1, fun hc => absurd hc hn⟩ (ih _ h2)

theorem each_append {α β : Type} {R : α → β → Prop} {a a' : List α} {l : List β} (h : Each R (a ++ a') l) :
    ∃ b b', l = b ++ b' ∧ Each R a b ∧ Each R a' b' := by
  induction a generalizing l with
  | nil => exact ⟨[], l, rfl, .nil, h⟩
  | cons x xs ih =>
    cases h with
    | cons hr ht =>
      obtain ⟨b, b', rfl, h1, h2⟩ := ih ht
      exact ⟨_ :: b, b', rfl, .cons hr h1, h2⟩

theorem Spec.Each.trans {α β γ : Type} {R : α → β → Prop} {S : β → γ → Prop} {T : α → γ → Prop} (ht : ∀ x y z, R x y → S y z → T x z)
    {a : List α} {b : List β} {c : List γ} (h1 : Each R a b) (h2 : Each S b c) : Each T a c := by
  induction h1 generalizing c with
  | nil => cases h2; exact .nil
  | cons hr _ ih => cases h2 with | cons hs h2 => exact .cons (ht _ _ _ hr hs) (ih h2)

theorem shown_of_updated (texts : Nat → Str) {o o' : OptData} {o'' : OptData} (h : Updated o o')
    (h2 : WithIds o' o'') :
    OptShown texts o (o''.info texts) := by
  obtain ⟨a, v, rfl, h3, h4⟩ := h2
  unfold Updated at h
  subst h
  exact ⟨rfl, get_isText texts o.help, rfl, rfl, rfl, rfl, rfl, rfl, rfl, rfl, rfl, rfl, h3, h4⟩

/-- The options of a command after initialisation. -/
theorem finishSelf_options (texts : Nat → Str) {s : ParserSettings} {fn : Str} {c c' : Command} {a b x y : Nat} (h : finishSelf s fn c a b = .ok (c', x, y))
    {options version : List OptData} (ho : c.options = options ++ version) :
    ∃ declared v added, c'.options = declared ++ (v ++ added) ∧ Each (fun o x => OptShown texts o (OptData.info texts x)) options declared ∧
      Each (fun o x => OptShown texts o (OptData.info texts x)) version v ∧ added.length ≤ 1 ∧
      (∀ o ∈ added, s.generateHelpOption = true ∧ o.type = .help ∧ o.help = .text b!"Display this help text." ∧ o.argument = [] ∧ o.flags ≠ []) := by
  obtain ⟨opts, h1, _, ⟨_, h2, _⟩, _⟩ := finishSelf_ok h
  have hv := validateAll_updated h1
  rw [ho] at hv
  obtain ⟨o1, o2, rfl, v1, v2⟩ := each_append hv
  have hpos : (setArgIds c.arguments (b + 1) ⟨[], a⟩).2.2.Pos := (setArgIds_shown texts _ _ (by intro n v hn; simp [IdMaker.find] at hn)).2
  have he := setOptIds_each (addHelpOption (o1 ++ o2) c.currentSection s) (setArgIds c.arguments (b + 1) ⟨[], a⟩).2.1 hpos
  rw [← h2] at he
  have tr : ∀ {l l' l'' : List OptData}, Each Updated l l' → Each WithIds l' l'' → Each (fun o x => OptShown texts o (OptData.info texts x)) l l'' :=
    fun e1 e2 => Each.trans (R := Updated) (S := WithIds) (T := fun o x => OptShown texts o (OptData.info texts x)) (fun _ _ _ h1 h2 => shown_of_updated texts h1 h2) e1 e2
  rcases addHelpOption_cases (o1 ++ o2) c.currentSection s with e | ⟨e1, _, e2, e⟩
  · rw [e] at he
    obtain ⟨b1, b2, e3, e4, e5⟩ := each_append he
    exact ⟨b1, b2, [], by simpa using e3, tr v1 e4, tr v2 e5, by simp, by simp⟩
  · rw [e, List.append_assoc] at he
    obtain ⟨b1, b2, e3, e4, e5⟩ := each_append he
    obtain ⟨b3, b4, rfl, e6, e7⟩ := each_append e5
    refine ⟨b1, b3, b4, e3, tr v1 e4, tr v2 e6, ?_, ?_⟩
    · cases e7 with | cons _ e8 => cases e8; simp
    · cases e7 with
      | cons e9 e8 =>
        cases e8
        obtain ⟨i, v, rfl, _⟩ := e9
        intro o hm
        rw [List.mem_singleton] at hm
        subst hm
        exact ⟨e1, rfl, rfl, rfl, e2⟩

theorem each_length {α β : Type} {R : α → β → Prop} {a : List α} {b : List β} (h : Each R a b) : a.length = b.length := by
  induction h with
  | nil => rfl
  | cons _ _ ih => simp [ih]

/-- The command after initialisation is shown as it was declared. -/
theorem finishCommand_shown (texts : Nat → Str) {s : ParserSettings} {fn : Str} {a b : Nat} {c c' : Command} (h : finishCommand s fn a b c = .ok c')
    (c0 : Command) (hc : ∃ version, c = { c0 with options := c0.options ++ version } ∧ version.length ≤ 1 ∧ ∀ o ∈ version, o.type = .stop ∧
      o.help = .text b!"Display the program version." ∧ o.argument = [] ∧ o.flags.length = 1)
    (hasVersion : Bool) (hv : c ≠ c0 → hasVersion = true) :
    CmdShown texts hasVersion s.generateHelpOption c0 (c'.info texts) := by
  obtain ⟨version, hcv, hl, hver⟩ := hc
  obtain ⟨c1, x, y, cmds, h1, h2, rfl⟩ := finishCommand_ok h
  obtain ⟨opts, _, hreq, ⟨hargs, _⟩, _, hcmds, _, hname, _, htexts, hvis, _, hsec, hid, _⟩ := finishSelf_ok h1
  have hopt : c.options = c0.options ++ version := by rw [hcv]
  obtain ⟨dec, v, added, o1, o2, o3, o4, o5⟩ := finishSelf_options texts h1 hopt
  have f1 : c.name = c0.name := by rw [hcv]
  have f2 : c.texts = c0.texts := by rw [hcv]
  have f3 : c.visibility = c0.visibility := by rw [hcv]
  have f4 : c.section_ = c0.section_ := by rw [hcv]
  have f5 : c.id = c0.id := by rw [hcv]
  have f6 : c.arguments = c0.arguments := by rw [hcv]
  have f7 : c.commands = c0.commands := by rw [hcv]
  have f8 : c.requireSubcommand = c0.requireSubcommand := by rw [hcv]
  refine ⟨hname.trans f1, hname.trans f1, hsec.trans f4, hvis.trans f3, hid.trans f5, ?_, ⟨dec, v ++ added, o1, o2, v.map (OptData.info texts),
    added.map (OptData.info texts), by simp, ?_, by simpa using o4, ?_, ?_⟩, ?_, ?_, ?_⟩
  · rw [← f6]
    have := (setArgIds_shown texts c.arguments (b + 1) (m := ⟨[], a⟩) (by intro n v hn; simp [IdMaker.find] at hn)).1
    rw [← hargs] at this
    exact this
  · rw [List.length_map, ← each_length o3]; exact hl
  · intro i hi
    obtain ⟨o, ho, rfl⟩ := List.mem_map.mp hi
    have hne : c ≠ c0 := by
      intro e
      rw [e] at hopt
      have : version = [] := by simpa using hopt
      subst this
      cases o3
      simp at ho
    refine ⟨hv hne, ?_⟩
    have : ∀ {l l' : List OptData}, Each (fun o x => OptShown texts o (OptData.info texts x)) l l' → ∀ o' ∈ l', ∃ o ∈ l, OptShown texts o (OptData.info texts o') := by
      intro l l' he
      induction he with
      | nil => simp
      | cons hr _ ih =>
        intro o' ho'
        rcases List.mem_cons.mp ho' with rfl | ho'
        · exact ⟨_, by simp, hr⟩
        · obtain ⟨o, h1, h2⟩ := ih o' ho'
          exact ⟨o, by simp [h1], h2⟩
    obtain ⟨z, hz, hs⟩ := this o3 o ho
    obtain ⟨g1, g2, g3, g4⟩ := hver z hz
    refine ⟨hs.type.trans g1, ?_, hs.argument.trans g3, by rw [hs.flags, g4]⟩
    rcases hs.help with e | ⟨n, e, _⟩
    · rw [g2] at e; injection e with e; exact e.symm
    · rw [g2] at e; simp at e
  · intro i hi
    obtain ⟨o, ho, rfl⟩ := List.mem_map.mp hi
    obtain ⟨g1, g2, g3, g4, g5⟩ := o5 o ho
    exact ⟨g1, g2, by simp [OptData.info, g3, TextSource.get], g4, g5⟩
  · have := (finishCommands_get h2).1
    rw [f7] at this
    exact this
  · rw [f7, f8] at hreq
    unfold updateRequireCommand at hreq
    split at hreq
    · simp at hreq
    · split at hreq
      · rename_i hr
        simp only [Outcome.ok.injEq] at hreq
        simp only [Command.info, ← hreq, hr]
        simp
      · rename_i r hr
        simp only [Outcome.ok.injEq] at hreq
        simp only [Command.info, ← hreq, hr]
        simp
  · simp only [Command.info, htexts, f2]
    constructor
    · intro t ht
      rw [ht]
      exact get_isText texts t
    · intro ht
      rw [ht]

theorem viewAt_eq (texts : Nat → Str) (p : List Nat) (c : Command) : viewAt texts c p = c.at p := by
  induction p generalizing c with
  | nil => rfl
  | cons i p ih =>
    simp only [viewAt, Command.at, Command.info]
    cases c.commands[i]? with
    | none => rfl
    | some s => exact ih s

end Argos
