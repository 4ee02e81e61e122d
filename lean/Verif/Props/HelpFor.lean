import Verif.Props.Help
import Verif.Props.Store

/-! # C50: which help text is written, and what an error message is about -/

namespace Argos

open Spec Formatter

theorem namesCommand_iff (ci : Bool) (c : Command) (q : Str) (s : Command) : NamesCommand ci c q s ↔ findCommand c.commands q ci = some s := by
  have : ∀ x : Command, areEqual x.name q ci = decide (SameFlag ci x.name q) := by
    intro x
    rw [Bool.eq_iff_iff, decide_eq_true_iff, sameFlag_key, areEqual_key]
  unfold findCommand NamesCommand
  simp only [this]

theorem findPath_iff (ci : Bool) (path : List Str) : ∀ (c t : Command), findPath ci c path = .ok t ↔ PathTo ci c path t := by
  induction path with
  | nil =>
    intro c t
    simp only [findPath, Outcome.ok.injEq]
    constructor
    · rintro rfl
      exact .here
    · rintro ⟨⟩
      rfl
  | cons name path ih =>
    intro c t
    simp only [findPath]
    constructor
    · intro h
      split at h
      · rename_i s hs
        exact .sub ((namesCommand_iff ..).mpr hs) ((ih _ _).mp h)
      · simp at h
    · rintro (_ | ⟨h1, h2⟩)
      rw [(namesCommand_iff ..).mp h1]
      exact (ih _ _).mpr h2

theorem findPath_unknown (ci : Bool) (path : List Str) : ∀ (c : Command), (¬ ∃ t, PathTo ci c path t) →
    ∃ p name q t, path = p ++ name :: q ∧ PathTo ci c p t ∧ (∀ s, ¬ NamesCommand ci t name s) ∧ findPath ci c path = .throw (b!"Unknown command: " ++ name) := by
  induction path with
  | nil => intro c h; exact absurd ⟨c, .here⟩ h
  | cons name path ih =>
    intro c h
    cases hs : findCommand c.commands name ci with
    | none =>
      refine ⟨[], name, path, c, rfl, .here, ?_, by simp only [findPath, hs]⟩
      intro s h1
      rw [namesCommand_iff, hs] at h1
      simp at h1
    | some s =>
      have hn := (namesCommand_iff ..).mpr hs
      obtain ⟨p, n, q, t, h1, h2, h3, h4⟩ := ih s fun ⟨t, ht⟩ => h ⟨t, .sub hn ht⟩
      exact ⟨name :: p, n, q, t, by simp [h1], .sub hn h2, h3, by simp only [findPath, hs, h4]⟩

/-- C50: `write_subcommand_help_text` writes the help text of the command that the names lead to, and if they lead to none, it throws,
naming the first that is not the name of a sub-command. -/
theorem C50_path (console : Nat) (texts : Nat → Str) (d d' : ParserData) (h : finishInitialization (makeCopy d) = .ok d') (path : List Str) :
    (∀ c, PathTo d'.settings.caseInsensitive d'.command path c →
      ParserHandle.writeHelp console texts (some d) path = writeHelpText console texts d' c) ∧
    ((¬ ∃ c, PathTo d'.settings.caseInsensitive d'.command path c) →
      ∃ p name q c, path = p ++ name :: q ∧ PathTo d'.settings.caseInsensitive d'.command p c ∧
        (∀ s, ¬ NamesCommand d'.settings.caseInsensitive c name s) ∧
        ParserHandle.writeHelp console texts (some d) path = .throw (b!"Unknown command: " ++ name)) := by
  constructor
  · intro c hc
    rw [← findPath_iff] at hc
    simp [ParserHandle.writeHelp, ParserHandle.helpTarget, h, hc]
  · intro hn
    obtain ⟨p, name, q, c, h1, h2, h3, h4⟩ := findPath_unknown _ _ _ hn
    exact ⟨p, name, q, c, h1, h2, h3, by simp [ParserHandle.writeHelp, ParserHandle.helpTarget, h, h4]⟩

/-- A parser with two levels of sub-commands. -/
def deepExample : ParserData where
  command := { name := b!"prog", commands := [{ name := b!"one" }, { name := b!"two", commands := [{ name := b!"deep" }, { name := b!"deeper" }] }] }

example : ∃ d', finishInitialization (makeCopy deepExample) = .ok d' ∧ ∃ c, findPath d'.settings.caseInsensitive d'.command [b!"two", b!"deep"] = .ok c ∧
    c.name = b!"deep" ∧ ∃ f, ParserHandle.writeHelp 80 (fun _ => []) (some deepExample) [b!"two", b!"deep"] = .ok f ∧
      f.written = b!"USAGE\n  two deep --help\n  two deep\n\nOPTIONS\n  -h, --help Display this help text.\n" := by
  decide +kernel

example : ∃ d', finishInitialization (makeCopy deepExample) = .ok d' ∧ ∃ c, findPath d'.settings.caseInsensitive d'.command [b!"two"] = .ok c ∧
    findCommand c.commands b!"one" d'.settings.caseInsensitive = none := by
  refine ⟨_, rfl, _, rfl, ?_⟩
  rfl

/-! ### Error messages about an argument or option -/

theorem foldl_separated (s : Str) (ss : List Str) : ss.foldl (fun name s => name ++ (b!", " ++ s)) s = separated b!", " (s :: ss) := by
  induction ss generalizing s with
  | nil => rfl
  | cons x xs ih =>
    rw [List.foldl_cons, ih]
    cases xs with
    | nil => simp [separated]
    | cons y ys => simp [separated]

theorem nameOfId_view (cmd : Command) (id : Nat) : nameOfId cmd id =
    match getArgumentView cmd id with
    | some (.arg a) => .ok a.name
    | some (.opt o) => optionNames o.flags
    | none => .ok [] := by
  unfold nameOfId getArgumentView
  cases h1 : cmd.arguments.find? (fun a => decide (a.argumentId = id)) with
  | some a => rfl
  | none =>
    cases h2 : cmd.options.find? (fun o => decide (o.argumentId = id)) with
    | some a => rfl
    | none => rfl

theorem nameOfId_called {d0 d : ParserData} (hd : finishInitialization d0 = .ok d) {cmd : Command} (hcmd : cmd.Within d.command) {id : Nat} {name : Str}
    (h : CalledInErrors cmd id name) : nameOfId cmd id = .ok name := by
  obtain ⟨v1, v2, _⟩ := C20_view hd hcmd
  rw [nameOfId_view]
  cases h with
  | argument ha => rw [v1 _ ha]
  | @option o ho =>
    rw [v2 _ ho]
    obtain ⟨hne, _⟩ := flagged_of_init hd hcmd o ho
    cases hf : o.flags with
    | nil => exact absurd hf hne
    | cons s ss => simp only [optionNames, hf, foldl_separated]

/-- C50: an error message about an argument or an option (of an initialised parser) names it, with all its flags, before the message; with
the id 0 (no argument or option) there is the message alone. See `C50_error_partial` for what is missing. -/
theorem C50_error_for_partial (console : Nat) (texts : Nat → Str) (d0 d : ParserData) (hd : finishInitialization d0 = .ok d) (cmd : Command)
    (hcmd : cmd.Within d.command) (msg : Str) (hc : 2 < console) (hw : d.helpSettings.lineWidth = 0 ∨ 2 < d.helpSettings.lineWidth)
    (sp : Splitter) (hsp : Splitter.addWords [] d.helpSettings.wordSplitRules = .ok sp) (hu : ∀ r ∈ d.helpSettings.wordSplitRules, Utf8 r)
    (hr : NoReturn cmd) :
    (∀ id name, CalledInErrors cmd id name → name ≠ [] →
      ∃ f, writeErrorMessageFor console texts d cmd msg id = .ok f ∧ Laid (errorBlocks texts cmd (name ++ b!": " ++ msg)) f.written) ∧
    ∃ f, writeErrorMessageFor console texts d cmd msg 0 = .ok f ∧ Laid (errorBlocks texts cmd msg) f.written := by
  constructor
  · intro id name hn hne
    obtain ⟨f, a1, a2, _⟩ := C50_error_partial console texts d0 d hd cmd hcmd (name ++ b!": " ++ msg) hc hw sp hsp hu hr
    refine ⟨f, ?_, a2⟩
    unfold writeErrorMessageFor
    rw [nameOfId_called hd hcmd hn]
    exact (if_pos hne).trans a1
  · obtain ⟨f, a1, a2, _⟩ := C50_error_partial console texts d0 d hd cmd hcmd msg hc hw sp hsp hu hr
    refine ⟨f, ?_, a2⟩
    unfold writeErrorMessageFor
    rw [nameOfId_view, (C20_view hd hcmd).2.2]
    exact a1

example : ∃ d, finishInitialization helpExample = .ok d ∧ d.command.arguments.map (·.argumentId) = [2] ∧ d.command.options.map (·.argumentId) = [3, 4, 5] ∧
    (∃ f, writeErrorMessageFor 30 (fun _ => []) d d.command b!"Wrong." 3 = .ok f ∧
      f.written = b!"prog: -n, --number=: Wrong.\nUSAGE\n  prog --help\n  prog [-n <n>] <file>\n") ∧
    ∃ f, writeErrorMessageFor 30 (fun _ => []) d d.command b!"Wrong." 0 = .ok f ∧
      f.written = b!"prog: Wrong.\nUSAGE\n  prog --help\n  prog [-n <n>] <file>\n" := by
  decide +kernel

end Argos
