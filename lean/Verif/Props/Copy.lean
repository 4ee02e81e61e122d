import Verif.Spec.Copy
import Verif.Proofs.Declaration
import Verif.Props.World

/-! # Copying the contents of a command: C76 -/

namespace Argos
open Spec

theorem toStr_names (id : TextId) : (id, id.toStr) ∈ textNames := by cases id <;> decide

/-- How the texts of all commands stay maps. -/
theorem kept_sorted : Kept (fun c => TextsSorted c.texts) (fun _ _ => True) where
  fresh _ := .nil
  copy c h := by rw [Command.copy_fields]; exact h
  same _ _ _ _ _ h1 h := h1 h
  addArg _ _ _ h := h
  addCmd _ _ _ h _ := h
  copyFrom _ _ _ h _ := h

theorem run_sorted {env : Env} {fuel : Nat} (cs : List Call) : ∀ {w : World}, (∀ c, w.Has c → TextsSorted c.texts) →
    ∀ c, (World.run env fuel w cs).Has c → TextsSorted c.texts := by
  induction cs with
  | nil => intro w hw; exact hw
  | cons c cs ih => intro w hw; exact ih (kept_sorted.exec hw (fun _ _ _ => trivial))

theorem lookup_of_sorted {texts : List (TextId × TextSource)} (h : TextsSorted texts) {id : TextId} {t : TextSource} :
    texts.lookup id = some t ↔ (id, t) ∈ texts := by
  induction texts with
  | nil => simp
  | cons q rest ih =>
    obtain ⟨i, s⟩ := q
    obtain ⟨h1, h2⟩ := List.pairwise_cons.mp h
    rw [List.lookup_cons]
    by_cases e : id = i
    · subst e
      simp only [beq_self_eq_true, Option.some.injEq, List.mem_cons, Prod.mk.injEq, true_and]
      constructor
      · intro e; exact Or.inl e.symm
      · rintro (e | e)
        · exact e.symm
        · exact absurd (h1 _ e) (by simp)
    · have : (id == i) = false := by simpa using e
      rw [this]
      simp only [List.mem_cons, Prod.mk.injEq, e, false_and, false_or]
      exact ih h2

/-- The texts that are copied. -/
theorem copyTexts_spec {src : List (TextId × TextSource)} (hs : TextsSorted src) : ∀ (texts : List (TextId × TextSource)),
    ((¬ ∃ id, (∃ t, texts.lookup id = some t) ∧ ∃ t, src.lookup id = some t) →
      (copyTexts texts src).1 = .ok () ∧ ∀ id, (copyTexts texts src).2.lookup id = (texts.lookup id).or (src.lookup id)) ∧
    ∀ id, (∃ t, texts.lookup id = some t) → (∃ t, src.lookup id = some t) →
      (∀ id', (∃ t, texts.lookup id' = some t) → (∃ t, src.lookup id' = some t) → id.index ≤ id'.index) →
      (copyTexts texts src).1 = .throw (b!"Text with ID " ++ id.toStr ++ b!" already exists.") ∧
      ∀ id', (copyTexts texts src).2.lookup id' = if id'.index < id.index then (texts.lookup id').or (src.lookup id') else texts.lookup id' := by
  induction src with
  | nil =>
    intro texts
    refine ⟨fun _ => ⟨rfl, fun id => by simp [copyTexts]⟩, ?_⟩
    intro id _ h
    obtain ⟨t, h⟩ := h
    simp at h
  | cons q rest ih =>
    obtain ⟨i, s⟩ := q
    obtain ⟨h1, h2⟩ := List.pairwise_cons.mp hs
    intro texts
    have hlk : ∀ id, ((i, s) :: rest).lookup id = if id = i then some s else rest.lookup id := by
      intro id
      rw [List.lookup_cons]
      by_cases e : id = i
      · subst e; simp
      · have : (id == i) = false := by simpa using e
        rw [this, if_neg e]
    have hno : ∀ id t, rest.lookup id = some t → i.index < id.index := fun id t h => h1 _ ((lookup_of_sorted h2).mp h)
    cases hti : texts.lookup i with
    | some t0 =>
      have hc : (copyTexts texts ((i, s) :: rest)) = (.throw (b!"Text with ID " ++ i.toStr ++ b!" already exists."), texts) := by
        rw [copyTexts, if_pos (by rw [hti]; rfl)]
      rw [hc]
      constructor
      · intro h
        exact absurd ⟨i, ⟨t0, hti⟩, s, by rw [hlk, if_pos rfl]⟩ h
      · intro id g1 g2 g3
        have hle := g3 i ⟨t0, hti⟩ ⟨s, by rw [hlk, if_pos rfl]⟩
        have : id = i := by
          obtain ⟨t, g2⟩ := g2
          rw [hlk] at g2
          split at g2
          · assumption
          · have := hno _ _ g2
            omega
        subst this
        refine ⟨rfl, fun id' => ?_⟩
        split
        · rename_i hlt
          have : ((id, s) :: rest).lookup id' = none := by
            rw [hlk, if_neg (fun e => by rw [e] at hlt; omega)]
            cases hr : rest.lookup id' with
            | none => rfl
            | some t => have := hno _ _ hr; omega
          rw [this]
          simp
        · rfl
    | none =>
      have hc : (copyTexts texts ((i, s) :: rest)) = copyTexts (setText i s texts) rest := by
        rw [copyTexts, if_neg (by rw [hti]; simp)]
      rw [hc]
      obtain ⟨k1, k2⟩ := ih h2 (setText i s texts)
      have hset : ∀ id, (setText i s texts).lookup id = if id = i then some s else texts.lookup id := fun id => lookup_setText i s texts id
      have hri : rest.lookup i = none := by
        cases hr : rest.lookup i with
        | none => rfl
        | some t => have := hno _ _ hr; omega
      -- the texts that both have are the same
      have both : ∀ id, ((∃ t, (setText i s texts).lookup id = some t) ∧ ∃ t, rest.lookup id = some t) ↔
          ((∃ t, texts.lookup id = some t) ∧ ∃ t, ((i, s) :: rest).lookup id = some t) := by
        intro id
        rw [hset, hlk]
        by_cases e : id = i
        · subst e
          rw [hri, hti]
          simp
        · rw [if_neg e, if_neg e]
      have alike : ∀ id, ((setText i s texts).lookup id).or (rest.lookup id) = (texts.lookup id).or (((i, s) :: rest).lookup id) := by
        intro id
        rw [hset, hlk]
        by_cases e : id = i
        · subst e
          rw [hti]
          simp
        · rw [if_neg e, if_neg e]
      constructor
      · intro h
        obtain ⟨e1, e2⟩ := k1 (fun ⟨id, g⟩ => h ⟨id, (both id).mp g⟩)
        exact ⟨e1, fun id => by rw [e2, alike]⟩
      · intro id g1 g2 g3
        obtain ⟨g1', g2'⟩ := (both id).mpr ⟨g1, g2⟩
        obtain ⟨e1, e2⟩ := k2 id g1' g2' (fun id' a b => by
          obtain ⟨a', b'⟩ := (both id').mp ⟨a, b⟩
          exact g3 id' a' b')
        refine ⟨e1, fun id' => ?_⟩
        rw [e2, alike]
        split
        · rfl
        · rename_i hge
          rw [hset, if_neg]
          intro e
          subst e
          obtain ⟨t, g2'⟩ := g2'
          have := hno _ _ g2'
          omega

/-- What `copy_from` does. -/
theorem copyFrom_spec (c src : Command) (hs : TextsSorted src.texts) : Extended c src (c.copyFrom src).2 ∧
    ((¬ ∃ id, HasText c id ∧ HasText src id) → (c.copyFrom src).1 = .ok () ∧ BothTexts c src (c.copyFrom src).2 ∧
      (c.copyFrom src).2.multiCommand = (c.multiCommand || src.multiCommand)) ∧
    ∀ id, HasText c id → HasText src id → (∀ id', HasText c id' → HasText src id' → id.index ≤ id'.index) →
      ∃ name, (id, name) ∈ textNames ∧ (c.copyFrom src).1 = .throw (textClash name) ∧
      (∀ id', (c.copyFrom src).2.texts.lookup id' = if id'.index < id.index then (c.texts.lookup id').or (src.texts.lookup id') else c.texts.lookup id') ∧
      (c.copyFrom src).2.multiCommand = c.multiCommand := by
  have hsub : ∃ new, c.commands ++ Command.copies src.commands = c.commands ++ new ∧ new.length = src.commands.length ∧
      ∀ (i : Nat) (s n : Command), src.commands[i]? = some s → new[i]? = some n → ∀ p, (n.at p).map Command.props = (s.at p).map Command.props := by
    refine ⟨_, rfl, by rw [Command.copies_eq]; simp, ?_⟩
    intro i s n h1 h2 p
    rw [Command.copies_eq, List.getElem?_map, h1] at h2
    simp only [Option.map_some, Option.some.injEq] at h2
    subst h2
    rw [Command.copy_at, Option.map_map]
    cases s.at p with
    | none => rfl
    | some x => simp [Command.copy_props]
  obtain ⟨k1, k2⟩ := copyTexts_spec hs c.texts
  unfold Command.copyFrom
  simp only
  generalize copyTexts c.texts src.texts = q at k1 k2
  obtain ⟨r, texts⟩ := q
  refine ⟨?_, ?_, ?_⟩
  · cases r with
    | ok u => exact ⟨rfl, rfl, hsub, rfl, rfl, rfl, rfl, rfl, rfl, rfl, rfl⟩
    | _ => exact ⟨rfl, rfl, hsub, rfl, rfl, rfl, rfl, rfl, rfl, rfl, rfl⟩
  · intro h
    obtain ⟨e1, e2⟩ := k1 h
    simp only at e1
    subst e1
    exact ⟨rfl, e2, rfl⟩
  · intro id g1 g2 g3
    obtain ⟨e1, e2⟩ := k2 id g1 g2 g3
    simp only at e1
    subst e1
    exact ⟨id.toStr, toStr_names id, rfl, e2, rfl⟩

/-- **C76** (what holds): `copy_from` adds copies of all arguments, options, sub-commands and texts of another command; the others keep
their places and nothing else changes, apart from several sub-commands being allowed if they were for one of the commands. If both have a text the call throws
an exception that names the first such text. Missing: the target isn't as before then (`C76_violated`); the visibility of sub-commands
(C51); a command copied to itself (`C76_self`). -/
theorem C76_command_partial {env : Env} {fuel : Nat} (cs : List Call) {i j : Nat} (hij : i ≠ j) {c src : Command}
    (hc : (World.run env fuel {} cs).cmds i = some c) (hs : (World.run env fuel {} cs).cmds j = some src) :
    ∃ c', ((World.run env fuel {} cs).exec env fuel (.cmdCopyFrom i j)).2 =
      { World.run env fuel {} cs with cmds := setAt (World.run env fuel {} cs).cmds i (some c') } ∧ Extended c src c' ∧
    ((¬ ∃ id, HasText c id ∧ HasText src id) → ((World.run env fuel {} cs).exec env fuel (.cmdCopyFrom i j)).1 = .ok () ∧
      BothTexts c src c' ∧ c'.multiCommand = (c.multiCommand || src.multiCommand)) ∧
    ∀ id, HasText c id → HasText src id → (∀ id', HasText c id' → HasText src id' → id.index ≤ id'.index) →
      ∃ name, (id, name) ∈ textNames ∧ ((World.run env fuel {} cs).exec env fuel (.cmdCopyFrom i j)).1 = .throw (textClash name) ∧
      (∀ id', c'.texts.lookup id' = if id'.index < id.index then (c.texts.lookup id').or (src.texts.lookup id') else c.texts.lookup id') ∧
      c'.multiCommand = c.multiCommand := by
  have ht := run_sorted (env := env) (fuel := fuel) cs (w := {}) (fun c h => absurd h (empty_has c)) src (.inl ⟨j, hs⟩)
  obtain ⟨h1, h2, h3⟩ := copyFrom_spec c src ht
  simp only [World.exec, hc, hs, if_neg hij]
  exact ⟨_, rfl, h1, h2, h3⟩

/-- Nothing is added to a command without arguments, options and sub-commands. -/
theorem copyFrom_self {c : Command} (ha : c.arguments = []) (ho : c.options = []) (hcm : c.commands = []) :
    (c.copyFrom c).2 = c ∧ (c.copyFrom c).1 ≠ .ub := by
  have hb : ∀ b : Bool, (b || b) = b := by decide
  unfold Command.copyFrom
  cases ht : c.texts with
  | nil =>
    simp only [copyTexts, ha, ho, hcm, hb]
    refine ⟨?_, by simp⟩
    cases c
    simp_all [Command.copies]
  | cons x rest =>
    obtain ⟨id, source⟩ := x
    simp only [copyTexts, List.lookup_cons_self, Option.isSome_some, if_true, ha, ho, hcm]
    refine ⟨?_, by simp⟩
    cases c
    simp_all [Command.copies]

/-- **C76**: a command copied to itself. The behaviour is undefined exactly if it has an argument, an option or a sub-command. Otherwise it
stays as it is, and the call throws an exception that names the first text if there is one. -/
theorem C76_self {env : Env} {fuel : Nat} (cs : List Call) {i : Nat} {c : Command} (hc : (World.run env fuel {} cs).cmds i = some c) :
    (((World.run env fuel {} cs).exec env fuel (.cmdCopyFrom i i)).1 = .ub ↔ c.arguments ≠ [] ∨ c.options ≠ [] ∨ c.commands ≠ []) ∧
    (¬ (c.arguments ≠ [] ∨ c.options ≠ [] ∨ c.commands ≠ []) →
      ((World.run env fuel {} cs).exec env fuel (.cmdCopyFrom i i)).2.cmds i = some c ∧
      ((∀ id, ¬ HasText c id) → ((World.run env fuel {} cs).exec env fuel (.cmdCopyFrom i i)).1 = .ok ()) ∧
      ∀ id, HasText c id → (∀ id', HasText c id' → id.index ≤ id'.index) →
        ∃ name, (id, name) ∈ textNames ∧ ((World.run env fuel {} cs).exec env fuel (.cmdCopyFrom i i)).1 = .throw (textClash name)) := by
  have ht := run_sorted (env := env) (fuel := fuel) cs (w := {}) (fun c h => absurd h (empty_has c)) c (.inl ⟨i, hc⟩)
  obtain ⟨h1, h2, h3⟩ := copyFrom_spec c c ht
  simp only [World.exec, hc, if_true, Command.copyFromSelf]
  by_cases he : c.arguments ≠ [] ∨ c.options ≠ [] ∨ c.commands ≠ []
  · have : (!c.arguments.isEmpty || !c.options.isEmpty || !c.commands.isEmpty) = true := by
      rcases he with he | he | he <;> simp [he]
    simp [this, he]
  · have ha : c.arguments = [] := Decidable.byContradiction fun h => he (.inl h)
    have ho : c.options = [] := Decidable.byContradiction fun h => he (.inr (.inl h))
    have hcm : c.commands = [] := Classical.byContradiction fun h => he (.inr (.inr h))
    have hn : (!c.arguments.isEmpty || !c.options.isEmpty || !c.commands.isEmpty) = false := by rw [ha, ho, hcm]; rfl
    have hsame : (c.copyFrom c).2 = c ∧ (c.copyFrom c).1 ≠ .ub := copyFrom_self ha ho hcm
    simp only [hn, setAt, if_true, Bool.false_eq_true, if_false, hsame.1]
    refine ⟨⟨fun h => absurd h hsame.2, fun h => absurd h he⟩, fun _ => ⟨trivial, ?_, ?_⟩⟩
    · intro hno
      exact (h2 (fun ⟨id, h, _⟩ => hno id h)).1
    · intro id hid hfirst
      obtain ⟨name, g1, g2, _⟩ := h3 id hid hid (fun id' h _ => hfirst id' h)
      exact ⟨name, g1, g2⟩

/-- **C76** (what holds): the same for parsers. -/
theorem C76_parser_partial {env : Env} {fuel : Nat} (cs : List Call) {i j : Nat} {d : ParserData} {src : Command}
    (hd : (World.run env fuel {} cs).parsers i = some d) (hs : (World.run env fuel {} cs).cmds j = some src) :
    ∃ c', ((World.run env fuel {} cs).exec env fuel (.parserCopyFrom i j)).2 =
      { World.run env fuel {} cs with parsers := setAt (World.run env fuel {} cs).parsers i (some { d with command := c' }) } ∧
    Extended d.command src c' ∧
    ((¬ ∃ id, HasText d.command id ∧ HasText src id) → ((World.run env fuel {} cs).exec env fuel (.parserCopyFrom i j)).1 = .ok () ∧
      BothTexts d.command src c' ∧ c'.multiCommand = (d.command.multiCommand || src.multiCommand)) ∧
    ∀ id, HasText d.command id → HasText src id → (∀ id', HasText d.command id' → HasText src id' → id.index ≤ id'.index) →
      ∃ name, (id, name) ∈ textNames ∧ ((World.run env fuel {} cs).exec env fuel (.parserCopyFrom i j)).1 = .throw (textClash name) ∧
      (∀ id', c'.texts.lookup id' = if id'.index < id.index then (d.command.texts.lookup id').or (src.texts.lookup id') else d.command.texts.lookup id') ∧
      c'.multiCommand = d.command.multiCommand := by
  have ht := run_sorted (env := env) (fuel := fuel) cs (w := {}) (fun c h => absurd h (empty_has c)) src (.inl ⟨j, hs⟩)
  obtain ⟨h1, h2, h3⟩ := copyFrom_spec d.command src ht
  simp only [World.exec, hd, hs]
  exact ⟨_, rfl, h1, h2, h3⟩

/-- A set of common options, with a text, that is copied into a command with another text. -/
def copyProgram : List Call :=
  [.newCmd 0 b!"add", .setCmd 0 (.about b!"Adds."), .newOpt 0 [b!"-a"], .cmdAddOpt 0 0,
   .newCmd 1 [], .newOpt 1 [b!"-v"], .cmdAddOpt 1 1, .setCmd 1 (.text .finalText (.text b!"End.")), .setCmd 1 (.allowMultipleSubcommands true)]

-- A command with a text only: it stays as it is and the text is named.
example : ∃ c, (World.run Env.inert 9 {} [.newCmd 0 b!"add", .setCmd 0 (.about b!"Adds.")]).cmds 0 = some c ∧
    ¬ (c.arguments ≠ [] ∨ c.options ≠ [] ∨ c.commands ≠ []) ∧ HasText c .about ∧ ∀ id', HasText c id' → TextId.about.index ≤ id'.index :=
  ⟨_, rfl, by rintro (h | h | h) <;> exact h rfl, ⟨.text b!"Adds.", rfl⟩, by
    rintro id' ⟨t, h⟩
    cases id' <;> first | (simp [TextId.index]; done) | (cases h)⟩

-- Options, texts and the permission of both.
example : ∃ c, ((World.run Env.inert 9 {} copyProgram).exec Env.inert 9 (.cmdCopyFrom 0 1)).2.cmds 0 = some c ∧
    ((World.run Env.inert 9 {} copyProgram).exec Env.inert 9 (.cmdCopyFrom 0 1)).1 = .ok () ∧
    c.options.map OptData.flags = [[b!"-a"], [b!"-v"]] ∧ c.texts.map Prod.fst = [.about, .finalText] ∧ c.multiCommand = true ∧ c.name = b!"add" :=
  ⟨_, rfl, rfl, rfl, rfl, rfl, rfl⟩

-- The same text in both.
example : ((World.run Env.inert 9 {} (copyProgram ++ [.setCmd 0 (.text .finalText (.text b!"Fin."))])).exec Env.inert 9 (.cmdCopyFrom 0 1)).1 =
    .throw b!"Text with ID FINAL_TEXT already exists." := rfl

/-- **C76** is violated: the call fails because of a text and the option has been added all the same. And a command can't be copied to itself. -/
theorem C76_violated (env : Env) (fuel : Nat) :
    (∃ m c, ((World.run env fuel {} (copyProgram ++ [.setCmd 0 (.text .finalText (.text b!"Fin."))])).exec env fuel (.cmdCopyFrom 0 1)).1 = .throw m ∧
      ((World.run env fuel {} (copyProgram ++ [.setCmd 0 (.text .finalText (.text b!"Fin."))])).exec env fuel (.cmdCopyFrom 0 1)).2.cmds 0 = some c ∧
      c.options.map OptData.flags = [[b!"-a"], [b!"-v"]]) ∧
    ((World.run env fuel {} copyProgram).exec env fuel (.cmdCopyFrom 0 0)).1 = .ub :=
  ⟨⟨_, _, rfl, rfl, rfl⟩, rfl⟩

end Argos
