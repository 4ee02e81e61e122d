import Verif.Spec.Say
import Verif.Props.Grammar
import Verif.Proofs.Loosen
import Verif.Proofs.Spelled

/-! # Writing down what is wanted -/

namespace Argos
open Spec Parser

theorem cutAfterEqual_first {a : Str} (h : c!"=" ∉ a) (v : Str) : cutAfterEqual (a ++ c!"=" :: v) = some (a ++ [c!"="], v) := by
  have h1 : ∀ x ∈ a, (x != c!"=") = true := by
    intro x hx
    simp only [bne_iff_ne, ne_eq]
    rintro rfl
    exact h hx
  unfold cutAfterEqual
  rw [List.dropWhile_append_of_pos h1, List.takeWhile_append_of_pos h1]
  simp

/-- An accepted flag has at least two characters, begins with the flag character, and is short, or begins with two dashes or isn't of the STANDARD style;
`=` occurs only as its last character. -/
theorem accepted_flag {style : OptionStyle} {f : Str} {o : OptData} (h : checkFlagStyle style f o = .ok true) :
    IsFlag style f ∧ (f.length = 2 ∨ ((style = .standard → ∃ g, f = c!"-" :: c!"-" :: g) ∧ 2 < f.length ∧
      (c!"=" ∉ f ∨ ∃ g, f = g ++ [c!"="] ∧ c!"=" ∉ g ∧ o.argument ≠ []))) := by
  have hflag : IsFlag style f := (isOption_iff _ _).mp (checkFlagStyle_isOption h)
  refine ⟨hflag, ?_⟩
  have key : checkFlagWithEqual f o = .ok true → c!"=" ∉ f ∨ ∃ g, f = g ++ [c!"="] ∧ c!"=" ∉ g ∧ o.argument ≠ [] := by
    intro hk
    by_cases hm : c!"=" ∈ f
    · right
      obtain ⟨i, hi, he⟩ := List.getElem_of_mem hm
      have hfirst : ∀ j, f[j]? = some c!"=" → j = f.length - 1 := by
        intro j hj
        obtain ⟨e, h1, h2⟩ := findChar_le hj
        have h3 : j < f.length := by
          rcases Nat.lt_or_ge j f.length with h | h
          · exact h
          · rw [List.getElem?_eq_none h] at hj; simp at hj
        simp only [checkFlagWithEqual, h1] at hk
        split at hk
        · simp at hk
        · omega
      have hne : f ≠ [] := by rintro rfl; simp at hm
      have hlast : f.getLast hne = c!"=" := by
        have := hfirst i (by rw [List.getElem?_eq_getElem hi, he])
        subst this
        rw [List.getLast_eq_getElem]
        exact he
      refine ⟨f.dropLast, by rw [← hlast]; exact (List.dropLast_concat_getLast hne).symm, ?_, ?_⟩
      · intro hd
        obtain ⟨j, hj, hje⟩ := List.getElem_of_mem hd
        have h3 : j < f.length - 1 := by simpa using hj
        have := hfirst j (by rw [List.getElem?_eq_getElem (by omega)]; rw [List.getElem_dropLast] at hje; rw [hje])
        omega
      · intro ha
        obtain ⟨e, h1, _⟩ := findChar_le (f := f) (c := c!"=") (i := i) (by rw [List.getElem?_eq_getElem hi, he])
        simp only [checkFlagWithEqual, h1, ha] at hk
        split at hk <;> simp at hk
    · exact .inl hm
  match f, hflag with
  | [], hflag => exact absurd hflag.1 (by simp)
  | [_], hflag => exact absurd hflag.1 (by simp)
  | [_, _], _ => exact .inl rfl
  | a :: b :: x :: xs, hflag =>
    right
    cases style with
    | standard =>
      simp only [checkFlagStyle, checkStandardFlag] at h
      repeat' split at h
      all_goals first | simp at h; done | skip
      rename_i ha hb
      simp only [ne_eq, Decidable.not_not] at ha hb
      exact ⟨fun _ => ⟨x :: xs, by rw [ha, hb]⟩, by simp, key h⟩
    | _ =>
      simp only [checkFlagStyle, checkFlag] at h
      repeat' split at h
      all_goals first | simp at h; done | skip
      all_goals first | (rename_i hx; simp at hx; done) | skip
      exact ⟨by simp, by simp, key h⟩

theorem readIn_short {style : OptionStyle} {f : Str} (h : f.length ≤ 2) (rest : List Str) :
    Reader.readIn style ⟨[], f :: rest⟩ = some (wholeFlag f rest) := by
  unfold Reader.readIn Reader.read
  split
  · match f, h with
    | [], _ => rfl
    | [_], _ => rfl
    | [_, _], _ => rfl
  · simp only [Reader.readPrefixed]
    rw [if_neg (by omega)]

theorem readIn_word {style : OptionStyle} {a : Str} (h : ¬ IsFlag style a) (rest : List Str) :
    Reader.readIn style ⟨[], a :: rest⟩ = some (wholeFlag a rest) := by
  by_cases hl : a.length ≤ 2
  · exact readIn_short hl rest
  · have hh : a.head? ≠ some (flagChar style) := fun e => h ⟨by omega, e⟩
    match a, hl with
    | [], hl => exact absurd (by simp) hl
    | [_], hl => exact absurd (by simp) hl
    | [_, _], hl => exact absurd (by simp) hl
    | x :: y :: z :: zs, hl =>
      cases style with
      | standard =>
        have : x ≠ c!"-" := by simpa [flagChar] using hh
        simp [Reader.readIn, Reader.read, stylePrefix, Reader.readStandard, this]
      | slash =>
        have : x ≠ c!"/" := by simpa [flagChar] using hh
        simp [Reader.readIn, Reader.read, stylePrefix, Reader.readPrefixed, this]
      | dash =>
        have : x ≠ c!"-" := by simpa [flagChar] using hh
        simp [Reader.readIn, Reader.read, stylePrefix, Reader.readPrefixed, this]

/-- A long flag, or one with more text behind it, is cut after its `=`. -/
theorem readIn_long {style : OptionStyle} {a : Str} (h : IsFlag style a) (hs : style = .standard → ∃ g, a = c!"-" :: c!"-" :: g) (hl : 2 < a.length) (rest : List Str) :
    Reader.readIn style ⟨[], a :: rest⟩ = match cutAfterEqual a with
      | some (flag, value) => some (equalFlag flag value rest)
      | none => some (wholeFlag a rest) := by
  cases style with
  | standard =>
    obtain ⟨g, rfl⟩ := hs rfl
    match g, hl with
    | x :: xs, _ => simp [Reader.readIn, Reader.read, stylePrefix, Reader.readStandard]; rfl
  | slash =>
    have := h.2
    simp only [flagChar] at this
    simp [Reader.readIn, Reader.read, stylePrefix, Reader.readPrefixed, this, hl]; rfl
  | dash =>
    have := h.2
    simp only [flagChar] at this
    simp [Reader.readIn, Reader.read, stylePrefix, Reader.readPrefixed, this, hl]; rfl

/-- How what is written for an option is read. -/
theorem read_wanted {style : OptionStyle} {w : Wanted} (h : checkFlagStyle style w.flag w.option = .ok true) (hv : ¬ NeedsValue w.option → w.value = []) (rest : List Str) :
    ∃ x, Reader.readIn style ⟨[], w.words ++ rest⟩ = some x ∧ x.flag = w.flag ∧ x.valueFor w.option = some w.value ∧ x.leftBy w.option = ⟨[], rest⟩ ∧
      (¬ NeedsValue w.option → w.option.argument = [] → x.plainBy w.option = rest) := by
  obtain ⟨hf, hl⟩ := accepted_flag h
  have whole : ¬ EndsWithEqual w.flag → (∀ rest, Reader.readIn style ⟨[], w.flag :: rest⟩ = some (wholeFlag w.flag rest)) →
      ∃ x, Reader.readIn style ⟨[], w.words ++ rest⟩ = some x ∧ x.flag = w.flag ∧ x.valueFor w.option = some w.value ∧ x.leftBy w.option = ⟨[], rest⟩ ∧
      (¬ NeedsValue w.option → w.option.argument = [] → x.plainBy w.option = rest) := by
    intro he hr
    unfold Wanted.words Reading.valueFor Reading.leftBy Reading.plainBy
    by_cases hn : NeedsValue w.option
    · simp only [if_pos hn, if_neg he]
      exact ⟨_, hr _, rfl, rfl, rfl, fun h => absurd hn h⟩
    · simp only [if_neg hn]
      refine ⟨_, hr _, rfl, by rw [hv hn], rfl, fun _ _ => ?_⟩
      cases rest <;> rfl
  rcases hl with hl | ⟨hs, hlen, hne | ⟨g, hg, hng, harg⟩⟩
  · exact whole (fun he => by have := he.1; omega) fun rest => readIn_short (by omega) rest
  · refine whole (fun he => hne (List.mem_of_getLast? he.2)) fun rest => ?_
    rw [readIn_long hf hs hlen, cutAfterEqual_absent hne]
  · have he : EndsWithEqual w.flag := ⟨hlen, by rw [hg]; simp⟩
    have hr : ∀ v rest, Reader.readIn style ⟨[], (w.flag ++ v) :: rest⟩ = some (equalFlag w.flag v rest) := by
      intro v rest
      have hf' : IsFlag style (w.flag ++ v) := by
        refine ⟨by simp; omega, ?_⟩
        rw [List.head?_append, hf.2]
        rfl
      have hs' : style = .standard → ∃ g, w.flag ++ v = c!"-" :: c!"-" :: g := by
        intro e
        obtain ⟨g', hg'⟩ := hs e
        exact ⟨g' ++ v, by rw [hg']; rfl⟩
      rw [readIn_long hf' hs' (by simp; omega)]
      have : cutAfterEqual (w.flag ++ v) = some (w.flag, v) := by
        rw [hg, List.append_assoc]
        exact cutAfterEqual_first hng v
      rw [this]
    unfold Wanted.words Reading.valueFor Reading.leftBy Reading.plainBy
    by_cases hn : NeedsValue w.option
    · simp only [if_pos hn, if_pos he]
      exact ⟨_, hr _ _, rfl, rfl, rfl, fun h => absurd hn h⟩
    · simp only [if_neg hn]
      refine ⟨_, by simpa using hr [] rest, rfl, by rw [hv hn], rfl, fun _ h => absurd h harg⟩

/-- What a command line for the wish consists of. -/
def piecesOf (os : List Wanted) : List Piece := os.map fun w => .option w.option w.value

section
variable {style : OptionStyle} {names : Command → Str → OptData → Prop}

theorem _root_.Argos.Spec.WrittenAll.joined {c : Command} {l l1 l2 : Line} {ps qs : List Piece} (h : WrittenAll style names c l ps l1) (h' : WrittenAll style names c l1 qs l2) :
    WrittenAll style names c l (ps ++ qs) l2 := by
  induction h with
  | nil => exact h'
  | cons hw _ ih => exact .cons hw (ih h')

/-- The options of a command can be named by their flags. -/
def Nameable (style : OptionStyle) (names : Command → Str → OptData → Prop) (c : Command) : Prop :=
  ∀ o ∈ c.options, ∀ f ∈ o.flags, checkFlagStyle style f o = .ok true ∧ names c f o

theorem written_options {c : Command} (hn : Nameable style names c) : ∀ (os : List Wanted) (rest : List Str), (∀ w ∈ os, w.Declared c ∧ w.option.type = .normal) →
    WrittenAll style names c (.mixed ⟨[], os.flatMap Wanted.words ++ rest⟩) (piecesOf os) (.mixed ⟨[], rest⟩)
  | [], rest, _ => .nil
  | w :: os, rest, h => by
    obtain ⟨hd, ht⟩ := h w (by simp)
    obtain ⟨hck, hnm⟩ := hn _ hd.option _ hd.flag
    obtain ⟨x, hx, hf, hv, hl, _⟩ := read_wanted hck hd.value (os.flatMap Wanted.words ++ rest)
    have ih := written_options hn os rest fun w hw => h w (by simp [hw])
    rw [List.flatMap_cons, List.append_assoc]
    refine .cons (.option hx (by rw [hf]; exact (accepted_flag hck).1) (by rw [hf]; exact hnm) hv ht) ?_
    rw [hl]
    exact ih

theorem written_arguments {c : Command} (hc : c.commands = []) : ∀ (vs : List Str), (∀ v ∈ vs, ¬ IsFlag style v) →
    WrittenAll style names c (.mixed ⟨[], vs⟩) (vs.map .argument) (.mixed ⟨[], []⟩)
  | [], _ => .nil
  | v :: vs, h => .cons (.argument (readIn_word (h v (by simp)) vs) (h v (by simp)) hc) (written_arguments hc vs fun v hv => h v (by simp [hv]))

theorem written_plain {c : Command} (hc : c.commands = []) : ∀ (vs : List Str), WrittenAll style names c (.plain vs) (vs.map .argument) (.plain [])
  | [] => .nil
  | _ :: vs => .cons (.plainArgument hc) (written_plain hc vs)

theorem report_options (os : List Wanted) (ps : List Piece) (as : List ArgData) :
    report (piecesOf os ++ ps) as = os.map (fun w => .option w.option (some w.value)) ++ report ps as := by
  induction os with
  | nil => rfl
  | cons w os ih => simp only [piecesOf, List.map_cons, List.cons_append, report] at ih ⊢; rw [ih]

theorem report_arguments (as : List (ArgData × Str)) : report (as.map (fun a => Piece.argument a.2)) (as.map (·.1)) = as.map fun a => .argument a.1 (some a.2) := by
  induction as with
  | nil => rfl
  | cons a as ih => simp only [List.map_cons, report]; rw [ih]

theorem argPieces_options (os : List Wanted) (ps : List Piece) : argPieces (piecesOf os ++ ps) = argPieces ps := by
  induction os with
  | nil => rfl
  | cons w os ih => simp only [piecesOf, List.map_cons, List.cons_append, argPieces] at ih ⊢; rw [List.filter_cons_of_neg (by simp)]; exact ih

theorem argPieces_arguments (vs : List Str) : argPieces (vs.map .argument) = vs.length := by
  induction vs with
  | nil => rfl
  | cons w os ih => simp only [List.map_cons, argPieces] at ih ⊢; rw [List.filter_cons_of_pos (by simp), List.length_cons, ih]; rfl

end

/-- The results for a wish. -/
def wishResults : Wish → List IterResult
  | .here os m as => (os ++ m.toList).map (fun w => .option w.option (some w.value)) ++ as.map (fun a => .argument a.1 (some a.2))
  | .within os c w => os.map (fun w => .option w.option (some w.value)) ++ .command c [] :: wishResults w

theorem written_wish {style : OptionStyle} {ci : Bool} {names : Command → Str → OptData → Prop} {root : Command}
    (hn : ∀ c : Command, c.Within root → Nameable style names c) (hx : Exclusive root) {c : Command} {occs : List Occ} {w : Wish}
    (h : w.Declared style ci c occs) (hc : c.Within root) :
    Accepts style names (NamesCommand ci) c occs (.mixed ⟨[], w.words⟩) (wishResults w) := by
  induction h with
  | @here c occs os m as ks h1 h2 h3 h4 h5 h6 =>
    have hcm : as ≠ [] → c.commands = [] := by
      intro hne
      rcases List.eq_nil_or_concat c.commands with e | ⟨_, _, e⟩
      · exact e
      · have ha := hx c hc (by rw [e]; simp)
        have hlen := h4.length
        rw [ha] at hlen
        have : ks = [] := by cases ks <;> simp_all
        have htot := h4.total
        rw [this] at htot
        cases as <;> simp_all
    have hq : piecesOf (os ++ m.toList) ++ (as.map (·.2)).map .argument = piecesOf os ++ (piecesOf m.toList ++ (as.map (·.2)).map .argument) := by
      simp [piecesOf]
    have hrep : report (piecesOf (os ++ m.toList) ++ (as.map (·.2)).map .argument) (handedOut c.arguments ks) = wishResults (.here os m as) := by
      rw [report_options, ← h5, List.map_map]
      exact congrArg _ (report_arguments as)
    have hocc : (wishResults (.here os m as)).filterMap occOf = (os ++ m.toList).map (fun w => .option w.option w.value) ++ as.map (fun a => .argument a.1 a.2) := by
      simp [wishResults, occOf, List.filterMap_map, Function.comp_def]
    have hcnt : argPieces (piecesOf (os ++ m.toList) ++ (as.map (·.2)).map .argument) = as.length := by
      rw [argPieces_options, argPieces_arguments, List.length_map]
    have hw : ∃ l', WrittenAll style names c (.mixed ⟨[], (Wish.here os m as).words⟩) (piecesOf (os ++ m.toList) ++ (as.map (·.2)).map .argument) l' ∧ l'.AtEnd style := by
      rw [hq]
      cases m with
      | none =>
        refine ⟨.mixed ⟨[], []⟩, ?_, by cases style <;> rfl⟩
        have hwo := written_options (hn c hc) os (as.map (·.2)) h1
        have : (Wish.here os none as).words = os.flatMap Wanted.words ++ as.map (·.2) := by simp [Wish.words]
        rw [this]
        refine hwo.joined ?_
        by_cases hne : as = []
        · subst hne; exact .nil
        · exact written_arguments (hcm hne) _ (fun v hv => by obtain ⟨a, ha, rfl⟩ := List.mem_map.mp hv; exact h3 rfl a ha)
      | some k =>
        refine ⟨.plain [], ?_, rfl⟩
        obtain ⟨hd, ht, hnv, harg⟩ := h2 k rfl
        obtain ⟨hck, hnm⟩ := hn c hc _ hd.option _ hd.flag
        obtain ⟨x, hx, hf, hv, _, hp⟩ := read_wanted hck hd.value (as.map (·.2))
        have hwo := written_options (hn c hc) os (k.words ++ as.map (·.2)) h1
        have : (Wish.here os (some k) as).words = os.flatMap Wanted.words ++ (k.words ++ as.map (·.2)) := by simp [Wish.words]
        rw [this]
        refine hwo.joined (.cons (.lastOption hx (by rw [hf]; exact (accepted_flag hck).1) (by rw [hf]; exact hnm) hv ht) ?_)
        rw [hp hnv harg]
        by_cases hne : as = []
        · subst hne; exact .nil
        · exact written_plain (hcm hne) _
    obtain ⟨l', hw, hend⟩ := hw
    rw [← hrep]
    exact .last hw hend (by rw [hcnt]; exact h4) (by rw [hrep, hocc, ← List.append_assoc]; exact h6)
  | @within c c' occs os w h1 h2 h3 h4 ih =>
    have hmem : c' ∈ c.commands := List.mem_of_find?_eq_some h2
    have hrep : report (piecesOf os) [] = os.map (fun w => .option w.option (some w.value)) := by
      have := report_options os [] []
      simpa [report] using this
    have hwo := written_options (hn c hc) os (c'.name :: w.words) h1
    simp only [wishResults, Wish.words, ← hrep]
    exact .sub hwo (.command (readIn_word h3 w.words) h3 (by intro e; simp [e] at hmem) h2) (ih (Command.Within.trans (.sub hmem .self) hc))

/-- The results for a wish mean what is wanted. -/
theorem steps_options (os : List Wanted) (h : ∀ w ∈ os, w.option.type ≠ .lastArgument) (c : Command) (ts : List (Tree (List Occ))) (rest : Open) : ∀ l : List Occ,
    (os.map fun w => IterResult.option w.option (some w.value)).foldl Open.step (.node c l ts :: rest) =
      .node c (l ++ os.map fun w => .option w.option w.value) ts :: rest := by
  induction os with
  | nil => simp
  | cons w os ih =>
    intro l
    rw [List.map_cons, List.foldl_cons]
    have : Open.step (.node c l ts :: rest) (.option w.option (some w.value)) = .node c (l ++ [.option w.option w.value]) ts :: rest := by
      simp only [Open.step, if_neg (h w (by simp))]
      rfl
    rw [this, ih (fun w hw => h w (by simp [hw]))]
    simp

theorem steps_arguments (as : List (ArgData × Str)) (c : Command) (ts : List (Tree (List Occ))) (rest : Open) : ∀ l : List Occ,
    (as.map fun a => IterResult.argument a.1 (some a.2)).foldl Open.step (.node c l ts :: rest) =
      .node c (l ++ as.map fun a => .argument a.1 a.2) ts :: rest := by
  induction as with
  | nil => simp
  | cons a as ih =>
    intro l
    rw [List.map_cons, List.foldl_cons]
    have : Open.step (.node c l ts :: rest) (.argument a.1 (some a.2)) = .node c (l ++ [.argument a.1 a.2]) ts :: rest := rfl
    rw [this, ih]
    simp

theorem steps_wish {style : OptionStyle} {ci : Bool} {c : Command} {occs : List Occ} {w : Wish} (h : w.Declared style ci c occs) (l : List Occ) (rest : Open) :
    ((wishResults w).foldl Open.step (.node c l [] :: rest)).close = some (Open.close.go (w.tree c l) rest) := by
  induction h generalizing l rest with
  | @here c occs os m as ks h1 h2 h3 h4 h5 h6 =>
    rw [wishResults, List.foldl_append, steps_options, steps_arguments]
    · rfl
    · intro w hw
      rw [List.mem_append, Option.mem_toList] at hw
      rcases hw with hw | hw
      · rw [(h1 w hw).2]; simp
      · rw [(h2 w hw).2.1]; simp
  | @within c c' occs os w h1 h2 h3 h4 ih =>
    have hmem : c' ∈ c.commands := List.mem_of_find?_eq_some h2
    rw [wishResults, List.foldl_append, steps_options _ (fun w hw => by rw [(h1 w hw).2]; simp), List.foldl_cons]
    have hne : c.commands.isEmpty = false := by cases e : c.commands <;> simp_all
    have : Open.step (.node c (l ++ os.map fun w => .option w.option w.value) [] :: rest) (.command c' []) =
        .node c' [] [] :: .node c (l ++ os.map fun w => .option w.option w.value) [] :: rest := by
      simp [Open.step, Open.isLeaf, Tree.command, hne]
    rw [this, ih]
    rfl

/-- The text reported with a command doesn't matter. -/
theorem given_forget (root : Command) (rs : List IterResult) : given root (rs.map forgetText) = given root rs := by
  unfold given Open.after
  rw [List.foldl_map]
  congr 2
  funext st r
  cases r <;> rfl

end Argos
