import Verif.Proofs.Unprocessed

/-! # Consequences of the description of the command line -/

namespace Argos
open Spec

/-- What is left belongs to the end of the command line. -/
def Spec.Reader.PartOf (args : List Str) (r : Reader) : Prop :=
  (r.pending = [] ∧ r.rest <:+ args) ∨ ∃ p, (c!"-" :: p ++ r.pending) :: r.rest <:+ args

/-- A list of arguments that belongs to the end of the command line, apart from its first one, which may be
the end of an argument. -/
def PlainPart (args rest : List Str) : Prop :=
  rest <:+ args ∨ ∃ p v rest', rest = v :: rest' ∧ (p ++ v) :: rest' <:+ args

theorem suffix_of_cons {α : Type} {a : α} {l l' : List α} (h : a :: l <:+ l') : l <:+ l' := (List.suffix_cons a l).trans h

theorem cutAfterEqual_append {a flag value : Str} (h : cutAfterEqual a = some (flag, value)) : a = flag ++ value := by
  unfold cutAfterEqual at h
  split at h
  · simp at h
  · rename_i e v he
    simp only [Option.some.injEq, Prod.mk.injEq] at h
    obtain ⟨rfl, rfl⟩ := h
    rw [List.append_assoc, List.singleton_append, ← he, List.takeWhile_append_dropWhile]

theorem read_partOf {style : OptionStyle} {args : List Str} {r : Reader} {x : Reading} (hr : r.PartOf args) (hx : r.readIn style = some x) :
    x.afterFlag.PartOf args ∧ x.afterValue.pending = [] ∧ x.afterValue.rest <:+ args ∧
      PlainPart args (x.value.toList ++ x.afterValue.rest) := by
  obtain ⟨pending, rest⟩ := r
  have whole : ∀ (f : Str) (rest : List Str), rest <:+ args → (wholeFlag f rest).afterFlag.PartOf args ∧
      (wholeFlag f rest).afterValue.pending = [] ∧ (wholeFlag f rest).afterValue.rest <:+ args ∧
      PlainPart args ((wholeFlag f rest).value.toList ++ (wholeFlag f rest).afterValue.rest) := by
    intro f rest h
    refine ⟨Or.inl ⟨rfl, h⟩, rfl, (List.tail_suffix rest).trans h, Or.inl ?_⟩
    cases rest <;> exact h
  have short : ∀ (c : UInt8) (cs p : Str) (rest : List Str), (c!"-" :: p ++ c :: cs) :: rest <:+ args →
      (shortFlag c cs rest).afterFlag.PartOf args ∧ (shortFlag c cs rest).afterValue.pending = [] ∧
      (shortFlag c cs rest).afterValue.rest <:+ args ∧
      PlainPart args ((shortFlag c cs rest).value.toList ++ (shortFlag c cs rest).afterValue.rest) := by
    intro c cs p rest h
    unfold shortFlag
    split
    · exact whole _ _ (suffix_of_cons h)
    · refine ⟨Or.inr ⟨p ++ [c], ?_⟩, rfl, suffix_of_cons h, Or.inr ⟨c!"-" :: p ++ [c], cs, rest, rfl, ?_⟩⟩
      · simpa using h
      · simpa using h
  have hrest : ∀ {a : Str} {rest : List Str}, (Reader.mk pending (a :: rest)).PartOf args → a :: rest <:+ args := by
    intro a rest hr
    rcases hr with ⟨_, h⟩ | ⟨p, h⟩
    · exact h
    · exact suffix_of_cons h
  have equal : ∀ {a flag value : Str} {rest : List Str}, a :: rest <:+ args → cutAfterEqual a = some (flag, value) →
      (equalFlag flag value rest).afterFlag.PartOf args ∧ (equalFlag flag value rest).afterValue.pending = [] ∧
      (equalFlag flag value rest).afterValue.rest <:+ args ∧
      PlainPart args ((equalFlag flag value rest).value.toList ++ (equalFlag flag value rest).afterValue.rest) := by
    intro a flag value rest ha he
    refine ⟨Or.inl ⟨rfl, suffix_of_cons ha⟩, rfl, suffix_of_cons ha, Or.inr ⟨flag, value, rest, rfl, ?_⟩⟩
    rw [← cutAfterEqual_append he]
    exact ha
  unfold Reader.readIn Reader.read at hx
  split at hx
  · unfold Reader.readStandard at hx
    cases pending with
    | cons c cs =>
      simp only [Option.some.injEq] at hx
      subst hx
      rcases hr with ⟨h, _⟩ | ⟨p, h⟩
      · simp at h
      · exact short c cs p rest h
    | nil =>
      cases rest with
      | nil => simp at hx
      | cons a rest =>
        have ha := hrest hr
        simp only at hx
        split at hx
        · rename_i d c y ys
          split at hx
          · simp only [Option.some.injEq] at hx; subst hx; exact whole _ _ (suffix_of_cons ha)
          · rename_i hd
            simp only [ne_eq, Decidable.not_not] at hd
            subst hd
            split at hx
            · simp only [Option.some.injEq] at hx; subst hx
              exact short c (y :: ys) [] rest ha
            · split at hx
              · rename_i flag value he
                simp only [Option.some.injEq] at hx; subst hx
                exact equal ha he
              · simp only [Option.some.injEq] at hx; subst hx; exact whole _ _ (suffix_of_cons ha)
        · simp only [Option.some.injEq] at hx; subst hx; exact whole _ _ (suffix_of_cons ha)
  · unfold Reader.readPrefixed at hx
    cases rest with
    | nil => simp at hx
    | cons a rest =>
      have ha := hrest hr
      simp only at hx
      split at hx
      · split at hx
        · rename_i flag value he
          simp only [Option.some.injEq] at hx; subst hx
          exact equal ha he
        · simp only [Option.some.injEq] at hx; subst hx; exact whole _ _ (suffix_of_cons ha)
      · simp only [Option.some.injEq] at hx; subst hx; exact whole _ _ (suffix_of_cons ha)

theorem partOf_leftBy {style : OptionStyle} {args : List Str} {r : Reader} {x : Reading} (hr : r.PartOf args) (hx : r.readIn style = some x) (o : OptData) :
    (x.leftBy o).PartOf args ∧ PlainPart args (x.plainBy o) := by
  obtain ⟨h1, h2, h3, h4⟩ := read_partOf hr hx
  unfold Reading.leftBy Reading.plainBy
  split
  · exact ⟨Or.inl ⟨h2, h3⟩, Or.inl h3⟩
  · exact ⟨h1, h4⟩

/-- A part of the end of the command line, with pending short flags as an argument of their own. -/
def ClosedPart (args rest : List Str) : Prop :=
  rest <:+ args ∨ ∃ p cs rest', cs ≠ [] ∧ rest = (c!"-" :: cs) :: rest' ∧ (c!"-" :: p ++ cs) :: rest' <:+ args

theorem closedPart_unread {args : List Str} {r : Reader} (h : r.PartOf args) : ClosedPart args r.unread := by
  unfold Reader.unread
  split
  · rename_i hp
    rcases h with ⟨_, h⟩ | ⟨p, h⟩
    · exact Or.inl h
    · exact Or.inl (suffix_of_cons h)
  · rename_i hp
    rcases h with ⟨h, _⟩ | ⟨p, h⟩
    · exact absurd h hp
    · exact Or.inr ⟨p, _, _, hp, rfl, h⟩

/-- What is left belongs to the end of the command line. -/
def Spec.Line.PartOf (args : List Str) : Line → Prop
  | .mixed r => r.PartOf args
  | .plain rest => PlainPart args rest
  | .closed rest => ClosedPart args rest

theorem plainPart_tail {args rest : List Str} {v : Str} (h : PlainPart args (v :: rest)) : rest <:+ args := by
  rcases h with h | ⟨p, w, rest', e, h⟩
  · exact suffix_of_cons h
  · simp only [List.cons.injEq] at e
    rw [e.2]
    exact suffix_of_cons h

theorem Spec.Line.Step.partOf {style : OptionStyle} {args : List Str} {st : Open} {l l' : Line} {r : IterResult} (h : Line.Step style st l r l') (hl : l.PartOf args) :
    l'.PartOf args := by
  cases h with
  | option hx _ _ _ => exact (partOf_leftBy hl hx _).1
  | lastOption hx _ _ _ => exact (partOf_leftBy hl hx _).2
  | stop hx _ _ _ => exact closedPart_unread (partOf_leftBy hl hx _).1
  | lastArgument hx _ _ _ _ => exact closedPart_unread (partOf_leftBy hl hx _).1
  | lastOfMany hx _ _ _ _ => exact (partOf_leftBy hl hx _).2
  | argument hx _ => exact (read_partOf hl hx).1
  | plainArgument => exact Or.inl (plainPart_tail hl)
  | command hx _ => exact (read_partOf hl hx).1
  | plainCommand => exact Or.inl ⟨rfl, plainPart_tail hl⟩
  | unknownOption hx _ _ => exact (read_partOf hl hx).1
  | unknownArgument hx _ => exact (read_partOf hl hx).1
  | unknownPlain => exact Or.inl (plainPart_tail hl)

theorem Spec.Line.Steps.partOf {style : OptionStyle} {args : List Str} {st : Open} {l l' : Line} {rs : List IterResult} (h : Line.Steps style st l rs l')
    (hl : l.PartOf args) : l'.PartOf args := by
  induction h with
  | nil => exact hl
  | cons h1 _ ih => exact ih (h1.partOf hl)

theorem Spec.Line.Steps.split {style : OptionStyle} {st : Open} {l l' : Line} {rs1 rs2 : List IterResult} (h : Line.Steps style st l (rs1 ++ rs2) l') :
    ∃ l1, Line.Steps style st l rs1 l1 ∧ Line.Steps style (rs1.foldl Open.step st) l1 rs2 l' := by
  induction rs1 generalizing st l with
  | nil => exact ⟨l, .nil, h⟩
  | cons r rs ih =>
    cases h with
    | cons h1 h2 =>
      obtain ⟨l1, h3, h4⟩ := ih h2
      exact ⟨l1, .cons h1 h3, h4⟩

/-- Plain arguments are delivered as they are. -/
theorem Spec.Line.Steps.plain {style : OptionStyle} {st : Open} {rest : List Str} {l' : Line} {rs : List IterResult} (h : Line.Steps style st (.plain rest) rs l')
    (hc : ∀ c x, .command c x ∉ rs) (hu : ∀ x, .unknown x ∉ rs) :
    ∃ done left, rest = done ++ left ∧ l' = .plain left ∧
      rs.map textOf = done.map some := by
  induction rs generalizing st rest with
  | nil =>
    cases h
    exact ⟨[], rest, rfl, rfl, rfl⟩
  | cons r rs ih =>
    cases h with
    | cons h1 h2 =>
      cases h1 with
      | @plainArgument a v rest =>
        obtain ⟨done, left, rfl, e2, e3⟩ := ih h2 (fun c x hm => hc c x (by simp [hm])) (fun x hm => hu x (by simp [hm]))
        exact ⟨v :: done, left, rfl, e2, by simp [e3, textOf]⟩
      | @plainCommand c v s rest => exact absurd (List.mem_cons_self ..) (hc c s)
      | @unknownPlain v s rest => exact absurd (List.mem_cons_self ..) (hu s)

/-- The argument does not consist of concatenated short flags. -/
def Alone (style : OptionStyle) (a : Str) : Prop :=
  style ≠ .standard ∨ a.length ≤ 2 ∨ a.head? ≠ some c!"-" ∨ a[1]? = some c!"-"

instance (style : OptionStyle) (a : Str) : Decidable (Alone style a) := inferInstanceAs (Decidable (_ ∨ _))

theorem stylePrefix_char {style : OptionStyle} {c : UInt8} (h : stylePrefix style = some c) :
    style ≠ .standard ∧ c = flagChar style ∧ c ≠ c!"=" := by
  cases style <;> simp [stylePrefix] at h <;> subst h <;> decide

theorem Alone.standard {a : Str} (h : Alone .standard a) : a.length ≤ 2 ∨ a.head? ≠ some c!"-" ∨ a[1]? = some c!"-" :=
  h.resolve_left (by simp)

theorem readIn_cases {style : OptionStyle} {r : Reader} {x : Reading} (h : r.readIn style = some x) :
    (style = .standard ∧ r.readStandard = some x) ∨ ∃ c, stylePrefix style = some c ∧ r.readPrefixed c = some x := by
  unfold Reader.readIn Reader.read at h
  split at h
  · rename_i e; exact Or.inl ⟨stylePrefix_none e, h⟩
  · rename_i c e; exact Or.inr ⟨c, e, h⟩

/-- The three ways of reading in a prefixed style. -/
theorem readPrefixed_cases {c : UInt8} {r : Reader} {x : Reading} (h : r.readPrefixed c = some x) :
    ∃ a rest, r.rest = a :: rest ∧ (x = wholeFlag a rest ∨
      ∃ flag value, 2 < a.length ∧ a.head? = some c ∧ cutAfterEqual a = some (flag, value) ∧ x = equalFlag flag value rest) := by
  unfold Reader.readPrefixed at h
  split at h
  · simp at h
  · rename_i a rest hr
    refine ⟨a, rest, hr, ?_⟩
    split at h
    · rename_i ha
      split at h
      · rename_i flag value he
        simp only [Option.some.injEq] at h
        exact Or.inr ⟨flag, value, ha.1, ha.2, he, h.symm⟩
      · simp only [Option.some.injEq] at h; exact Or.inl h.symm
    · simp only [Option.some.injEq] at h; exact Or.inl h.symm

theorem read_alone_standard {r : Reader} {x : Reading} (hp : r.pending = []) (ha : ∀ a ∈ r.rest, Alone .standard a) (hx : r.readStandard = some x) :
    ∃ a rest, r.rest = a :: rest ∧ x.afterFlag = ⟨[], rest⟩ ∧ x.afterValue.pending = [] ∧ x.afterValue.rest <:+ rest ∧
      (¬ IsFlag .standard x.flag → x.flag = a) := by
  obtain ⟨pending, rest⟩ := r
  simp only at hp
  subst hp
  cases rest with
  | nil => simp [Reader.readStandard] at hx
  | cons a rest =>
    have hw : ∀ f, (wholeFlag f rest).afterFlag = ⟨[], rest⟩ ∧ (wholeFlag f rest).afterValue.pending = [] ∧
        (wholeFlag f rest).afterValue.rest <:+ rest := fun f => ⟨rfl, rfl, List.tail_suffix rest⟩
    refine ⟨a, rest, rfl, ?_⟩
    unfold Reader.readStandard at hx
    simp only at hx
    split at hx
    · rename_i d c y ys
      split at hx
      · simp only [Option.some.injEq] at hx; subst hx
        exact ⟨(hw _).1, (hw _).2.1, (hw _).2.2, fun _ => rfl⟩
      · rename_i hd
        simp only [ne_eq, Decidable.not_not] at hd
        subst hd
        split at hx
        · rename_i hc
          rcases (ha (c!"-" :: c :: y :: ys) (by simp)).standard with h | h | h
          · simp at h
          · simp at h
          · simp at h; exact absurd h hc
        · rename_i hcc
          split at hx
          · rename_i flag value he
            simp only [Option.some.injEq] at hx; subst hx
            refine ⟨rfl, rfl, List.suffix_refl _, ?_⟩
            · intro hnf
              exfalso
              apply hnf
              show IsFlag .standard flag
              have hcc := Decidable.not_not.mp hcc
              subst hcc
              have : flag = c!"-" :: c!"-" :: (y :: ys).takeWhile (· != c!"=") ++ [c!"="] := by
                unfold cutAfterEqual at he
                split at he
                · simp at he
                · rename_i e v hdw
                  simp only [Option.some.injEq, Prod.mk.injEq] at he
                  have h1 : e = c!"=" := by
                    have := List.head?_dropWhile_not (p := (· != c!"=")) (l := c!"-" :: c!"-" :: y :: ys)
                    rw [hdw] at this
                    simpa using this
                  rw [← he.1, h1]
                  rw [List.takeWhile_cons_of_pos (by decide), List.takeWhile_cons_of_pos (by decide)]
              rw [this]
              exact ⟨by simp, rfl⟩
          · simp only [Option.some.injEq] at hx; subst hx
            exact ⟨(hw _).1, (hw _).2.1, (hw _).2.2, fun _ => rfl⟩
    · simp only [Option.some.injEq] at hx; subst hx
      exact ⟨(hw _).1, (hw _).2.1, (hw _).2.2, fun _ => rfl⟩

theorem read_alone {style : OptionStyle} {r : Reader} {x : Reading} (hp : r.pending = []) (ha : ∀ a ∈ r.rest, Alone style a)
    (hx : r.readIn style = some x) :
    ∃ a rest, r.rest = a :: rest ∧ x.afterFlag = ⟨[], rest⟩ ∧ x.afterValue.pending = [] ∧ x.afterValue.rest <:+ rest ∧
      (¬ IsFlag style x.flag → x.flag = a) := by
  rcases readIn_cases hx with ⟨rfl, hx⟩ | ⟨c, hc, hx⟩
  · exact read_alone_standard hp ha hx
  · obtain ⟨a, rest, e, h⟩ := readPrefixed_cases hx
    refine ⟨a, rest, e, ?_⟩
    have hh : ¬ IsFlag style x.flag → x.flag = a := by
      intro hf
      have := readPrefixed_head hc hx hf
      rw [e] at this
      exact (Option.some.inj this).symm
    rcases h with rfl | ⟨flag, value, _, _, _, rfl⟩
    · exact ⟨rfl, rfl, List.tail_suffix _, hh⟩
    · exact ⟨rfl, rfl, List.suffix_refl _, hh⟩

/-- A flag is the beginning of its argument. -/
theorem read_prefix_standard {a : Str} {rest : List Str} {x : Reading} (hx : (Reader.mk [] (a :: rest)).readStandard = some x) : x.flag <+: a := by
  unfold Reader.readStandard at hx
  simp only at hx
  split at hx
  · rename_i d c y ys
    split at hx
    · simp only [Option.some.injEq] at hx; subst hx; exact List.prefix_refl _
    · rename_i hd
      have hd := Decidable.not_not.mp hd
      subst hd
      split at hx
      · simp only [Option.some.injEq] at hx; subst hx
        simp only [shortFlag, reduceCtorEq, if_false]
        exact ⟨y :: ys, rfl⟩
      · split at hx
        · rename_i flag value he
          simp only [Option.some.injEq] at hx; subst hx
          exact ⟨value, (cutAfterEqual_append he).symm⟩
        · simp only [Option.some.injEq] at hx; subst hx; exact List.prefix_refl _
  · simp only [Option.some.injEq] at hx; subst hx; exact List.prefix_refl _

theorem read_prefix {style : OptionStyle} {a : Str} {rest : List Str} {x : Reading}
    (hx : (Reader.mk [] (a :: rest)).readIn style = some x) : x.flag <+: a := by
  rcases readIn_cases hx with ⟨rfl, hx⟩ | ⟨c, hc, hx⟩
  · exact read_prefix_standard hx
  · obtain ⟨a, rest, e, h⟩ := readPrefixed_cases hx
    simp only [List.cons.injEq] at e
    obtain ⟨rfl, rfl⟩ := e
    rcases h with rfl | ⟨flag, value, _, _, he, rfl⟩
    · exact List.prefix_refl _
    · exact ⟨value, (cutAfterEqual_append he).symm⟩

theorem read_alone_head_standard {a : Str} {rest : List Str} {x : Reading} (ha : Alone .standard a) (hx : (Reader.mk [] (a :: rest)).readStandard = some x) :
    x.afterFlag = ⟨[], rest⟩ := by
  unfold Reader.readStandard at hx
  simp only at hx
  split at hx
  · rename_i d c y ys
    split at hx
    · simp only [Option.some.injEq] at hx; subst hx; rfl
    · rename_i hd
      have hd := Decidable.not_not.mp hd
      subst hd
      split at hx
      · rename_i hc
        rcases ha.standard with h | h | h
        · simp at h
        · simp at h
        · simp at h; exact absurd h hc
      · split at hx <;> (simp only [Option.some.injEq] at hx; subst hx; rfl)
  · simp only [Option.some.injEq] at hx; subst hx; rfl

theorem read_alone_head {style : OptionStyle} {a : Str} {rest : List Str} {x : Reading} (ha : Alone style a)
    (hx : (Reader.mk [] (a :: rest)).readIn style = some x) : x.afterFlag = ⟨[], rest⟩ := by
  rcases readIn_cases hx with ⟨rfl, hx⟩ | ⟨c, hc, hx⟩
  · exact read_alone_head_standard ha hx
  · obtain ⟨a, rest, e, h⟩ := readPrefixed_cases hx
    simp only [List.cons.injEq] at e
    obtain ⟨rfl, rfl⟩ := e
    rcases h with rfl | ⟨flag, value, _, _, he, rfl⟩ <;> rfl

theorem cutAfterEqual_absent {a : Str} (h : c!"=" ∉ a) : cutAfterEqual a = none := by
  unfold cutAfterEqual
  have : a.dropWhile (· != c!"=") = [] := by
    induction a with
    | nil => rfl
    | cons x a ih =>
      rw [List.dropWhile_cons_of_pos]
      · exact ih (fun hm => h (by simp [hm]))
      · simp only [bne_iff_ne, ne_eq]
        rintro rfl
        exact h (by simp)
  rw [this]

theorem read_whole {a : Str} {rest : List Str} {x : Reading} (ha : Alone .standard a) (he : c!"=" ∉ a)
    (hx : (Reader.mk [] (a :: rest)).readStandard = some x) : x.value.toList ++ x.afterValue.rest = rest := by
  have hv : ∀ f, (wholeFlag f rest).value.toList ++ (wholeFlag f rest).afterValue.rest = rest := by
    intro f; cases rest <;> rfl
  unfold Reader.readStandard at hx
  simp only at hx
  split at hx
  · rename_i d c y ys
    rw [cutAfterEqual_absent he] at hx
    split at hx
    · simp only [Option.some.injEq] at hx; subst hx; exact hv _
    · rename_i hd
      have hd := Decidable.not_not.mp hd
      subst hd
      split at hx
      · rename_i hc
        rcases ha.standard with h | h | h
        · simp at h
        · simp at h
        · simp at h; exact absurd h hc
      · simp only [Option.some.injEq] at hx; subst hx; exact hv _
  · simp only [Option.some.injEq] at hx; subst hx; exact hv _

/-- Everything ignored, in order. -/
def unknownsIn (rs : List IterResult) : List Str :=
  rs.filterMap fun r => match r with
    | .unknown s => some s
    | _ => none

/-- Without concatenated short flags, what is ignored is a part of the command line, in order. -/
theorem Spec.Line.Steps.unknowns {style : OptionStyle} {st : Open} {l l' : Line} {rs : List IterResult} (h : Line.Steps style st l rs l') (hl : Parser.NoLast rs) :
    ∀ rest : List Str, l = .mixed ⟨[], rest⟩ → (∀ a ∈ rest, Alone style a) → (unknownsIn rs ++ l'.notRead).Sublist rest := by
  induction h with
  | nil => rintro rest rfl _; simp [unknownsIn, Line.notRead]
  | @cons st l l1 l' r rs h1 h2 ih =>
    rintro rest rfl ha
    have ih' := ih (fun o v hm => hl o v (by simp [hm]))
    have left : ∀ {x : Reading} (o : OptData), (Reader.mk [] rest).readIn style = some x →
        ∃ rest', x.leftBy o = ⟨[], rest'⟩ ∧ rest' <:+ rest := by
      intro x o hx
      obtain ⟨a, rest', rfl, e2, e3, e4, _⟩ := read_alone rfl ha hx
      unfold Reading.leftBy
      split
      · refine ⟨x.afterValue.rest, ?_, e4.trans (List.suffix_cons ..)⟩
        rw [← e3]
      · exact ⟨rest', e2, List.suffix_cons ..⟩
    have sub : ∀ {rest' : List Str}, l1 = .mixed ⟨[], rest'⟩ → rest' <:+ rest → (unknownsIn rs ++ l'.notRead).Sublist rest := by
      intro rest' e1 e2
      exact (ih' rest' e1 (fun a hm => ha a (e2.subset hm))).trans e2.sublist
    have closed : ∀ {rest' : List Str}, l1 = .closed rest' → rest' <:+ rest → (unknownsIn rs ++ l'.notRead).Sublist rest := by
      rintro rest' rfl e2
      cases h2 with
      | nil => simpa [unknownsIn, Line.notRead] using e2.sublist
      | cons h3 _ => cases h3
    cases h1 with
    | @option _ x o v hx _ _ _ =>
      obtain ⟨rest', e1, e2⟩ := left o hx
      exact sub (by rw [e1]) e2
    | lastOption _ _ _ hty => exact absurd hty (hl _ _ (List.mem_cons_self ..)).1
    | @stop _ x o v hx _ _ _ =>
      obtain ⟨rest', e1, e2⟩ := left o hx
      exact closed (by rw [e1]; rfl) e2
    | lastArgument _ _ _ hty _ => exact absurd hty (hl _ _ (List.mem_cons_self ..)).2
    | lastOfMany _ _ _ hty _ => exact absurd hty (hl _ _ (List.mem_cons_self ..)).2
    | argument hx _ =>
      obtain ⟨a, rest', rfl, e2, e3, e4, _⟩ := read_alone rfl ha hx
      exact sub (by rw [e2]) (List.suffix_cons ..)
    | command hx _ =>
      obtain ⟨a, rest', rfl, e2, e3, e4, _⟩ := read_alone rfl ha hx
      exact sub (by rw [e2]) (List.suffix_cons ..)
    | unknownOption hx _ hs =>
      obtain ⟨a, rest', rfl, e2, e3, e4, _⟩ := read_alone rfl ha hx
      have hs := hs rfl
      simp only [List.head?_cons, Option.some.injEq] at hs
      subst hs
      exact (ih' rest' (by rw [e2]) (fun b hm => ha b (by simp [hm]))).cons_cons _
    | unknownArgument hx hnf =>
      obtain ⟨a, rest', rfl, e2, e3, e4, e5⟩ := read_alone rfl ha hx
      have := e5 hnf
      subst this
      exact (ih' rest' (by rw [e2]) (fun b hm => ha b (by simp [hm]))).cons_cons _

end Argos
