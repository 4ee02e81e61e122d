import Verif.Proofs.Iterators

/-!
# Reading the command line: C02, C03, C04, C05, C06 and the token level of C01

The iterators are related to `Spec.Reader` for every history of operations.
-/

namespace Argos

open Spec


/-- One operation on an iterator. -/
def Iter.step (it : Iter) : ReadOp → Outcome (ReadOut × Iter)
  | .flag => do
    let (f, it) ← it.next
    pure (.flag f, it)
  | .flagAndValue => do
    let (f, it) ← it.next
    match f with
    | none => pure (.flagAndValue none none, it)
    | some f => do
      let (v, it) ← it.nextValue
      pure (.flagAndValue (some f) v, it)
  | .insert new => do
    let it ← it.insert new
    pure (.inserted, it)
  | .remaining => do
    let (r, it) ← it.remainingArguments
    pure (.remaining r, it)

/-- A history of operations on an iterator. -/
def Iter.run (it : Iter) : List ReadOp → Outcome (List ReadOut × Iter)
  | [] => .ok ([], it)
  | op :: ops => do
    let (o, it) ← it.step op
    let (os, it) ← it.run ops
    pure (o :: os, it)

/-- The iterator for the command line of a program (with the program name removed). -/
abbrev startIter (style : OptionStyle) (args : List Str) : Iter := Iter.make style args

/-- In the SLASH and DASH styles the value of a flag is not an empty argument of its own. (`f` and
`f ""` where f is a complete flag.) -/
def NoEmptyValue (pfx : Option UInt8) (r : Reader) : ReadOp → Prop
  | .flagAndValue => pfx = none ∨ ∀ x, r.read pfx = some x → x.value ≠ some []
  | _ => True

/-- The same for a history. -/
def NoEmptyValues (pfx : Option UInt8) : Reader → List ReadOp → Prop
  | _, [] => True
  | r, op :: ops => NoEmptyValue pfx r op ∧ NoEmptyValues pfx (r.step pfx op).2 ops

theorem Iter.step_refines (it : Iter) (h : it.Ok) (op : ReadOp) (hv : NoEmptyValue it.pfx it.reader op) :
    ∃ it', it.step op = .ok ((it.reader.step it.pfx op).1, it') ∧ it'.Ok ∧
      it'.reader = (it.reader.step it.pfx op).2 ∧ it'.pfx = it.pfx := by
  cases op with
  | flag =>
    have := it.next_spec h
    simp only [Iter.step, Reader.step]
    revert this
    cases it.reader.read it.pfx with
    | none =>
      rintro ⟨it', h1, h2, h3, h4⟩
      exact ⟨it', by simp [h1], h2, h3, h4⟩
    | some x =>
      rintro ⟨it', h1, h2, h3, h4, h5⟩
      exact ⟨it', by simp [h1], h2, h3, h5⟩
  | flagAndValue =>
    have := it.next_spec h
    simp only [Iter.step, Reader.step, NoEmptyValue] at hv ⊢
    revert this hv
    cases it.reader.read it.pfx with
    | none =>
      rintro - ⟨it', h1, h2, h3, h4⟩
      exact ⟨it', by simp [h1], h2, h3, h4⟩
    | some x =>
      rintro hv ⟨it', h1, h2, h3, h4, h5⟩
      obtain ⟨it'', h6, h7, h8, h9⟩ := it'.nextValue_spec h2
      rw [h4] at h6 h9
      refine ⟨it'', by simp [h1, h6], h7, ?_, by rw [h8, h5]⟩
      rcases h9 with h9 | ⟨h9, h10, h11⟩
      · exact h9
      · rw [h5] at h9
        rcases hv with hv | hv
        · exact absurd hv h9
        · exact absurd h10 (hv x rfl)
  | insert new =>
    obtain ⟨it', h1, h2, h3, h4⟩ := it.insert_spec h new
    exact ⟨it', by simp [Iter.step, Reader.step, h1], h2, h3, h4⟩
  | remaining =>
    obtain ⟨it', h1, h2, h3, h4⟩ := it.remaining_spec h
    exact ⟨it', by simp [Iter.step, Reader.step, h1], h2, h3, h4⟩

theorem Iter.run_refines (ops : List ReadOp) (it : Iter) (h : it.Ok)
    (hv : NoEmptyValues it.pfx it.reader ops) :
    ∃ it', it.run ops = .ok ((it.reader.run it.pfx ops).1, it') ∧ it'.Ok ∧
      it'.reader = (it.reader.run it.pfx ops).2 ∧ it'.pfx = it.pfx := by
  induction ops generalizing it with
  | nil => exact ⟨it, rfl, h, rfl, rfl⟩
  | cons op ops ih =>
    obtain ⟨it1, h1, h2, h3, h4⟩ := it.step_refines h op hv.1
    obtain ⟨it2, h5, h6, h7, h8⟩ := ih it1 h2 (by rw [h3, h4]; exact hv.2)
    refine ⟨it2, ?_, h6, ?_, by rw [h8, h4]⟩
    · simp [Iter.run, h1, h5, Reader.run, h3, h4]
    · rw [h7, h3, h4]; simp [Reader.run]

theorem start_ok (style : OptionStyle) (args : List Str) :
    (startIter style args).Ok ∧ (startIter style args).reader = ⟨[], args⟩ ∧
      (startIter style args).pfx = stylePrefix style := by
  cases style <;> exact ⟨Or.inl rfl, rfl, rfl⟩

theorem Spec.Reader.run_append (pfx : Option UInt8) (r : Reader) (xs ys : List ReadOp) :
    r.run pfx (xs ++ ys) =
      ((r.run pfx xs).1 ++ ((r.run pfx xs).2.run pfx ys).1, ((r.run pfx xs).2.run pfx ys).2) := by
  induction xs generalizing r with
  | nil => simp [Reader.run]
  | cons x xs ih => simp [Reader.run, ih]

theorem noEmptyValues_standard (r : Reader) (ops : List ReadOp) : NoEmptyValues none r ops := by
  induction ops generalizing r with
  | nil => trivial
  | cons op ops ih =>
    refine ⟨?_, ih _⟩
    cases op <;> simp [NoEmptyValue]

theorem noEmptyValues_append (pfx : Option UInt8) (r : Reader) (xs ys : List ReadOp)
    (h : NoEmptyValues pfx r xs) (h2 : NoEmptyValues pfx (r.run pfx xs).2 ys) :
    NoEmptyValues pfx r (xs ++ ys) := by
  induction xs generalizing r with
  | nil => exact h2
  | cons x xs ih => exact ⟨h.1, ih _ h.2 (by simpa [Reader.run] using h2)⟩

/-- The iterators do what the specification says, for every history of reading flags, reading flags
with values, inserting arguments and asking for the remaining arguments. (SLASH and DASH: unless an
empty argument is taken as a value, see `C05_violated`.) -/
theorem reading_refines (style : OptionStyle) (args : List Str) (ops : List ReadOp)
    (hv : NoEmptyValues (stylePrefix style) ⟨[], args⟩ ops) :
    ∃ it, (startIter style args).run ops =
      .ok (((Reader.mk [] args).run (stylePrefix style) ops).1, it) := by
  obtain ⟨h1, h2, h3⟩ := start_ok style args
  obtain ⟨it, h4, _⟩ := Iter.run_refines ops _ h1 (by rw [h2, h3]; exact hv)
  exact ⟨it, by rw [h4, h2, h3]⟩

/-! ## C03 -/

/-- The flags still to be read. -/
def tokensLeft (pfx : Option UInt8) (r : Reader) : List Str :=
  r.pending.map (fun c => [c!"-", c]) ++ r.rest.flatMap (argTokens pfx)

theorem tokensLeft_read (pfx : Option UInt8) (r : Reader) (hr : pfx = none ∨ r.pending = []) :
    match r.read pfx with
    | none => tokensLeft pfx r = []
    | some x => tokensLeft pfx r = x.flag :: tokensLeft pfx x.afterFlag ∧
        (pfx = none ∨ x.afterFlag.pending = []) := by
  have hshort : ∀ c cs rest, (shortFlag c cs rest).flag = [c!"-", c] ∧
      (shortFlag c cs rest).afterFlag = ⟨cs, rest⟩ := by
    intro c cs rest
    unfold shortFlag
    split
    · rename_i h; subst h; exact ⟨rfl, rfl⟩
    · exact ⟨rfl, rfl⟩
  obtain ⟨pending, rest⟩ := r
  cases pfx with
  | none =>
    simp only [Reader.read]
    match pending, rest with
    | c :: cs, rest => simp [Reader.readStandard, tokensLeft, (hshort c cs rest).1, (hshort c cs rest).2]
    | [], [] => simp [Reader.readStandard, tokensLeft]
    | [], [] :: rest => simp [Reader.readStandard, tokensLeft, wholeFlag, argTokens, standardTokens]
    | [], [a] :: rest => simp [Reader.readStandard, tokensLeft, wholeFlag, argTokens, standardTokens]
    | [], [a, b] :: rest => simp [Reader.readStandard, tokensLeft, wholeFlag, argTokens, standardTokens]
    | [], (d :: c :: x :: xs) :: rest =>
      simp only [Reader.readStandard, tokensLeft, List.map_nil, List.nil_append, List.flatMap_cons,
        argTokens, standardTokens]
      by_cases hd : d ≠ c!"-"
      · simp [if_pos hd, wholeFlag]
      · simp only [if_neg hd]
        by_cases hc : c ≠ c!"-"
        · simp only [if_pos hc, (hshort _ _ _).1, (hshort _ _ _).2]
          simp
        · simp only [if_neg hc]
          cases cutAfterEqual (d :: c :: x :: xs) <;> simp [wholeFlag, equalFlag]
  | some p =>
    have hp : pending = [] := by simpa using hr
    subst hp
    cases rest with
    | nil => simp [Reader.read, Reader.readPrefixed, tokensLeft]
    | cons a rest =>
      simp only [Reader.read, Reader.readPrefixed, tokensLeft, List.map_nil, List.nil_append,
        List.flatMap_cons, argTokens, prefixedTokens]
      split
      · rename_i h
        split at h
        · revert h; cases cutAfterEqual a <;> simp
        · simp at h
      · rename_i x h
        split at h
        · rename_i hc
          rw [if_pos hc]
          revert h
          cases cutAfterEqual a with
          | none => intro h; simp at h; subst h; simp [wholeFlag]
          | some y => intro h; simp at h; subst h; simp [equalFlag]
        · rename_i hc
          rw [if_neg hc]
          simp at h; subst h; simp [wholeFlag]

/-- Calling `next` n times. -/
def Iter.readN : Nat → Iter → Outcome (List (Option Str))
  | 0, _ => .ok []
  | n + 1, it => do
    let (t, it) ← it.next
    let ts ← Iter.readN n it
    pure (t :: ts)

theorem Iter.readN_spec (n : Nat) (it : Iter) (h : it.Ok) (hr : it.pfx = none ∨ it.reader.pending = []) :
    it.readN n = .ok (((tokensLeft it.pfx it.reader).map some ++ List.replicate n none).take n) := by
  induction n generalizing it with
  | zero => simp [Iter.readN]
  | succ n ih =>
    have h1 := it.next_spec h
    have h2 := tokensLeft_read it.pfx it.reader hr
    revert h1 h2
    cases hread : it.reader.read it.pfx with
    | none =>
      rintro ⟨it', h1, h3, h4, h5⟩ h2
      have := ih it' h3 (by rw [h5, h4]; exact hr)
      rw [h5, h4, h2] at this
      simp only [List.map_nil, List.nil_append, List.take_replicate, Nat.min_self] at this
      simp [Iter.readN, h1, this, h2, List.replicate_succ]
    | some x =>
      rintro ⟨it', h1, h3, h4, h5, h6⟩ ⟨h2, h7⟩
      have := ih it' h3 (by rw [h6, h4]; exact h7)
      rw [h6, h4] at this
      simp only [Iter.readN, h1, Outcome.bind_ok, this, Outcome.pure_eq, h2, List.map_cons,
        List.cons_append, List.take_succ_cons]
      rw [List.take_append, List.take_append]
      simp [List.take_replicate]
      omega

/-- C03. However often `next` is called, the flags read are those of the first argument, then those
of the second and so on, and when all are read `next` reports the end (again and again). -/
theorem C03_tokens (style : OptionStyle) (args : List Str) (n : Nat) :
    (startIter style args).readN n =
      .ok (((args.flatMap (argTokens (stylePrefix style))).map some ++ List.replicate n none).take n) := by
  obtain ⟨h1, h2, h3⟩ := start_ok style args
  rw [Iter.readN_spec n _ h1 (Or.inr (by rw [h2])), h2, h3]
  simp [tokensLeft]

theorem cutAfterEqual_some (a f v : Str) (h : cutAfterEqual a = some (f, v)) :
    a = f ++ v ∧ ∃ g, f = g ++ [c!"="] ∧ c!"=" ∉ g := by
  unfold cutAfterEqual at h
  have hs := List.takeWhile_append_dropWhile (p := fun x => x != c!"=") (l := a)
  cases hd : List.dropWhile (fun x => x != c!"=") a with
  | nil => simp [hd] at h
  | cons e w =>
    rw [hd] at h hs
    simp only [Option.some.injEq, Prod.mk.injEq] at h
    obtain ⟨rfl, rfl⟩ := h
    have he : e = c!"=" := by
      have := List.head_dropWhile_not (fun x : UInt8 => x != c!"=") (l := a) (by simp [hd])
      simpa [hd] using this
    refine ⟨by simp [hs], _, by rw [he], ?_⟩
    intro hmem
    have := List.all_eq_true.mp (List.all_takeWhile (p := fun x : UInt8 => x != c!"=") (l := a)) _ hmem
    simp at this

/-- C03. The flags of an argument give back the argument: either the only flag is the argument, or
it is the argument up to and including its first '=' (the rest being the value), or the flags are the
characters of the argument after the dash, each with a dash of its own. -/
theorem C03_glue (style : OptionStyle) (a : Str) :
    argTokens (stylePrefix style) a = [a] ∨
    (∃ f v, argTokens (stylePrefix style) a = [f] ∧ a = f ++ v ∧ ∃ g, f = g ++ [c!"="] ∧ c!"=" ∉ g) ∨
    (style = .standard ∧ ∃ cs, 2 ≤ cs.length ∧ a = c!"-" :: cs ∧
      argTokens (stylePrefix style) a = cs.map (fun c => [c!"-", c])) := by
  have hcut : ∀ a : Str, (match cutAfterEqual a with | some (flag, _) => [flag] | none => [a]) = [a] ∨
      (∃ f v, (match cutAfterEqual a with | some (flag, _) => [flag] | none => [a]) = [f] ∧ a = f ++ v ∧
        ∃ g, f = g ++ [c!"="] ∧ c!"=" ∉ g) := by
    intro a
    cases h : cutAfterEqual a with
    | none => left; rfl
    | some y =>
      obtain ⟨f, v⟩ := y
      obtain ⟨h1, h2⟩ := cutAfterEqual_some a f v h
      exact Or.inr ⟨f, v, rfl, h1, h2⟩
  have hpre : ∀ p, prefixedTokens p a = [a] ∨
      (∃ f v, prefixedTokens p a = [f] ∧ a = f ++ v ∧ ∃ g, f = g ++ [c!"="] ∧ c!"=" ∉ g) := by
    intro p
    unfold prefixedTokens
    split
    · exact hcut a
    · left; rfl
  cases style with
  | standard =>
    simp only [stylePrefix, argTokens]
    match a with
    | [] => left; rfl
    | [_] => left; rfl
    | [_, _] => left; rfl
    | d :: c :: x :: xs =>
      simp only [standardTokens]
      by_cases hd : d ≠ c!"-"
      · left; simp [if_pos hd]
      · have hd' : d = c!"-" := by simpa using hd
        simp only [if_neg hd]
        by_cases hc : c ≠ c!"-"
        · right; right
          exact ⟨trivial, c :: x :: xs, by simp, by rw [hd'], by simp [if_pos hc]⟩
        · simp only [if_neg hc]
          rcases hcut (d :: c :: x :: xs) with h | h
          · exact Or.inl h
          · exact Or.inr (Or.inl h)
  | slash =>
    rcases hpre c!"/" with h | h
    · exact Or.inl h
    · exact Or.inr (Or.inl h)
  | dash =>
    rcases hpre c!"-" with h | h
    · exact Or.inl h
    · exact Or.inr (Or.inl h)

example : (startIter .standard [b!"-abc", b!"--file=a=b", b!"", b!"-", b!"--", b!"x"]).readN 9 =
    .ok [some b!"-a", some b!"-b", some b!"-c", some b!"--file=", some b!"", some b!"-", some b!"--",
      some b!"x", none] := by decide

/-! ## C02 -/

/-- The outputs of an iterator after a history `ops`, when a flag with its value is read and then
the operations `more` follow. -/
def outputsAfter (args : List Str) (ops more : List ReadOp) : Outcome (List ReadOut) := do
  let (os, _) ← (startIter .standard args).run (ops ++ ReadOp.flagAndValue :: more)
  pure (os.drop ops.length)

/-- C02. Wherever the argument occurs: `--flag=V`, `--flag V`, `-fV` and `-f V` all deliver exactly
V, and afterwards reading continues with the arguments that follow. -/
theorem C02_option_value (args : List Str) (ops more : List ReadOp) (rest : List Str) (value : Str) :
    -- --flag=V
    (∀ flag : Str, flag ≠ [] → c!"=" ∉ flag →
      ((Reader.mk [] args).run none ops).2 = ⟨[], (b!"--" ++ flag ++ b!"=" ++ value) :: rest⟩ →
      outputsAfter args ops more = .ok (.flagAndValue (some (b!"--" ++ flag ++ b!"=")) (some value) ::
        ((Reader.mk [] rest).run none more).1)) ∧
    -- --flag V
    (∀ flag : Str, c!"=" ∉ flag →
      ((Reader.mk [] args).run none ops).2 = ⟨[], (b!"--" ++ flag) :: value :: rest⟩ →
      outputsAfter args ops more = .ok (.flagAndValue (some (b!"--" ++ flag)) (some value) ::
        ((Reader.mk [] rest).run none more).1)) ∧
    -- -fV
    (∀ f : UInt8, f ≠ c!"-" → value ≠ [] →
      ((Reader.mk [] args).run none ops).2 = ⟨[], (c!"-" :: f :: value) :: rest⟩ →
      outputsAfter args ops more = .ok (.flagAndValue (some [c!"-", f]) (some value) ::
        ((Reader.mk [] rest).run none more).1)) ∧
    -- -f V
    (∀ f : UInt8, ((Reader.mk [] args).run none ops).2 = ⟨[], [c!"-", f] :: value :: rest⟩ →
      outputsAfter args ops more = .ok (.flagAndValue (some [c!"-", f]) (some value) ::
        ((Reader.mk [] rest).run none more).1)) := by
  have hlen : ∀ (r : Reader) (xs : List ReadOp), (r.run none xs).1.length = xs.length := by
    intro r xs
    induction xs generalizing r with
    | nil => rfl
    | cons x xs ih => simp [Reader.run, ih]
  have key : ∀ (a : Str) (rest' : List Str) (x : Reading),
      ((Reader.mk [] args).run none ops).2 = ⟨[], a :: rest'⟩ →
      (Reader.mk [] (a :: rest')).readStandard = some x → x.value = some value →
      x.afterValue = ⟨[], rest⟩ →
      outputsAfter args ops more = .ok (.flagAndValue (some x.flag) (some value) ::
        ((Reader.mk [] rest).run none more).1) := by
    intro a rest' x h1 h2 h3 h4
    obtain ⟨it, h⟩ := reading_refines .standard args (ops ++ ReadOp.flagAndValue :: more)
      (noEmptyValues_standard _ _)
    simp only [outputsAfter, h, Outcome.bind_ok, Outcome.pure_eq, stylePrefix, Reader.run_append]
    rw [List.drop_left' (hlen _ _), h1]
    simp [Reader.run, Reader.step, Reader.read, h2, h3, h4]
  have hcut : ∀ (pre v : Str), c!"=" ∉ pre → cutAfterEqual (pre ++ c!"=" :: v) = some (pre ++ [c!"="], v) := by
    intro pre v hp
    have h1 : ∀ x ∈ pre, (x != c!"=") = true := by
      intro x hx
      simp only [bne_iff_ne, ne_eq]
      rintro rfl
      exact hp hx
    unfold cutAfterEqual
    rw [List.dropWhile_append_of_pos h1, List.takeWhile_append_of_pos h1]
    simp
  refine ⟨?_, ?_, ?_, ?_⟩
  · intro flag hne hf h
    refine key _ _ (equalFlag (b!"--" ++ flag ++ b!"=") value rest) h ?_ rfl rfl
    obtain ⟨x, xs, rfl⟩ : ∃ x xs, flag = x :: xs := List.exists_cons_of_ne_nil hne
    have := hcut (c!"-" :: c!"-" :: x :: xs) value (by simp at hf ⊢; exact hf)
    simp only [List.cons_append] at this
    simp [Reader.readStandard, this]
  · intro flag hf h
    refine key _ _ (wholeFlag (b!"--" ++ flag) (value :: rest)) h ?_ rfl rfl
    cases flag with
    | nil => rfl
    | cons x xs =>
      have : cutAfterEqual (c!"-" :: c!"-" :: x :: xs) = none := by
        rcases hc : cutAfterEqual (c!"-" :: c!"-" :: x :: xs) with _ | ⟨f, v⟩
        · rfl
        · exfalso
          obtain ⟨h1, g, rfl, _⟩ := cutAfterEqual_some _ _ _ hc
          have : c!"=" ∈ (c!"-" :: c!"-" :: x :: xs) := by rw [h1]; simp
          simp at this hf
          rcases this with this | this
          · exact hf.1 this
          · exact hf.2 this
      simp [Reader.readStandard, this]
  · intro f hf hv h
    obtain ⟨x, xs, rfl⟩ : ∃ x xs, value = x :: xs := List.exists_cons_of_ne_nil hv
    have := key _ _ (shortFlag f (x :: xs) rest) h (by simp [Reader.readStandard, hf]) (by simp [shortFlag]) (by simp [shortFlag])
    simpa [shortFlag] using this
  · intro f h
    exact key _ _ (wholeFlag [c!"-", f] (value :: rest)) h rfl rfl rfl

example : ((Reader.mk [] [b!"x", b!"--out=-a=", b!"-v"]).run none [.flag]).2 = ⟨[], [b!"--out=-a=", b!"-v"]⟩ ∧
    outputsAfter [b!"x", b!"--out=-a=", b!"-v"] [.flag] [.flag] =
      .ok [.flagAndValue (some b!"--out=") (some b!"-a="), .flag (some b!"-v")] := by decide

/-! ## C04 -/

/-- Calling `next_value` n times. -/
def Iter.readValues : Nat → Iter → Outcome (List (Option Str))
  | 0, _ => .ok []
  | n + 1, it => do
    let (t, it) ← it.nextValue
    let ts ← Iter.readValues n it
    pure (t :: ts)

theorem StdIt.readValues_npos (n : Nat) (a : Str) (rest : List Str) :
    (Iter.std ⟨a :: rest, .npos⟩).readValues n = .ok ((rest.map some ++ List.replicate n none).take n) := by
  induction n generalizing a rest with
  | zero => simp [Iter.readValues]
  | succ n ih =>
    cases rest with
    | nil =>
      have hnil : ∀ n, (Iter.std ⟨[], .at 0⟩).readValues n = .ok (List.replicate n none) := by
        intro n
        induction n with
        | zero => rfl
        | succ n ih => simp [Iter.readValues, Iter.nextValue, StdIt.nextValue, ih, List.replicate_succ]
      simp [Iter.readValues, Iter.nextValue, StdIt.nextValue, hnil, List.replicate_succ]
    | cons b rest =>
      simp only [Iter.readValues, Iter.nextValue, StdIt.nextValue, Outcome.bind_ok, Outcome.pure_eq, ih,
        List.map_cons, List.cons_append, List.take_succ_cons]
      rw [List.take_append, List.take_append]
      simp [List.take_replicate]
      omega

/-- C04 (what holds, token level). In the STANDARD style, when an argument that is a flag by itself
has been read, reading plain arguments delivers every following argument verbatim, once and in order,
and then reports the end. Missing: the SLASH and DASH styles, see `C04_violated`, and flags read from
concatenated flags. -/
theorem C04_verbatim_partial (args : List Str) (ops : List ReadOp) (flag : Str) (rest : List Str)
    (n : Nat) (h : ((Reader.mk [] args).run none ops).2 = ⟨[], flag :: rest⟩)
    (hf : standardTokens flag = [flag]) (hw : flag.getLast? ≠ some c!"=" ∨ flag.length ≤ 2) :
    (do let (_, it) ← (startIter .standard args).run (ops ++ [ReadOp.flag])
        it.readValues n) = .ok ((rest.map some ++ List.replicate n none).take n) := by
  obtain ⟨h1, h2, h3⟩ := start_ok .standard args
  obtain ⟨it, h4, h5, h6, h7⟩ := Iter.run_refines ops _ h1
    (by rw [h2, h3]; exact noEmptyValues_standard _ _)
  have happ : ∀ (xs : List ReadOp) (it0 it1 : Iter) os, it0.run xs = .ok (os, it1) →
      it0.run (xs ++ [ReadOp.flag]) = (do let (o, it2) ← it1.step .flag; pure (os ++ [o], it2)) := by
    intro xs
    induction xs with
    | nil =>
      intro it0 it1 os h
      simp [Iter.run] at h
      obtain ⟨rfl, rfl⟩ := h
      simp [Iter.run]
    | cons x xs ih =>
      intro it0 it1 os h
      simp only [Iter.run, Outcome.bind_eq_ok, Outcome.pure_eq] at h
      obtain ⟨⟨o, it2⟩, h8, ⟨os2, it3⟩, h9, h10⟩ := h
      simp only [Outcome.ok.injEq, Prod.mk.injEq] at h10
      obtain ⟨rfl, rfl⟩ := h10
      simp only [List.cons_append, Iter.run, h8, Outcome.bind_ok, ih _ _ _ h9, Outcome.pure_eq]
      cases it3.step .flag <;> simp
  rw [happ ops _ _ _ h4]
  rw [h2, h3] at h6
  rw [h3] at h7
  -- the iterator is the standard one
  cases it with
  | opt it => simp [Iter.pfx, stylePrefix] at h7
  | std it =>
    simp only [stylePrefix] at h6
    rw [h] at h6
    simp only [Iter.reader] at h6
    have hnext : it.next = .ok (some flag, ⟨flag :: rest, .npos⟩) := by
      have hfresh : StdIt.nextFresh (flag :: rest) = (some flag, ⟨flag :: rest, .npos⟩) := by
        match flag, hf, hw with
        | [], _, _ => rfl
        | [_], _, _ => rfl
        | [_, _], _, _ => rfl
        | d :: c :: x :: xs, hf, hw =>
          simp only [standardTokens] at hf
          simp only [StdIt.nextFresh]
          split
          · rfl
          · rename_i hd
            simp only [if_neg hd] at hf
            by_cases hc : c ≠ c!"-"
            · simp only [if_pos hc] at hf
              simp at hf
            · simp only [if_neg hc] at hf ⊢
              rcases findChar_cut (d :: c :: x :: xs) with ⟨h10, h11⟩ | ⟨e, h10, h11, h12⟩
              · simp [h10]
              · exfalso
                obtain ⟨_, g, hg, _⟩ := cutAfterEqual_some _ _ _ h12
                simp only [h12, List.cons.injEq, and_true] at hf
                rw [hf] at hg
                rcases hw with hw | hw
                · rw [hg] at hw; simp at hw
                · simp at hw
      -- which state has this reader?
      obtain ⟨iargs, ipos⟩ := it
      have hok : (StdIt.mk iargs ipos).Ok := h5
      rcases hok with hp | ⟨a, r, ha, hp⟩
      · simp only at hp; subst hp
        simp only [StdIt.reader, Reader.mk.injEq, true_and] at h6
        subst h6
        simp [StdIt.next, hfresh]
      · simp only at ha hp
        subst ha
        rcases hp with rfl | ⟨p, rfl, hp⟩
        · simp only [StdIt.reader, List.tail_cons, Reader.mk.injEq, true_and] at h6
          subst h6
          simp [StdIt.next, hfresh]
        · obtain ⟨a1, ha1⟩ : ∃ a1, a[1]? = some a1 := ⟨a[1]'(by omega), by simp [show 1 < a.length by omega]⟩
          simp only [StdIt.reader, ha1, Option.some.injEq] at h6
          by_cases hd : a1 = c!"-"
          · simp only [if_pos hd, Reader.mk.injEq, true_and] at h6
            subst h6
            simp only [StdIt.next, ha1, hd]
            cases a[p + 1 + 1]? <;> simp [hfresh]
          · simp only [if_neg hd, Reader.mk.injEq] at h6
            obtain ⟨h6, rfl⟩ := h6
            have : a[p + 1 + 1]? = none := by
              simp at h6 ⊢; omega
            simp only [StdIt.next, this, hfresh]
    simp [Iter.step, Iter.next, hnext, StdIt.readValues_npos]

example : ((Reader.mk [] [b!"a", b!"--", b!"-x", b!"--y=1"]).run none [.flag]).2 =
      ⟨[], [b!"--", b!"-x", b!"--y=1"]⟩ ∧
    (do let (_, it) ← (startIter .standard [b!"a", b!"--", b!"-x", b!"--y=1"]).run [.flag, .flag]
        it.readValues 3) = .ok [some b!"-x", some b!"--y=1", none] := by decide

/-- C04 is violated in the SLASH and DASH styles: plain arguments are each followed by an empty
argument that is not on the command line. And in the STANDARD style, after the flag `-x` of `-xb` the
rest is delivered as the argument `b`, which is not on the command line either. -/
theorem C04_violated :
    (do let (_, it) ← (startIter .dash [b!"--", b!"a", b!"b"]).run [.flag]; it.readValues 5) =
      .ok [some b!"a", some b!"", some b!"b", some b!"", none] ∧
    (do let (_, it) ← (startIter .standard [b!"-xb", b!"c"]).run [.flag]; it.readValues 3) =
      .ok [some b!"b", some b!"c", none] := by decide

/-! ## C05 -/

/-- C05 (STANDARD complete, SLASH and DASH what holds). After every history the remaining arguments
are exactly those the specification has not read. Missing: in the SLASH and DASH styles an empty
argument read as a value is reported again, see `C05_violated`. -/
theorem C05_remaining_partial (style : OptionStyle) (args : List Str) (ops : List ReadOp)
    (hv : NoEmptyValues (stylePrefix style) ⟨[], args⟩ ops) :
    ∃ it, (startIter style args).run (ops ++ [ReadOp.remaining]) =
      .ok (((Reader.mk [] args).run (stylePrefix style) ops).1 ++
        [.remaining ((Reader.mk [] args).run (stylePrefix style) ops).2.unread], it) := by
  obtain ⟨it, h⟩ := reading_refines style args (ops ++ [ReadOp.remaining])
    (noEmptyValues_append _ _ _ _ hv ⟨trivial, trivial⟩)
  exact ⟨it, by rw [h, Reader.run_append]; rfl⟩

/-- Reading only, without insertions. -/
def OnlyReads (ops : List ReadOp) : Prop := ∀ op ∈ ops, op = .flag ∨ op = .flagAndValue

theorem read_parts (pfx : Option UInt8) (args : List Str) (r : Reader) (x : Reading)
    (hr : r.pending = [] ∧ (∃ k, r.rest = args.drop k) ∨
      pfx = none ∧ ∃ k pre, args[k]? = some (c!"-" :: (pre ++ r.pending)) ∧ r.rest = args.drop (k + 1))
    (h : r.read pfx = some x) (s : Reader) (hs : s = x.afterFlag ∨ s = x.afterValue) :
    s.pending = [] ∧ (∃ k, s.rest = args.drop k) ∨
      pfx = none ∧ ∃ k pre, args[k]? = some (c!"-" :: (pre ++ s.pending)) ∧ s.rest = args.drop (k + 1) := by
  obtain ⟨pending, rest⟩ := r
  simp only at hr
  have hrest : ∃ k, rest = args.drop k := by
    rcases hr with ⟨_, h⟩ | ⟨_, k, pre, _, h⟩
    · exact h
    · exact ⟨_, h⟩
  have htail : ∀ a r', rest = a :: r' → ∃ k, args[k]? = some a ∧ r' = args.drop (k + 1) := by
    intro a r' h
    obtain ⟨k, hk⟩ := hrest
    rw [h] at hk
    have hlt : k < args.length := by
      apply Classical.byContradiction
      intro hge
      rw [List.drop_eq_nil_of_le (by omega)] at hk
      simp at hk
    rw [List.drop_eq_getElem_cons hlt] at hk
    simp only [List.cons.injEq] at hk
    exact ⟨k, by simp [hlt, hk.1], hk.2⟩
  have hwhole : ∀ f, (x = wholeFlag f rest) → s.pending = [] ∧ ∃ k, s.rest = args.drop k := by
    rintro f rfl
    obtain ⟨k, hk⟩ := hrest
    rcases hs with rfl | rfl
    · exact ⟨rfl, k, hk⟩
    · exact ⟨rfl, k + 1, by simp [wholeFlag, hk]⟩
  have hwhole' : ∀ f a r', rest = a :: r' → (x = wholeFlag f r') → s.pending = [] ∧ ∃ k, s.rest = args.drop k := by
    rintro f a r' he rfl
    obtain ⟨k, _, hk⟩ := htail a r' he
    rcases hs with rfl | rfl
    · exact ⟨rfl, k + 1, hk⟩
    · exact ⟨rfl, k + 2, by simp [wholeFlag, hk]⟩
  have hequal' : ∀ f v a r', rest = a :: r' → (x = equalFlag f v r') → s.pending = [] ∧ ∃ k, s.rest = args.drop k := by
    rintro f v a r' he rfl
    obtain ⟨k, _, hk⟩ := htail a r' he
    rcases hs with rfl | rfl
    · exact ⟨rfl, k + 1, hk⟩
    · exact ⟨rfl, k + 1, hk⟩
  cases pfx with
  | some p =>
    simp only [reduceCtorEq, false_and, or_false] at hr ⊢
    simp only [Reader.read, Reader.readPrefixed] at h
    cases rest with
    | nil => simp at h
    | cons a r' =>
      simp only at h
      split at h
      · cases hc : cutAfterEqual a with
        | none => rw [hc] at h; simp at h; exact hwhole' _ _ _ rfl h.symm
        | some y => rw [hc] at h; simp at h; exact hequal' _ _ _ _ rfl h.symm
      · simp at h; exact hwhole' _ _ _ rfl h.symm
  | none =>
    simp only [Reader.read] at h
    match pending, rest with
    | c :: cs, rest =>
      simp only [Reader.readStandard, Option.some.injEq] at h
      rcases hr with ⟨hr, _⟩ | ⟨_, k, pre, h1, h2⟩
      · simp at hr
      · unfold shortFlag at h
        split at h
        · rename_i hcs
          exact Or.inl (hwhole _ h.symm)
        · subst h
          rcases hs with rfl | rfl
          · exact Or.inr ⟨rfl, k, pre ++ [c], by simpa using h1, h2⟩
          · exact Or.inl ⟨rfl, k + 1, h2⟩
    | [], [] => simp [Reader.readStandard] at h
    | [], [] :: r' => simp [Reader.readStandard] at h; exact Or.inl (hwhole' _ _ _ rfl h.symm)
    | [], [a] :: r' => simp [Reader.readStandard] at h; exact Or.inl (hwhole' _ _ _ rfl h.symm)
    | [], [a, b] :: r' => simp [Reader.readStandard] at h; exact Or.inl (hwhole' _ _ _ rfl h.symm)
    | [], (d :: c :: y :: ys) :: r' =>
      simp only [Reader.readStandard] at h
      by_cases hd : d ≠ c!"-"
      · rw [if_pos hd] at h; simp at h; exact Or.inl (hwhole' _ _ _ rfl h.symm)
      · rw [if_neg hd] at h
        have hd' : d = c!"-" := by simpa using hd
        by_cases hc : c ≠ c!"-"
        · rw [if_pos hc] at h
          simp [shortFlag] at h
          subst h
          obtain ⟨k, h1, h2⟩ := htail _ _ rfl
          rcases hs with rfl | rfl
          · exact Or.inr ⟨rfl, k, [c], by rw [h1, hd']; rfl, h2⟩
          · exact Or.inl ⟨rfl, k + 1, h2⟩
        · rw [if_neg hc] at h
          cases hcut : cutAfterEqual (d :: c :: y :: ys) with
          | none => rw [hcut] at h; simp at h; exact Or.inl (hwhole' _ _ _ rfl h.symm)
          | some z => rw [hcut] at h; simp at h; exact Or.inl (hequal' _ _ _ _ rfl h.symm)

/-- C05. What the specification reports as unread after reading is a final part of the command line,
possibly preceded by one argument with the short flags of the argument before it that have not been
read. -/
theorem C05_unread_shape (style : OptionStyle) (args : List Str) (ops : List ReadOp)
    (ho : OnlyReads ops) :
    let r := ((Reader.mk [] args).run (stylePrefix style) ops).2
    (∃ k, r.unread = args.drop k) ∨
    (style = .standard ∧ ∃ k pre post, args[k]? = some (c!"-" :: (pre ++ post)) ∧ post ≠ [] ∧
      r.unread = (c!"-" :: post) :: args.drop (k + 1)) := by
  have key : ∀ (pfx : Option UInt8) (ops : List ReadOp) (r : Reader), OnlyReads ops →
      (r.pending = [] ∧ (∃ k, r.rest = args.drop k) ∨
      pfx = none ∧ ∃ k pre, args[k]? = some (c!"-" :: (pre ++ r.pending)) ∧ r.rest = args.drop (k + 1)) →
      ((r.run pfx ops).2.pending = [] ∧ (∃ k, (r.run pfx ops).2.rest = args.drop k) ∨
      pfx = none ∧ ∃ k pre, args[k]? = some (c!"-" :: (pre ++ (r.run pfx ops).2.pending)) ∧
        (r.run pfx ops).2.rest = args.drop (k + 1)) := by
    intro pfx ops
    induction ops with
    | nil => intro r _ h; exact h
    | cons op ops ih =>
      intro r ho h
      simp only [Reader.run]
      apply ih
      · intro op hop; exact ho op (by simp [hop])
      · rcases ho op (by simp) with rfl | rfl
        · simp only [Reader.step]
          cases hx : r.read pfx with
          | none => exact h
          | some x => exact read_parts pfx args r x h hx _ (Or.inl rfl)
        · simp only [Reader.step]
          cases hx : r.read pfx with
          | none => exact h
          | some x => exact read_parts pfx args r x h hx _ (Or.inr rfl)
  intro r
  have := key (stylePrefix style) ops ⟨[], args⟩ ho (Or.inl ⟨rfl, 0, by simp⟩)
  rcases this with ⟨h1, k, h2⟩ | ⟨h0, k, pre, h1, h2⟩
  · left
    exact ⟨k, by simp only [r, Reader.unread, h1, if_true, h2]⟩
  · have hstyle : style = .standard := by cases style <;> simp [stylePrefix] at h0 ⊢
    by_cases hp : r.pending = []
    · left
      exact ⟨k + 1, by simp only [Reader.unread, hp, if_true]; exact h2⟩
    · right
      refine ⟨hstyle, k, pre, r.pending, h1, hp, ?_⟩
      simp only [Reader.unread, hp, if_false]
      rw [← h2]

/-- C05 is violated in the SLASH and DASH styles: an empty argument that has been read as the value
of an option is reported as remaining. -/
theorem C05_violated :
    ∃ it, (startIter .slash [b!"/out", b!"", b!"x"]).run [.flagAndValue, .remaining] =
        .ok ([.flagAndValue (some b!"/out") (some b!""), .remaining [b!"", b!"x"]], it) :=
  ⟨_, rfl⟩

example : NoEmptyValues none ⟨[], [b!"-ab", b!"c", b!"d"]⟩ [.flag] ∧ OnlyReads [.flag] ∧
    ((Reader.mk [] [b!"-abc", b!"c", b!"d"]).run none [.flag]).2.unread = [b!"-bc", b!"c", b!"d"] :=
  ⟨noEmptyValues_standard _ _, by simp [OnlyReads], by decide⟩

/-! ## C06 -/

/-- C06 (what holds). Wherever arguments are inserted, they are read next, in order, and everything
that was still to be read is read afterwards unchanged, provided the next unread short flag is not
itself a dash. Missing: that case, see `C06_violated`. -/
theorem C06_insert_partial (style : OptionStyle) (args new : List Str) (ops : List ReadOp) (n : Nat)
    (hv : NoEmptyValues (stylePrefix style) ⟨[], args⟩ ops)
    (hd : ((Reader.mk [] args).run (stylePrefix style) ops).2.pending.head? ≠ some c!"-") :
    ∃ left,
      -- what is read without the insertion
      (do let (_, it) ← (startIter style args).run ops; it.readN n) =
        .ok ((left.map some ++ List.replicate n none).take n) ∧
      -- what is read with the insertion
      (do let (_, it) ← (startIter style args).run (ops ++ [ReadOp.insert new]); it.readN n) =
        .ok (((new.flatMap (argTokens (stylePrefix style)) ++ left).map some ++
          List.replicate n none).take n) := by
  obtain ⟨h1, h2, h3⟩ := start_ok style args
  obtain ⟨it, h4, h5, h6, h7⟩ := Iter.run_refines ops _ h1 (by rw [h2, h3]; exact hv)
  obtain ⟨it2, h8, h9, h10, h11⟩ := Iter.run_refines (ops ++ [ReadOp.insert new]) _ h1
    (by rw [h2, h3]; exact noEmptyValues_append _ _ _ _ hv ⟨trivial, trivial⟩)
  rw [h2, h3] at h6 h10
  rw [h3] at h7 h11
  have hpend : it.pfx = none ∨ it.reader.pending = [] := by
    cases it with
    | std it => left; rfl
    | opt it => right; exact it.reader_pending
  refine ⟨tokensLeft (stylePrefix style) it.reader, ?_, ?_⟩
  · rw [h4]
    simp only [Outcome.bind_ok]
    rw [Iter.readN_spec n it h5 hpend, h7]
  · rw [h8]
    simp only [Outcome.bind_ok]
    have hr2 : it2.reader = ⟨[], new ++ it.reader.unread⟩ := by
      rw [h10, Reader.run_append, h6]
      rfl
    rw [Iter.readN_spec n it2 h9 (Or.inr (by rw [hr2])), h11, hr2]
    have : tokensLeft (stylePrefix style) ⟨[], new ++ it.reader.unread⟩ =
        new.flatMap (argTokens (stylePrefix style)) ++ tokensLeft (stylePrefix style) it.reader := by
      simp only [tokensLeft, List.map_nil, List.nil_append, List.flatMap_append]
      congr 1
      rw [← h6] at hd
      simp only [Reader.unread]
      split
      · rename_i hp; simp [hp]
      · rename_i hp
        rw [← h7] at *
        rcases hpend with hpend | hpend
        · rw [hpend]
          simp only [List.flatMap_cons]
          congr 1
          match hpp : it.reader.pending, hp, hd with
          | [], hp, _ => exact absurd rfl hp
          | [c], _, _ => rfl
          | c :: d :: cs, _, hd =>
            simp only [argTokens, standardTokens]
            have hc : c ≠ c!"-" := by simpa using hd
            simp [hc]
        · exact absurd hpend hp
    rw [this]

/-- C06 is violated when the next short flag is a dash: without an insertion `-a-b` is read as the
flags `-a`, `--`, `-b`; with an insertion after `-a` the rest is read as the long flag `--b`. -/
theorem C06_violated :
    (do let (_, it) ← (startIter .standard [b!"-a-b"]).run [.flag]; it.readN 2) =
      .ok [some b!"--", some b!"-b"] ∧
    (do let (_, it) ← (startIter .standard [b!"-a-b"]).run [.flag, .insert [b!"x"]]; it.readN 3) =
      .ok [some b!"x", some b!"--b", none] := by decide

example : ((Reader.mk [] [b!"-abc", b!"d"]).run none [.flag]).2.pending.head? ≠ some c!"-" ∧
    (do let (_, it) ← (startIter .standard [b!"-abc", b!"d"]).run [.flag, .insert [b!"-xy", b!"z"]]
        it.readN 7) =
      .ok [some b!"-x", some b!"-y", some b!"z", some b!"-b", some b!"-c", some b!"d", none] := by
  decide

/-! ## C01, token level -/

/-- C01 (token level). Replacing `-pq...` by `-p` and `-q...` anywhere on the command line does not
change the flags read. -/
theorem C01_tokens (pre post : List Str) (p q : UInt8) (qs : Str) (hp : p ≠ c!"-") (hq : q ≠ c!"-")
    (n : Nat) :
    (startIter .standard (pre ++ (c!"-" :: p :: q :: qs) :: post)).readN n =
      (startIter .standard (pre ++ [c!"-", p] :: (c!"-" :: q :: qs) :: post)).readN n := by
  have : standardTokens (c!"-" :: p :: q :: qs) =
      standardTokens [c!"-", p] ++ standardTokens (c!"-" :: q :: qs) := by
    cases qs with
    | nil => simp [standardTokens, hp]
    | cons y ys => simp [standardTokens, hp, hq]
  rw [C03_tokens, C03_tokens]
  simp [stylePrefix, argTokens, this]

/-- C01 (token level). Wherever reading has arrived at the argument `-pq...`, after reading `-p` all
further reading, also with values, insertions and asking for the remaining arguments, goes as if the
argument had been given as `-p` and `-q...`. -/
theorem C01_tokens_any (args args' rest : List Str) (ops ops' more : List ReadOp) (p q : UInt8)
    (qs : Str) (hp : p ≠ c!"-") (hq : q ≠ c!"-") (hm : more ≠ [])
    (h : ((Reader.mk [] args).run none ops).2 = ⟨[], (c!"-" :: p :: q :: qs) :: rest⟩)
    (h' : ((Reader.mk [] args').run none ops').2 = ⟨[], [c!"-", p] :: (c!"-" :: q :: qs) :: rest⟩) :
    (do let (os, _) ← (startIter .standard args).run (ops ++ ReadOp.flag :: more)
        pure (os.drop ops.length)) =
    (do let (os, _) ← (startIter .standard args').run (ops' ++ ReadOp.flag :: more)
        pure (os.drop ops'.length)) := by
  have hlen : ∀ (r : Reader) (xs : List ReadOp), (r.run none xs).1.length = xs.length := by
    intro r xs
    induction xs generalizing r with
    | nil => rfl
    | cons x xs ih => simp [Reader.run, ih]
  obtain ⟨it, h1⟩ := reading_refines .standard args (ops ++ ReadOp.flag :: more)
    (noEmptyValues_standard _ _)
  obtain ⟨it', h2⟩ := reading_refines .standard args' (ops' ++ ReadOp.flag :: more)
    (noEmptyValues_standard _ _)
  rw [h1, h2]
  simp only [Outcome.bind_ok, Outcome.pure_eq, stylePrefix, Reader.run_append]
  rw [List.drop_left' (hlen _ _), List.drop_left' (hlen _ _), h, h']
  have hread : (Reader.mk (q :: qs) rest).readStandard =
      (Reader.mk [] ((c!"-" :: q :: qs) :: rest)).readStandard := by
    cases qs with
    | nil => rfl
    | cons y ys => simp [Reader.readStandard, hq]
  have e1 : (Reader.mk [] ((c!"-" :: p :: q :: qs) :: rest)).step none .flag =
      (.flag (some [c!"-", p]), ⟨q :: qs, rest⟩) := by
    simp [Reader.step, Reader.read, Reader.readStandard, hp, shortFlag]
  have e2 : (Reader.mk [] ([c!"-", p] :: (c!"-" :: q :: qs) :: rest)).step none .flag =
      (.flag (some [c!"-", p]), ⟨[], (c!"-" :: q :: qs) :: rest⟩) := rfl
  simp only [Reader.run, e1, e2]
  cases more with
  | nil => exact absurd rfl hm
  | cons m ms =>
    have : (Reader.mk (q :: qs) rest).step none m =
        (Reader.mk [] ((c!"-" :: q :: qs) :: rest)).step none m := by
      cases m with
      | flag =>
        cases qs with
        | nil => rfl
        | cons y ys => simp [Reader.step, Reader.read, Reader.readStandard, hq]
      | flagAndValue =>
        cases qs with
        | nil => rfl
        | cons y ys => simp [Reader.step, Reader.read, Reader.readStandard, hq]
      | insert new => rfl
      | remaining => rfl
    simp only [Reader.run, this]

example : ((Reader.mk [] [b!"x", b!"-abc", b!"y"]).run none [.flag]).2 = ⟨[], [b!"-abc", b!"y"]⟩ ∧
    (startIter .standard [b!"x", b!"-abc", b!"y"]).readN 5 =
      .ok [some b!"x", some b!"-a", some b!"-b", some b!"-c", some b!"y"] := by decide

end Argos
