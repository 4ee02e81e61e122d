import Verif.Proofs.Rule
import Verif.Spec.Borders

/-! # Lemmas: the default rule finds the last border -/

namespace Argos
open Spec

namespace Splitter

/-- What the loop of the default rule sees at position `i`. -/
def Seen (word : Str) (i : Nat) (bd : Bool → Prop) : Prop :=
  ∃ a b, word[i - 1]? = some a ∧ word[i]? = some b ∧
    (bd false ↔ a < 127 ∧ b < 127 ∧ isAlnum a ≠ isAlnum b) ∧
    (bd true ↔ a < 127 ∧ b < 127 ∧ isAlnum a = isAlnum b ∧ isDigit a ≠ isDigit b)

/-- The loop of the default rule returns the last border. -/
theorem splitPoint_exact {word : Str} {ignore : Bool} {minPos : Nat} (pos : Nat → Nat) (bd : Nat → Bool → Prop) : ∀ count : Nat,
    (∀ k, minPos ≤ k → k < count → (∃ i, pos (k + 1) = i + 1 ∧ stepBack word ignore i = .ok (pos k)) ∧
      1 ≤ pos k ∧ Seen word (pos k) (bd k)) →
    (splitPoint word ignore minPos count (pos count) = .ok none ∧ ∀ k h, minPos ≤ k → k < count → ¬ bd k h) ∨
      ∃ k h, minPos ≤ k ∧ k < count ∧ splitPoint word ignore minPos count (pos count) = .ok (some ⟨pos k, h⟩) ∧ bd k h ∧
        ∀ k' h', k < k' → k' < count → ¬ bd k' h' := by
  intro count
  induction count with
  | zero => intro _; exact .inl ⟨rfl, fun k h _ hk => by omega⟩
  | succ count ih =>
    intro h
    unfold splitPoint
    split
    · rename_i hgt
      obtain ⟨⟨i, hi, hr⟩, h1, a, b, ha, hb, hf, ht⟩ := h count (by omega) (by omega)
      have ih := ih (fun k a b => h k a (by omega))
      rw [hi]
      simp only
      rw [hr]
      simp only [Outcome.bind_ok]
      obtain ⟨j, hj⟩ : ∃ j, pos count = j + 1 := ⟨pos count - 1, by omega⟩
      rw [hj] at ih ha hb ⊢
      simp only [Nat.add_sub_cancel] at ha
      simp only
      rw [ha, hb]
      simp only
      have next : (∀ h, ¬ bd count h) →
          (splitPoint word ignore minPos count (j + 1) = .ok none ∧ ∀ k h, minPos ≤ k → k < count + 1 → ¬ bd k h) ∨
          ∃ k h, minPos ≤ k ∧ k < count + 1 ∧ splitPoint word ignore minPos count (j + 1) = .ok (some ⟨pos k, h⟩) ∧ bd k h ∧
            ∀ k' h', k < k' → k' < count + 1 → ¬ bd k' h' := by
        intro hno
        rcases ih with ⟨ih, hn⟩ | ⟨k, hy, p, q, r, s, t⟩
        · refine .inl ⟨ih, fun k h hm hk => ?_⟩
          by_cases hc : k = count
          · rw [hc]; exact hno h
          · exact hn k h hm (by omega)
        · refine .inr ⟨k, hy, p, by omega, r, s, fun k' h' hk hk' => ?_⟩
          by_cases hc : k' = count
          · rw [hc]; exact hno h'
          · exact t k' h' hk (by omega)
      split
      · rename_i hbig
        apply next
        simp only [ge_iff_le, Bool.or_eq_true, decide_eq_true_eq] at hbig
        intro y hy
        cases y
        · obtain ⟨u, v, _⟩ := hf.mp hy
          rw [UInt8.lt_iff_toNat_lt] at u v
          rw [UInt8.le_iff_toNat_le, UInt8.le_iff_toNat_le] at hbig
          omega
        · obtain ⟨u, v, _⟩ := ht.mp hy
          rw [UInt8.lt_iff_toNat_lt] at u v
          rw [UInt8.le_iff_toNat_le, UInt8.le_iff_toNat_le] at hbig
          omega
      · rename_i hbig
        simp only [ge_iff_le, Bool.or_eq_true, decide_eq_true_eq, not_or, UInt8.not_le] at hbig
        split
        · rename_i hne
          exact .inr ⟨count, false, by omega, by omega, by rw [hj]; rfl, hf.mpr ⟨hbig.1, hbig.2, hne⟩, fun k' _ h1 h2 => by omega⟩
        · rename_i heq
          have heq : isAlnum a = isAlnum b := Decidable.not_not.mp heq
          split
          · rename_i hne
            exact .inr ⟨count, true, by omega, by omega, by rw [hj]; rfl, ht.mpr ⟨hbig.1, hbig.2, heq, hne⟩, fun k' _ h1 h2 => by omega⟩
          · rename_i hd
            apply next
            intro y hy
            cases y
            · exact (hf.mp hy).2.2 heq
            · exact hd (ht.mp hy).2.2.2
    · rename_i hle
      exact .inl ⟨rfl, fun k h hm hk => by omega⟩

/-! ### Bytes and code points -/

theorem isDigit_point : ∀ c : UInt8, isDigit c = digitPoint c.toNat := forall_byte (by decide +kernel)

theorem isAlnum_point : ∀ c : UInt8, isAlnum c = alnumPoint c.toNat := forall_byte (by decide +kernel)

/-- A byte that stands for a code point when split points are looked for. -/
def Shows (c : UInt8) (n : Nat) : Prop := (n < 127 → c.toNat = n) ∧ (127 ≤ n → 127 ≤ c.toNat)

theorem shows_cont (m n : Nat) (h : 127 ≤ n) : Shows (UInt8.ofNat (0x80 + m % 0x40)) n :=
  ⟨fun h' => by omega, fun _ => by rw [ofNat_toNat (by omega)]; omega⟩

theorem shows_ends {n : Nat} (h : n < 0x110000) :
    ∃ pre c, encodeUtf8 n = pre ++ [c] ∧ Shows c n := by
  unfold encodeUtf8
  split
  · exact ⟨[], _, rfl, fun _ => ofNat_toNat (by omega), fun _ => by rw [ofNat_toNat (by omega)]; omega⟩
  · split
    · exact ⟨[_], _, rfl, shows_cont _ _ (by omega)⟩
    · split
      · exact ⟨[_, _], _, rfl, shows_cont _ _ (by omega)⟩
      · exact ⟨[_, _, _], _, rfl, shows_cont _ _ (by omega)⟩

theorem shows_starts {n : Nat} (h : n < 0x110000) :
    ∃ c post, encodeUtf8 n = c :: post ∧ Shows c n := by
  have key : ∀ m, m < 256 → 127 ≤ m → 127 ≤ n → Shows (UInt8.ofNat m) n :=
    fun m h1 h2 h3 => ⟨fun h' => by omega, fun _ => by rw [ofNat_toNat h1]; omega⟩
  unfold encodeUtf8
  split
  · exact ⟨_, [], rfl, fun _ => ofNat_toNat (by omega), fun _ => by rw [ofNat_toNat (by omega)]; omega⟩
  · split
    · exact ⟨_, [_], rfl, key _ (by omega) (by omega) (by omega)⟩
    · split
      · exact ⟨_, [_, _], rfl, key _ (by omega) (by omega) (by omega)⟩
      · exact ⟨_, [_, _, _], rfl, key _ (by omega) (by omega) (by omega)⟩

/-- The loop sees the borders. -/
theorem seen_border {cps : List Nat} (ht : IsText cps) {k : Nat} (h1 : 1 ≤ k) (hk : k < cps.length) :
    Seen (encodeText cps) (encodeText (cps.take k)).length (Border cps k) := by
  obtain ⟨j, rfl⟩ : ∃ j, k = j + 1 := ⟨k - 1, by omega⟩
  have hj : j < cps.length := by omega
  obtain ⟨pre, a, ea, ha⟩ := shows_ends (ht _ (List.getElem_mem hj))
  obtain ⟨b, post, eb, hb⟩ := shows_starts (ht _ (List.getElem_mem hk))
  have e1 : cps.take (j + 1) = cps.take j ++ [cps[j]] := by rw [List.take_add_one]; simp [hj]
  have e2 : cps.drop (j + 1) = cps[j + 1] :: cps.drop (j + 1 + 1) := List.drop_eq_getElem_cons hk
  have e3 : encodeText (cps.take (j + 1)) = encodeText (cps.take j) ++ pre ++ [a] := by
    rw [e1, encodeText, List.flatMap_append]
    simp [encodeText, ea]
  have e4 : encodeText cps = encodeText (cps.take j) ++ pre ++ [a] ++ b :: (post ++ encodeText (cps.drop (j + 1 + 1))) := by
    have : encodeText cps = encodeText (cps.take (j + 1)) ++ encodeText (cps.drop (j + 1)) := by
      rw [encodeText, encodeText, encodeText, ← List.flatMap_append, List.take_append_drop]
    have e5 : encodeText (cps[j + 1] :: cps.drop (j + 1 + 1)) = encodeUtf8 cps[j + 1] ++ encodeText (cps.drop (j + 1 + 1)) := by
      rw [encodeText, List.flatMap_cons, encodeText]
    rw [this, e3, e2, e5, eb]
    simp
  refine ⟨a, b, ?_, ?_, ?_, ?_⟩
  · rw [e3, e4]
    simp only [List.length_append, List.length_cons, List.length_nil]
    rw [List.append_assoc, List.getElem?_append_right (by simp)]
    simp
  · rw [e3, e4]
    rw [List.getElem?_append_right (Nat.le_refl _)]
    simp
  all_goals
    unfold Border
    simp only [Nat.add_sub_cancel, List.getElem?_eq_getElem hj, List.getElem?_eq_getElem hk, Option.some.injEq, isAlnum_point, isDigit_point,
      UInt8.lt_iff_toNat_lt]
    have h127 : (127 : UInt8).toNat = 127 := rfl
    rw [h127]
    constructor
    · rintro ⟨x, y, _, rfl, rfl, hx, hy, hz⟩
      rw [ha.1 hx, hb.1 hy]
      exact ⟨hx, hy, by simpa using hz⟩
    · rintro ⟨hx, hy, hz⟩
      have hx' : cps[j] < 127 := by
        have := ha.2
        omega
      have hy' : cps[j + 1] < 127 := by
        have := hb.2
        omega
      rw [ha.1 hx', hb.1 hy'] at hz
      exact ⟨_, _, by omega, rfl, rfl, hx', hy', by simpa using hz⟩

/-- Positions of code points. -/
theorem text_split (cps : List Nat) (k : Nat) : encodeText cps = encodeText (cps.take k) ++ encodeText (cps.drop k) := by
  rw [encodeText, encodeText, encodeText, ← List.flatMap_append, List.take_append_drop]

theorem isUnit_encode {n : Nat} (h : n < 0x110000) : IsUnit (encodeUtf8 n) := by
  obtain ⟨l, cs, e, hl, hc⟩ := encode_shape h
  exact ⟨l, cs, e, hl, hc⟩

/-- One step back, in a word of any code points. -/
theorem back_step {cps : List Nat} (ht : IsText cps) {k : Nat} (hk : k < cps.length) :
    ∃ i, (encodeText (cps.take (k + 1))).length = i + 1 ∧ retreat (encodeText cps) i = .ok (encodeText (cps.take k)).length := by
  have hu := isUnit_encode (ht _ (List.getElem_mem hk))
  have e1 : encodeText (cps.take (k + 1)) = encodeText (cps.take k) ++ encodeUtf8 cps[k] := by
    rw [List.take_add_one, encodeText, List.flatMap_append]
    simp [hk, encodeText]
  have hp := hu.length_pos
  refine ⟨(encodeText (cps.take k)).length + (encodeUtf8 cps[k]).length - 1, ?_, ?_⟩
  · rw [e1, List.length_append]; omega
  · rw [text_split cps (k + 1), e1]
    exact retreat_unit hu (by omega) (by omega)

/-- If the first `n` code points take `n` bytes, each of them takes one. -/
theorem all_bytes {cps : List Nat} {n : Nat} (hn : n ≤ cps.length) (h : (encodeText (cps.take n)).length = n) {k : Nat} (hk : k ≤ n) :
    (encodeText (cps.take k)).length = k := by
  have a1 := encodeText_length_le (cps.take k)
  have a2 := encodeText_length_le ((cps.take n).drop k)
  have a3 := congrArg List.length (text_split (cps.take n) k)
  rw [List.length_append, List.take_take, Nat.min_eq_left hk] at a3
  rw [List.length_take] at a1
  rw [List.length_drop, List.length_take] at a2
  omega

/-- One step back, as the default rule does it. -/
theorem step_back {cps : List Nat} (ht : IsText cps) {n : Nat} (hn : n ≤ cps.length) {k : Nat} (hk : k < n) :
    ∃ i, (encodeText (cps.take (k + 1))).length = i + 1 ∧
      stepBack (encodeText cps) (decide ((encodeText (cps.take n)).length = n)) i = .ok (encodeText (cps.take k)).length := by
  unfold stepBack
  by_cases hb : (encodeText (cps.take n)).length = n
  · refine ⟨k, all_bytes hn hb (by omega), ?_⟩
    rw [if_pos (by simpa using hb), all_bytes hn hb (by omega)]
  · obtain ⟨i, h1, h2⟩ := back_step ht (k := k) (by omega)
    refine ⟨i, h1, ?_⟩
    rw [if_neg (by simpa using hb)]
    exact h2

theorem findNth_text {cps : List Nat} (ht : IsText cps) {n : Nat} (hn : n < cps.length) :
    findNthCodePoint (encodeText cps) n = some (encodeText (cps.take n)).length := by
  have hu : ∀ u ∈ cps.map encodeUtf8, IsUnit u := by
    intro u hu
    rw [List.mem_map] at hu
    obtain ⟨m, hm, rfl⟩ := hu
    exact isUnit_encode (ht m hm)
  have := findNth_units hu n
  rw [List.length_map, if_pos hn, ← List.map_take, ← List.flatMap_def, ← List.flatMap_def] at this
  exact this

/-- The default rule, exactly. -/
theorem defaultRule_exact {cps : List Nat} (ht : IsText cps) {n : Nat} (h2 : 2 < n) (hn : n < cps.length) :
    ∃ k hyphen, defaultRule (encodeText cps) n = .ok (encodeText (cps.take k), hyphen, encodeText (cps.drop k)) ∧
      (((n + 2) / 3 ≤ k ∧ k ≤ n - 2 ∧ Border cps k hyphen ∧ ∀ k' h', k < k' → k' ≤ n - 2 → ¬ Border cps k' h') ∨
        (k = n - 1 ∧ hyphen = true ∧ ∀ k' h', (n + 2) / 3 ≤ k' → k' ≤ n - 2 → ¬ Border cps k' h')) := by
  unfold defaultRule
  rw [if_neg (by omega), findNth_text ht hn]
  simp only
  obtain ⟨i, e1, e2⟩ := step_back ht (n := n) (Nat.le_of_lt hn) (k := n - 1) (by omega)
  rw [show n - 1 + 1 = n by omega] at e1
  rw [show (encodeText (cps.take n)).length - 1 = i by omega, e2]
  simp only [Outcome.bind_ok]
  have cut : ∀ k, (encodeText cps).take (encodeText (cps.take k)).length = encodeText (cps.take k) ∧
      (encodeText cps).drop (encodeText (cps.take k)).length = encodeText (cps.drop k) := by
    intro k
    rw [text_split cps k, List.take_left, List.drop_left]
    exact ⟨rfl, rfl⟩
  rcases splitPoint_exact (word := encodeText cps) (ignore := decide ((encodeText (cps.take n)).length = n)) (minPos := (n + 2) / 3)
      (fun k => (encodeText (cps.take k)).length) (Border cps) (n - 1) (by
    intro k h1 h3
    refine ⟨step_back ht (Nat.le_of_lt hn) (by omega), ?_, seen_border ht (by omega) (by omega)⟩
    have := encodeText_length_le (cps.take k)
    rw [List.length_take] at this
    omega) with ⟨h, hno⟩ | ⟨k, hy, h1, h3, h, hb, hno⟩
  · rw [h]
    refine ⟨n - 1, true, ?_, .inr ⟨rfl, rfl, fun k' h' a b => hno k' h' a (by omega)⟩⟩
    simp only [Outcome.bind_ok, (cut _).1, (cut _).2]
    rfl
  · rw [h]
    refine ⟨k, hy, ?_, .inl ⟨h1, by omega, hb, fun k' h' a b => hno k' h' a (by omega)⟩⟩
    simp only [Outcome.bind_ok, (cut _).1, (cut _).2]
    rfl

/-- Without a rule for it nothing is found for a word. -/
theorem addWords_none (rules : List Str) : ∀ {sp sp' : Splitter}, addWords sp rules = .ok sp' → ∀ {key : Str}, sp.lookup key = none →
    (∀ r ∈ rules, toLower (unbroken r) ≠ key) → sp'.lookup key = none := by
  induction rules with
  | nil => intro sp sp' h key hk _; simp [addWords] at h; exact h ▸ hk
  | cons r rs ih =>
    intro sp sp' h key hk hb
    simp only [addWords, Outcome.bind_eq_ok] at h
    obtain ⟨sp1, h1, h2⟩ := h
    refine ih h2 ?_ (fun x hx => hb x (by simp [hx]))
    rcases addWord_ok h1 with rfl | ⟨splits, _, rfl⟩
    · exact hk
    · have hne : (key == toLower (r.filter (· ≠ c!" "))) = false := by
        have := hb r (by simp)
        simp only [beq_eq_false_iff_ne, ne_eq]
        exact fun e => this e.symm
      rw [lookup_append, hk]
      simp only [List.lookup, hne]
      rfl

/-- Without a rule for it a word is split by the default rule. -/
theorem split_unruled {rules : List Str} {sp : Splitter} (hsp : addWords [] rules = .ok sp) {word : Str} (hr : ∀ r ∈ rules, ¬ RuleFor r word)
    {start : Nat} (hs : start ≤ word.length) (width : Nat) : sp.split word start width true = defaultRule (word.drop start) width := by
  have hn := addWords_none rules hsp (key := toLower (removePunctuation word)) rfl (fun r hm => by have := hr r hm; rwa [ruleFor_iff] at this)
  unfold split splitDefault
  simp only [key_eq, hn, if_true]
  unfold substrFrom
  rw [if_neg (by omega)]
  rfl

end Splitter

end Argos
