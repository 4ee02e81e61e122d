import Verif.Proofs.Borders
import Verif.Proofs.Decide

/-! # C93: Words are split at their borders -/

namespace Argos

open Spec

/-- C93: a word no rule is about, or the rest of it, that has more characters than there is room for is split, if it must be, behind its last
border at which the first part and a hyphen leave one column unused, unless this makes the first part shorter than a third of the room. There is
a hyphen unless the border is one between a letter or digit and something else. If there is no such border, the first part and its hyphen fill the
room.

Missing from the full statement: borders in the last two columns (`C93_hyphen_violated`), punctuation behind words with a rule
(`C93_comma_violated`). -/
theorem C93_split_partial (rules : List Str) (sp : Splitter) (hsp : Splitter.addWords [] rules = .ok sp) (word : Str) (hr : ∀ r ∈ rules, ¬ RuleFor r word)
    (start : Nat) (hs : start ≤ word.length) (cps : List Nat) (ht : IsText cps) (hw : word.drop start = encodeText cps)
    (width : Nat) (h2 : 2 < width) (hl : width < cps.length) :
    ∃ k hyphen, sp.split word start width true = .ok (encodeText (cps.take k), hyphen, encodeText (cps.drop k)) ∧
      (((width + 2) / 3 ≤ k ∧ k ≤ width - 2 ∧ Border cps k hyphen ∧ ∀ k' h', k < k' → k' ≤ width - 2 → ¬ Border cps k' h') ∨
        (k = width - 1 ∧ hyphen = true ∧ ∀ k' h', (width + 2) / 3 ≤ k' → k' ≤ width - 2 → ¬ Border cps k' h')) := by
  rw [Splitter.split_unruled hsp hr hs, hw]
  exact Splitter.defaultRule_exact ht h2 hl

/-- C93: behind the slash without a hyphen, behind the digit with one, and where there is no border. -/
example : (∃ sp, Splitter.addWords [] [b!"for mat ting"] = .ok sp ∧ ¬ RuleFor b!"for mat ting" b!"abcd/efgh" ∧
      sp.split b!"abcd/efgh" 0 7 true = .ok (b!"abcd/", false, b!"efgh") ∧
      sp.split b!"user2name" 0 7 true = .ok (b!"user2", true, b!"name") ∧
      sp.split b!"-abcdefgh" 0 7 true = .ok (b!"-abcde", true, b!"fgh")) ∧
    IsText [97, 98, 99, 100, 47, 101, 102, 103, 104] ∧ b!"abcd/efgh" = encodeText [97, 98, 99, 100, 47, 101, 102, 103, 104] ∧
    Border [97, 98, 99, 100, 47, 101, 102, 103, 104] 5 false := by
  refine ⟨?_, ?_, by decide, ⟨47, 101, by decide⟩⟩
  · simp only [ruleFor_iff]
    decide +kernel
  · intro n hn
    simp only [List.mem_cons, List.not_mem_nil, or_false] at hn
    omega

/-- C93 is violated: borders in the last two columns aren't looked for, so that a hyphen is written where none is needed and would have been none
one column earlier. -/
theorem C93_hyphen_violated : Splitter.split [] b!"abcd/efgh" 0 5 true = .ok (b!"abcd", true, b!"/efgh") ∧
    Splitter.split [] b!"abcd/efgh" 0 6 true = .ok (b!"abcd", false, b!"/efgh") := by decide +kernel

/-- C93 is violated: a word that has a rule and is followed by a comma can be split before the comma, which then begins the next line. -/
theorem C93_comma_violated : ∃ sp, Splitter.addWords [] [b!"for mat ting"] = .ok sp ∧
    sp.split b!"formatting," 0 10 false = .ok (b!"formatting", false, b!",") := by
  decide +kernel

end Argos
