import Verif.Proofs.Held

/-! # What an error leaves -/

namespace Argos
open Spec Parser

/-- What an error leaves is what was given, with an option that ends the command line if it has been stored. -/
theorem Returns.left {env : Env} (hp : env.Passive) {d : ParserData} (hr : Ready d) {args : List Str} {rs : List IterResult} {n : PNode}
    (h : Returns env d args rs .error n) :
    ∃ rs', (rs' = rs ∨ ∃ (c : Command) (o : OptData) (v : Str), c.Within d.command ∧ o ∈ c.options ∧ o.type = .lastArgument ∧ rs' = rs ++ [.option o (some v)]) ∧
      ∃ t, given d.command rs' = some t ∧ n.tree = t.map valuesOf := by
  obtain ⟨s', a, l, h1, hg, e, e2, _⟩ := h.facts hr
  obtain ⟨s, ht, hgs, hn, hst, _⟩ := h1.good hr
  have hag := ht.agrees hp hr (start_good d args).2 h1.before (agrees_start d args)
  have fin : ∀ {st : Open}, Agrees s'.stack st → ∃ t, st.close = some t ∧ n.tree = t.map valuesOf := by
    intro st h2
    rw [e] at h2
    obtain ⟨t, h3, h4⟩ := agrees_close h2
    refine ⟨t, h3, ?_⟩
    rw [PNode.tree_eq, e2, h4, Tree.map_map]
    congr 1
    funext occs
    exact getValues_rawValues occs
  rcases hst.fails hp hr hgs hag with h2 | ⟨o, v, ho, hty, h2⟩
  · exact ⟨rs, Or.inl rfl, fin h2⟩
  · refine ⟨rs ++ [.option o (some v)], Or.inr ⟨_, o, v, hgs.within, ho, hty, rfl⟩, ?_⟩
    obtain ⟨t, h3, h4⟩ := fin h2
    refine ⟨t, ?_, h4⟩
    simp only [given, Open.after, List.foldl_append, List.foldl_cons, List.foldl_nil, Open.step, hty, if_true, Option.getD_some]
    rw [Open.close_backD]
    exact h3

end Argos
