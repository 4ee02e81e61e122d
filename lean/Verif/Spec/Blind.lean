import Verif.Spec.Lookup

/-! # Commands in which the case of letters makes no difference -/

namespace Argos.Spec

/-- No two flags of the command differ only in the case of letters, also not one that ends with an equal sign and one that doesn't, nor do the names of two sub-commands.
All flags consist of characters that can be compared without regard to case. The options are those of a prepared parser, including the generated ones. -/
structure CaseBlind (c : Command) : Prop where
  regular : RegularFlags true c.options
  flags : DistinctFlags true c.options
  equals : ∀ f ∈ flagsOf c.options, ∀ g ∈ flagsOf c.options, SameFlag true g (f ++ b!"=") → g = f ++ b!"="
  commands : ∀ x ∈ c.commands, ∀ y ∈ c.commands, SameFlag true x.name y.name → x.name = y.name

end Argos.Spec

namespace Argos

/-- The same declarations, for a parser that doesn't look at the case of letters. -/
def ParserData.blind (d : ParserData) : ParserData := { d with settings := { d.settings with caseInsensitive := true } }

end Argos
