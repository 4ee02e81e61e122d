import Verif.Base

/-!
# The data structures of the parser

`include/Argos/Enums.hpp`, `src/Argos/ArgumentData.hpp`, `src/Argos/OptionData.hpp`,
`src/Argos/CommandData.hpp`, `src/Argos/ParserData.hpp`, `src/Argos/TextSource.hpp`.
-/

namespace Argos

/-- `OptionStyle`, Enums.hpp:21-42. -/
inductive OptionStyle where
  | standard | slash | dash
  deriving Repr, DecidableEq

/-- `OptionOperation`, Enums.hpp:47-94. -/
inductive OptionOperation where
  | none | assign | append | clear
  deriving Repr, DecidableEq

/-- `OptionType`, Enums.hpp:100-164. -/
inductive OptionType where
  | normal | help | stop | exit | lastArgument | lastOption
  deriving Repr, DecidableEq

/-- `ParserResultCode`, Enums.hpp:169-193. -/
inductive ResultCode where
  | none | success | stop | failure
  deriving Repr, DecidableEq

/-- `TextId`, Enums.hpp:201-264. -/
inductive TextId where
  | initialText | usageTitle | usage | about | subcommandsTitle | argumentsTitle
  | optionsTitle | finalText | errorUsage | help
  deriving Repr, DecidableEq

/-- `Visibility`, Enums.hpp:272-294. The two bits of the enum are kept apart:
HIDDEN = (false, false), USAGE = (true, false), TEXT = (false, true), NORMAL = (true, true). -/
structure Visibility where
  usage : Bool
  text : Bool
  deriving Repr, DecidableEq

/-- `Visibility::NORMAL`. -/
def Visibility.normal : Visibility := ⟨true, true⟩

/-- `TextSource` (TextSource.hpp): a text or a callback producing one; the callback is
represented by a number. -/
inductive TextSource where
  | text (s : Str)
  | callback (n : Nat)
  deriving Repr, DecidableEq

/-- `ArgumentData`, ArgumentData.hpp:16-29. The callback is an optional identifier that the
environment (`Env`) maps to behaviour. -/
structure ArgData where
  name : Str
  help : TextSource := .text []
  section_ : Str := []
  alias_ : Str := []
  callback : Option Nat := none
  minCount : Nat := 1
  maxCount : Nat := 1
  visibility : Visibility := .normal
  id : Int := 0
  valueId : Nat := 0
  argumentId : Nat := 0
  deriving Repr, DecidableEq

/-- `OptionData`, OptionData.hpp:17-34. -/
structure OptData where
  flags : List Str
  help : TextSource := .text []
  section_ : Str := []
  alias_ : Str := []
  argument : Str := []
  constant : Str := []
  initialValue : Str := []
  callback : Option Nat := none
  operation : OptionOperation := .assign
  type : OptionType := .normal
  visibility : Visibility := .normal
  optional : Bool := true
  id : Int := 0
  argumentId : Nat := 0
  valueId : Nat := 0
  deriving Repr, DecidableEq

/-- `CommandData`, CommandData.hpp:16-75. `texts` is the `std::map<TextId, TextSource>` as an
association list; `optionIndex` is the private `option_index` with the option in place of the
pointer to it. -/
structure Command where
  arguments : List ArgData := []
  options : List OptData := []
  commands : List Command := []
  currentSection : Str := []
  name : Str := []
  fullName : Str := []
  texts : List (TextId × TextSource) := []
  visibility : Visibility := .normal
  requireSubcommand : Option Bool := none
  multiCommand : Bool := false
  section_ : Str := []
  id : Int := 0
  argumentId : Nat := 0
  optionIndex : List (Str × OptData) := []
  deriving Repr

/-- `ParserSettings`, ParserData.hpp:28-41. -/
structure ParserSettings where
  argumentCallback : Option Nat := none
  optionCallback : Option Nat := none
  optionStyle : OptionStyle := .standard
  autoExit : Bool := true
  allowAbbreviatedOptions : Bool := false
  ignoreUndefinedOptions : Bool := false
  ignoreUndefinedArguments : Bool := false
  caseInsensitive : Bool := false
  generateHelpOption : Bool := true
  normalExitCode : Int := 0
  errorExitCode : Int := 64
  deriving Repr, DecidableEq

/-- `HelpSettings`, ParserData.hpp:43-48 (without the stream). -/
structure HelpSettings where
  lineWidth : Nat := 0
  wordSplitRules : List Str := []
  deriving Repr, DecidableEq

/-- `ParserData`, ParserData.hpp:50-56. -/
structure ParserData where
  command : Command := {}
  settings : ParserSettings := {}
  helpSettings : HelpSettings := {}
  version : Str := []
  deriving Repr

end Argos
