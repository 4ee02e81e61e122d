import Verif.Spec.World

/-!
# Copying the contents of a command

What `copy_from` is documented to do (Command.hpp:252-264).
-/

namespace Argos.Spec

/-- The names of the texts. -/
def textNames : List (TextId × Str) :=
  [(.initialText, b!"INITIAL_TEXT"), (.usageTitle, b!"USAGE_TITLE"), (.usage, b!"USAGE"), (.about, b!"ABOUT"),
   (.subcommandsTitle, b!"SUBCOMMANDS_TITLE"), (.argumentsTitle, b!"ARGUMENTS_TITLE"), (.optionsTitle, b!"OPTIONS_TITLE"),
   (.finalText, b!"FINAL_TEXT"), (.errorUsage, b!"ERROR_USAGE"), (.help, b!"HELP")]

/-- The command has the text. -/
def HasText (c : Command) (id : TextId) : Prop := ∃ t, c.texts.lookup id = some t

/-- The contents of `src` other than texts have been added to `c`, giving `c'`: arguments, options and sub-commands, those of `src` last. The new sub-commands are
copies (C51). Everything but the contents, the texts and the permission to have several sub-commands is as before. -/
structure Extended (c src c' : Command) : Prop where
  arguments : c'.arguments = c.arguments ++ src.arguments
  options : c'.options = c.options ++ src.options
  commands : ∃ new, c'.commands = c.commands ++ new ∧ new.length = src.commands.length ∧
    ∀ (i : Nat) (s n : Command), src.commands[i]? = some s → new[i]? = some n → ∀ p, (n.at p).map Command.props = (s.at p).map Command.props
  same : c'.name = c.name ∧ c'.fullName = c.fullName ∧ c'.currentSection = c.currentSection ∧ c'.section_ = c.section_ ∧
    c'.visibility = c.visibility ∧ c'.requireSubcommand = c.requireSubcommand ∧ c'.id = c.id ∧ c'.argumentId = c.argumentId

/-- The texts of both. -/
def BothTexts (c src c' : Command) : Prop := ∀ id, c'.texts.lookup id = (c.texts.lookup id).or (src.texts.lookup id)

/-- The message if both have the text. -/
def textClash (name : Str) : Str := b!"Text with ID " ++ name ++ b!" already exists."

end Argos.Spec
