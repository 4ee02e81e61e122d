import Verif.Model.Text
import Verif.Model.World

/-!
# Model of the help text

`src/Argos/HelpText.cpp` and `src/Argos/TextSource.hpp`. Text callbacks are assumed to return the same text at every call
and to throw nothing; `texts` maps their numbers to these texts. A function that returns a text beside what it writes is
modelled by two functions.
-/

namespace Argos

/-- `get_text`, TextSource.hpp:16-21. -/
def TextSource.get (texts : Nat → Str) : TextSource → Str
  | .text s => s
  | .callback n => texts n

/-- The loop of `get_argument_name`, HelpText.cpp:29-34: `count` times the name in angle brackets, with spaces between them. -/
def repeatName (name : Str) : (count : Nat) → (result : Str) → Str
  | 0, result => result
  | n + 1, result => repeatName name n ((if result ≠ [] then result ++ b!" " else result) ++ (b!"<" ++ name ++ b!">"))

/-- `get_argument_name`, HelpText.cpp:23-46. (`name[0]` of an empty string is the terminating zero.) -/
def argumentName (a : ArgData) : Str :=
  if a.name.head? = some c!"<" ∨ a.name.head? = some c!"[" then a.name
  else
    let result := repeatName a.name a.minCount []
    if a.maxCount = a.minCount then result
    else
      let result := if result ≠ [] then result ++ b!" " else result
      if a.maxCount - a.minCount = 1 then result ++ (b!"[<" ++ a.name ++ b!">]")
      else result ++ (b!"[<" ++ a.name ++ b!">]...")

/-- `is_stop_option`, HelpText.cpp:48-53. -/
def isStopOption : OptionType → Bool
  | .help => true
  | .stop => true
  | .exit => true
  | _ => false

/-- The argument of an option behind its flag, HelpText.cpp:77-91 and 105-119. `flag.back()` of an empty flag is undefined. -/
def flagArgument (flag argument : Str) : Outcome Str :=
  if argument = [] then .ok []
  else
    match flag.getLast? with
    | none => .ub
    | some c =>
      .ok ((if c ≠ c!"=" then b!" " else []) ++
        (if argument.head? ≠ some c!"<" then b!"<" ++ argument ++ b!">" else argument))

/-- The flag chosen by `get_brief_option_name`, HelpText.cpp:64-75; `flags.front()` of no flags is undefined. -/
def briefFlag (o : OptData) (preferLong : Bool) : Outcome Str :=
  let flag := if preferLong then (o.flags.find? (fun s => s.length > 2)).getD [] else []
  if flag = [] then
    match o.flags with
    | [] => .ub
    | s :: _ => .ok s
  else .ok flag

/-- `get_brief_option_name`, HelpText.cpp:55-95. -/
def briefOptionName (o : OptData) (preferLong : Bool) : Outcome Str := do
  let braces := o.optional && !isStopOption o.type
  let flag ← briefFlag o preferLong
  let arg ← flagArgument flag o.argument
  pure ((if braces then b!"[" else []) ++ flag ++ arg ++ (if braces then b!"]" else []))

/-- The loop of `get_long_option_name`, HelpText.cpp:100-120. -/
def longOptionLoop (argument : Str) : List Str → (text : Str) → Outcome Str
  | [], text => .ok text
  | flag :: flags, text => do
    let arg ← flagArgument flag argument
    longOptionLoop argument flags ((if text ≠ [] then text ++ b!", " else text) ++ flag ++ arg)

/-- `get_long_option_name`, HelpText.cpp:97-122. -/
def longOptionName (o : OptData) : Outcome Str := longOptionLoop o.argument o.flags []

/-- `get_custom_text`, HelpText.cpp:124-133. -/
def customText (texts : Nat → Str) (cmd : Command) (id : TextId) : Option Str := (cmd.texts.lookup id).map (TextSource.get texts)

/-- `is_empty`, HelpText.cpp:135-138. -/
def isEmptyText : Option Str → Bool
  | none => true
  | some s => s.isEmpty

/-- What is written by `write_custom_text`, HelpText.cpp:140-156. The function returns `customText`. -/
def writeCustomText (texts : Nat → Str) (cmd : Command) (id : TextId) (prependNewline : Bool) (f : Formatter) : Outcome Formatter :=
  match customText texts cmd id with
  | none => .ok f
  | some text =>
    if text = [] then .ok f
    else do
      let f := if prependNewline then f.newline else f
      let f ← f.writeWords text
      pure (if f.writer.line ≠ [] then f.newline else f)

/-- A loop over a container. -/
def forEach {α : Type} (act : α → Formatter → Outcome Formatter) : List α → Formatter → Outcome Formatter
  | [], f => .ok f
  | x :: xs, f => do
    let f ← act x f
    forEach act xs f

/-- The body of the loop of `write_stop_and_help_usage`, HelpText.cpp:163-176. -/
def writeStopOption (fullName : Str) (o : OptData) (f : Formatter) : Outcome Formatter :=
  if !o.visibility.usage || !isStopOption o.type then .ok f
  else do
    let f ← f.writeWords fullName
    let f ← f.writeWords b!" "
    let f := f.pushCurrent
    let name ← briefOptionName o true
    let f ← f.writeLines name
    let f ← f.writeWords b!" "
    let f ← f.popIndentation
    pure f.newline

/-- `write_stop_and_help_usage`, HelpText.cpp:158-177. -/
def writeStopAndHelpUsage (cmd : Command) (f : Formatter) : Outcome Formatter := forEach (writeStopOption cmd.fullName) cmd.options f

/-- `SectionHelpTexts`, HelpText.cpp:179-181. -/
abbrev SectionTexts := Str × List (Str × Str)

/-- `get_help_text_label_width`, HelpText.cpp:183-209. (The vectors are sorted for their last element; there is one because
sections are added with their first entry.) -/
def labelWidth (lineWidth : Nat) (sections : List SectionTexts) : Nat :=
  let entries := sections.flatMap (·.2)
  let nameWidth := (entries.map (·.1.length)).foldl max 0 + 3
  let textWidth := (entries.map (·.2.length)).foldl max 0
  if nameWidth > 32 ∨ nameWidth + textWidth > lineWidth then 0 else nameWidth

/-- The lambda `add_help_text`, HelpText.cpp:217-231. -/
def addHelpText (title name text : Str) : List SectionTexts → List SectionTexts
  | [] => [(title, [(name, text)])]
  | s :: ss => if s.1 = title then (s.1, s.2 ++ [(name, text)]) :: ss else s :: addHelpText title name text ss

/-- The arguments are listed, HelpText.cpp:233-243. -/
def addArguments (texts : Nat → Str) (title : Str) : List ArgData → List SectionTexts → List SectionTexts
  | [], ss => ss
  | a :: as, ss =>
    if !a.visibility.text then addArguments texts title as ss
    else addArguments texts title as (addHelpText (if a.section_ = [] then title else a.section_) (argumentName a) (a.help.get texts) ss)

/-- The sub-commands are listed, HelpText.cpp:245-257. -/
def addCommands (texts : Nat → Str) (title : Str) : List Command → List SectionTexts → List SectionTexts
  | [], ss => ss
  | c :: cs, ss =>
    if !c.visibility.text then addCommands texts title cs ss
    else addCommands texts title cs (addHelpText (if c.section_ = [] then title else c.section_) c.name ((customText texts c .help).getD []) ss)

/-- The options are listed, HelpText.cpp:259-269. -/
def addOptions (texts : Nat → Str) (title : Str) : List OptData → List SectionTexts → Outcome (List SectionTexts)
  | [], ss => .ok ss
  | o :: os, ss =>
    if !o.visibility.text then addOptions texts title os ss
    else do
      let name ← longOptionName o
      addOptions texts title os (addHelpText (if o.section_ = [] then title else o.section_) name (o.help.get texts) ss)

/-- The first half of `write_argument_sections`, HelpText.cpp:211-269. -/
def argumentSections (texts : Nat → Str) (cmd : Command) : Outcome (List SectionTexts) :=
  let ss := addArguments texts ((customText texts cmd .argumentsTitle).getD b!"ARGUMENTS") cmd.arguments []
  let ss := addCommands texts ((customText texts cmd .subcommandsTitle).getD b!"COMMANDS") cmd.commands ss
  addOptions texts ((customText texts cmd .optionsTitle).getD b!"OPTIONS") cmd.options ss

/-- The text of an entry, HelpText.cpp:286-300. -/
def writeEntryText (nameWidth : Nat) (text : Str) (f : Formatter) : Outcome Formatter :=
  if text = [] then .ok f
  else if nameWidth ≠ 0 then do
    let f ← if f.writer.currentWidth ≥ nameWidth then f.writeWords b!"  " else .ok f
    let f ← (f.pushIndentation nameWidth).writeWords text
    f.popIndentation
  else do
    let f ← (f.newline.pushIndentation 8).writeWords text
    f.popIndentation

/-- An entry, HelpText.cpp:283-302. -/
def writeEntry (nameWidth : Nat) (entry : Str × Str) (f : Formatter) : Outcome Formatter := do
  let f ← f.writeWords entry.1
  let f ← writeEntryText nameWidth entry.2 f
  pure f.newline

/-- A section, HelpText.cpp:277-304. -/
def writeSection (nameWidth : Nat) (prependNewline : Bool) (s : SectionTexts) (f : Formatter) : Outcome Formatter := do
  let f := if prependNewline then f.newline else f
  let f ← f.writeWords s.1
  let f := f.newline.pushIndentation 2
  let f ← forEach (writeEntry nameWidth) s.2 f
  f.popIndentation

/-- The second half of `write_argument_sections`, HelpText.cpp:271-305. -/
def writeSections (prependNewline : Bool) (sections : List SectionTexts) (f : Formatter) : Outcome Formatter :=
  match sections with
  | [] => .ok f
  | s :: ss =>
    let nameWidth := labelWidth f.writer.lineWidth sections
    do
      let f ← writeSection nameWidth prependNewline s f
      forEach (writeSection nameWidth true) ss f

/-- `write_argument_sections`, HelpText.cpp:211-306. -/
def writeArgumentSections (texts : Nat → Str) (cmd : Command) (prependNewline : Bool) (f : Formatter) : Outcome Formatter := do
  let sections ← argumentSections texts cmd
  writeSections prependNewline sections f

/-- The body of the loop of `write_brief_regular_options`, HelpText.cpp:313-321. -/
def writeBriefOption (o : OptData) (f : Formatter) : Outcome Formatter :=
  if !o.visibility.usage || isStopOption o.type then .ok f
  else do
    let name ← briefOptionName o false
    let f ← f.writeLines name
    f.writeWords b!" "

/-- The body of the loop of `write_brief_arguments`, HelpText.cpp:328-333. -/
def writeBriefArgument (a : ArgData) (f : Formatter) : Outcome Formatter :=
  if !a.visibility.usage then .ok f
  else do
    let f ← f.writeLines (argumentName a)
    f.writeWords b!" "

/-- The loop of `write_brief_commands`, HelpText.cpp:348-356. -/
def writeBriefCommandsLoop : (first : Bool) → List Command → Formatter → Outcome Formatter
  | _, [], f => .ok f
  | first, c :: cs, f =>
    if !c.visibility.usage then writeBriefCommandsLoop first cs f
    else do
      let f ← if first then .ok f else f.writeWords b!"|"
      let f ← f.writeWords c.name
      writeBriefCommandsLoop false cs f

/-- `write_brief_commands`, HelpText.cpp:336-360. -/
def writeBriefCommands (cmd : Command) (f : Formatter) : Outcome Formatter :=
  if cmd.commands.isEmpty then .ok f
  else
    let brackets := !cmd.requireSubcommand.getD false
    do
      let f ← if brackets then f.writeWords b!"[" else .ok f
      let f ← writeBriefCommandsLoop true cmd.commands f
      if brackets then f.writeWords b!"]" else .ok f

/-- `write_brief_usage`, HelpText.cpp:362-382. -/
def writeBriefUsage (cmd : Command) (prependNewline : Bool) (f : Formatter) : Outcome Formatter := do
  let f := if prependNewline then f.newline else f
  let f := f.pushIndentation 2
  let f ← writeStopAndHelpUsage cmd f
  let f ← f.writeWords cmd.fullName
  let f ← f.writeWords b!" "
  let f := f.pushCurrent
  let f ← forEach writeBriefOption cmd.options f
  let f ← forEach writeBriefArgument cmd.arguments f
  let f ← writeBriefCommands cmd f
  let f ← f.popIndentation
  f.newline.popIndentation

/-- The title of the usage, HelpText.cpp:391-401. -/
def writeUsageTitle (texts : Nat → Str) (cmd : Command) (prependNewline : Bool) (f : Formatter) : Outcome Formatter :=
  match customText texts cmd .usageTitle with
  | some _ => writeCustomText texts cmd .usageTitle prependNewline f
  | none => do
    let f := if prependNewline then f.newline else f
    let f ← f.writeWords b!"USAGE"
    pure f.newline

/-- What is written by `write_usage`, HelpText.cpp:384-413. -/
def writeUsage (texts : Nat → Str) (cmd : Command) (prependNewline : Bool) (f : Formatter) : Outcome Formatter :=
  if customText texts cmd .usage = some [] then .ok f
  else do
    let f ← writeUsageTitle texts cmd prependNewline f
    let prependNewline := prependNewline && (customText texts cmd .usageTitle == some [])
    match customText texts cmd .usage with
    | some _ => writeCustomText texts cmd .usage prependNewline f
    | none => writeBriefUsage cmd prependNewline f

/-- The result of `write_usage`, HelpText.cpp:384-413. -/
def usageResult (texts : Nat → Str) (cmd : Command) : Bool :=
  match customText texts cmd .usage with
  | some [] => false
  | some (_ :: _) => true
  | none => true

/-- `get_name`, HelpText.cpp:415-433. -/
def optionNames : List Str → Outcome Str
  | [] => .ub
  | s :: ss => .ok (ss.foldl (fun name s => name ++ (b!", " ++ s)) s)

/-- `get_name`, HelpText.cpp:415-433. -/
def nameOfId (cmd : Command) (id : Nat) : Outcome Str :=
  match cmd.arguments.find? (·.argumentId = id) with
  | some a => .ok a.name
  | none =>
    match cmd.options.find? (·.argumentId = id) with
    | some o => optionNames o.flags
    | none => .ok []

/-- A formatter with the settings, HelpText.cpp:438-443 and 457-464 (the stream aside), TextFormatter.cpp:83-91 and 191-196; `console` is the
width of the console or its default (`get_console_width`). -/
def makeFormatter (console : Nat) (d : ParserData) : Outcome Formatter :=
  if console ≤ 2 then .throw b!"Line width must be greater than 2."
  else if d.helpSettings.lineWidth ≠ 0 ∧ d.helpSettings.lineWidth ≤ 2 then .throw b!"Line width must be greater than 2."
  else do
    let splitter ← Splitter.addWords [] d.helpSettings.wordSplitRules
    pure { writer := { lineWidth := if d.helpSettings.lineWidth ≠ 0 then d.helpSettings.lineWidth else console }, splitter }

/-- The text behind the usage, HelpText.cpp:446-448: `HELP` is only written if there is no `ABOUT`. -/
def writeAbout (texts : Nat → Str) (cmd : Command) (newline : Bool) (f : Formatter) : Outcome Formatter := do
  let f ← writeCustomText texts cmd .about newline f
  if !isEmptyText (customText texts cmd .about) then pure f else writeCustomText texts cmd .help newline f

/-- `write_help_text`, HelpText.cpp:436-451. -/
def writeHelpText (console : Nat) (texts : Nat → Str) (d : ParserData) (cmd : Command) : Outcome Formatter := do
  let f ← makeFormatter console d
  let f ← writeCustomText texts cmd .initialText false f
  let newline := !isEmptyText (customText texts cmd .initialText)
  let f ← writeUsage texts cmd newline f
  let newline := usageResult texts cmd || newline
  let f ← writeAbout texts cmd newline f
  let newline := !isEmptyText (customText texts cmd .about) || !isEmptyText (customText texts cmd .help) || newline
  let f ← writeArgumentSections texts cmd newline f
  writeCustomText texts cmd .finalText true f

/-- `write_error_message(data, cmd, msg)`, HelpText.cpp:453-470. -/
def writeErrorMessage (console : Nat) (texts : Nat → Str) (d : ParserData) (cmd : Command) (msg : Str) : Outcome Formatter := do
  let f ← makeFormatter console d
  let f ← f.writeWords (cmd.fullName ++ b!": ")
  let f ← f.writeWords msg
  let f := f.newline
  match customText texts cmd .errorUsage with
  | some _ => writeCustomText texts cmd .errorUsage false f
  | none => writeUsage texts cmd false f

/-- `write_error_message(data, cmd, msg, argument_id)`, HelpText.cpp:472-481. -/
def writeErrorMessageFor (console : Nat) (texts : Nat → Str) (d : ParserData) (cmd : Command) (msg : Str) (id : Nat) : Outcome Formatter := do
  let name ← nameOfId cmd id
  if name ≠ [] then writeErrorMessage console texts d cmd (name ++ b!": " ++ msg) else writeErrorMessage console texts d cmd msg

/-- `ArgumentParser::write_subcommand_help_text`, ArgumentParser.cpp:414-427; `write_help_text()` (lines 409-412) is the case of
the empty path. -/
def ParserHandle.writeHelp (console : Nat) (texts : Nat → Str) (h : ParserHandle) (path : List Str) : Outcome Formatter := do
  let t ← h.helpTarget path
  writeHelpText console texts t.1 t.2

end Argos
