import Verif.Model.Handles
import Verif.Model.Parser

/-!
# Model of the client objects `Command` and `ArgumentParser`, and of programs that use them

`src/Argos/Command.cpp`, `src/Argos/ArgumentParser.cpp` and the copy operations, `add` and `copy_from` of
`src/Argos/CommandData.cpp`. As in `Model/Handles`, an object is the data it owns, or null.
-/

namespace Argos

/-! ### Command data -/

mutual
/-- `CommandData(const CommandData&)`, CommandData.cpp:22-42: `visibility` and `option_index` are not copied. The copy
assignment (lines 62-92) copies the same members; see `Command.assign`. -/
def Command.copy : Command → Command
  | ⟨arguments, options, commands, currentSection, name, fullName, texts, _,
      requireSubcommand, multiCommand, section_, id, argumentId, _⟩ =>
    ⟨arguments, options, Command.copies commands, currentSection, name, fullName, texts, Visibility.normal,
      requireSubcommand, multiCommand, section_, id, argumentId, []⟩
/-- The loop over the sub-commands, CommandData.cpp:39-41. -/
def Command.copies : List Command → List Command
  | [] => []
  | c :: cs => c.copy :: Command.copies cs
end

/-- `CommandData::operator=(const CommandData&)`, CommandData.cpp:62-92, for different objects: `visibility` and
`option_index` of the target stay. -/
def Command.assign (c rhs : Command) : Command :=
  { rhs.copy with visibility := c.visibility, optionIndex := c.optionIndex }

/-- `CommandData::add(unique_ptr<ArgumentData>)`, CommandData.cpp:114-125. -/
def Command.addArgument (c : Command) : Option ArgData → Outcome Command
  | none => .throw b!"Argument is empty (it has probably already been added)."
  | some a =>
    if !c.commands.isEmpty then .throw b!"A command cannot have both arguments and subcommands."
    else if a.name.isEmpty then .throw b!"Argument must have a name."
    else .ok { c with arguments := c.arguments ++ [if a.section_.isEmpty then { a with section_ := c.currentSection } else a] }

/-- `CommandData::add(unique_ptr<OptionData>)`, CommandData.cpp:127-136. -/
def Command.addOption (c : Command) : Option OptData → Outcome Command
  | none => .throw b!"Option is empty (it has probably already been added)."
  | some o =>
    if o.flags.isEmpty then .throw b!"Option must have at least one flag."
    else .ok { c with options := c.options ++ [if o.section_.isEmpty then { o with section_ := c.currentSection } else o] }

/-- `CommandData::add(unique_ptr<CommandData>)`, CommandData.cpp:138-149. -/
def Command.addCommand (c : Command) : Option Command → Outcome Command
  | none => .throw b!"Command is empty (it has probably already been added)."
  | some sub =>
    if !c.arguments.isEmpty then .throw b!"A command cannot have both arguments and subcommands."
    else if sub.name.isEmpty then .throw b!"Command must have a name."
    else .ok { c with commands := c.commands ++ [if sub.section_.isEmpty then { sub with section_ := c.currentSection } else sub] }

/-- The position of a `TextId` in the enumeration, which is the order of the `std::map`. -/
def TextId.index : TextId → Nat
  | .initialText => 0 | .usageTitle => 1 | .usage => 2 | .about => 3 | .subcommandsTitle => 4
  | .argumentsTitle => 5 | .optionsTitle => 6 | .finalText => 7 | .errorUsage => 8 | .help => 9

/-- `texts[id] = source` for the `std::map`, kept in the order of the ids. -/
def setText (id : TextId) (source : TextSource) : List (TextId × TextSource) → List (TextId × TextSource)
  | [] => [(id, source)]
  | (i, s) :: rest =>
    if id = i then (id, source) :: rest
    else if id.index < i.index then (id, source) :: (i, s) :: rest
    else (i, s) :: setText id source rest

/-- `to_string(TextId)`, Enums.cpp:14-31. The default case can't happen. -/
def TextId.toStr : TextId → Str
  | .initialText => b!"INITIAL_TEXT" | .usageTitle => b!"USAGE_TITLE" | .usage => b!"USAGE" | .about => b!"ABOUT"
  | .subcommandsTitle => b!"SUBCOMMANDS_TITLE" | .argumentsTitle => b!"ARGUMENTS_TITLE" | .optionsTitle => b!"OPTIONS_TITLE"
  | .finalText => b!"FINAL_TEXT" | .errorUsage => b!"ERROR_USAGE" | .help => b!"HELP"

/-- The text loop of `CommandData::copy_from`, CommandData.cpp:162-167: what happens and the texts after it. -/
def copyTexts (texts : List (TextId × TextSource)) : List (TextId × TextSource) → Outcome Unit × List (TextId × TextSource)
  | [] => (.ok (), texts)
  | (id, source) :: rest =>
    if (texts.lookup id).isSome then (.throw (b!"Text with ID " ++ id.toStr ++ b!" already exists."), texts)
    else copyTexts (setText id source texts) rest

/-- `CommandData::copy_from`, CommandData.cpp:151-171, for different objects: what happens and the target after it. -/
def Command.copyFrom (c src : Command) : Outcome Unit × Command :=
  let c1 := { c with
    arguments := c.arguments ++ src.arguments
    options := c.options ++ src.options
    commands := c.commands ++ Command.copies src.commands }
  match copyTexts c.texts src.texts with
  | (.ok (), texts) => (.ok (), { c1 with texts, multiCommand := c.multiCommand || src.multiCommand })
  | (e, texts) => (e, { c1 with texts })

/-- `cmd.copy_from(cmd)`: `push_back` into the vector that the loop runs over invalidates the iterators of the loop.
Without arguments, options and sub-commands the first text is found to exist. -/
def Command.copyFromSelf (c : Command) : Outcome Unit × Command :=
  if !c.arguments.isEmpty || !c.options.isEmpty || !c.commands.isEmpty then (.ub, c)
  else c.copyFrom c

/-! ### `Command` -/

/-- `Command`: the data it owns, or null. -/
abbrev CmdHandle := Option Command

/-- The setters of `Command`, Command.cpp:89-165. -/
inductive CmdCall where
  | name (s : Str)
  | help (s : Str)
  | about (s : Str)
  | section_ (s : Str)
  | currentSection (s : Str)
  | text (id : TextId) (source : TextSource)
  | visibility (v : Visibility)
  | id (n : Int)
  | allowMultipleSubcommands (b : Bool)
  | requireSubcommand (b : Bool)
  deriving Repr, DecidableEq

/-- The message of `Command::check_command`, Command.cpp:185-189. -/
def cmdMoved : Str := b!"Command has been moved."

/-- The setters of `Command` on the data, Command.cpp:89-165. -/
def Command.set (c : Command) : CmdCall → Command
  | .name s => { c with name := s }
  | .help s => { c with texts := setText .help (.text s) c.texts }
  | .about s => { c with texts := setText .about (.text s) c.texts }
  | .section_ s => { c with section_ := s }
  | .currentSection s => { c with currentSection := s }
  | .text id source => { c with texts := setText id source c.texts }
  | .visibility v => { c with visibility := v }
  | .id n => { c with id := n }
  | .allowMultipleSubcommands b => { c with multiCommand := b }
  | .requireSubcommand b => { c with requireSubcommand := some b }

/-! ### `ArgumentParser` -/

/-- `ArgumentParser`: the data it owns, or null. -/
abbrev ParserHandle := Option ParserData

/-- The setters of `ArgumentParser`, ArgumentParser.cpp:182-447; `get` is any of the getters, which only check the
object. -/
inductive ParserCall where
  | allowAbbreviatedOptions (b : Bool)
  | autoExit (b : Bool)
  | caseInsensitive (b : Bool)
  | generateHelpOption (b : Bool)
  | optionStyle (s : OptionStyle)
  | requireSubcommand (b : Bool)
  | allowMultipleSubcommands (b : Bool)
  | ignoreUndefinedArguments (b : Bool)
  | ignoreUndefinedOptions (b : Bool)
  | argumentCallback (c : Option Nat)
  | optionCallback (c : Option Nat)
  | stream
  | programName (s : Str)
  | text (id : TextId) (source : TextSource)
  | version (s : Str)
  | currentSection (s : Str)
  | lineWidth (n : Nat)
  | addWordSplittingRule (s : Str)
  | setExitCodes (error normal : Int)
  | get
  deriving Repr, DecidableEq

/-- The message of `ArgumentParser::check_data`, ArgumentParser.cpp:449-453. -/
def parserMoved : Str := b!"This instance of ArgumentParser can no longer be used."

/-- The setters of `ArgumentParser` on the data, ArgumentParser.cpp:182-447. -/
def ParserData.set (d : ParserData) : ParserCall → Outcome ParserData
  | .allowAbbreviatedOptions b => .ok { d with settings := { d.settings with allowAbbreviatedOptions := b } }
  | .autoExit b => .ok { d with settings := { d.settings with autoExit := b } }
  | .caseInsensitive b => .ok { d with settings := { d.settings with caseInsensitive := b } }
  | .generateHelpOption b => .ok { d with settings := { d.settings with generateHelpOption := b } }
  | .optionStyle s =>
    if s ≠ d.settings.optionStyle then
      if !d.command.options.isEmpty then .throw b!"Can't change option style after options have been added."
      else .ok { d with settings := { d.settings with optionStyle := s } }
    else .ok d
  | .requireSubcommand b => .ok { d with command := { d.command with requireSubcommand := some b } }
  | .allowMultipleSubcommands b => .ok { d with command := { d.command with multiCommand := b } }
  | .ignoreUndefinedArguments b => .ok { d with settings := { d.settings with ignoreUndefinedArguments := b } }
  | .ignoreUndefinedOptions b => .ok { d with settings := { d.settings with ignoreUndefinedOptions := b } }
  | .argumentCallback c => .ok { d with settings := { d.settings with argumentCallback := c } }
  | .optionCallback c => .ok { d with settings := { d.settings with optionCallback := c } }
  | .stream => .ok d
  | .programName s => .ok { d with command := { d.command with name := s } }
  | .text id source => .ok { d with command := { d.command with texts := setText id source d.command.texts } }
  | .version s => .ok { d with version := s }
  | .currentSection s => .ok { d with command := { d.command with currentSection := s } }
  | .lineWidth n => .ok { d with helpSettings := { d.helpSettings with lineWidth := n } }
  | .addWordSplittingRule s =>
    .ok { d with helpSettings := { d.helpSettings with wordSplitRules := d.helpSettings.wordSplitRules ++ [s] } }
  | .setExitCodes e n => .ok { d with settings := { d.settings with errorExitCode := e, normalExitCode := n } }
  | .get => .ok d

/-- `make_copy`, ArgumentParser.cpp:23-30: the version is not copied. The command is assigned to the one of a
new `ParserData`. -/
def makeCopy (d : ParserData) : ParserData :=
  { command := Command.assign {} d.command, settings := d.settings, helpSettings := d.helpSettings }

/-- `DEFAULT_NAME`, ArgumentParser.cpp:32. -/
def defaultName : Str := b!"UNINITIALIZED"

/-- `parse_arguments`, ArgumentParser.cpp:34-40: the result and the final state of the parser, if initialisation succeeds. -/
def parseArguments (env : Env) (fuel : Nat) (d : ParserData) (args : List Str) : Outcome (Option PNode) × Option PState :=
  match finishInitialization d with
  | .ok d' => ((Parser.parse env d' args fuel).1, some (Parser.parse env d' args fuel).2)
  | .throw m => (.throw m, none)
  | .outOfRange => (.outOfRange, none)
  | .exit c => (.exit c, none)
  | .ub => (.ub, none)
  | .diverges => (.diverges, none)

/-- `make_argument_iterator`, ArgumentParser.cpp:42-48: the state of the new iterator. -/
def makeArgumentIterator (d : ParserData) (args : List Str) : Outcome PState :=
  match finishInitialization d with
  | .ok d' =>
    match Parser.start d' args with
    | (.ok (), s) => .ok s
    | (.throw m, _) => .throw m
    | (.outOfRange, _) => .outOfRange
    | (.exit c, _) => .exit c
    | (.ub, _) => .ub
    | (.diverges, _) => .diverges
  | .throw m => .throw m
  | .outOfRange => .outOfRange
  | .exit c => .exit c
  | .ub => .ub
  | .diverges => .diverges

namespace ParserHandle

/-- `ArgumentParser::parse(vector)`, ArgumentParser.cpp:141-145. The data is moved out of the object, whatever happens
then. -/
def parse (env : Env) (fuel : Nat) (h : ParserHandle) (args : List Str) :
    (Outcome (Option PNode) × Option PState) × ParserHandle :=
  match h with
  | none => ((.throw parserMoved, none), h)
  | some d => (parseArguments env fuel d args, none)

/-- `ArgumentParser::parse(vector) const`, ArgumentParser.cpp:147-151. -/
def parseConst (env : Env) (fuel : Nat) (h : ParserHandle) (args : List Str) : Outcome (Option PNode) × Option PState :=
  match h with
  | none => (.throw parserMoved, none)
  | some d => parseArguments env fuel (makeCopy d) args

/-- `ArgumentParser::parse(argc, argv)`, ArgumentParser.cpp:120-132; `argv` is empty for `argc <= 0`. Line 125 reads
`m_data->command.name` without a check. -/
def parseMain (env : Env) (fuel : Nat) (h : ParserHandle) (argv : List Str) :
    (Outcome (Option PNode) × Option PState) × ParserHandle :=
  match argv with
  | [] => parse env fuel h []
  | arg0 :: rest =>
    match h with
    | none => ((.ub, none), h)
    | some d =>
      let d' := if d.command.name = defaultName ∧ arg0 ≠ [] then
          { d with command := { d.command with name := getBaseName arg0 } }
        else d
      parse env fuel (some d') rest

/-- `ArgumentParser::parse(argc, argv) const`, ArgumentParser.cpp:134-139. -/
def parseMainConst (env : Env) (fuel : Nat) (h : ParserHandle) (argv : List Str) : Outcome (Option PNode) × Option PState :=
  match argv with
  | [] => parseConst env fuel h []
  | _ :: rest => parseConst env fuel h rest

/-- `ArgumentParser::make_iterator(vector)`, ArgumentParser.cpp:167-173. -/
def makeIterator (h : ParserHandle) (args : List Str) : Outcome PState × ParserHandle :=
  match h with
  | none => (.throw parserMoved, h)
  | some d => (makeArgumentIterator d args, none)

/-- `ArgumentParser::make_iterator(vector) const`, ArgumentParser.cpp:175-180. -/
def makeIteratorConst (h : ParserHandle) (args : List Str) : Outcome PState :=
  match h with
  | none => .throw parserMoved
  | some d => makeArgumentIterator (makeCopy d) args

/-- `ArgumentParser::make_iterator(argc, argv)`, ArgumentParser.cpp:153-158. -/
def makeIteratorMain (h : ParserHandle) (argv : List Str) : Outcome PState × ParserHandle :=
  match argv with
  | [] => (.throw b!"argc and argv must at least contain the command name.", h)
  | _ :: rest => makeIterator h rest

/-- `ArgumentParser::make_iterator(argc, argv) const`, ArgumentParser.cpp:160-165. -/
def makeIteratorMainConst (h : ParserHandle) (argv : List Str) : Outcome PState :=
  match argv with
  | [] => .throw b!"argc and argv must at least contain the command name."
  | _ :: rest => makeIteratorConst h rest

end ParserHandle

/-- The command found by `write_subcommand_help_text`, ArgumentParser.cpp:419-425. -/
def findPath (ci : Bool) : Command → List Str → Outcome Command
  | c, [] => .ok c
  | c, name :: path =>
    match findCommand c.commands name ci with
    | some sub => findPath ci sub path
    | none => .throw (b!"Unknown command: " ++ name)

/-- `ArgumentParser::write_subcommand_help_text` up to the writing, ArgumentParser.cpp:414-425: the data and the command
given to `write_help_text`. `write_help_text()` is the case of the empty path. -/
def ParserHandle.helpTarget (h : ParserHandle) (path : List Str) : Outcome (ParserData × Command) :=
  match h with
  | none => .throw parserMoved
  | some d => do
    let d' ← finishInitialization (makeCopy d)
    let c ← findPath d'.settings.caseInsensitive d'.command path
    pure (d', c)

/-! ### Programs -/

/-- The objects of a program. Every object has a number; a number that was not used yet stands for an object
without data. -/
structure World where
  args : Nat → ArgHandle := fun _ => none
  opts : Nat → OptHandle := fun _ => none
  cmds : Nat → CmdHandle := fun _ => none
  parsers : Nat → ParserHandle := fun _ => none

/-- A function changed in one place. -/
def setAt {α : Type} (f : Nat → α) (i : Nat) (x : α) : Nat → α := fun j => if j = i then x else f j

/-- What a program can do with the objects. -/
inductive Call where
  /-- `Argument(name)`, Argument.cpp:19-23. -/
  | newArg (i : Nat) (name : Str)
  /-- `Option(flags)`, Option.cpp:16-37. -/
  | newOpt (i : Nat) (flags : List Str)
  /-- `Command(name)`, Command.cpp:19-23. -/
  | newCmd (i : Nat) (name : Str)
  /-- `ArgumentParser(name, extract)`, ArgumentParser.cpp:51-63. -/
  | newParser (i : Nat) (name : Str) (extract : Bool)
  /-- Copy construction or assignment of an `Argument`. -/
  | copyArg (src dst : Nat)
  | copyOpt (src dst : Nat)
  /-- Copy construction or assignment of a `Command`, Command.cpp:25-28 and 37-46. -/
  | copyCmd (src dst : Nat)
  /-- Move construction or assignment. -/
  | moveArg (src dst : Nat)
  | moveOpt (src dst : Nat)
  | moveCmd (src dst : Nat)
  | moveParser (src dst : Nat)
  | setArg (i : Nat) (c : ArgCall)
  | setOpt (i : Nat) (c : OptCall)
  | setCmd (i : Nat) (c : CmdCall)
  | setParser (i : Nat) (c : ParserCall)
  /-- `Command::add`, Command.cpp:54-87. -/
  | cmdAddArg (i arg : Nat)
  | cmdAddOpt (i opt : Nat)
  | cmdAddCmd (i cmd : Nat)
  /-- `Command::copy_from`, Command.cpp:167-172. -/
  | cmdCopyFrom (i src : Nat)
  /-- `ArgumentParser::add`, ArgumentParser.cpp:76-111. -/
  | parserAddArg (i arg : Nat)
  | parserAddOpt (i opt : Nat)
  | parserAddCmd (i cmd : Nat)
  /-- `ArgumentParser::copy_from`, ArgumentParser.cpp:113-118. -/
  | parserCopyFrom (i src : Nat)
  | parse (i : Nat) (args : List Str)
  | parseConst (i : Nat) (args : List Str)
  | parseMain (i : Nat) (argv : List Str)
  | parseMainConst (i : Nat) (argv : List Str)
  | makeIterator (i : Nat) (args : List Str)
  | makeIteratorConst (i : Nat) (args : List Str)
  | makeIteratorMain (i : Nat) (argv : List Str)
  | makeIteratorMainConst (i : Nat) (argv : List Str)
  /-- `ArgumentParser::write_subcommand_help_text` and `write_help_text`. -/
  | writeHelp (i : Nat) (path : List Str)

/-- An outcome without its value. -/
def Outcome.done {α : Type} : Outcome α → Outcome Unit
  | .ok _ => .ok ()
  | .throw m => .throw m
  | .outOfRange => .outOfRange
  | .exit c => .exit c
  | .ub => .ub
  | .diverges => .diverges

/-- An outcome that replaces an object, or leaves it. -/
def Outcome.orKeep {α : Type} (old : α) : Outcome α → Outcome Unit × α
  | .ok x => (.ok (), x)
  | e => (e.done, old)

/-- What a call does. (The writing of the help text is in `Model/HelpText`.) -/
def World.exec (env : Env) (fuel : Nat) (w : World) : Call → Outcome Unit × World
  | .newArg i name => (.ok (), { w with args := setAt w.args i (some { name }) })
  | .newOpt i flags => (.ok (), { w with opts := setAt w.opts i (some { flags }) })
  | .newCmd i name => (.ok (), { w with cmds := setAt w.cmds i (some { name }) })
  | .newParser i name extract =>
    (.ok (), { w with
      parsers := setAt w.parsers i (some { command := { name := if extract then getBaseName name else name } }) })
  | .copyArg src dst => (.ok (), { w with args := setAt w.args dst (w.args src) })
  | .copyOpt src dst => (.ok (), { w with opts := setAt w.opts dst (w.opts src) })
  | .copyCmd src dst =>
    -- a self assignment does nothing
    if src = dst then (.ok (), w) else (.ok (), { w with cmds := setAt w.cmds dst ((w.cmds src).map Command.copy) })
  | .moveArg src dst =>
    (.ok (), { w with args := setAt (setAt w.args src none) dst (w.args src) })
  | .moveOpt src dst => (.ok (), { w with opts := setAt (setAt w.opts src none) dst (w.opts src) })
  | .moveCmd src dst => (.ok (), { w with cmds := setAt (setAt w.cmds src none) dst (w.cmds src) })
  | .moveParser src dst => (.ok (), { w with parsers := setAt (setAt w.parsers src none) dst (w.parsers src) })
  | .setArg i c =>
    let (r, h) := ArgHandle.call (w.args i) c
    (r, { w with args := setAt w.args i h })
  | .setOpt i c =>
    let (r, h) := OptHandle.call (w.opts i) c
    (r, { w with opts := setAt w.opts i h })
  | .setCmd i c =>
    match w.cmds i with
    | none => (.throw cmdMoved, w)
    | some cmd => (.ok (), { w with cmds := setAt w.cmds i (some (cmd.set c)) })
  | .setParser i c =>
    match w.parsers i with
    | none => (.throw parserMoved, w)
    | some d =>
      let (r, d') := Outcome.orKeep d (d.set c)
      (r, { w with parsers := setAt w.parsers i (some d') })
  | .cmdAddArg i arg =>
    match w.cmds i with
    | none => (.throw cmdMoved, w)
    | some cmd =>
      match w.args arg with
      | none => (.throw argMoved, w)
      | some a =>
        let (r, cmd') := Outcome.orKeep cmd (cmd.addArgument (some a))
        (r, { w with args := setAt w.args arg none, cmds := setAt w.cmds i (some cmd') })
  | .cmdAddOpt i opt =>
    match w.cmds i with
    | none => (.throw cmdMoved, w)
    | some cmd =>
      match w.opts opt with
      | none => (.throw optMoved, w)
      | some o =>
        let (r, cmd') := Outcome.orKeep cmd (cmd.addOption (some o))
        (r, { w with opts := setAt w.opts opt none, cmds := setAt w.cmds i (some cmd') })
  | .cmdAddCmd i sub =>
    match w.cmds i with
    | none => (.throw cmdMoved, w)
    | some cmd =>
      -- `Command::release` (Command.cpp:174-177) returns null for a moved-from object; a command added to itself is lost
      let (r, cmd') := Outcome.orKeep cmd (cmd.addCommand (w.cmds sub))
      (r, { w with cmds := setAt (setAt w.cmds i (some cmd')) sub none })
  | .cmdCopyFrom i src =>
    match w.cmds i with
    | none => (.throw cmdMoved, w)
    | some cmd =>
      -- `*command.data_` without a check
      match w.cmds src with
      | none => (.ub, w)
      | some c =>
        let (r, cmd') := if i = src then cmd.copyFromSelf else cmd.copyFrom c
        (r, { w with cmds := setAt w.cmds i (some cmd') })
  | .parserAddArg i arg =>
    match w.parsers i with
    | none => (.throw parserMoved, w)
    | some d =>
      match w.args arg with
      | none => (.throw argMoved, w)
      | some a =>
        let (r, cmd') := Outcome.orKeep d.command (d.command.addArgument (some a))
        (r, { w with args := setAt w.args arg none, parsers := setAt w.parsers i (some { d with command := cmd' }) })
  | .parserAddOpt i opt =>
    match w.parsers i with
    | none => (.throw parserMoved, w)
    | some d =>
      match w.opts opt with
      | none => (.throw optMoved, w)
      | some o =>
        let (r, cmd') := Outcome.orKeep d.command (d.command.addOption (some o))
        (r, { w with opts := setAt w.opts opt none, parsers := setAt w.parsers i (some { d with command := cmd' }) })
  | .parserAddCmd i sub =>
    match w.parsers i with
    | none => (.throw parserMoved, w)
    | some d =>
      let (r, cmd') := Outcome.orKeep d.command (d.command.addCommand (w.cmds sub))
      (r, { w with cmds := setAt w.cmds sub none, parsers := setAt w.parsers i (some { d with command := cmd' }) })
  | .parserCopyFrom i src =>
    match w.parsers i with
    | none => (.throw parserMoved, w)
    | some d =>
      -- `internal_ref()` checks, Command.cpp:179-183
      match w.cmds src with
      | none => (.throw cmdMoved, w)
      | some c =>
        let (r, cmd') := d.command.copyFrom c
        (r, { w with parsers := setAt w.parsers i (some { d with command := cmd' }) })
  | .parse i args =>
    let (r, h) := ParserHandle.parse env fuel (w.parsers i) args
    (r.1.done, { w with parsers := setAt w.parsers i h })
  | .parseConst i args => ((ParserHandle.parseConst env fuel (w.parsers i) args).1.done, w)
  | .parseMain i argv =>
    let (r, h) := ParserHandle.parseMain env fuel (w.parsers i) argv
    (r.1.done, { w with parsers := setAt w.parsers i h })
  | .parseMainConst i argv => ((ParserHandle.parseMainConst env fuel (w.parsers i) argv).1.done, w)
  | .makeIterator i args =>
    let (r, h) := ParserHandle.makeIterator (w.parsers i) args
    (r.done, { w with parsers := setAt w.parsers i h })
  | .makeIteratorConst i args => ((ParserHandle.makeIteratorConst (w.parsers i) args).done, w)
  | .makeIteratorMain i argv =>
    let (r, h) := ParserHandle.makeIteratorMain (w.parsers i) argv
    (r.done, { w with parsers := setAt w.parsers i h })
  | .makeIteratorMainConst i argv => ((ParserHandle.makeIteratorMainConst (w.parsers i) argv).done, w)
  | .writeHelp i path => ((ParserHandle.helpTarget (w.parsers i) path).done, w)

/-- A sequence of calls. The program catches exceptions and goes on. -/
def World.run (env : Env) (fuel : Nat) (w : World) : List Call → World
  | [] => w
  | c :: cs => World.run env fuel (w.exec env fuel c).2 cs

end Argos
