import Verif.Model.StringUtilities
import Verif.Model.Data
import Verif.Model.Search

/-!
# Option and command lookup, validation and initialisation

`src/Argos/CommandData.cpp`, `src/Argos/OptionData.cpp`, `src/Argos/ParserData.cpp`.
-/

namespace Argos

/-- The list filled in by `build_option_index`, CommandData.cpp:175-180. -/
def flagPairs (options : List OptData) : List (Str × OptData) :=
  options.flatMap fun o => o.flags.map fun f => (f, o)

/-- `CommandData::build_option_index`, CommandData.cpp:173-208. Sorting with an inconsistent
comparison is `ub`. -/
def buildOptionIndex (options : List OptData) (ci : Bool) : Outcome (List (Str × OptData)) :=
  let less := fun (a b : Str × OptData) => isLess a.1 b.1 ci
  let index := flagPairs options
  if !isStrictWeakOrder less index then .ub
  else
    let sorted := sortList less index
    match adjacentFind (fun a b => areEqual a.1 b.1 ci) sorted with
    | none => .ok sorted
    | some (a, b) =>
      if a.1 == b.1 then .throw (b!"Multiple definitions of flag " ++ a.1)
      else .throw (b!"Conflicting flags: " ++ a.1 ++ b!" and " ++ b.1)

/-- `CommandData::find_option_impl`, CommandData.cpp:227-255. -/
def findOptionImpl (index : List (Str × OptData)) (flag : Str) (abbrev_ ci : Bool) :
    Option OptData :=
  let i := lowerBound (fun (a : Str × OptData) f => isLess a.1 f ci) index flag
  match index[i]? with
  | none => none
  | some it =>
    if it.1 == flag then some it.2
    else if ci && areEqualCi it.1 flag then some it.2
    else if !abbrev_ then none
    else if !startsWith it.1 flag ci then none
    else match index[i + 1]? with
      | some nxt => if startsWith nxt.1 flag ci then none else some it.2
      | none => some it.2

/-- `CommandData::find_option`, CommandData.cpp:210-225. -/
def findOption (index : List (Str × OptData)) (flag : Str) (abbrev_ ci : Bool) :
    Option OptData :=
  match findOptionImpl index flag abbrev_ ci with
  | some o => some o
  | none =>
    if flag.length > 2 ∧ flag.getLast? = some c!"=" then
      match findOptionImpl index flag.dropLast abbrev_ ci with
      | some o => if o.argument.isEmpty then none else some o
      | none => none
    else none

/-- `CommandData::find_command`, CommandData.cpp:257-266. -/
def findCommand (commands : List Command) (name : Str) (ci : Bool) : Option Command :=
  commands.find? fun c => areEqual c.name name ci

/-- `flag.find_first_of(" \t\n\r") != npos`. -/
def hasWhitespace (flag : Str) : Bool :=
  flag.any fun c => c == 32 || c == 9 || c == 10 || c == 13

/-- `check_flag_with_equal`, OptionData.cpp:15-26 (it returns true or throws). -/
def checkFlagWithEqual (flag : Str) (o : OptData) : Outcome Bool :=
  match findChar c!"=" flag with
  | none => .ok true
  | some e =>
    if e ≠ flag.length - 1 then
      .throw (b!"Options can not have a '=' in the middle: " ++ flag)
    else if o.argument.isEmpty then
      .throw (b!"Options ending with '=' must have a named argument: " ++ flag)
    else .ok true

/-- `check_standard_flag`, OptionData.cpp:28-42. -/
def checkStandardFlag (flag : Str) (o : OptData) : Outcome Bool :=
  if hasWhitespace flag then .ok false
  else match flag with
    | [] => .ok false
    | [_] => .ok false
    | [f0, _] => .ok (f0 == c!"-")
    | f0 :: f1 :: _ :: _ =>
      if f0 ≠ c!"-" then .ok false
      else if f1 ≠ c!"-" then .ok false
      else checkFlagWithEqual flag o

/-- `check_flag`, OptionData.cpp:44-54. -/
def checkFlag (flag : Str) (pfx : UInt8) (o : OptData) : Outcome Bool :=
  match flag with
  | [] => .ok false
  | [_] => .ok false
  | f0 :: _ :: more =>
    if f0 ≠ pfx then .ok false
    else if hasWhitespace flag then .ok false
    else if more.isEmpty then .ok true
    else checkFlagWithEqual flag o

/-- One round of the flag loop of `validate_and_update`, OptionData.cpp:62-81. -/
def checkFlagStyle (style : OptionStyle) (flag : Str) (o : OptData) : Outcome Bool :=
  match style with
  | .standard => checkStandardFlag flag o
  | .slash => checkFlag flag c!"/" o
  | .dash => checkFlag flag c!"-" o

/-- The flag loop of `validate_and_update`, OptionData.cpp:62-81. -/
def checkFlags (style : OptionStyle) (o : OptData) : List Str → Outcome Unit
  | [] => .ok ()
  | f :: fs => do
    let ok ← checkFlagStyle style f o
    if ok then checkFlags style o fs else .throw (b!"Invalid flag: '" ++ f ++ b!"'.")

/-- `validate_and_update`, OptionData.cpp:57-109. -/
def validateAndUpdate (o : OptData) (style : OptionStyle) : Outcome OptData :=
  if o.flags.isEmpty then .throw b!"Option must have one or more flags."
  else do
    checkFlags style o o.flags
    if !o.argument.isEmpty && !o.constant.isEmpty then
      .throw b!"Option cannot have both argument and constant."
    else match o.operation with
      | .none =>
        if !o.constant.isEmpty then .throw b!"NONE-options cannot have a constant."
        else if !o.alias_.isEmpty then .throw b!"NONE-options cannot have an alias."
        else .ok o
      | .assign =>
        if o.argument.isEmpty && o.constant.isEmpty then .ok { o with constant := b!"1" }
        else .ok o
      | .append =>
        if o.argument.isEmpty && o.constant.isEmpty then
          .throw b!"Options that appends must have either constant or argument."
        else .ok o
      | .clear =>
        let o' := if !o.argument.isEmpty || !o.constant.isEmpty then { o with constant := b!"1" }
          else o
        if !o'.optional then .throw b!"CLEAR-options must be optional." else .ok o'

/-- The loop over the options in `finish_initialization`, CommandData.cpp:433-434. -/
def validateAll (style : OptionStyle) : List OptData → Outcome (List OptData)
  | [] => .ok []
  | o :: os => do
    let o' ← validateAndUpdate o style
    let os' ← validateAll style os
    pure (o' :: os')

/-- `update_require_command`, CommandData.cpp:270-279: the new value of `require_subcommand`. -/
def updateRequireCommand (require : Option Bool) (commands : List Command) :
    Outcome (Option Bool) :=
  if require.getD false && commands.isEmpty then
    .throw b!"require_command is true, but no commands have been added."
  else match require with
    | none => .ok (some (!commands.isEmpty))
    | some r => .ok (some r)

/-- `has_help_option`, CommandData.cpp:281-289. -/
def hasHelpOption (options : List OptData) : Bool :=
  options.any fun o => decide (o.type = .help)

/-- `has_flag`, CommandData.cpp:410-423. -/
def hasFlag (options : List OptData) (flag : Str) (ci : Bool) : Bool :=
  options.any fun o => o.flags.any fun f => areEqual f flag ci

/-- The flags chosen by `add_help_option`, CommandData.cpp:297-316. -/
def helpFlags (options : List OptData) (style : OptionStyle) (ci : Bool) : List Str :=
  match style with
  | .standard =>
    (if !hasFlag options b!"-h" ci then [b!"-h"] else []) ++
    (if !hasFlag options b!"--help" ci then [b!"--help"] else [])
  | .slash => if !hasFlag options b!"/?" ci then [b!"/?"] else []
  | .dash =>
    if !hasFlag options b!"-h" ci then [b!"-h"]
    else if !hasFlag options b!"-help" ci then [b!"-help"] else []

/-- `add_help_option`, CommandData.cpp:291-326: the new list of options. -/
def addHelpOption (options : List OptData) (currentSection : Str) (s : ParserSettings) :
    List OptData :=
  if !s.generateHelpOption then options
  else if hasHelpOption options then options
  else
    let flags := helpFlags options s.optionStyle s.caseInsensitive
    if flags.isEmpty then options
    else options ++
      [{ flags, type := .help, help := .text b!"Display this help text.", constant := b!"1",
         section_ := currentSection }]

/-- The callback number of the version option's callback (ParserData.cpp:46-51). -/
def versionCallback : Nat := 0

/-- The flag chosen by `add_version_option`, ParserData.cpp:22-37 (empty: none). -/
def versionFlag (options : List OptData) (style : OptionStyle) (ci : Bool) : Str :=
  match style with
  | .standard => if !hasFlag options b!"--version" ci then b!"--version" else []
  | .slash => if !hasFlag options b!"/VERSION" ci then b!"/VERSION" else []
  | .dash => if !hasFlag options b!"-version" ci then b!"-version" else []

/-- `add_version_option`, ParserData.cpp:17-57: the new list of options. -/
def addVersionOption (options : List OptData) (currentSection version : Str)
    (s : ParserSettings) : List OptData :=
  if version.isEmpty then options
  else
    let flag := versionFlag options s.optionStyle s.caseInsensitive
    if flag.isEmpty then options
    else options ++
      [{ flags := [flag], type := .stop, help := .text b!"Display the program version.",
         constant := b!"1", callback := some versionCallback, section_ := currentSection }]

/-- `InternalIdMaker`, CommandData.cpp:333-373: `explicit_ids` and `id`. -/
structure IdMaker where
  ids : List (Str × Nat)
  id : Nat
  deriving Repr, DecidableEq

namespace IdMaker

/-- `find_value_id`, CommandData.cpp:343-349. -/
def find (m : IdMaker) (name : Str) : Option Nat := m.ids.lookup name

/-- `explicit_ids.emplace(name, id)`: no effect if the name is present. -/
def emplace (m : IdMaker) (name : Str) (id : Nat) : IdMaker :=
  match m.find name with
  | some _ => m
  | none => { m with ids := m.ids ++ [(name, id)] }

/-- A sequence of `emplace` calls with the same id. -/
def emplaceAll (m : IdMaker) (names : List Str) (id : Nat) : IdMaker :=
  names.foldl (fun m n => m.emplace n id) m

/-- `get_value_id(string_view)`, CommandData.cpp:351-358. -/
def getValueId (m : IdMaker) (name : Str) : Nat × IdMaker :=
  match m.find name with
  | some v => (v, m)
  | none => (m.id + 1, { m with id := m.id + 1 }.emplace name (m.id + 1))

/-- `get_value_id(vector<string>)`, CommandData.cpp:360-372. -/
def getValueIds (m : IdMaker) (names : List Str) : Nat × IdMaker :=
  match names.findSome? m.find with
  | some v => (v, m)
  | none => (m.id + 1, { m with id := m.id + 1 }.emplaceAll names (m.id + 1))

end IdMaker

/-- The argument loop of `set_internal_ids`, CommandData.cpp:377-390. -/
def setArgIds : List ArgData → (argumentId : Nat) → IdMaker → List ArgData × Nat × IdMaker
  | [], n, m => ([], n, m)
  | a :: as, n, m =>
    let (v, m') :=
      if !a.alias_.isEmpty then
        let (v, m1) := m.getValueId a.alias_
        (v, m1.emplace a.name v)
      else m.getValueId a.name
    let (as', n', m'') := setArgIds as (n + 1) m'
    ({ a with argumentId := n + 1, valueId := v } :: as', n', m'')

/-- The option loop of `set_internal_ids`, CommandData.cpp:391-406. -/
def setOptIds : List OptData → (argumentId : Nat) → IdMaker → List OptData × Nat × IdMaker
  | [], n, m => ([], n, m)
  | o :: os, n, m =>
    if o.operation = .none then
      let (os', n', m'') := setOptIds os (n + 1) m
      ({ o with argumentId := n + 1 } :: os', n', m'')
    else
      let (v, m') :=
        if !o.alias_.isEmpty then
          let (v, m1) := m.getValueId o.alias_
          (v, m1.emplaceAll o.flags v)
        else m.getValueIds o.flags
      let (os', n', m'') := setOptIds os (n + 1) m'
      ({ o with argumentId := n + 1, valueId := v } :: os', n', m'')

/-- Everything `finish_initialization` (CommandData.cpp:426-443) does to a command itself,
before its sub-commands; the result carries the ids to start the sub-commands with. -/
def finishSelf (s : ParserSettings) (fullName : Str) (c : Command) (startId argId : Nat) :
    Outcome (Command × Nat × Nat) := do
  let options ← validateAll s.optionStyle c.options
  let require ← updateRequireCommand c.requireSubcommand c.commands
  let options := addHelpOption options c.currentSection s
  let (arguments, n1, m1) := setArgIds c.arguments (argId + 1) ⟨[], startId⟩
  let (options, n2, m2) := setOptIds options n1 m1
  let index ← buildOptionIndex options s.caseInsensitive
  pure ({ c with
    fullName, arguments, options
    requireSubcommand := require
    argumentId := argId + 1
    optionIndex := index }, m2.id, n2)

mutual
/-- `finish_initialization(cmd, data, start_id, argument_id)`, CommandData.cpp:426-448.
The full name is passed in by the caller (lines 431-432 and 445). -/
def finishCommand (s : ParserSettings) (fullName : Str) (startId argId : Nat) :
    Command → Outcome Command
  | ⟨arguments, options, commands, currentSection, name, fn, texts, visibility,
      requireSubcommand, multiCommand, section_, id, argumentId, optionIndex⟩ => do
    let (c', startId', argId') ← finishSelf s fullName
      ⟨arguments, options, commands, currentSection, name, fn, texts, visibility,
        requireSubcommand, multiCommand, section_, id, argumentId, optionIndex⟩ startId argId
    let commands' ← finishCommands s name startId' argId' commands
    pure { c' with commands := commands' }
/-- The loop over the sub-commands, CommandData.cpp:443-447. -/
def finishCommands (s : ParserSettings) (parentName : Str) (startId argId : Nat) :
    List Command → Outcome (List Command)
  | [] => .ok []
  | c :: cs => do
    let c' ← finishCommand s (parentName ++ [32] ++ c.name) startId argId c
    let cs' ← finishCommands s parentName startId argId cs
    pure (c' :: cs')
end

/-- `finish_initialization(ParserData&)`, ParserData.cpp:60-64. -/
def finishInitialization (d : ParserData) : Outcome ParserData := do
  let c := { d.command with
    options := addVersionOption d.command.options d.command.currentSection d.version d.settings }
  let c' ← finishCommand d.settings (if c.fullName.isEmpty then c.name else c.fullName) 0 0 c
  pure { d with command := c' }

end Argos
