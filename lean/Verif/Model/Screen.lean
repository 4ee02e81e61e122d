import Verif.Model.Parser
import Verif.Model.HelpText

/-!
# What is written while a command line is parsed

The parser (Model/Parser.lean) records help texts, error messages and calls of callbacks as events. Here
they are written: the text of each, and the stream it goes to.

Simplified: a client's callbacks write nothing themselves. What has been written before a text fails isn't
recorded. Streams never fail.
-/

namespace Argos

/-- The streams: `std::cout`, `std::cerr`, and the one given to `ArgumentParser::stream`
(`HelpSettings::output_stream`, ParserData.hpp:45). -/
inductive Stream where
  | stdout | stderr | custom
  deriving Repr, DecidableEq

/-- What the parser writes to and with. -/
structure Screen where
  /-- What the system says about the width of the terminal, 0 if it says nothing: `get_console_width()`,
  ConsoleWidth.cpp:22-50. -/
  terminal : Nat
  /-- The texts that the functions given as texts return. -/
  texts : Nat → Str
  /-- `output_stream` isn't null. -/
  custom : Bool

/-- `get_console_width(min_width, default_width)`, ConsoleWidth.cpp:54-60. -/
def getConsoleWidth (terminal minWidth defaultWidth : Nat) : Nat :=
  let width := terminal
  if width = 0 then defaultWidth else if width < minWidth then minWidth else width

/-- The width of a formatter if nothing is said about it: `get_console_width(32)`, TextFormatter.cpp:85; the
default is 80, ConsoleWidth.hpp:14. -/
def consoleWidth (terminal : Nat) : Nat := getConsoleWidth terminal 32 80

namespace Screen

/-- The stream of help texts (TextFormatter.cpp:76-78, HelpText.cpp:441-442) and of the version
(ParserData.cpp:42-44). -/
def helpStream (sc : Screen) : Stream := if sc.custom then .custom else .stdout

/-- The stream of error messages, HelpText.cpp:460-463. -/
def errorStream (sc : Screen) : Stream := if sc.custom then .custom else .stderr

/-- What is written by an event. The version's callback is ParserData.cpp:48-53; `program_name` is
ParsedArgumentsBuilder.cpp:126-129. -/
def event (sc : Screen) (d : ParserData) : Event → Outcome (List (Stream × Str))
  | .help cmd => do
    let f ← writeHelpText (consoleWidth sc.terminal) sc.texts d cmd
    pure [(sc.helpStream, f.writer.out)]
  | .error cmd msg => do
    let f ← writeErrorMessage (consoleWidth sc.terminal) sc.texts d cmd msg
    pure [(sc.errorStream, f.writer.out)]
  | .callback cb _ _ _ =>
    if cb = versionCallback then pure [(sc.helpStream, d.command.name ++ b!" " ++ d.version ++ b!"\n")] else pure []

/-- What is written by events. -/
def events (sc : Screen) (d : ParserData) : List Event → Outcome (List (Stream × Str))
  | [] => .ok []
  | e :: es => do
    let out ← sc.event d e
    let rest ← sc.events d es
    pure (out ++ rest)

/-- `parse` with what it writes. A text that can't be written ends parsing with its exception: nothing in the
library catches it. -/
def parse (sc : Screen) (env : Env) (d : ParserData) (args : List Str) (fuel : Nat) : Outcome (Option PNode) × List (Stream × Str) :=
  let r := Parser.parse env d args fuel
  let out := sc.events d r.2.log
  (do let _ ← out; r.1, match out with | .ok l => l | _ => [])

end Screen
end Argos
