# Verification design: jebreimo/Argos in Lean 4

The Lake project is in `lean/`; modules live under `lean/Verif/`:

* `Verif/Base.lean` – byte strings, string literals, the `Outcome` type.
* `Verif/Model/*.lean` – the model of the C++ code. Every definition cites file and lines in `/repo`.
* `Verif/Spec/*.lean` – independent specifications the properties are stated with.
* `Verif/Proofs/*.lean` – helper lemmas.
* `Verif/Props/*.lean` – the property theorems, each with an `example` showing a concrete case
  that meets the hypotheses, and the counterexample theorems.

## Modelling decisions (apply to all properties)

* `single_src/Argos/Argos.cpp` and `Argos.hpp` contain every file of `src/Argos` and `include/Argos` once and unchanged, apart from
  preprocessor lines and `//` comments (compared as text; `ArgosVersion.hpp.in` is generated), so the model is one of them as well.
* `std::string`/`string_view` = `List UInt8` (`Str`). `char` is taken to be signed (x86/ARM-Darwin ABI) where the
  code converts it to `int` (`compare_ci`), and `std::string` comparison is on unsigned bytes (the standard's `char_traits<char>`).
* `size_t` positions are `Nat`; `std::string::npos` is a separate value (`none`). This is exact as long as strings
  are shorter than 2^64-1 bytes. Counters are `Nat`, with the explicit `SIZE_MAX` saturation of the code kept.
  `int` ids are `Nat` (no overflow of 2^31 declarations).
* Undefined behaviour is a separate outcome: `Outcome` has the constructors `ok`, `throw` (ArgosException), `outOfRange`
  (std::out_of_range), `exit code` and `ub`. Indexing, `front()` of empty spans, null dereferences and sorting with an
  inconsistent comparison evaluate to `ub` when their precondition fails.
* `std::sort` is modelled by insertion sort (equivalent elements keep their order, as in the library implementations for up to
  16 elements; in general their order is unspecified) when the comparison is a strict weak order on the elements, and by `ub` otherwise. `std::lower_bound` is the
  halving loop used by libstdc++, libc++ and MSVC.
* `std::multimap` is a key-sorted association list, insertion at the upper bound of the key (C++11 guarantee).
* Pointers to definitions (`const OptionData*` ...) are modelled by the value they point to; definitions are immutable while parsing.
  The tree of `shared_ptr<ParsedArgumentsImpl>` is modelled by the active stack with the finished children inside each
  frame (the active frame `i+1` is always the last child of frame `i`).
* Callbacks are arbitrary functions (parameters of the model) of the call number, the definition, the value and the
  visible parse state. They return a list of builder operations or a throw, and a list of new arguments. The call number makes
  stateful callbacks expressible.
* Loops that may not terminate (callbacks can insert arguments for ever) take fuel; termination is a theorem.
* The stream is a log of events in the parser model (`help`, `error`, with the command; calls of callbacks); the text formatting part models
  the texts, and Model/Screen writes the events to the streams.

## Not modelled

* Text formatting: `unsigned` widths are natural numbers (texts shorter than 2^32), writing to the stream succeeds, text callbacks return the
  same text at every call and throw nothing, `isdigit` is given a non-negative value (the code may pass a negative `char`), and
  `TextFormatter::flush`, which nothing calls, is left out.
* Memory allocation failure, exceptions thrown by the output stream, `std::locale`, the console width query
  (the system call in `ConsoleWidth.cpp:22-50`; its answer is a parameter), what a client's callbacks write themselves, C++ object lifetime of `string_view`s that the client stores itself (those inside `ArgumentValue` and `ArgumentValues` are modelled in
  Model/Objects, those of `ArgumentValueIterator` in Model/Cursors; values that are held while an `ArgumentIterator` goes on are looked up again by their place, C96: whether a `string_view` still refers to the same memory is left out).
* `strtol`/`strtoul` are external: modelled from the C standard up to C17 (all bases, C locale, 64-bit `long`, 32-bit `int`; `EINVAL` for
  bases that don't exist, as in POSIX). The prefix `0b` that C23 added for bases 0 and 2 isn't in the model. Negative bases aren't either.
* `strtof`/`strtod` are external: which strings they accept and the exact number is modelled from the C standard (C locale); rounding and
  `ERANGE` are a parameter (`convert`).

## Trusted base

* Lean's kernel, and the axioms `propext`, `Classical.choice`, `Quot.sound` (`#print axioms` of every theorem in MANIFEST.json; none depends on another one).
* The model: the correspondence between the Lean definitions and the cited C++ lines was made by reading; it is not machine checked.

## Plan per property

(“violated” = the code breaks the property; the negation is proved with a concrete witness and the
part that does hold is proved as a theorem with suffix `_partial`.)

| Property | What is modelled | How it is proved |
|---|---|---|
| C01 | StandardOptionIterator, the whole parser with callbacks | the same tokens (`C01_tokens`, `C01_tokens_any`); for `parse` a simulation between two states whose iterators read the same from now on (`Beside`, `First` in Proofs/Flags, `Follows` in Proofs/FlagsParser): same outcome, results, calls and output for all callbacks. **Violated** if the second flag is a dash (`-a-b`) and if unknown options are ignored (`-vy` is an error, `-v -y` isn't). Commands that count their arguments in advance: the same tree for accepted lines of a predictable STANDARD parser whose callbacks add no arguments (`C01_counted_partial`, through the grammar, `Bunched`), and **violated** without predictability (`C01_count_violated`: `-n -qm x a b` fails and `-n -q -m x a b` succeeds, because counting takes the next word for the value of `-n`). Missing there: failing lines and inserting callbacks |
| C02 | StandardOptionIterator next/next_value; the parser with any callbacks | tokens: direct computation for all strings; parse: two runs whose iterators differ only in what has been read stay in step (simulation, as C01); for commands that count their arguments through the grammar (C57); **violated** if an option without a value has an argument name and the arguments are counted (C02_count_violated) |
| C03 | next of all iterators | induction over arguments/characters: token stream = specification `tokens` |
| C04 | next_value of all iterators, LAST_OPTION | induction; **violated** for SLASH/DASH |
| C05 | remaining_arguments | invariant giving the unread part of every iterator state |
| C06 | insert | unread part after insert = inserted ++ unread part before |
| C07 | build_option_index, find_option | merge sort + bisection correctness over a total order |
| C08 | the same with abbreviations | neighbours in sorted order contain all prefix matches |
| C09 | the same with compare_ci | **violated** for flags with `[ \ ] ^ _` and backtick; partial for the rest |
| C10 | build_option_index | sorted list has equal neighbours iff it has duplicates |
| C11 | validate_and_update, tokenisers, find_option | case analysis over flag grammar |
| C12 | add_help_option, add_version_option | direct |
| C13 | ArgumentCounter | induction over the argument list |
| C14 | ArgumentCounter::is_complete | exact description of the accepted numbers (C14_exact): invariant of the counter; **violated** for several optional arguments |
| C15 | Argument setters | invariant over call histories |
| C16 | value multimap | refinement to a function from id to list |
| C17 | get_value/get_values/has | direct from the refinement |
| C18 | m_ids table and bisection | sorted lookup; names of the table = declared names |
| C19 | set_internal_ids | **violated** (transitive links); partial: soundness of linking |
| C20 | set_internal_ids, finish_initialization | induction |
| C21 | parser loop | decreasing measure of the unread command line |
| C22 | parser loop with ub outcomes | invariant, no `ub` reachable |
| C23 | parser | **violated** for stop options in sub-commands; partial |
| C24 | parser | **violated** for parent commands; partial for the last active command |
| C25 | parser + counter | invariant relating counter and stored values |
| C26 | parser | direct step lemma |
| C27 | parser next() | direct |
| C28 | parser | invariant |
| C29 | parser | step theorem, tree and order of the unprocessed arguments; no other effect on the whole line: `C29_parse_partial` (see C83). **Violated** for concatenated flags and, where arguments are counted in advance, when the ignored option is taken for a value (`C29_count_violated`); partial |
| C30 | filter_parsed_arguments | induction |
| C31 | parser init | **violated** for sub-commands; partial |
| C32 | parser + store | simulation with the log of events |
| C33 | parser | simulation with the log of callback invocations |
| C34 | parser, update_require_command | invariant |
| C35 | parser zipper | invariant |
| C36 | make_copy | **violated** (version option lost); partial |
| C37 | handles | state machine over handle operations; **violated**; partial |
| C38 | add, copy_from | invariant; **violated** by copy_from; partial for add |
| C39, C40 | ParseValue on top of a strtol model | arithmetic, round trip, base 0; C40 **violated** for negative strings |
| C41 | split_string | induction |
| C42 | are_equal_ci etc. | table over bytes lifted to lists |
| C43 | as_bool | direct |
| C44 | count_code_points, find_nth_code_point | induction over encoded code points |
| C45 | WordSplitter | case analysis + code point lemmas; the loop over the places of a rule finds the last one that fits (invariant: width so far) |
| C46, C47 | TextFormatter/TextWriter | loop invariant on append_word |
| C48 | TextFormatter alignment state machine | **violated**; partial |
| C49 | next_line, write_lines | **violated** for text ending in CR; partial |
| C50 | HelpText sections | filter/grouping characterisation; which command a path leads to by induction over it; names in error messages by the unique ids (C20) |
| C51 | copies | **violated** (visibility, version); partial |
| C52 | HelpText + writer | every path ends with newline |
| C53 | finish_initialization names | **violated** for depth > 2; partial |
| C54 | parser | **violated** (LAST_ARGUMENT/STOP with auto_exit, errors); partial |
| C55 | count_arguments vs. parse | **violated** for odd options; partial |
| C56 | ArgumentValues::value | **violated** (std::out_of_range / no value); partial |
| C57 | next/parse vs. a grammar of command lines (Spec/Grammar), every option style | soundness, uniqueness and equivalent spellings; SLASH/DASH: no empty arguments (**violated**, an empty value is read twice) and no LAST_OPTION options; completeness needs a reliable look-ahead count and a value for the last argument if arguments are counted: exact verdict in C57_exact_partial (**violated** otherwise) |
| C58 | get_base_name, constructor, parse(argc, argv), make_iterator | base name characterised uniquely; **violated** by const parse and iterators; partial |
| C59 | ParsedArguments::value(s), get_argument_view, get_argument_id | C32 refinement + unique ids; all definitions sharing a value by filtering; **violated** by value(view) for linked options |
| C60 | ArgumentIterator; a `ParsedArguments` is the way from the top-level node to its node | iteration = trace of `parse`; the ways stay valid under every result; **violated** by parsed_arguments() after a sub-command |
| C61 | ArgumentIterator::next | agreement of the stack with the open commands, before and after a result; **violated** by the value reported for sub-commands |
| C62 | grammar of C57; phrases in Spec/Phrase.lean | the values depend on the occurrences only as far as they concern the same value; C57 in both directions; **violated** when arguments are counted wrongly |
| C63 | as C62; the parser with any callbacks | exchange of flags in the grammar, then C57; without counted arguments for every outcome by simulation (C63_any_partial); **violated** by case-insensitive flags with irregular characters (C09) |
| C64 | as C57; Spec/Faults: what can be wrong at a point of a line and the message for it | cases of `next` that write a message, the counter's state at that point, induction over the sub-commands; malformed by comparing the readings of the line; the one false message of correctly counted arguments is characterised exactly (`Overlooked`); **violated** by it and where the arguments are counted wrongly (C14, C55) |
| C65 | world model (all setters and `add`); Spec/Declaration: the last call about an attribute | induction over the program, per attribute: a call on another object or about another attribute keeps it; contents by induction with the additions so far |
| C66 | next/parse vs. a grammar with further sub-commands (Spec/Several), every option style | soundness by induction on the trace with the open commands as state, completeness by induction on the grammar; C57's grammar is the special case; exact for every parser with a correct look-ahead count (`C66_exact_partial`: well-formed, and the last of counted arguments is served); without the latter **violated** |
| C67 | the view classes (Model/Results), initialisation; Spec/Results: what a view of a declaration shows | relation between declaration and view kept by each step of the initialisation, for every path in the tree; **violated** by the help text of commands (the view returns the ABOUT text) |
| C68 | `as_int` …, `split` of ArgumentValue(s) with what they report; `write_error_message` | case analysis with C59 (the source) and the names of C50; induction over the values |
| C69 | ArgumentValues, its iterator | induction over the values |
| C70 | `print(ParsedArguments)`; Spec/Results: `Shows` | sorting is stable; induction over the sorted views for the labels; induction over the tree |
| C71 | write_help_text, write_argument_sections, write_usage on top of the formatter; Spec/Layout: `helpLayout`, `SetHelp` | exact text by induction over the words of a line that fits; hanging indentation as an invariant of write_words; **violated** if a list marker precedes the usage; partial |
| C72 | process_option, process_argument, callbacks with arbitrary behaviour (`Env`), builder calls; Spec/Active: `Acts`, `Acted`, `Told` | relation between the stack and the open commands (`Rel`) as an invariant of next(), for every environment; sublist induction for callbacks that only add |
| C73 | parse_floating_point, get_floating_point, parse_floats, strtod's scanning (Model/Floats); Spec/Floats: grammar `FloatLiteral` with exact rational value | the greedy scan accepts the whole string iff it is in the grammar, by splitting at the first non-digit; C68 for the messages |
| C74 | get_console_width, streams, make_formatter, write_help_text, write_error_message (Model/Screen, Model/HelpText) | C50 and C52, and a characterisation of the settings with which a formatter can be made (`Writable`), proved in both directions; **violated**: line widths 1 and 2 and bad word splitting rules are accepted when declared |
| C75 | the events of the parser (Model/Parser) written to streams (Model/Screen) | invariant over runs: only the last result shows something (C24's `stop_last`, `StepLog`), the argument counter belongs to the active command (Proofs/Sound); C74 for the texts, C64 for the truth of messages (and for the one message that isn't true); **violated** with the settings of C74: the exception replaces the message |
| C76 | CommandData::copy_from, to_string(TextId) (Model/World) | induction over the texts of the source, sorted in all programs (`Kept`); **violated**: after the exception the arguments, options, sub-commands and some texts have been copied; a command copied to itself exactly: undefined behaviour iff it has arguments, options or sub-commands (`C76_self`) |
| C77 | write_words, append_word and everything in HelpText.cpp above them; Spec/Filling: `fill` (greedy filling of a line), `setText`, `helpPage`, `errorPage` | exact text by induction over words, lines, list entries and usage parts, with the state of writer and formatter as invariant (`At`, `Begins`); **violated** by a list marker alone on its line (its state leaks into the next line); partial: no tabs, words that fit and match no splitting rule |
| C78 | finish_initialization and all of ArgumentIteratorImpl.cpp; Spec/Bare: `bareData` leaves out what is only shown, `SameAnswers` compares results | every function of the model commutes with leaving it out (`Commutes`, closed under sequencing), induction over the calls of next; a relation between two runs |
| C79 | finish_initialization (validation, generated options, numbering of values, sorted index) and all of ArgumentIteratorImpl.cpp; Spec/Reorder: `Reordered` permutes the options of each command, `SameValues` compares results by name | sorted indices of the same flags are equal; numbers of values correspond one to one (`Corr`, from C19); every function of the model preserves a simulation relation between the two states (`Sim`), induction over the calls of next. False for links before their declaration (`C79_links_violated`) and for several initial values of one value (`C79_initial_violated`) |
| C80 | the same as for C57 and C79; Spec/Extend: `Enlarged` appends options to each command, `KeepsValues` compares the old names in the results | the numbers of the old values are shifted (`Shifted`), new initial values get numbers of their own; flags, written pieces, allotted arguments and completeness carry over by induction on the grammar of C57 (`accepts_grown`), whose soundness and completeness give the theorem about `parse`; trees of values by C32. False with abbreviations (`C80_abbreviation_violated`), new flags that end in `=` (`C80_equals_violated`) and initial values of linked options (`C80_initial_violated`) |
| C81 | the callbacks' `newArguments`, `insert` of both iterators, the recount after an insertion; Spec/Insert: `Env.inserting` lets one call give arguments in addition | a state with more arguments to come (`PState.more`) takes the same steps until the callback inserts (`next_full`, `trace_full`), then both runs are in the same state, so they go on equally (`inserted_parse`). Partial: the first part must have been read completely when the callback is called, and no command counts its arguments in advance; false otherwise: `C81_count_violated` (after `--` the recount treats arguments as options), `C81_flags_violated` (`-a-b` goes on with `--b`) |
| C82 | findOption, the whole parser with callbacks, finishInitialization | `Looser` (Spec/Settings) says which settings may differ. Initialisation: equal by induction over the command tree (`C82_init`). `parse`: every method does the same under the looser settings or writes an error message (`Loosens`, `Persists` in Proofs/Loosen), error messages stay, induction on the number of steps (`C82_parse_partial`: all callbacks, all outcomes). Counted arguments: through the grammar (`C82_counted_partial`). **Violated** if abbreviations are turned on and a command counts its arguments (`cp - a b`: the argument `-` counts as an abbreviation of the only flag) or undefined options were ignored before (`--out` is no longer ignored) |
| C83 | the whole parser with callbacks; Spec/Ignored: `Env.Heedless` (callbacks do not look at the unprocessed arguments), `UsedUp` | a run whose line has one more ignored word is simulated by the run without it, the states differing only in the unprocessed arguments of one node (`Marked` in Proofs/Ignored), induction on the number of steps. `C83_reported_partial`: whatever is reported as UNKNOWN has no other effect; `C83_parse_partial`: an argument that comes when all declared arguments are used up is such. **Violated** when arguments are counted in advance (`C83_count_violated`) and in the SLASH/DASH styles after a LAST_OPTION option (`C83_style_violated`: every argument is followed by an empty one nobody has written); partial |
| C84 | the whole parser with callbacks, finishInitialization; Spec/Nested: `inside` (results put in those of the enclosing commands), `alone` (the declaration of the sub-command as a parser), `Env.later` (the callbacks after some calls) | simulation: every method does the same when the stack has more nodes below it, the log starts with earlier events and callbacks have been called before (`Nested`, `Nests` in Proofs/Nested), induction on the number of steps. `C84_nested_partial` compares initialised parsers exactly; `C84_parse_partial` compares declarations, up to the numbers given out, with the help of C79's simulation; `C84_accepted`: the sub-command alone is accepted. The alone parser has the full name of the sub-command, which the API does not let one set and which is shown in messages only. **Violated** by initial values, which sub-commands do not get (`C84_initial_violated`, cf. C31); partial |
| C85 | the whole parser with callbacks; Spec/Resume: `Before` (enclosing results that differ in earlier sub-commands), `Preceded` (results with earlier ones in front) | simulation of two runs of the same parser whose stacks have the same innermost part and differ in earlier sub-commands of the outer commands (`Frames`, `Resumed`, `Resumes` in Proofs/Resume); callbacks are called only while a command entered since is active, because a command that has become active again only looks for sub-commands. An invariant (`Unhindered`) says that a command without arguments is not waiting for any, so the count of arguments ahead is the same in both. **Violated** by a command that has mandatory arguments and sub-commands: while it waits for arguments, the names of siblings are not recognised when the arguments of a sub-command are counted, and this ends when the parent becomes active again (`C85_counting_violated`: `b 1 2 a` and `a b 1 2 a`); partial for commands that have not both (`Exclusive`) |
| C86 | the whole parser with callbacks; Spec/Onward: `EndUntouched` (the end of the line is not looked at), `Over`, `EndsAlike` | a run with more words to come (`PState.more`) takes the same steps (`trace_onward`), and so does the last call of `next()` whatever its outcome (`KeepsOn` for every method, `next_served`); in the end the further words become unprocessed arguments of the innermost command. **Violated** by commands that need the number of arguments (`C86_counting_violated`); partial for the others |
| C87 | the initialisation and the whole parser with callbacks; Spec/Regroup: `Regrouped` (the same sub-commands in any order, at all levels), `SameTree`, `SameMoment`, `SameCourse` | all sub-commands of a command start with the same numbers, so that the completed sub-commands are permuted too (`regroup_order`, `regroup_kin`); the same one is found by its name (`Kin`); every method of the parser does the same in related states (`Proofs/Regroup`). **Violated** by two sub-commands with the same name, which are accepted (`C87_names_violated`); partial |
| C88 | as C87, with further sub-commands (`Regrouped new`), `NotNew` | the same simulation; new sub-commands are only found by words that are or end with one of the new names (`Clean`, kept by the reading of words, values and inserted words: `C88_absent_partial`), or, without commands that accept several sub-commands, only where "Unknown command" is reported otherwise (`C88_parse_partial`). **Violated** by commands that accept several sub-commands, where an argument turns into the name of a new one (`C88_several_violated`); partial |
| C89 | `Wish` (options by any flag with values, an optional LAST_OPTION marker, arguments with the declared argument each belongs to; or options, a sub-command and a wish for it), `Wish.words` (how it is written), `Wish.tree` (what should be found) | accepted flags are read back as they are written (`read_wanted`, from the checks of declarations), so the words are well-formed (`written_wish`) and C57 and C32 give success and the values (`C89_said_partial`); different wishes are written differently (`C89_unambiguous`). **Violated**: without a LAST_OPTION option no argument can begin with the flag character (`C89_dash_violated`, for all command lines), and sub-commands whose names look like options are accepted but cannot be reached (`C89_name_violated`, for all command lines); partial |
| C90 | `TreeAlike` (the same commands, with data that are related), `SameButFor` (all values the same except one), `KeepsMandatory`, `Dispensable` | one more option piece leaves the allotment of the arguments and the counts alone (`accepts_more`), C57 turns this into success, and an option writes to its own value only (`valuesOf_insert`, `OneMore.values`): `C90_added_partial`, `C90_removed_partial`, `C90_value_partial`. **Violated** when arguments have to be counted in advance and an option without value has an argument name: `a b` succeeds and `--odd a b` fails (`C90_count_violated`); partial; options with the operation NONE can be added or left out and all values are the same, the option's own too (`C90_none_partial`, Props/Override) |
| C91 | Model/Objects: variables that hold ParsedArguments, ArgumentValue, ArgumentValues, OptionView or CommandView; shared ownership as “somebody owns the node or an ancestor”; null, dangling and out-of-scope uses are `ub`. Spec/Objects: what a client knows of its variables (gone, blank, belonging to a parse) and the rules | invariant between what the client knows and what the variables hold (`Agrees`), by induction over the program: no `ub` (`C91_safe_partial`); reading a variable shows the same after anything that leaves it alone (`C91_unchanged`, `C91_survives`); default-constructed and moved-from ArgumentValues throw (`C91_default`, `C91_moved`). **Violated** for ParsedArguments and ArgumentValues that have been moved from or default-constructed (null pointer), for the text of a moved-from ArgumentValue, and for views that outlive the results (`C91_…_violated`); partial; for all results, what a view and a moved-from value show while the results exist, and that they are undefined behaviour afterwards although other results exist (`C91_view`, `C91_text`) |
| C92 | no new model. Spec/Ease: what it means that a command demands less (`Eased`: options that become optional, sub-commands that may be left out, wider counts) | initialization of the relaxed declarations is followed step by step and gives the same numbers (`C92_init`); the grammar of C57 is transferred piece by piece, abbreviations included (`C92_accepts`), and with soundness and completeness of `parse` for the grammar, the same values (`C92_parse_partial`); a longer last argument and a single argument can always be relaxed (`C92_last`, `C92_single`). **Violated** for an earlier argument that takes more (`C92_maximum_violated`), a later one that needs less (`C92_minimum_violated`), and an argument before an optional one that becomes optional (`C92_counting_violated`: a line is rejected that was accepted); partial |
| C93 | WordSplitter: `split`, `default_rule` | the loop returns the last border: induction on the characters left, with the positions of the code points (`pos k`) as invariant and the two bytes at a position related to the code points; for all words in UTF-8, rules about other words, starts and widths. Violated: a hyphen before `/` because the last two columns aren't examined; a comma separated from a word with a rule |
| C94 | no new model. Spec/Blind: when the case makes no difference in a command (`CaseBlind`: no flags or sub-commands that differ only in case, also not up to a final `=`; flags the case-insensitive order can handle) | initialization is followed step by step: the generated options are the same and only the index is sorted differently (`Recased`, `C94_init`); the grammar of C57 is transferred to case-insensitive names (`accepts_blind`) and to the other index (the lemmas of C92), then soundness and completeness of `parse` (`C94_parse_partial`, counted arguments included). **Violated** if an option `-H` takes `-h` from the help text, for `--foo` and `--FOO=` (accepted, the value goes elsewhere), for sub-commands `add` and `Add` (accepted, the second one is hidden), and with abbreviations; partial |
| C95 | `ArgumentValueIterator` (Model/Cursors, on top of Model/Objects): its share of the results, and which vector its iterator refers to after moves, assignments and destructions | the rules are in Spec/Cursors and only look at the operations; invariant `Travels`: an iterator is where the client knows it to be, its share and its list have the same results, positions are at most the size. The only undefined behaviour left is going on from the end, and a comparison with `end()` shows it (`C95_safe_partial`, `C95_ready_partial`); `C95_nth`, `C95_unchanged_partial`. **Violated** for iterators of a temporary list (`auto it = args.values("IN").begin();`: the iterator keeps the results but not the list), for default-constructed ones, and when `begin()` and `end()` come from two calls of `values` |
| C96 | `ArgumentIterator` (Model/Iteration); a held value is the entry at an index of the values of a view, in the object at a reference (the values are nodes of a `std::multimap`, which stay where they are until they are erased) | Spec/Held only looks at the reports. `Tree.GrowsBy`: each step leaves every part of the tree of commands in its place and only adds occurrences to it; then the values before are a prefix of those after unless one of the added occurrences assigns or clears (`C96_kept_partial`), equal if none of them concerns the value (`C96_unconcerned`), equal at the end (`C96_end`), kept by an error as well unless an option of type `LAST_ARGUMENT` assigns or clears them (`C96_last_partial`). **Violated** by an option that is given twice (`C96_violated`), and by an option that ends an incomplete command line: its value is stored although `next()` returns false and reports no option (`C96_silent_violated`) |
| C97 | the parser (Model/Parser) with `auto_exit` off; the specification `given` (Spec/Tree) only looks at the results of `next` | case analysis of the steps that end with an error: all leave the stack as it was, up to codes and unprocessed arguments, but one (`Step.fails`); so the values are those of the results, with at most one option of type `LAST_ARGUMENT` more (`C97_values`), exactly those without such options (`C97_exact_partial`), and those of any accepted command line with the same results (`C97_same_partial`). **Violated** by an option of type `LAST_ARGUMENT` that is given too early: it is refused, but its value has replaced the one before |
| C98 | the parser (Model/Parser) and the grammar of Spec/Grammar; `Overrides` (Spec/Override) only looks at the declarations of the two options | phrases with as many arguments and the same effect on the values can be exchanged anywhere on the line (`accepts_exchange`, by refinement of `parse` to the grammar; `C98_exchange_partial`), of which C62 is another instance; an option before one that replaces its value has no effect, by induction over the writes (`C98_parse_partial`, in both directions); for any number of options, only those from the last replacing one on count, for each value (`effective`, `SameFinal`, `C98_final_partial`, which also covers C62; by name `C98_values_partial`); the text of the last assignment is the only value, also for parsers that aren't predictable (`C98_value`); options that append are different (`C98_append_kept`). **Violated** by parsers that count their arguments wrongly (`C98_count_violated`: `a b --file x` is accepted, `--odd a b --file x` is not) |

## Ghost state and passive callbacks

The parser state has a log of events that the C++ code doesn't have; it is written but never read by the model. Properties about what the
values are (C25, C31, C32, C55, C57, C59, C61, `C33_seen`) assume `Env.Passive` callbacks (no new arguments, no builder operations) or `Env.Silent` ones (which also return
normally); each theorem states which. C21 assumes only that callbacks insert no arguments. C22, C23, C24,
C26-C28, C34, C35 and the rest of C33 are about arbitrary callbacks.

## Testing the theorems (`seeded/LOG.jsonl`)

Each line is one wrong program: one edit of a model definition in a scratch copy of a commit, which is then rebuilt. A theorem is listed in
`theorems_failed` if its proof is rejected, or if it depends on a lemma whose proof is rejected; failing proofs are not repaired. So a listed theorem
isn't thereby shown to be false of the wrong program: a proof can also break because its script no longer fits. The stronger evidence is the opposite
one, an edit which *no* theorem notices. `outcome` is `detected` only if a theorem of a property that the edit was aimed at is among the failed ones.

A first run of this test was discarded and none of its results are in the log. It copied the working tree, so that unfinished theorems were built with the
edits, and it counted theorems written during a run as failed, which made at least one surviving edit (M035) look detected. The results in the log come
from runs on a fixed commit (field `commit`) whose unedited build is checked first.
