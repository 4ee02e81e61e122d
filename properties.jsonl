{"id": "C01", "title": "Concatenated short flags equal separate flags", "statement": "With the STANDARD option style, writing `-pq...` on the command line is equivalent to writing `-p` followed by `-q...` whenever `-p` resolves to an option that takes no argument from the command line and does not change how later arguments are read: the parser sees the same sequence of flags, and parse() returns the same values, result code and sub-commands.", "quantifier": "every command line, every position of the concatenated argument in it, every character p other than '-', every non-empty rest, every parser configuration", "why_tests_cant": "Infinitely many command lines, flag characters and surrounding arguments; unit tests check a few hand-written splits.", "anchors": ["src/Argos/StandardOptionIterator.cpp: StandardOptionIterator::next", "include/Argos/Enums.hpp: OptionStyle::STANDARD", "src/Argos/ArgumentIteratorImpl.cpp: ArgumentIteratorImpl::next, process_option"]}
{"id": "C02", "title": "Every spelling of an option value delivers exactly the value", "statement": "For an option that takes an argument, `--flag=V`, `--flag V`, `-fV` (V non-empty) and `-f V` all deliver exactly the string V as the option's value, and the next token read is the command-line argument that follows. V may be empty (except in `-fV`), may contain '=' and may start with a dash.", "quantifier": "every value string V, every long flag without '=', every short flag character, every remainder of the command line", "why_tests_cant": "The value is an arbitrary byte string; the corner cases (empty, leading dash, embedded '=') multiply with the spellings.", "anchors": ["src/Argos/StandardOptionIterator.cpp: next, next_value", "src/Argos/ArgumentIteratorImpl.cpp: process_option"]}
{"id": "C03", "title": "Tokenising the command line loses, duplicates and reorders nothing", "statement": "Reading the command line flag by flag to the end visits every argument exactly once and in order: the flags read from one argument, glued together (dropping the dash that is repeated for each concatenated short flag), together with the part after '=' that was skipped, give back that argument.", "quantifier": "every list of arguments, in each of the three option styles", "why_tests_cant": "Quantifies over all argument lists; a lost or duplicated argument only shows on particular shapes (empty strings, lone dashes, '=' positions).", "anchors": ["src/Argos/StandardOptionIterator.cpp: next", "src/Argos/OptionIterator.cpp: next"]}
{"id": "C04", "title": "Arguments after the last-option marker are delivered verbatim, once each", "statement": "After an option of type LAST_OPTION (typically `--`) every following command-line argument is taken as a plain argument, unchanged, exactly once and in order, also when it starts with the option prefix. This holds in every option style.", "quantifier": "every list of remaining arguments, each option style", "why_tests_cant": "All argument lists; existing tests only use the STANDARD style with one trailing argument.", "anchors": ["src/Argos/StandardOptionIterator.cpp: next_value", "src/Argos/OptionIterator.cpp: next_value", "include/Argos/Enums.hpp: OptionType::LAST_OPTION", "src/Argos/ArgumentIteratorImpl.cpp: next"]}
{"id": "C05", "title": "The unprocessed remainder is exactly the part of the command line that was not read", "statement": "When parsing stops early, the arguments reported as unprocessed are exactly the command-line arguments after the one that stopped it, in order; if it was one of several concatenated short flags, the flags not yet read come first as one argument `-rest`.", "quantifier": "every command line, every stopping position, each option style", "why_tests_cant": "The remainder depends on the iterator position inside the current argument; the number of (position, tail) combinations is unbounded.", "anchors": ["src/Argos/StandardOptionIterator.cpp: remaining_arguments, split_concatenated_flags", "src/Argos/OptionIterator.cpp: remaining_arguments", "src/Argos/ArgumentIteratorImpl.cpp: copy_remaining_arguments_to_parser_result"]}
{"id": "C06", "title": "Arguments inserted by callbacks are read next and disturb nothing else", "statement": "Arguments that a callback adds through new_arguments are read immediately after the current argument (or current short flag), in the order given, and everything that was still to be read is read afterwards unchanged.", "quantifier": "every command line, every iterator position, every list of inserted arguments, each option style", "why_tests_cant": "Depends on all histories of reads before the insertion; tests only insert once at the start.", "anchors": ["src/Argos/StandardOptionIterator.cpp: insert", "src/Argos/OptionIterator.cpp: insert", "include/Argos/Callbacks.hpp: CallbackArguments::new_arguments", "src/Argos/ArgumentIteratorImpl.cpp: update_arguments"]}
{"id": "C07", "title": "Exact flag lookup", "statement": "With case-insensitivity and abbreviations off, a flag typed on the command line selects an option if and only if it is one of that option's flags, or it is one of that option's flags followed by '=' while the option takes an argument and no option has the flag with the '='. Nothing else is ever selected.", "quantifier": "every set of option definitions accepted by the parser, every typed flag", "why_tests_cant": "The lookup is a binary search over a sorted index; correctness for every set of flags and every query is not testable by examples.", "anchors": ["src/Argos/CommandData.cpp: build_option_index, find_option, find_option_impl"]}
{"id": "C08", "title": "Abbreviated flags select only when unambiguous", "statement": "With allow_abbreviated_options, a typed flag that equals some flag selects that flag's option; otherwise it selects an option exactly when it is a prefix of exactly one defined flag; it never selects an option when it is a prefix of two or more flags or of none.", "quantifier": "every set of option definitions accepted by the parser, every typed string", "why_tests_cant": "Ambiguity depends on the neighbourhood of the query in the sorted index, for all flag sets and all queries.", "anchors": ["src/Argos/CommandData.cpp: find_option_impl", "include/Argos/ArgumentParser.hpp: allow_abbreviated_options"]}
{"id": "C09", "title": "Case-insensitive lookup finds every flag in every capitalisation", "statement": "With case_insensitive on, typing any capitalisation of a defined flag selects that flag's option, and a typed flag that differs from all flags by more than the case of ASCII letters selects nothing.", "quantifier": "every set of option definitions accepted by the parser, every typed flag", "why_tests_cant": "The comparison used for sorting and searching must be a consistent order on all strings; tests only use letters.", "anchors": ["src/Argos/StringUtilities.cpp: compare_ci, is_less_ci, are_equal_ci", "src/Argos/CommandData.cpp: build_option_index, find_option_impl"]}
{"id": "C10", "title": "Conflicting flags are always rejected, distinct flags never", "statement": "Preparing a parser throws if two flags of a command (of the same or different options) are equal in the selected case mode, and does not complain about flags when all are different.", "quantifier": "every list of options with any flags, both case modes", "why_tests_cant": "Detection relies on sorting placing equal flags next to each other, for all lists.", "anchors": ["src/Argos/CommandData.cpp: build_option_index"]}
{"id": "C11", "title": "Every accepted flag can be typed", "statement": "Every flag that validation accepts for the selected option style is recognised as an option when it is typed on the command line and selects the option that defines it; flags the tokeniser could not produce are rejected with an exception.", "quantifier": "every option definition, every flag string, each option style", "why_tests_cant": "Relates validation, tokenising and lookup for all strings.", "anchors": ["src/Argos/OptionData.cpp: check_standard_flag, check_flag, check_flag_with_equal, validate_and_update", "src/Argos/StandardOptionIterator.cpp: next", "src/Argos/OptionIterator.cpp: next", "src/Argos/ArgumentIteratorImpl.cpp: is_option"]}
{"id": "C12", "title": "Auto-generated help and version options never conflict", "statement": "The automatically added help and version options never introduce a flag that equals a flag the client defined, they are added only when asked for, and no help option is added when the client already has one. A client configuration that would be accepted without them is accepted with them.", "quantifier": "every client configuration, each option style, both case modes", "why_tests_cant": "All sets of client flags, including capitalisation variants.", "anchors": ["src/Argos/CommandData.cpp: add_help_option, has_help_option, has_flag", "src/Argos/ParserData.cpp: add_version_option"]}
{"id": "C13", "title": "Positional arguments are distributed within their declared counts", "statement": "When the number of positional arguments given is between the sum of the minimum counts and the sum of the maximum counts, each declared argument receives a number of values between its minimum and its maximum, declared arguments receive them in declaration order, every value is used, and surplus values go to the earliest arguments that can take them.", "quantifier": "every list of argument declarations with min <= max, every number of given arguments in range", "why_tests_cant": "All combinations of counts; the greedy distribution arithmetic is unbounded.", "anchors": ["src/Argos/ArgumentCounter.cpp: make_argument_counters, next_argument, get_min_max_count"]}
{"id": "C14", "title": "Positional argument counts are accepted exactly when in range", "statement": "Parsing reports 'too few arguments' exactly when fewer positional arguments were given than the sum of the minimum counts, and 'too many arguments' exactly when more were given than the sum of the maximum counts.", "quantifier": "every list of argument declarations, every number of given arguments", "why_tests_cant": "All combinations of counts; boundary errors only appear for particular arrangements of optional arguments.", "anchors": ["src/Argos/ArgumentCounter.cpp: is_complete, next_argument", "src/Argos/ArgumentIteratorImpl.cpp: check_argument_and_option_counts, process_argument"]}
{"id": "C15", "title": "Argument count settings keep min <= max and max > 0", "statement": "Whatever sequence of optional(), mandatory() and count() calls is made on an Argument, the minimum count never exceeds the maximum, the maximum is never 0, and a rejected call leaves the argument unchanged.", "quantifier": "every finite sequence of setter calls with any parameters", "why_tests_cant": "Unbounded call histories.", "anchors": ["src/Argos/Argument.cpp: optional, mandatory, count"]}
{"id": "C16", "title": "Values behave as a map from name to list of values", "statement": "The stored values of an option or argument are exactly what a map from value to list would hold: assigning replaces all earlier values by one, appending adds at the end, clearing removes all, and no operation affects the values stored under any other name. This holds after every sequence of operations.", "quantifier": "every finite sequence of assign/append/clear operations on every set of values", "why_tests_cant": "Unbounded operation histories over a shared ordered multimap.", "anchors": ["src/Argos/ParsedArgumentsImpl.cpp: assign_value, append_value, clear_value, get_values, has", "src/Argos/ParsedArgumentsBuilder.cpp: append, assign, clear"]}
{"id": "C17", "title": "Single-value, multi-value and presence queries agree", "statement": "value(name) gives no value exactly when values(name) is empty and has(name) is false, gives the one value when there is exactly one, and throws exactly when there are two or more.", "quantifier": "every reachable set of stored values, every name", "why_tests_cant": "Unbounded histories of stored values.", "anchors": ["src/Argos/ParsedArgumentsImpl.cpp: get_value, get_values, has", "src/Argos/ParsedArguments.cpp: value, values, has"]}
{"id": "C18", "title": "Every declared name retrieves its value, undeclared names throw", "statement": "Looking up a value by an argument's name, an option's flag (unless the option has operation NONE) or an alias finds the value that argument or option writes to, and looking up any other name throws ArgosException.", "quantifier": "every accepted parser configuration, every name string", "why_tests_cant": "Binary search over all sets of names.", "anchors": ["src/Argos/ParsedArgumentsImpl.cpp: ParsedArgumentsImpl, get_value_id, lower_bound", "src/Argos/CommandData.cpp: set_internal_ids"]}
{"id": "C19", "title": "Arguments and options share a value exactly when linked by a name", "statement": "Two arguments/options of a command write to the same value if and only if they are connected through equal names, flags or aliases; otherwise they never affect each other's values.", "quantifier": "every list of argument and option declarations with arbitrary aliases", "why_tests_cant": "Linking is a transitive closure over arbitrary alias graphs and declaration orders.", "anchors": ["src/Argos/CommandData.cpp: set_internal_ids", "include/Argos/Option.hpp: alias"]}
{"id": "C20", "title": "Argument ids identify declarations uniquely", "statement": "Within a command all arguments, options and the command itself get different argument ids, also different from those of its ancestors, so that the definition reported for a stored value is the one that stored it.", "quantifier": "every command tree", "why_tests_cant": "All command trees.", "anchors": ["src/Argos/CommandData.cpp: set_internal_ids, finish_initialization", "src/Argos/ParsedArgumentsImpl.cpp: get_argument_view"]}
{"id": "C21", "title": "Parsing terminates", "statement": "parse() returns (or exits, or throws) for every command line as long as callbacks do not insert new arguments; the number of steps is bounded by the size of the command line.", "quantifier": "every command line, every accepted configuration, every callback behaviour that inserts no arguments", "why_tests_cant": "Termination for all inputs cannot be observed by testing.", "anchors": ["src/Argos/ArgumentIteratorImpl.cpp: parse, next, count_arguments", "src/Argos/StandardOptionIterator.cpp: next, next_value", "src/Argos/OptionIterator.cpp: next, next_value"]}
{"id": "C22", "title": "Parsing never reads outside the command line", "statement": "Whatever the command line and whatever callbacks do, the parser never indexes past the end of an argument, takes a sub-range of an empty argument list, or asks for a current argument that does not exist.", "quantifier": "every command line, every accepted configuration, every callback behaviour including insertions, every number of steps", "why_tests_cant": "Absence of undefined behaviour over all executions.", "anchors": ["src/Argos/StandardOptionIterator.cpp: next, next_value, current, remaining_arguments, split_concatenated_flags", "src/Argos/OptionIterator.cpp", "src/Argos/ArgumentIteratorImpl.cpp"]}
{"id": "C23", "title": "The result code tells how parsing ended", "statement": "When parse() returns, the result code of the returned ParsedArguments is SUCCESS, STOP or FAILURE and never NONE; it is STOP exactly when a HELP, STOP or EXIT option ended parsing and FAILURE exactly when an error was reported.", "quantifier": "every command line and configuration with auto_exit off (and, for SUCCESS/STOP, also on)", "why_tests_cant": "All executions; interacts with nested sub-commands.", "anchors": ["src/Argos/ArgumentIteratorImpl.cpp: parse, error, check_argument_and_option_counts, process_option", "src/Argos/ParsedArgumentsImpl.cpp: set_breaking_option", "include/Argos/Enums.hpp: ParserResultCode"]}
{"id": "C24", "title": "Success implies every mandatory option was given", "statement": "If parse() reports SUCCESS, every mandatory option of every command that was activated (the program itself and every sub-command given) has a value.", "quantifier": "every command line, every command tree, every callback behaviour", "why_tests_cant": "All executions over nested and repeated sub-commands.", "anchors": ["src/Argos/ArgumentIteratorImpl.cpp: has_all_mandatory_options, check_argument_and_option_counts, process_argument"]}
{"id": "C25", "title": "Success implies the argument counts were met", "statement": "If parse() reports SUCCESS then, without callbacks changing values or inserting arguments, each declared argument of the last active command received at least its minimum and at most its maximum number of values.", "quantifier": "every command line and configuration", "why_tests_cant": "All executions.", "anchors": ["src/Argos/ArgumentIteratorImpl.cpp: check_argument_and_option_counts, process_argument", "src/Argos/ArgumentCounter.cpp"]}
{"id": "C26", "title": "A stop option ends parsing without further checks", "statement": "When an option of type STOP, EXIT or HELP is read (auto_exit off), parsing ends: no later argument is interpreted, no missing argument, option or sub-command is reported, stop_option() is that option, and all remaining arguments are unprocessed.", "quantifier": "every command line whose prefix before the stop option is read without ending the parse, every remainder", "why_tests_cant": "All prefixes and remainders.", "anchors": ["src/Argos/ArgumentIteratorImpl.cpp: process_option", "include/Argos/Enums.hpp: OptionType"]}
{"id": "C27", "title": "Iteration after the end", "statement": "Once an ArgumentIterator has reported the end after success or stop, every further next() reports the end again and changes nothing; once it has reported an error, every further next() throws.", "quantifier": "every reachable iterator state, any number of further calls", "why_tests_cant": "Unbounded call histories.", "anchors": ["src/Argos/ArgumentIteratorImpl.cpp: next", "src/Argos/ArgumentIterator.cpp: next"]}
{"id": "C28", "title": "Process exit happens only when enabled, with the configured code", "statement": "With auto_exit off the parser itself never exits the process. With auto_exit on, an error always exits with the configured error code (so parse() never returns FAILURE) and a HELP or EXIT option always exits with the configured normal code; nothing else exits.", "quantifier": "every command line, every configuration and exit codes", "why_tests_cant": "All executions, including error paths.", "anchors": ["src/Argos/ArgumentIteratorImpl.cpp: error, process_option", "include/Argos/ArgumentParser.hpp: auto_exit, set_exit_codes"]}
{"id": "C29", "title": "Ignoring undefined options", "statement": "With ignore_undefined_options on, an undefined option never causes an error, each undefined option argument is reported exactly once in unprocessed_arguments, verbatim and in command-line order, and it has no other effect.", "quantifier": "every command line, every set of defined options", "why_tests_cant": "All command lines, including undefined flags inside concatenated short flags.", "anchors": ["src/Argos/ArgumentIteratorImpl.cpp: process_option", "include/Argos/ArgumentParser.hpp: ignore_undefined_options"]}
{"id": "C30", "title": "Filtering argv keeps exactly the unprocessed arguments", "statement": "filter_parsed_arguments leaves argv[0] in place followed by exactly the unprocessed arguments in order, and sets argc accordingly, whenever the unprocessed arguments occur in order in argv.", "quantifier": "every argv, every list of unprocessed arguments", "why_tests_cant": "All argument vectors with repeated equal arguments.", "anchors": ["src/Argos/ParsedArguments.cpp: filter_parsed_arguments"]}
{"id": "C31", "title": "Initial values are visible before and unless overridden", "statement": "An option's initial_value is its value until an ASSIGN option with the same value replaces it, and APPEND options add after it; this holds for options of the program and of every sub-command.", "quantifier": "every command tree, every command line", "why_tests_cant": "All executions.", "anchors": ["src/Argos/ArgumentIteratorImpl.cpp: ArgumentIteratorImpl, process_command", "include/Argos/Option.hpp: initial_value"]}
{"id": "C32", "title": "Values come only from matching occurrences, in order", "statement": "Without callbacks, the values of an option or argument after parsing are exactly those obtained by applying, in command-line order, the operations of the occurrences that the iterator reports for it (constant or following value for options, the argument itself for positional arguments) to its initial value.", "quantifier": "every command line and configuration without callbacks", "why_tests_cant": "All executions; a refinement between the event sequence and the stored values.", "anchors": ["src/Argos/ArgumentIteratorImpl.cpp: process_option, process_argument", "src/Argos/ParsedArgumentsImpl.cpp"]}
{"id": "C33", "title": "Callbacks run once per occurrence, specific before general", "statement": "For every option or argument occurrence reported by the iterator, its own callback (if any) and then the parser-wide callback (if any) is invoked exactly once, after the value has been stored, and no callback is invoked otherwise.", "quantifier": "every command line, configuration and callback behaviour", "why_tests_cant": "All executions, including those with inserted arguments.", "anchors": ["src/Argos/ArgumentIteratorImpl.cpp: process_option, process_argument", "include/Argos/Callbacks.hpp"]}
{"id": "C34", "title": "A required sub-command is enforced", "statement": "If a command requires a sub-command, parsing never succeeds while that command is the last active command with no sub-command given; require_subcommand defaults to true exactly when there are sub-commands, and requiring one without declaring any is rejected.", "quantifier": "every command tree and command line", "why_tests_cant": "All executions.", "anchors": ["src/Argos/ArgumentIteratorImpl.cpp: check_argument_and_option_counts", "src/Argos/CommandData.cpp: update_require_command"]}
{"id": "C35", "title": "Sub-command results mirror the commands on the command line", "statement": "The tree of parsed sub-commands lists, per command, exactly the sub-commands entered below it, in command-line order; a command that does not allow multiple sub-commands never gets more than one.", "quantifier": "every command tree and command line", "why_tests_cant": "All executions with nested and repeated sub-commands.", "anchors": ["src/Argos/ArgumentIteratorImpl.cpp: process_command, find_sibling_command, find_first_multi_command_parent, reactivate_multi_command_parent", "src/Argos/ParsedArgumentsImpl.cpp: add_subcommand"]}
{"id": "C36", "title": "Parsing a const parser equals parsing a parser that is given up", "statement": "parse() and make_iterator() on a const ArgumentParser give the same result as the non-const versions on the same configuration, and a const parse leaves the parser usable with the same results again.", "quantifier": "every configuration and command line, any number of repeated parses", "why_tests_cant": "All configurations; equality of complete results.", "anchors": ["src/Argos/ArgumentParser.cpp: make_copy, parse, make_iterator", "src/Argos/CommandData.cpp: CommandData(const CommandData&), operator="]}
{"id": "C37", "title": "Using a consumed object throws", "statement": "After an Option, Argument, Command or ArgumentParser has been moved from, added or consumed by parse(), every further method call on it throws ArgosException; none has undefined behaviour.", "quantifier": "every sequence of calls on every object", "why_tests_cant": "Unbounded call histories.", "anchors": ["src/Argos/ArgumentParser.cpp: parse, check_data", "src/Argos/Command.cpp: copy_from, check_command", "src/Argos/Option.cpp: check_option", "src/Argos/Argument.cpp: check_argument"]}
{"id": "C38", "title": "A command never has both arguments and sub-commands", "statement": "No sequence of add() and copy_from() calls gives a command both positional arguments and sub-commands; an attempt throws and changes nothing.", "quantifier": "every finite sequence of add and copy_from calls", "why_tests_cant": "Unbounded call histories.", "anchors": ["src/Argos/CommandData.cpp: add, copy_from", "include/Argos/ArgumentParser.hpp: add, copy_from"]}
{"id": "C39", "title": "Integer conversion is exact", "statement": "as_int, as_long, as_llong (base 10) succeed exactly on optional whitespace, an optional sign and decimal digits denoting a number in the range of the type, and then return that number; every other string is an error. The decimal rendering of every value of the type is converted back to the value.", "quantifier": "every string, every integer of the type", "why_tests_cant": "All strings and all 2^64 values.", "anchors": ["src/Argos/ParseValue.cpp: parse_integer_impl, parse_integer", "src/Argos/ArgumentValue.cpp: get_integer"]}
{"id": "C40", "title": "Unsigned conversion rejects what it cannot represent", "statement": "as_uint, as_ulong and as_ullong return n exactly when the string denotes a non-negative number n in range; strings denoting negative numbers or numbers out of range are errors.", "quantifier": "every string", "why_tests_cant": "All strings.", "anchors": ["src/Argos/ParseValue.cpp: parse_integer_impl, parse_integer<unsigned>"]}
{"id": "C41", "title": "Splitting a value is lossless and bounded", "statement": "split(sep, min, max) returns between 1 and max parts (max >= 1), joining the parts with sep gives back the value, only the last part may contain sep and only when max parts were returned; it reports an error exactly when fewer than min parts result.", "quantifier": "every string, separator, min and max", "why_tests_cant": "All strings and bounds.", "anchors": ["src/Argos/StringUtilities.cpp: split_string", "src/Argos/ArgumentValue.cpp: split", "src/Argos/ArgumentValues.cpp: split"]}
{"id": "C42", "title": "Case-insensitive equality is ASCII case folding", "statement": "Two strings are equal case-insensitively exactly when they become equal after mapping A-Z to a-z; in particular it is an equivalence relation, and the case-insensitive prefix test agrees with it.", "quantifier": "every pair (and triple) of byte strings", "why_tests_cant": "All byte strings including non-ASCII bytes.", "anchors": ["src/Argos/StringUtilities.cpp: are_equal_chars_ci, are_equal_ci, starts_with_ci, to_lower"]}
{"id": "C43", "title": "Boolean conversion", "statement": "as_bool returns the default when there is no value, false for the values \"0\" and \"false\" and true for every other value.", "quantifier": "every value string and default", "why_tests_cant": "All strings.", "anchors": ["src/Argos/ArgumentValue.cpp: as_bool"]}
{"id": "C44", "title": "Code point counting is exact on valid UTF-8", "statement": "For every valid UTF-8 string the width used for line breaking is its number of code points, the n-th code point position is the byte offset after n code points, and for every other string the computation is in bounds and never exceeds the byte length.", "quantifier": "every byte string", "why_tests_cant": "All byte strings.", "anchors": ["src/Argos/StringUtilities.cpp: get_code_point_length, count_code_points, find_nth_code_point"]}
{"id": "C45", "title": "Splitting a word loses no text and each piece fits", "statement": "Splitting a word for a given width returns a first part and a rest whose concatenation is the remaining word; when a first part is returned it (with its hyphen) has at most the given width, and a word that must be split for a width above 2 always yields a non-empty first part.", "quantifier": "every word, start position, width and set of splitting rules", "why_tests_cant": "All strings, including multi-byte and malformed UTF-8.", "anchors": ["src/Argos/WordSplitter.cpp: split, default_rule, add_word"]}
{"id": "C46", "title": "Formatting terminates and lines fit the line width", "statement": "Writing any text with any indentation terminates, and every line written has at most line_width code points unless the indentation leaves two columns or less.", "quantifier": "every text, line width above 2, indentation and set of splitting rules", "why_tests_cant": "All texts; termination.", "anchors": ["src/Argos/TextFormatter.cpp: append_word, write_words, write_lines", "src/Argos/TextWriter.cpp: write"]}
{"id": "C47", "title": "Formatting loses no words", "statement": "The text written is the input text up to white space and inserted hyphens: removing white space and inserted hyphens from the output gives the input without its white space, in order.", "quantifier": "every text, line width, indentation and set of splitting rules", "why_tests_cant": "All texts.", "anchors": ["src/Argos/TextFormatter.cpp: append_word, write_words", "src/Argos/WordSplitter.cpp"]}
{"id": "C48", "title": "Writing text leaves the indentation as it was", "statement": "After write_words returns, the current indentation is the same as before the call, so that one help text cannot shift the layout of the next one, and help writing never fails with 'No more indentations to pop'.", "quantifier": "every text and formatter state", "why_tests_cant": "All texts with arbitrary white space.", "anchors": ["src/Argos/TextFormatter.cpp: begin_alignment, update_alignment, end_alignment, push_indentation, pop_indentation"]}
{"id": "C49", "title": "Writing preformatted lines never fails", "statement": "write_lines accepts every text: it writes each line of the text (lines end with LF, CR or CR LF) on its own line and throws nothing.", "quantifier": "every text", "why_tests_cant": "All texts with any mix of line terminators.", "anchors": ["src/Argos/TextFormatter.cpp: next_line, write_lines"]}
{"id": "C50", "title": "Hidden arguments, options and commands stay out of the help text", "statement": "An argument, option or sub-command appears in the help list exactly when its visibility includes TEXT, in the usage exactly when it includes USAGE, under its section heading, with headings in order of first use and entries in declaration order (arguments, then sub-commands, then options).", "quantifier": "every configuration", "why_tests_cant": "All configurations; also after the copies made by const parsers.", "anchors": ["src/Argos/HelpText.cpp: write_argument_sections, write_stop_and_help_usage, write_brief_regular_options, write_brief_arguments, write_brief_commands", "src/Argos/CommandData.cpp: CommandData(const CommandData&)"]}
{"id": "C51", "title": "Copies are complete", "statement": "Copying a Command (or the copy made for a const parse) reproduces every property of the command: names, texts, visibility, options, arguments, sub-commands and settings.", "quantifier": "every command tree", "why_tests_cant": "All command trees.", "anchors": ["src/Argos/CommandData.cpp: CommandData(const CommandData&), operator=", "src/Argos/ArgumentParser.cpp: make_copy", "include/Argos/Command.hpp"]}
{"id": "C52", "title": "Help output is complete when the call returns", "statement": "When writing the help text or an error message returns, everything written has been passed to the output stream: no partial line stays buffered.", "quantifier": "every configuration and text", "why_tests_cant": "All configurations.", "anchors": ["src/Argos/HelpText.cpp: write_help_text, write_error_message", "src/Argos/TextWriter.cpp: newline, flush"]}
{"id": "C53", "title": "Usage shows the full command path", "statement": "The name shown in the usage and error messages of a sub-command is the program name followed by the names of all commands on the path to it.", "quantifier": "every command tree and every path in it", "why_tests_cant": "All depths of nesting.", "anchors": ["src/Argos/CommandData.cpp: finish_initialization", "src/Argos/HelpText.cpp: write_brief_usage, write_error_message"]}
{"id": "C54", "title": "Unprocessed arguments are only reported when documented", "statement": "unprocessed_arguments() is empty after parsing unless undefined arguments or options are ignored, or auto_exit is off and an option ended parsing early.", "quantifier": "every command line and configuration", "why_tests_cant": "All executions.", "anchors": ["include/Argos/ParsedArguments.hpp: unprocessed_arguments", "src/Argos/ArgumentIteratorImpl.cpp: copy_remaining_arguments_to_parser_result, process_option, error"]}
{"id": "C55", "title": "The look-ahead argument count equals the arguments read", "statement": "When argument counts must be known in advance, the number of positional arguments found by looking ahead on the command line equals the number that is afterwards actually read for the command (so values are distributed as declared).", "quantifier": "every command line and configuration without insertions", "why_tests_cant": "Relates two different traversals of every command line.", "anchors": ["src/Argos/ArgumentIteratorImpl.cpp: count_arguments, process_argument, process_option", "src/Argos/ArgumentCounter.cpp: requires_argument_count"]}
{"id": "C56", "title": "Indexing a list of values is checked", "statement": "ArgumentValues::value(i) returns the i-th value when i is less than the number of values; otherwise the program exits with the error code if auto_exit is on, and ArgosException is thrown if it is off.", "quantifier": "every list of values and index", "why_tests_cant": "All lists and indices.", "anchors": ["src/Argos/ArgumentValues.cpp: value, operator[]"]}
{"id": "C57", "title": "Parse accepts exactly the well-formed command lines", "statement": "In every option style, with nothing ignored, callbacks that do nothing and one sub-command per level, parse succeeds exactly for the command lines described by the declared options, arguments and sub-commands (every option with its value, each argument within its declared count, nothing mandatory missing), and reports exactly what is written there; every line has at most one reading, and concatenated flags, attached values and values after = mean the same as their separate spellings.", "quantifier": "every parser configuration of that kind and every command line", "why_tests_cant": "Relates the parser to a grammar for all configurations and all command lines.", "anchors": ["src/Argos/ArgumentIteratorImpl.cpp: next, process_option, process_argument, check_argument_and_option_counts", "src/Argos/ArgumentCounter.cpp", "src/Argos/StandardOptionIterator.cpp"]}
{"id": "C58", "title": "The program is named after its file", "statement": "When a parser has no name, the program name used for parsing argc/argv is the part of argv[0] after the last slash or backslash; a name given to the constructor is kept (its base name if that is asked for).", "quantifier": "every path, parser and way of starting to parse", "why_tests_cant": "All paths and all entry points.", "anchors": ["src/Argos/StringUtilities.cpp: get_base_name", "src/Argos/ArgumentParser.cpp: ArgumentParser, parse, make_iterator"]}
{"id": "C59", "title": "A value reports the option or argument it came from", "statement": "Every retrievable value, of the program or of any sub-command, was stored by an occurrence of an option or argument (or is an initial value), and the definition it reports (used in error messages) is the one of that option or argument; for several values it is their common definition, if any.", "quantifier": "every configuration, command line, command given and value", "why_tests_cant": "Relates values, ids and definitions for all command trees and command lines.", "anchors": ["src/Argos/ParsedArguments.cpp: value, values", "src/Argos/ParsedArgumentsImpl.cpp: get_argument_view", "src/Argos/ArgumentValues.cpp: get_argument_id", "src/Argos/ArgumentValue.cpp: argument"]}
{"id": "C60", "title": "Iterating to the end gives what parse gives", "statement": "A program that calls next() until it returns false gets, from parsed_arguments(), all that was processed, exactly what parse would have returned; an object obtained at any time stays up to date and refers to the same use of the same command; a moved-from iterator throws.", "quantifier": "every configuration, callback behaviour, command line and point of the iteration", "why_tests_cant": "Relates two ways of using the library for all command trees and command lines, with objects kept over any number of calls.", "anchors": ["src/Argos/ArgumentIterator.cpp: next, parsed_arguments, impl", "src/Argos/ArgumentIteratorImpl.cpp: parsed_arguments, toplevel_parsed_arguments, parse"]}
{"id": "C61", "title": "next() reports what it has stored", "statement": "When next() reports an argument or an option, the parsed arguments have been updated with exactly the reported value by the operation of that argument or option, and nothing else has changed; an option that takes no value is reported with an empty value; at the end and after errors no view and an empty value are reported; otherwise (sub-commands) the value is empty.", "quantifier": "every configuration, command line and number of calls, with callbacks that change nothing", "why_tests_cant": "All command lines, all positions of the iteration and all option kinds.", "anchors": ["src/Argos/ArgumentIterator.cpp: next", "src/Argos/ArgumentIteratorImpl.cpp: next, process_option, process_argument, process_command"]}
{"id": "C62", "title": "The order of options and arguments doesn't matter", "statement": "Two command lines that say the same for a command, the same arguments in the same order and for each value the same options in the same order, are both accepted or both rejected, and all values are the same; it doesn't matter how options and arguments are mixed, nor how each option is spelled (separate value, attached value, value after =).", "quantifier": "every parser configuration with nothing ignored, every command line, at every position in it, in every sub-command", "why_tests_cant": "Relates all pairs of command lines with the same content.", "anchors": ["src/Argos/ArgumentIteratorImpl.cpp: next, process_option, process_argument, count_arguments", "src/Argos/ArgumentCounter.cpp"]}
{"id": "C63", "title": "The spelling of a flag doesn't matter", "statement": "Any two flags that select the same option (another flag of the option, an unambiguous abbreviation, another letter case, where these are enabled) can be exchanged on the command line: parse gives the same results and the same values.", "quantifier": "every parser configuration with nothing ignored, every command line and position of the flag", "why_tests_cant": "Relates all pairs of command lines that differ in the spelling of a flag.", "anchors": ["src/Argos/CommandData.cpp: find_option", "src/Argos/ArgumentIteratorImpl.cpp: next, process_option, count_arguments"]}
{"id": "C64", "title": "Error messages tell the truth", "statement": "When parse writes an error message, the message is true of the command line: the option or command it calls unknown is not declared, the option that lacks a value takes one and there is none, the number of arguments is really too large or too small (and the numbers in the message are right), the mandatory option it names has no value; it is about the first place where the line can't go on, names the command concerned, is the only one, and such a line is never well-formed.", "quantifier": "every parser configuration with nothing ignored and one sub-command per level, every command line", "why_tests_cant": "A wrong message can appear for particular combinations of counts, styles and sub-commands only; tests compare a few messages.", "anchors": ["src/Argos/ArgumentIteratorImpl.cpp: next, process_option, check_argument_and_option_counts, error", "src/Argos/ArgumentCounter.cpp"]}
{"id": "C65", "title": "Declarations reach the parser as they were made", "statement": "Whatever a program does in between, an option, argument, command or parser has in each attribute the value of the last setter call on it (or the documented default); its contents are the items added by the calls of add that did not throw, in order, each as it was when added and in the section current at that time; the option style can't change any more once there are options.", "quantifier": "every program, i.e. every sequence of calls on any number of parsers, commands, options and arguments", "why_tests_cant": "All interleavings of setter calls on all objects.", "anchors": ["src/Argos/Option.cpp", "src/Argos/Argument.cpp", "src/Argos/Command.cpp", "src/Argos/ArgumentParser.cpp: setters, add"]}
{"id": "C66", "title": "Several sub-commands on one command line", "statement": "When a command allows several sub-commands (allow_multiple_subcommands), a command line is accepted exactly if it is a sequence of sub-commands in which every text goes where it belongs: a text names a further sub-command of the nearest enclosing command that allows several as soon as the active sub-command has the arguments that it must have, and is one of its arguments otherwise; every sub-command that is left has got an admissible number of arguments; after an option of type LAST_ARGUMENT only further sub-commands follow; the results are those written on the line, and no line has two meanings.", "quantifier": "for all parsers with sensible declarations (any tree of commands, in any of them several sub-commands allowed), all command lines, all option styles", "why_tests_cant": "the number of ways to nest commands and to interleave sub-command names, arguments and options is unbounded; whether a word is a name or an argument depends on all that precedes and, in count mode, on all that follows", "anchors": ["src/Argos/ArgumentIteratorImpl.cpp: process_argument, process_option, find_command, find_first_multi_command_parent, reactivate_multi_command_parent, count_arguments", "src/Argos/ArgumentCounter.cpp", "include/Argos/ArgumentParser.hpp: allow_multiple_subcommands"]}
{"id": "C67", "title": "Views show the declarations", "statement": "The views obtained from the results show exactly what was declared: going from view to view through sub-commands one reaches the declared commands and no others; a command shows its arguments and options in the order of their declaration, each with its names, help text, section, alias, visibility, id, counts, operation, type, constant and initial value, followed only by the options that the parser adds itself; a command shows its help text.", "quantifier": "every parser configuration, every command line, every command of the tree", "why_tests_cant": "All declarations and all paths through the tree of commands.", "anchors": ["src/Argos/ArgumentView.cpp", "src/Argos/OptionView.cpp", "src/Argos/CommandView.cpp", "src/Argos/ParsedArguments.cpp: command, all_arguments, all_options, all_subcommands", "src/Argos/ParserData.cpp"]}
{"id": "C68", "title": "Errors about values name the value and its source", "statement": "Reading values as numbers or splitting them succeeds exactly if all of them are numbers (have enough parts); otherwise the error message shows the first wrong value and, in front of it, all names of the argument or option that gave the values, if it is the same for all of them; the program ends with the error exit code or there is an exception.", "quantifier": "every parser configuration with passive callbacks, every accepted command line, every name, every conversion", "why_tests_cant": "The source depends on the whole command line and on aliases.", "anchors": ["src/Argos/ArgumentValue.cpp", "src/Argos/ArgumentValues.cpp", "src/Argos/ParsedArgumentsImpl.cpp: error", "src/Argos/HelpText.cpp: write_error_message"]}
{"id": "C69", "title": "All ways of reading values agree", "statement": "For the values of a name, size(), empty(), the conversion to bool, values(), raw_values(), as_strings(), operator[], and a loop from begin() to end() agree on number, order and content of the values; converting all of them gives the results of converting each; and value(name) is the only one of values(name).", "quantifier": "every list of values; every parser configuration and command line", "why_tests_cant": "All numbers of values.", "anchors": ["src/Argos/ArgumentValues.cpp", "src/Argos/ArgumentValueIterator.cpp", "src/Argos/ArgumentValue.cpp"]}
{"id": "C70", "title": "Printing the results shows all values", "statement": "print(ParsedArguments) writes for every value of the command one line with all names of all arguments and options that share the value, followed by all its strings in order; then the unprocessed arguments, and the same for all sub-commands that were given.", "quantifier": "every parser configuration, every command line, every command of the results", "why_tests_cant": "The grouping by value depends on aliases and the order of all declarations.", "anchors": ["src/Argos/ParsedArguments.cpp: print, print_argument, get_name"]}
{"id": "C71", "title": "The help text is laid out in paragraphs and columns", "statement": "The help text consists of the initial text, the usage, the description, the sections of the list and the final text with an empty line between them. Usage lines are indented by two columns. The texts of the list start in a common column behind the longest label, or eight columns in below their labels if there is no room; every further line of such a text is indented by the same amount. A text that fits on its line is written unchanged.", "quantifier": "every parser configuration, every command of it, every line width and all texts", "why_tests_cant": "The layout depends on the lengths of all labels and texts, the line width and on what was written before; tests compare a few help texts.", "anchors": ["src/Argos/HelpText.cpp: write_help_text, write_argument_sections, write_usage, write_brief_usage, get_help_text_label_width", "src/Argos/TextFormatter.cpp", "src/Argos/TextWriter.cpp"]}
{"id": "C72", "title": "Values are the work of occurrences and callbacks only", "statement": "After a parse without errors the values of the program and of every sub-command are its initial values, changed in order by each reported occurrence of an option or argument of that command and, right after it, by the builder calls of its callbacks (its own, then the parser's), whatever callbacks do. A callback sees the values reached at that moment. The value given to a callback and to the client is the one that was read, unless a callback has replaced or removed it. Callbacks that only add values never lose any.", "quantifier": "every parser configuration, every command line, all behaviours of callbacks including changing values and inserting arguments", "why_tests_cant": "Callbacks are arbitrary code; all interleavings of their changes with the parser's own.", "anchors": ["src/Argos/ArgumentIteratorImpl.cpp:150-199, 280-312", "src/Argos/ParsedArgumentsBuilder.cpp", "src/Argos/ParsedArgumentsImpl.cpp"]}
{"id": "C73", "title": "Floating-point conversion", "statement": "as_float and as_double return a number exactly when the whole value is a floating-point literal (white space, sign, decimal or hexadecimal digits with a point and an exponent, inf, infinity, nan) whose number is in the range of the type; the result is that number, rounded by the C library. A string stands for at most one number. Every integer in base 10 is the same number as a floating-point literal. as_floats and as_doubles return all numbers in order, or report the first value that is none. Without a value the default is returned; every other value is an error whose message names the value and the option or argument that gave it.", "quantifier": "every string, every rounding to a floating-point type, every list of values", "why_tests_cant": "Unbounded set of strings; greedy scanning with look-ahead (0x, exponents, inf/infinity) that only shows for particular inputs.", "anchors": ["src/Argos/ParseValue.cpp:121-162", "src/Argos/ArgumentValue.cpp:32-42, 129-137", "src/Argos/ArgumentValues.cpp:37-55, 200-210"]}
{"id": "C74", "title": "Help texts and error messages can be written on every terminal", "statement": "Every accepted parser can write the help text and any error message of every command: the text consists of the parts described in C50, and its lines fit the chosen width, or else the width of the terminal, taken to be 80 if it is unknown and 32 if it is smaller. Help goes to standard output and errors to the error stream, or both to the stream given to the parser.", "quantifier": "every parser configuration (line widths, word splitting rules), every command, every message, every terminal width", "why_tests_cant": "Unbounded widths, rules and texts; tests use a fixed width and few rules.", "anchors": ["src/Argos/ConsoleWidth.cpp:54-60", "src/Argos/TextFormatter.cpp:76-90", "src/Argos/HelpText.cpp:436-470", "src/Argos/WordSplitter.cpp"]}
{"id": "C75", "title": "What the user sees", "statement": "While a command line is parsed, this is written and nothing else: one error message in the name of the command being read if parsing fails; the help text of the command being read if the last result is its help option; the version line if it is the version option. Programs that exit do so after having written it. For ordinary parsers the error message is a true statement about the command line (C64).", "quantifier": "every parser configuration, every command line, every behaviour of callbacks, every terminal", "why_tests_cant": "All combinations of commands, options that end parsing, callbacks that fail or throw, auto_exit and output streams.", "anchors": ["src/Argos/ArgumentIteratorImpl.cpp:76-91, 150-199, 350-420", "src/Argos/ParserData.cpp:36-56", "src/Argos/HelpText.cpp:436-470", "src/Argos/ParsedArgumentsBuilder.cpp:100-140"]}
{"id": "C76", "title": "copy_from merges commands", "statement": "copy_from adds copies of all arguments, options, sub-commands and texts of the given command after those of the target, which keep their places; nothing else of the target changes, except that several sub-commands are allowed if one of the two allows them, and the given command stays as it is. If both have the same text the call throws an exception naming the first such text and changes nothing.", "quantifier": "every program, i.e. every sequence of calls before it, all contents of both commands", "why_tests_cant": "All combinations of contents and texts of two commands with arbitrary histories.", "anchors": ["src/Argos/CommandData.cpp:151-171", "src/Argos/Command.cpp:167-172", "src/Argos/ArgumentParser.cpp:113-118", "src/Argos/Enums.cpp"]}
{"id": "C77", "title": "Lines are filled greedily", "statement": "Texts are set like this: every line of a text is broken into words; a word goes on the same line if the spaces before it and the word fit the width, and else on a new line without these spaces, below the indentation; the lines that continue an item of a list are indented to the word behind its marker. Help texts and error messages consist of texts set in this way at the places described in C50 and C71, with list entries in two columns or below each other.", "quantifier": "every text, every width and indentation, every parser configuration, every command, every message", "why_tests_cant": "Where lines break depends on all words before; unbounded texts, widths and nestings of indentations.", "anchors": ["src/Argos/TextFormatter.cpp:93-270", "src/Argos/TextWriter.cpp", "src/Argos/HelpText.cpp:60-470"]}
{"id": "C78", "title": "What is only shown has no influence on parsing", "statement": "Two parsers that differ only in help texts, sections, visibility, client ids, the names of option arguments, the text of the version, the line width and the word splitting rules are both accepted, or rejected with the same message. They treat every command line alike: parse and next end in the same way, give the same values, codes and unprocessed arguments for all commands, report the same error messages, show the help of the same commands and call the same callbacks with the same values. Only callbacks that look at these things themselves, or settings that can't be used for writing (C74), make a difference.", "quantifier": "every pair of such parsers, every command line, every behaviour of callbacks that don't look at what is shown", "why_tests_cant": "A relation between two runs for unboundedly many configurations; a test compares a few.", "anchors": ["src/Argos/CommandData.cpp:173-448", "src/Argos/ParserData.cpp:17-64", "src/Argos/ArgumentIteratorImpl.cpp", "src/Argos/ArgumentCounter.cpp"]}
{"id": "C79", "title": "The order of option declarations doesn't matter", "statement": "Declaring the options of a command and of its sub-commands in another order changes neither whether the parser is accepted nor what any command line gives: parse ends in the same way, has(), value() and values() give the same for every name in the results of all commands, the codes, unprocessed arguments and stopping options are the same, the callbacks are called with the same values in the same order, and the messages and help requests are the same, except that another one of several missing mandatory options may be named, and that initial values of linked options are stored in the order of declaration.", "quantifier": "every parser, every permutation of the options of each of its commands, every command line, every behaviour of callbacks that refer to values by name", "why_tests_cant": "A relation between two runs over all permutations and all command lines; lookup uses a sorted index and value numbers that depend on the order.", "anchors": ["src/Argos/CommandData.cpp:173-448", "src/Argos/ParserData.cpp:17-64", "src/Argos/ArgumentIteratorImpl.cpp", "src/Argos/ParsedArgumentsImpl.cpp"]}
{"id": "C80", "title": "Additional options don't break command lines", "statement": "When optional options are added to a parser and its sub-commands, every command line that was parsed successfully (without an option that ends parsing) still is, and the arguments and the options that were declared before have the same values in the results of all commands, by all of their names; new options may have aliases, and initial values of their own, and may take flags away from the generated help and version options.", "quantifier": "every parser, every choice of additional options for each of its commands, every command line that is accepted without them", "why_tests_cant": "A relation between two parsers over all command lines and all additions; numbering of values, lookup of flags, counting and generated options all depend on what is added.", "anchors": ["src/Argos/CommandData.cpp:173-448", "src/Argos/ParserData.cpp:17-64", "src/Argos/ArgumentIteratorImpl.cpp", "src/Argos/OptionIterator.cpp"]}
{"id": "C81", "title": "Arguments inserted by a callback are as if written on the command line", "statement": "When a callback is called while the last piece of a first part of the command line is processed and gives new arguments to insert (as a response file does), then everything that happens - what is reported, called, output, stored and returned - is as if the new arguments had been written on the command line between that first part and the rest.", "quantifier": "every parser, every environment of callbacks, every first part that is parsed without ending the parsing, every list of inserted arguments, every rest", "why_tests_cant": "A relation between two executions over all command lines, all insertions and all callbacks; iterators, counters and modes must all agree afterwards.", "anchors": ["src/Argos/ArgumentIteratorImpl.cpp: copy_argument_to_parser_results, process_option, process_argument", "src/Argos/StandardOptionIterator.cpp: insert", "src/Argos/OptionIterator.cpp: insert", "src/Argos/ArgumentCounter.cpp"]}
{"id": "C82", "title": "More permissive settings do not change accepted command lines", "statement": "If a parser reads a command line without an error message, then the same parser with allow_abbreviated_options, ignore_undefined_options or ignore_undefined_arguments turned on reads it in the same way: the same outcome, the same parsed arguments, the same calls of callbacks and the same output. The declarations themselves are accepted or rejected alike.", "quantifier": "all declarations, all command lines, all callbacks, all combinations of the three settings being turned on", "why_tests_cant": "Abbreviations add further candidates to every lookup of a flag, also to the one that is made for a flag with its '=' and to those made while arguments are counted in advance; a test compares some lines under some settings, not all lines under all of them.", "anchors": ["src/Argos/CommandData.cpp:176-225", "src/Argos/ArgumentIteratorImpl.cpp:231-318", "src/Argos/ArgumentIteratorImpl.cpp:346-404"]}
{"id": "C83", "title": "Ignored arguments have no effect but being reported", "statement": "With ignore_undefined_arguments turned on, an argument that no declared argument can take is never an error: it is reported exactly once, as it was written and in order, in unprocessed_arguments() of the active command, and everything else - stored values, calls of callbacks, output, outcome - is as if it had not been on the command line.", "quantifier": "all declarations, all command lines, all positions of the ignored argument, all callbacks that do not look at the unprocessed arguments", "why_tests_cant": "A relation between two executions over all lines; the ignored argument is also seen when arguments are counted in advance and when values are read one by one.", "anchors": ["src/Argos/ArgumentIteratorImpl.cpp: process_argument", "src/Argos/ArgumentCounter.cpp", "include/Argos/ArgumentParser.hpp: ignore_undefined_arguments"]}
{"id": "C84", "title": "A sub-command is a parser of its own", "statement": "When a sub-command has been entered (and no enclosing command allows several sub-commands), everything that follows - reports, values and unprocessed arguments of the sub-command and of its sub-commands, calls of callbacks, messages, how parsing ends - is the same as if the sub-command were the top-level command of a parser of its own that is given the rest of the command line. In the results of the enclosing commands nothing changes any more except the result code.", "quantifier": "all declarations with sub-commands at any depth, all command lines, all callbacks, everything after the name of the sub-command", "why_tests_cant": "A relation between the executions of two parsers over all command lines; options, argument counters, value ids and modes of the enclosing commands could leak into the sub-command in only a few of the combinations.", "anchors": ["src/Argos/ArgumentIteratorImpl.cpp:93-130", "src/Argos/ArgumentIteratorImpl.cpp:320-337", "src/Argos/ArgumentIteratorImpl.cpp:346-404", "src/Argos/CommandData.cpp:426-448"]}
{"id": "C85", "title": "Earlier sub-commands do not influence what follows", "statement": "If several sub-commands are given one after the other, what happens with a sub-command and all that follows it does not depend on the sub-commands given before: two command lines that come to the same sub-command with the same words left, and that differ in the sub-commands given before only, end in the same way, cause the same reports, callback calls and messages from there on, and give the same results, except that those of the sub-commands given before are in front.", "quantifier": "all declarations with sub-commands for which several can be given, at any depth, all pairs of command lines, all callbacks", "why_tests_cant": "A relation between two executions over all command lines and all earlier sub-commands; counters, modes, the active command and result codes are reset when a parent becomes active again, and a forgotten reset shows for particular combinations of commands only.", "anchors": ["src/Argos/ArgumentIteratorImpl.cpp:282-318", "src/Argos/ArgumentIteratorImpl.cpp:346-404", "src/Argos/ArgumentIteratorImpl.cpp:437-478"]}
{"id": "C86", "title": "What is reported does not depend on what comes later", "statement": "What is reported for the beginning of a command line, the output and the calls of callbacks up to there are the same for every command line with this beginning. If the beginning is enough to end parsing - with an error that is not about the end of the line, with an option like --help, with an exception or an exit - every command line with this beginning ends in the same way and gives the same results, apart from the further words being among the unprocessed arguments. In particular an error cannot be repaired by what comes later.", "quantifier": "all declarations, all command lines and all continuations of them, all callbacks", "why_tests_cant": "A relation between executions on infinitely many continuations; the parser does look ahead in some places (values of options, counting of arguments), and a dependence would show for particular continuations only.", "anchors": ["src/Argos/ArgumentIteratorImpl.cpp:93-130", "src/Argos/ArgumentIteratorImpl.cpp:231-404", "src/Argos/StandardOptionIterator.cpp", "src/Argos/OptionIterator.cpp"]}
{"id": "C87", "title": "The order of sub-commands doesn't matter", "statement": "Two parsers that differ only in the order in which sub-commands were added, at any level of the command tree, are accepted or refused alike, and every command line has the same outcome with both: the same exception, exit or results, the same values with the same numbers, the same messages and the same calls of callbacks. Sub-commands of one command have different names.", "quantifier": "for all command trees, all permutations of the sub-commands of all their commands, all settings, all callbacks that do not look at the declared sub-commands, and all command lines", "why_tests_cant": "the permutations of the sub-commands at all levels multiply, and each one would have to be tried with every command line", "anchors": ["src/Argos/CommandData.cpp:257-266", "src/Argos/CommandData.cpp:426-448", "src/Argos/ArgumentIteratorImpl.cpp:120-131", "src/Argos/ArgumentIteratorImpl.cpp:455-470"]}
{"id": "C88", "title": "Additional sub-commands leave other command lines alone", "statement": "A parser to which sub-commands with new names are added, at any place of the command tree where there are sub-commands already, treats every command line that doesn't lead to an unknown command as before: the same outcome, results, messages and calls of callbacks.", "quantifier": "for all command trees, all sets of additional sub-commands with whatever contents, all settings, all callbacks that do not look at the declared sub-commands, and all command lines", "why_tests_cant": "the additional sub-commands and the command lines are unbounded; what is lost is only found by trying command lines written for the older parser", "anchors": ["src/Argos/CommandData.cpp:257-266", "src/Argos/CommandData.cpp:426-448", "src/Argos/ArgumentIteratorImpl.cpp:120-131", "src/Argos/ArgumentIteratorImpl.cpp:370-400", "src/Argos/ArgumentIteratorImpl.cpp:455-470"]}
{"id": "C89", "title": "Everything that is declared can be said", "statement": "Whatever combination of declared options (each by any of its flags and with any value), of arguments within their counts and of sub-commands is wanted, there is a command line that gives exactly it: parsing succeeds, and every command holds the wanted values and no others. Two different wishes are never written in the same way.", "quantifier": "for all parsers in which nothing is ignored and each command has one sub-command at most, and all wishes: any number of options in any order, arbitrary values (also ones that look like options), any allotment of arguments, sub-commands of any depth", "why_tests_cant": "values are arbitrary strings and wishes have no bound; which values cannot be said at all is a statement about all command lines, of which a test can only try some", "anchors": ["src/Argos/StandardOptionIterator.cpp:20-90", "src/Argos/OptionIterator.cpp:18-77", "src/Argos/ArgumentIteratorImpl.cpp:225-330", "src/Argos/ArgumentIteratorImpl.cpp:370-400", "src/Argos/OptionData.cpp:28-54"]}
{"id": "C90", "title": "An option concerns its own value only", "statement": "If a command line succeeds, it also succeeds with one more option that the active command understands, put anywhere among that command's options and arguments, and every value in every command is the same except the option's own. Likewise an option can be left out, unless a mandatory option has the same value.", "quantifier": "for all parsers in which nothing is ignored and each command has one sub-command at most, all NORMAL options in any spelling and with any value, all places on all command lines that succeed; an added option doesn't remove the value of a mandatory option", "why_tests_cant": "the places, spellings and values are unbounded, and the effect has to be compared on every other value of every command; arguments are counted and handed out in advance, which an additional option could disturb", "anchors": ["src/Argos/ArgumentIteratorImpl.cpp:225-330", "src/Argos/ArgumentIteratorImpl.cpp:346-404", "src/Argos/ArgumentCounter.cpp"]}
{"id": "C91", "title": "Results stay valid as long as they are used", "statement": "ParsedArguments, ArgumentValue and ArgumentValues can be copied, moved, assigned and destroyed in any order without undefined behaviour in later uses. What a value or a list of values shows doesn't depend on other objects being destroyed, in particular not on the ParsedArguments it came from. A default-constructed or moved-from object throws an exception when its results are needed.", "quantifier": "for all client programs (sequences of operations on any number of variables, of any length), all parses, all values and separators", "why_tests_cant": "dangling string_views and null pointers depend on the order of destruction and moves; the sequences are unbounded and undefined behaviour often shows nothing in a test", "anchors": ["src/Argos/ParsedArguments.cpp:17-161", "src/Argos/ArgumentValue.cpp:45-184", "src/Argos/ArgumentValues.cpp:78-119", "src/Argos/ParsedArgumentsImpl.hpp:77-88"]}
{"id": "C92", "title": "Demanding less keeps accepted command lines accepted", "statement": "When the declarations of a parser are relaxed (a mandatory option becomes optional, a sub-command is no longer required, an argument may be given less or more often), the declarations are still accepted, every command line on which parse succeeded still succeeds, and every question for values gets the same answer in all commands.", "quantifier": "for all declarations with any number of nested sub-commands, all ways of relaxing them, all command lines that succeed, all names of values", "why_tests_cant": "declarations, command lines and ways of relaxing are unbounded; values are handed out to arguments by counting them in advance, so a relaxed count of one argument can take values from another one or lead to an error", "anchors": ["src/Argos/ArgumentCounter.cpp", "src/Argos/ArgumentIteratorImpl.cpp:225-404", "src/Argos/CommandData.cpp:270-279", "src/Argos/CommandData.cpp:426-448", "src/Argos/OptionData.cpp:57-109"]}
{"id": "C93", "title": "Words are split at their borders", "statement": "A word that no rule is about and that must be split is split at its last border between ASCII characters that leaves a first part of at least a third of the width, without a hyphen if the border is between a letter or digit and another character, with one if it is between a letter and a digit. Only if there is no such border it is split where the first part and a hyphen fill the width. Punctuation is not separated from a word that has a rule.", "quantifier": "every set of rules, every word in UTF-8, start position and width", "why_tests_cant": "The positions of multi-byte characters, the borders and the width interact; the loop that looks for the border walks backwards over bytes.", "anchors": ["src/Argos/WordSplitter.cpp: default_rule, split"]}
{"id": "C94", "title": "Ignoring the case of letters does not change accepted command lines", "statement": "If a parser accepts a command line, then the same parser made case-insensitive accepts it as well and gives the same values. The declarations are still accepted if no two flags differ only in the case of letters.", "quantifier": "all declarations, option styles, settings and command lines; callbacks that change nothing", "why_tests_cant": "The flags are kept in another order and every lookup compares differently; generated flags, flags with an equal sign and sub-command names take part; a test tries a few lines.", "anchors": ["src/Argos/CommandData.cpp: build_option_index, find_option, add_help_option", "src/Argos/ParserData.cpp: add_version_option", "src/Argos/CommandData.cpp: find_command"]}
{"id": "C95", "title": "An iterator over values is valid as long as its list", "statement": "An ArgumentValueIterator refers to the list of values it was made from. As long as this list exists (it may be moved), the iterator can be compared with end() and, where the two differ, be dereferenced and incremented without undefined behaviour, whatever happens to other objects; incrementing begin() k times leads to the value that value(k) returns; the ArgumentValue that dereferencing returns, and the iterator itself, keep the results alive.", "quantifier": "for all sequences of operations on results, values, lists, views and iterators, for all parsed command lines", "why_tests_cant": "Whether something dangles depends on the order in which copies, moves, assignments and destructions of many objects happen; a test runs one order, and reading freed memory often goes unnoticed.", "anchors": ["src/Argos/ArgumentValueIterator.cpp: operator++, operator*, operator==", "src/Argos/ArgumentValues.cpp: begin, end, value", "include/Argos/ArgumentValueIterator.hpp: ArgumentValueIterator"]}
{"id": "C96", "title": "Values that were taken stay while the iteration goes on", "statement": "A value that was taken from ArgumentIterator::parsed_arguments() at some moment stays what it is while next() goes on reading: it is still at the same place among the values of its argument or option, in the same command, unless next() reports an option that assigns or clears these values. The values don't change at all as long as next() reports nothing that they belong to, nor at the end of the command line.", "quantifier": "all declarations with any number of nested sub-commands, all command lines, all moments and any number of further calls; callbacks that change nothing", "why_tests_cant": "The moments at which a value is taken and at which it is looked at again are unbounded combinations, with sub-commands entered and left in between; a test takes a value and uses it at once.", "anchors": ["src/Argos/ArgumentIterator.cpp: next, parsed_arguments", "src/Argos/ParsedArgumentsImpl.cpp: assign_value, append_value, clear_value", "src/Argos/ArgumentIteratorImpl.cpp: process_option, next"]}
{"id": "C97", "title": "An error leaves what had been read before it", "statement": "When parsing ends with an error and the process isn't ended, the values in the results, in all commands, are those of the options and arguments that were read before the error, no more and no less; they are the same as after a command line that is accepted and has the same options and arguments.", "quantifier": "all declarations with any number of nested sub-commands, all command lines on which parse fails, all errors; callbacks that change nothing", "why_tests_cant": "Errors are found at many places of the parser, some of them after a part of the work has been done; a test of an error looks at the error and hardly at the values in all commands.", "anchors": ["src/Argos/ArgumentIteratorImpl.cpp: next, process_option, process_argument, process_command, check_argument_and_option_counts, error"]}
{"id": "C98", "title": "Of several assignments the last one counts", "statement": "If an option of a command is followed, on the part of the line for the same command, by an option that assigns or clears the same value, the first one can be left out, or be added: parse succeeds with it if and only if it succeeds without it, and the values in all commands are the same, whatever options and arguments are between the two, before them and after them.", "quantifier": "all declarations with any number of nested sub-commands, all option styles, all command lines that succeed, all options and values; callbacks that change nothing", "why_tests_cant": "The number and kind of the options and arguments around the two options are unbounded, arguments may have to be counted beforehand, and mandatory options depend on the values; a test gives an option twice on one line.", "anchors": ["src/Argos/ArgumentIteratorImpl.cpp: process_option, check_argument_and_option_counts", "src/Argos/ParsedArgumentsImpl.cpp: assign_value, clear_value"]}
