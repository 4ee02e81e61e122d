{
 "claims": [
  {
   "property": "C01",
   "status": "partial",
   "theorems": [
    "Argos.C01_parse_partial",
    "Argos.C01_unknown_partial",
    "Argos.C01_dash_violated",
    "Argos.C01_ignore_violated",
    "Argos.C01_tokens",
    "Argos.C01_tokens_any",
    "Argos.C01_counted_partial",
    "Argos.C01_count_violated"
   ],
   "note": "Proved on the level of flags read (all command lines, all positions) and for parse (all callbacks, all configurations without commands that need the number of arguments in advance). For such commands C01_counted_partial gives the same results for accepted lines, and C01_count_violated shows that it is false for some of them. False also if the second flag is a dash (-a-b means -a, --, -b, but -a --b has the flag --b) and if undefined options are ignored (an unknown flag is only ignored if it is the first one in its argument)."
  },
  {
   "property": "C02",
   "status": "partial",
   "theorems": [
    "Argos.C02_option_value",
    "Argos.C02_parse_partial",
    "Argos.C02_says",
    "Argos.C02_counted_partial",
    "Argos.C02_count_violated"
   ],
   "note": "C02_option_value: the tokens read, for all strings. C02_parse_partial: the whole parse is the same for all four forms, whatever the callbacks do, if no command needs the number of arguments in advance; C02_counted_partial: successful parses of Ordinary and Predictable parsers, also with counted arguments. C02_count_violated: if the arguments are counted, and an option that takes no value has an argument name, `-n -mx a b` is accepted but `-n -m x a b` isn't."
  },
  {
   "property": "C03",
   "status": "proved",
   "theorems": [
    "Argos.C03_tokens",
    "Argos.C03_glue"
   ],
   "note": ""
  },
  {
   "property": "C04",
   "status": "partial",
   "theorems": [
    "Argos.C04_verbatim_partial",
    "Argos.C04_violated",
    "Argos.C04_parse"
   ],
   "note": "Proved for STANDARD style; for SLASH and DASH styles C04_violated shows a spurious empty argument after a concatenated value."
  },
  {
   "property": "C05",
   "status": "partial",
   "theorems": [
    "Argos.C05_remaining_partial",
    "Argos.C05_unread_shape",
    "Argos.C05_violated",
    "Argos.C05_parse"
   ],
   "note": "C05_violated: in SLASH/DASH style an empty separate option value is read again."
  },
  {
   "property": "C06",
   "status": "partial",
   "theorems": [
    "Argos.C06_insert_partial",
    "Argos.C06_violated"
   ],
   "note": "Proved when no concatenated short flag beginning with '-' is pending; C06_violated gives the other case."
  },
  {
   "property": "C07",
   "status": "proved",
   "theorems": [
    "Argos.C07_exact",
    "Argos.C07_unique"
   ],
   "note": ""
  },
  {
   "property": "C08",
   "status": "proved",
   "theorems": [
    "Argos.C08_abbreviations",
    "Argos.C08_exact_first",
    "Argos.C08_ambiguous"
   ],
   "note": ""
  },
  {
   "property": "C09",
   "status": "partial",
   "theorems": [
    "Argos.C09_case_insensitive_partial",
    "Argos.C09_abbreviations_partial",
    "Argos.C09_violated"
   ],
   "note": "Proved for flags made of regular bytes (ASCII other than [ \\ ] ^ _ and backtick); C09_violated shows the failure otherwise (compare_ci is not a strict weak order)."
  },
  {
   "property": "C10",
   "status": "partial",
   "theorems": [
    "Argos.C10_conflicts_partial",
    "Argos.C10_accepted_distinct_partial",
    "Argos.C10_case_sensitive",
    "Argos.C10_violated",
    "Argos.C10_sort_violated"
   ],
   "note": "Case-sensitive: proved without restriction. Case-insensitive: proved for regular flags; violated otherwise."
  },
  {
   "property": "C11",
   "status": "partial",
   "theorems": [
    "Argos.C11_typable_partial",
    "Argos.C11_rejected",
    "Argos.C11_violated"
   ],
   "note": "Same restriction as C09 in case-insensitive mode."
  },
  {
   "property": "C12",
   "status": "partial",
   "theorems": [
    "Argos.C12_added",
    "Argos.C12_added_sub",
    "Argos.C12_accepted_partial",
    "Argos.C12_violated"
   ],
   "note": "Same restriction as C09 in case-insensitive mode."
  },
  {
   "property": "C13",
   "status": "proved",
   "theorems": [
    "Argos.C13_distribution",
    "Argos.C13_unique"
   ],
   "note": "The distribution at parse level, for every given command and also if the arguments were counted wrongly, is C25_counts (ArgsWithin is IsAllotment for the arguments given)."
  },
  {
   "property": "C14",
   "status": "partial",
   "theorems": [
    "Argos.C14_too_many",
    "Argos.C14_too_few_partial",
    "Argos.C14_too_few_reported",
    "Argos.C14_exact",
    "Argos.C14_violated"
   ],
   "note": "C14_exact: exactly which numbers of values are accepted (in range, and, when an argument before the last one has a variable count, the last one is mandatory or the others are full). C14_too_many and C14_too_few_reported hold without restriction; C14_violated: a count in range is rejected when the arguments must be counted and the last one gets no value. Counter level; parse level through C57_exact_partial."
  },
  {
   "property": "C15",
   "status": "proved",
   "theorems": [
    "Argos.C15_counts",
    "Argos.C15_rejected",
    "Argos.C15_effect"
   ],
   "note": ""
  },
  {
   "property": "C16",
   "status": "proved",
   "theorems": [
    "Argos.C16_map",
    "Argos.C16_others",
    "Argos.C16_builder"
   ],
   "note": ""
  },
  {
   "property": "C17",
   "status": "proved",
   "theorems": [
    "Argos.C17_agree",
    "Argos.C17_view"
   ],
   "note": ""
  },
  {
   "property": "C18",
   "status": "partial",
   "theorems": [
    "Argos.C18_unknown",
    "Argos.C18_declared",
    "Argos.C18_partial",
    "Argos.C18_violated"
   ],
   "note": "Undeclared names throw (all commands); a declared name gives the smallest value declared under it (all commands); it is the value of the item itself when names are used only after their declaration. False in general: C18_violated."
  },
  {
   "property": "C19",
   "status": "partial",
   "theorems": [
    "Argos.C19_sound",
    "Argos.C19_partial",
    "Argos.C19_independent",
    "Argos.C19_violated"
   ],
   "note": "Same value implies connected: all declarations. The converse when names are only used after their declaration; false in general: C19_violated."
  },
  {
   "property": "C20",
   "status": "proved",
   "theorems": [
    "Argos.C20_unique",
    "Argos.C20_view"
   ],
   "note": ""
  },
  {
   "property": "C21",
   "status": "proved",
   "theorems": [
    "Argos.C21_terminates",
    "Argos.C21_steps"
   ],
   "note": "Termination of parse and a bound on the number of iterator results, for every command line and every environment whose callbacks insert no arguments. Exception counts, auto_exit and errors included."
  },
  {
   "property": "C22",
   "status": "proved",
   "theorems": [
    "Argos.C22_next",
    "Argos.C22_start",
    "Argos.C22_parse",
    "Argos.C22_counter",
    "Argos.C22_throws"
   ],
   "note": "Every state reachable by calls of next(), whatever callbacks do (write, clear, insert, fail, throw)."
  },
  {
   "property": "C23",
   "status": "partial",
   "theorems": [
    "Argos.C23_failure",
    "Argos.C23_failure_reported",
    "Argos.C23_success",
    "Argos.C23_stop_partial",
    "Argos.C23_no_subcommands",
    "Argos.C23_violated"
   ],
   "note": "Failure exactly on a reported error, success without stop, all codes for parsers without sub-commands: proved for all callbacks. Violated: a stop option inside a sub-command leaves the top-level code NONE."
  },
  {
   "property": "C24",
   "status": "partial",
   "theorems": [
    "Argos.C24_mandatory_partial",
    "Argos.C24_mandatory_leaves",
    "Argos.C24_violated"
   ],
   "note": "Mandatory options of the command active last, and of all commands when only leaf commands have mandatory options: proved. Violated: mandatory options of enclosing commands and of sub-commands finished earlier are not checked."
  },
  {
   "property": "C25",
   "status": "proved",
   "theorems": [
    "Argos.C25_counts",
    "Argos.C25_values"
   ],
   "note": "Proved for all given commands, and for the number of values that can be retrieved. Hypotheses: no command has both arguments and sub-commands, min <= max (both ensured by the setters, see C15, C38)."
  },
  {
   "property": "C26",
   "status": "proved",
   "theorems": [
    "Argos.C26_stop",
    "Argos.C26_stop_option",
    "Argos.C26_accessor"
   ],
   "note": "Includes the accessor stop_option()."
  },
  {
   "property": "C27",
   "status": "proved",
   "theorems": [
    "Argos.C27_end_repeats",
    "Argos.C27_end_after_stop",
    "Argos.C27_error_throws"
   ],
   "note": "next() after the end, after a stop option and after an error; for every later environment."
  },
  {
   "property": "C28",
   "status": "proved",
   "theorems": [
    "Argos.C28_exit",
    "Argos.C28_no_return",
    "Argos.C28_error_exits",
    "Argos.C28_parse_off",
    "Argos.C28_parse_on"
   ],
   "note": "Per call of next() and for parse."
  },
  {
   "property": "C29",
   "status": "partial",
   "theorems": [
    "Argos.C29_parse_partial",
    "Argos.C29_count_violated",
    "Argos.C29_step_partial",
    "Argos.C29_unprocessed_partial",
    "Argos.C29_in_order_partial",
    "Argos.C29_violated"
   ],
   "note": "Every option style. Step theorem (whole argument reported, nothing else changes, no error), tree of unprocessed arguments, order on the command line, and C29_parse_partial: the whole line is parsed as if the ignored option had not been there. Violated for concatenated short flags (C29_violated: -xy is an error, -xx is reported twice) and for commands that count their arguments in advance (C29_count_violated)."
  },
  {
   "property": "C30",
   "status": "proved",
   "theorems": [
    "Argos.C30_filter",
    "Argos.C30_filter_sound"
   ],
   "note": "Filtering equals the unprocessed list whenever that list occurs in order in argv; in general the result is a common beginning."
  },
  {
   "property": "C31",
   "status": "partial",
   "theorems": [
    "Argos.C31_initial_partial",
    "Argos.C31_assigned",
    "Argos.C31_violated"
   ],
   "note": "Options of the program: proved. Violated: initial values of options of sub-commands are never stored."
  },
  {
   "property": "C32",
   "status": "proved",
   "theorems": [
    "Argos.C32_values",
    "Argos.C32_flat",
    "Argos.C32_other"
   ],
   "note": ""
  },
  {
   "property": "C33",
   "status": "partial",
   "theorems": [
    "Argos.C33_once",
    "Argos.C33_prefix",
    "Argos.C33_error_partial",
    "Argos.C33_stored_first",
    "Argos.C33_seen",
    "Argos.C33_violated"
   ],
   "note": "Proved: for environments whose callbacks do not throw, the calls that ran are, in order, exactly the calls owed to the results reported (C33_once, C33_prefix), the value is stored before the callback sees it (C33_stored_first, C33_seen). Violated by the code when a LAST_ARGUMENT option fails the final count check: its callbacks ran but only an error is reported (C33_violated), so the error case is C33_error_partial."
  },
  {
   "property": "C34",
   "status": "proved",
   "theorems": [
    "Argos.C34_default",
    "Argos.C34_rejected",
    "Argos.C34_enforced"
   ],
   "note": ""
  },
  {
   "property": "C35",
   "status": "proved",
   "theorems": [
    "Argos.C35_mirror",
    "Argos.C35_single",
    "Argos.C35_order"
   ],
   "note": ""
  },
  {
   "property": "C36",
   "status": "partial",
   "theorems": [
    "Argos.C36_partial",
    "Argos.C36_repeat",
    "Argos.C36_violated"
   ],
   "note": "Holds for every program when no version is set and all commands are visible, and for parse(argc, argv) when the program name has been set; const calls leave every object unchanged. Violated: make_copy drops the version, and the const parse(argc, argv) does not set the program name."
  },
  {
   "property": "C37",
   "status": "partial",
   "theorems": [
    "Argos.C37_partial",
    "Argos.C37_operand_partial",
    "Argos.C37_violated"
   ],
   "note": "Proved for all objects and all call sequences, except parse(argc, argv). Violated: parse(argc, argv) of a consumed parser, Command::copy_from with a consumed command and copy_from with itself are undefined behaviour."
  },
  {
   "property": "C38",
   "status": "partial",
   "theorems": [
    "Argos.C38_partial",
    "Argos.C38_rejected",
    "Argos.C38_violated"
   ],
   "note": "Invariant of every program whose copy_from calls do not bring arguments and sub-commands together; the rejection by add is proved in full. Violated: copy_from does not check."
  },
  {
   "property": "C39",
   "status": "proved",
   "theorems": [
    "Argos.C39_as_long",
    "Argos.C39_as_int",
    "Argos.C39_error",
    "Argos.C39_no_base",
    "Argos.C39_unique",
    "Argos.C39_round_trip",
    "Argos.C39_base_zero",
    "Argos.C39_base_unique",
    "Argos.C39_as_integers"
   ],
   "note": "Bases 2 to 36 (C39_as_long, C39_as_int), base 0, where the number's prefix selects the base (C39_base_zero, C39_base_unique), and all other bases, which strtol rejects (C39_no_base)."
  },
  {
   "property": "C40",
   "status": "partial",
   "theorems": [
    "Argos.C40_unsigned_partial",
    "Argos.C40_unsigned_congruent",
    "Argos.C40_base_zero",
    "Argos.C40_violated"
   ],
   "note": "Negative strings are accepted (C40_violated); exact for strings without a minus sign, also with base 0."
  },
  {
   "property": "C41",
   "status": "proved",
   "theorems": [
    "Argos.C41_split_string",
    "Argos.C41_split_value",
    "Argos.C41_split_values",
    "Argos.C41_unlimited",
    "Argos.C41_split_n"
   ],
   "note": "split(max_parts) for every max_parts, including the default 0 (no limit), and split_n; split_n(sep, 0) is unlimited as well, not zero parts."
  },
  {
   "property": "C42",
   "status": "proved",
   "theorems": [
    "Argos.C42_equal_ci",
    "Argos.C42_prefix_ci",
    "Argos.C42_equivalence",
    "Argos.C42_to_lower"
   ],
   "note": ""
  },
  {
   "property": "C43",
   "status": "partial",
   "theorems": [
    "Argos.C43_as_bool_partial",
    "Argos.C43_violated"
   ],
   "note": "Documentation promises true for every value but 0 and false; the empty value gives false (C43_violated)."
  },
  {
   "property": "C44",
   "status": "proved",
   "theorems": [
    "Argos.C44_count",
    "Argos.C44_find_nth",
    "Argos.C44_bounds"
   ],
   "note": ""
  },
  {
   "property": "C45",
   "status": "partial",
   "theorems": [
    "Argos.C45_split_partial",
    "Argos.C45_rule_partial",
    "Argos.C45_violated"
   ],
   "note": "proved for all byte strings, rules and widths when a first part is returned; a word with a rule is split at the last place of its rule that fits (rules in UTF-8 not ending with a space); violated: without a first part the rest is the whole word (unused by the caller)"
  },
  {
   "property": "C46",
   "status": "proved",
   "theorems": [
    "Argos.C46_lines_fit"
   ],
   "note": "proved for every sequence of formatter operations and all byte strings and rules"
  },
  {
   "property": "C47",
   "status": "partial",
   "theorems": [
    "Argos.C47_nothing_lost_partial",
    "Argos.C47_same_characters_partial",
    "Argos.C47_violated"
   ],
   "note": "proved for every sequence of operations with rules in valid UTF-8; violated by a rule that splits inside a truncated character"
  },
  {
   "property": "C48",
   "status": "partial",
   "theorems": [
    "Argos.C48_indentation_partial",
    "Argos.C48_violated"
   ],
   "note": "write_words never fails, proved; indentation restored for lines indented by spaces or one tab; violated for lines beginning with two white-space tokens"
  },
  {
   "property": "C49",
   "status": "partial",
   "theorems": [
    "Argos.C49_lines_partial",
    "Argos.C49_violated"
   ],
   "note": "proved for texts not ending with CR, with the exact layout for lines that fit; violated (for all texts ending with CR): std::out_of_range"
  },
  {
   "property": "C50",
   "status": "partial",
   "theorems": [
    "Argos.C50_help_partial",
    "Argos.C50_error_partial",
    "Argos.C50_hidden",
    "Argos.C50_hidden_error",
    "Argos.C50_violated",
    "Argos.C50_path",
    "Argos.C50_error_for_partial"
   ],
   "note": "Proved: the help text and the error messages of every command of an initialised parser consist of the specified blocks (usage and list of what is visible, headings in order of first use), all lines fit, and what is hidden has no influence on the output. Violated for ArgumentParser::write_help_text, which works on a copy that has lost the visibility of the sub-commands. Not covered: names ending with a carriage return (C49) and word splitting rules that are not UTF-8 (C47)."
  },
  {
   "property": "C51",
   "status": "partial",
   "theorems": [
    "Argos.C51_partial",
    "Argos.C51_visible_partial",
    "Argos.C51_violated"
   ],
   "note": "Proved for the whole tree of every command, apart from the visibility. Violated: visibility is not copied; the copy of the const functions has no version."
  },
  {
   "property": "C52",
   "status": "proved",
   "theorems": [
    "Argos.C52_help",
    "Argos.C52_error",
    "Argos.C52_error_for"
   ],
   "note": "Proved for write_help_text and both write_error_message functions, for all commands, texts and widths: when they return, the writer's line buffer is empty."
  },
  {
   "property": "C53",
   "status": "partial",
   "theorems": [
    "Argos.C53_partial",
    "Argos.C53_violated"
   ],
   "note": "Proved for the root and its sub-commands; a deeper command shows only its parent and itself (proved for every path). Violated at depth two."
  },
  {
   "property": "C54",
   "status": "partial",
   "theorems": [
    "Argos.C54_empty_partial",
    "Argos.C54_violated"
   ],
   "note": "Proved for every style and callback behaviour: nothing ignored and no STOP/HELP/EXIT/LAST_ARGUMENT option reported implies every command's unprocessed list is empty. Violated as documented: STOP and LAST_ARGUMENT options leave unprocessed arguments with auto_exit on, and errors do (C54_violated)."
  },
  {
   "property": "C55",
   "status": "partial",
   "theorems": [
    "Argos.C55_partial",
    "Argos.C55_violated"
   ],
   "note": "C55_partial: from any point where options are recognised the look-ahead equals the arguments then read (all styles; regular options, no abbreviations, no further commands). C55_violated: options with an argument name and operation CLEAR/NONE, and '-' with abbreviations, are miscounted and valid command lines are rejected."
  },
  {
   "property": "C56",
   "status": "partial",
   "theorems": [
    "Argos.C56_value_at_partial",
    "Argos.C56_violated"
   ],
   "note": "An index out of range gives std::out_of_range or an empty value instead of the documented error (C56_violated)."
  },
  {
   "property": "C57",
   "status": "partial",
   "theorems": [
    "Argos.C57_sound_partial",
    "Argos.C57_complete_partial",
    "Argos.C57_unique",
    "Argos.C57_verdict_partial",
    "Argos.C57_exact_partial",
    "Argos.C57_violated",
    "Argos.C57_empty_violated",
    "Argos.C57_concatenated",
    "Argos.C57_short_value",
    "Argos.C57_equals",
    "Argos.C57_equals_prefixed"
   ],
   "note": "Every option style. Sound for every ordinary parser; unique reading; spellings equivalent. C57_exact_partial: with correctly counted arguments (Predictable) parse succeeds exactly for the well-formed lines that serve the last argument (C14_exact); completeness without that condition when the last argument is mandatory (Foreseeable), violated otherwise (C57_violated: A(1..2) B(0..1) rejects a single value). SLASH/DASH: LAST_OPTION options and empty arguments are left out; the latter violate the property (C57_empty_violated: an empty value is read twice)."
  },
  {
   "property": "C58",
   "status": "partial",
   "theorems": [
    "Argos.C58_base_name",
    "Argos.C58_base_name_unique",
    "Argos.C58_program_name_partial",
    "Argos.C58_constructor",
    "Argos.C58_violated"
   ],
   "note": "Holds for the constructor and for the non-const parse(argc, argv); a const parser and make_iterator keep the placeholder name UNINITIALIZED (C58_violated)."
  },
  {
   "property": "C59",
   "status": "partial",
   "theorems": [
    "Argos.C59_origin",
    "Argos.C59_value",
    "Argos.C59_common",
    "Argos.C59_views",
    "Argos.C59_violated"
   ],
   "note": "Proved for value(name) and values(...) in every given command, callbacks passive. value(view) reports the view it was asked with, even if a linked option gave the value (C59_violated)."
  },
  {
   "property": "C60",
   "status": "partial",
   "theorems": [
    "Argos.C60_parse",
    "Argos.C60_innermost",
    "Argos.C60_end_partial",
    "Argos.C60_kept",
    "Argos.C60_moved",
    "Argos.C60_violated"
   ],
   "note": "Proved: the object obtained before the first next() shows at the end what parse returns (both directions), the object of parsed_arguments() is the innermost open command, objects keep their meaning, and without sub-commands parsed_arguments() at the end is the result of parse. Violated: after a sub-command parsed_arguments() does not give access to what was processed for the program (C60_violated)."
  },
  {
   "property": "C61",
   "status": "partial",
   "theorems": [
    "Argos.C61_argument",
    "Argos.C61_option",
    "Argos.C61_end",
    "Argos.C61_violated"
   ],
   "note": "Proved for all configurations and command lines with passive callbacks. Violated: the documentation says that value is empty for anything but arguments, options with values and undefined arguments, but for a sub-command it is its text (C61_violated)."
  },
  {
   "property": "C62",
   "status": "partial",
   "theorems": [
    "Argos.C62_accepts",
    "Argos.C62_parse_partial",
    "Argos.C62_values_partial",
    "Argos.C62_argument",
    "Argos.C62_flag",
    "Argos.C62_flag_value",
    "Argos.C62_equals",
    "Argos.C62_short_value",
    "Argos.C62_violated"
   ],
   "note": "C62_accepts is unconditional in the grammar; C62_parse_partial and C62_values_partial need Ordinary and Predictable parsers, silent callbacks, and in the SLASH and DASH styles no empty arguments. C62_argument, C62_flag, C62_flag_value, C62_equals and C62_short_value say what a phrase is. C62_violated: `a b --odd` is accepted, `--odd a b` rejected."
  },
  {
   "property": "C63",
   "status": "partial",
   "theorems": [
    "Argos.C63_accepts",
    "Argos.C63_parse_partial",
    "Argos.C63_violated",
    "Argos.C63_any_partial"
   ],
   "note": "C63_accepts is unconditional in the grammar; C63_parse_partial needs Ordinary and Predictable parsers and silent callbacks. C63_any_partial: all callbacks, all outcomes, all styles, but no command that needs the number of arguments in advance. C63_violated: --DRYRUN is accepted, --dryrun is rejected by a case-insensitive parser that also has --DRY_RUN."
  },
  {
   "property": "C64",
   "status": "partial",
   "theorems": [
    "Argos.C64_exact_partial",
    "Argos.C64_truth_partial",
    "Argos.C64_exclusive",
    "Argos.C64_told_partial",
    "Argos.C64_told_exact_partial",
    "Argos.C64_false_partial",
    "Argos.C64_violated"
   ],
   "note": "Spec/Faults.lean says what can be wrong with a line and with which message. C64_exact_partial: with silent callbacks and a correct count of the arguments ahead (Predictable), every message that parse writes is true of the line, at the first place where it can't go on, in the name of the right command, and the only one -- except for exactly one kind: 'Too few arguments' for a command that counts its arguments, has got enough of them, but none for its last argument (Overlooked). C64_false_partial: a well-formed line can get no other message. C64_truth_partial: no exception if that last argument is mandatory. C64_exclusive: what a message says holds of malformed lines only. C64_told_exact_partial/C64_told_partial: for which lines there is a message. C64_violated: 'Too few arguments. Expected at least 1, received 1.' and a wrong 'Too many arguments', from the counting bugs of C14 and C55."
  },
  {
   "property": "C65",
   "status": "proved",
   "theorems": [
    "Argos.C65_option",
    "Argos.C65_argument",
    "Argos.C65_command",
    "Argos.C65_parser",
    "Argos.C65_contents",
    "Argos.C65_style"
   ],
   "note": "Per attribute: last setter call or default, over all programs on the world model. copy_from into the object itself is excluded here (C51 covers copies)."
  },
  {
   "property": "C66",
   "status": "partial",
   "theorems": [
    "Argos.C66_sound_exact_partial",
    "Argos.C66_complete_exact_partial",
    "Argos.C66_exact_partial",
    "Argos.C66_sound_partial",
    "Argos.C66_complete_partial",
    "Argos.C66_verdict_partial",
    "Argos.C66_unique",
    "Argos.C66_single",
    "Argos.C66_violated"
   ],
   "note": "C66_exact_partial (with C66_sound_exact_partial, C66_complete_exact_partial): for all parsers with sensible declarations and a correct count of the arguments ahead (Predictable), in every option style, parse succeeds exactly on the well-formed lines where each command whose arguments are counted has a value for its last argument, or that argument is mandatory. C66_sound_partial, C66_complete_partial, C66_verdict_partial, C66_unique: without that condition where such a last argument is always mandatory (Foreseeable). C66_single: agrees with C57's grammar where no command allows several sub-commands. Violated when a sub-command's arguments aren't complete in count mode although the minimum is reached (C66_violated)."
  },
  {
   "property": "C67",
   "status": "partial",
   "theorems": [
    "Argos.C67_views_partial",
    "Argos.C67_results",
    "Argos.C67_violated"
   ],
   "note": "views and navigation proved for everything but the help text of commands: CommandView::help returns the ABOUT text (C67_violated)"
  },
  {
   "property": "C68",
   "status": "proved",
   "theorems": [
    "Argos.C68_value",
    "Argos.C68_values",
    "Argos.C68_split",
    "Argos.C68_split_values"
   ],
   "note": "for results of accepted command lines with passive callbacks and declarations with arguments xor sub-commands; the written text itself is C50's"
  },
  {
   "property": "C69",
   "status": "proved",
   "theorems": [
    "Argos.C69_loop",
    "Argos.C69_agree",
    "Argos.C69_split_n",
    "Argos.C69_split_n_values",
    "Argos.C69_integers",
    "Argos.C69_single"
   ],
   "note": ""
  },
  {
   "property": "C70",
   "status": "proved",
   "theorems": [
    "Argos.C70_print",
    "Argos.C70_unique"
   ],
   "note": ""
  },
  {
   "property": "C71",
   "status": "partial",
   "theorems": [
    "Argos.C71_layout_partial",
    "Argos.C71_lines_partial",
    "Argos.C71_violated"
   ],
   "note": "C71_layout_partial: the exact help text if all texts fit on their lines; C71_lines_partial: the structure and the indentation of all lines for tidy texts of any length. Violated (C71_violated) when the text before the generated usage is a list marker: the usage reads 'prog--help'. Missing: untidy texts (C48), texts ending with a carriage return (C49), wrapped titles, labels and usage lines."
  },
  {
   "property": "C72",
   "status": "proved",
   "theorems": [
    "Argos.C72_values",
    "Argos.C72_flat",
    "Argos.C72_adding"
   ],
   "note": "For all environments (callbacks that throw or report errors end the parse otherwise). Call numbers are existentially quantified. A dangling string_view is the outcome `none`."
  },
  {
   "property": "C73",
   "status": "proved",
   "theorems": [
    "Argos.C73_value",
    "Argos.C73_unique",
    "Argos.C73_integers",
    "Argos.C73_decimals",
    "Argos.C73_values",
    "Argos.C73_reported"
   ],
   "note": "Rounding and the range of the type are a parameter; everything else, including hexadecimal numbers, infinities and NaN, is proved. Mutants of strtod's scanning are mutants of the C library, not of the project."
  },
  {
   "property": "C74",
   "status": "partial",
   "theorems": [
    "Argos.C74_written_partial",
    "Argos.C74_otherwise",
    "Argos.C74_violated"
   ],
   "note": "Violated (C74_violated): ArgumentParser::line_width(1 or 2) and word splitting rules with a leading space or two spaces in a row are accepted when declared, but every help text and error message then throws. C74_otherwise: this holds for all settings outside Writable, and C74_written_partial: for all settings inside (with names not ending with a carriage return and UTF-8 rules) texts can be written on every terminal and fit."
  },
  {
   "property": "C75",
   "status": "partial",
   "theorems": [
    "Argos.C75_seen_partial",
    "Argos.C75_results",
    "Argos.C75_exact_partial",
    "Argos.C75_truth_partial",
    "Argos.C75_violated"
   ],
   "note": "C75_seen_partial: full description of what is written for every command line, arbitrary callbacks, all outcomes; C75_results: the results it refers to are unique; C75_exact_partial, C75_truth_partial: with C64's hypotheses what appears on stderr is a true error message, or the one false message of C64_exact_partial. Missing: the settings outside CanWrite; violated there (C75_violated): the exception about the settings replaces the user's error message."
  },
  {
   "property": "C76",
   "status": "partial",
   "theorems": [
    "Argos.C76_command_partial",
    "Argos.C76_self",
    "Argos.C76_parser_partial",
    "Argos.C76_violated"
   ],
   "note": "For every program: exact contents of the target after copy_from, for commands and parsers, and the message naming the first text that both have. Violated (C76_violated): copy_from has no strong exception guarantee, the target has been changed when the exception is thrown; copying a command to itself is undefined behaviour."
  },
  {
   "property": "C77",
   "status": "partial",
   "theorems": [
    "Argos.C77_text_partial",
    "Argos.C77_help_partial",
    "Argos.C77_error_partial",
    "Argos.C77_violated"
   ],
   "note": "The exact bytes of texts, help texts and error messages whose lines are filled: proved for texts without tabs whose words fit on a line and match no splitting rule and whose list markers are followed by a word. Violated: a list marker alone on its line leaks the formatter's state, so that the next line is continued with the indentation of a list item (C77_violated)."
  },
  {
   "property": "C78",
   "status": "proved",
   "theorems": [
    "Argos.C78_accepted",
    "Argos.C78_parse",
    "Argos.C78_seen",
    "Argos.C78_next"
   ],
   "note": "For every pair of parsers that are the same without what is only shown, and callbacks that don't look at it; C78_seen includes what is written, for usable widths and rules."
  },
  {
   "property": "C79",
   "status": "partial",
   "theorems": [
    "Argos.C79_accepted",
    "Argos.C79_parse_partial",
    "Argos.C79_links_violated",
    "Argos.C79_initial_violated"
   ],
   "note": "C79_accepted for all parsers with regular flags; C79_parse_partial for links after their declaration and at most one initial value per value, with witnesses that it is false otherwise. The one exception in the messages (which of several missing options is named) is part of the statement."
  },
  {
   "property": "C80",
   "status": "partial",
   "theorems": [
    "Argos.C80_accepts",
    "Argos.C80_parse_partial",
    "Argos.C80_abbreviation_violated",
    "Argos.C80_equals_violated",
    "Argos.C80_initial_violated"
   ],
   "note": "For parse without abbreviations, with callbacks that insert and write nothing, for parsers for which C57 holds (Ordinary, Predictable). False with abbreviations, for new flags that end in '=', and for initial values of linked options: concrete witnesses."
  },
  {
   "property": "C81",
   "status": "partial",
   "theorems": [
    "Argos.C81_parse_partial",
    "Argos.C81_next_partial",
    "Argos.C81_count_violated",
    "Argos.C81_flags_violated"
   ],
   "note": "Partial: for commands that don't count their arguments in advance and insertions at the end of an argument. False otherwise (C81_count_violated: after an insertion the arguments after -- are recounted as if options were still allowed; C81_flags_violated: -a-b goes on with --b after an insertion)."
  },
  {
   "property": "C82",
   "status": "partial",
   "theorems": [
    "Argos.C82_init",
    "Argos.C82_parse_partial",
    "Argos.C82_counted_partial",
    "Argos.C82_count_violated",
    "Argos.C82_ignored_violated"
   ],
   "note": "Proved for all callbacks and outcomes (no error message in the first run), for all three settings. False if abbreviations are turned on in a parser that counts its arguments in advance (an argument - counts as an abbreviation of the only flag; C82_counted_partial says when it is true) or that ignores undefined options already (an ignored option becomes an abbreviation)."
  },
  {
   "property": "C83",
   "status": "partial",
   "theorems": [
    "Argos.C83_reported_partial",
    "Argos.C83_parse_partial",
    "Argos.C83_count_violated",
    "Argos.C83_style_violated"
   ],
   "note": "Proved for all positions and everything before and after, for callbacks that do not look at the unprocessed arguments and commands that do not count their arguments in advance. False otherwise (C83_count_violated), and in the SLASH and DASH styles after a LAST_OPTION option (C83_style_violated)."
  },
  {
   "property": "C84",
   "status": "partial",
   "theorems": [
    "Argos.C84_nested_partial",
    "Argos.C84_accepted",
    "Argos.C84_parse_partial",
    "Argos.C84_initial_violated"
   ],
   "note": "Proved for all lines and callbacks for commands without initial values: exactly between initialised parsers (C84_nested_partial), up to value numbers between declarations with backward links (C84_parse_partial). Enclosing multi commands are excluded in the property. False for initial values (C84_initial_violated)."
  },
  {
   "property": "C85",
   "status": "partial",
   "theorems": [
    "Argos.C85_resumed_partial",
    "Argos.C85_counting_violated"
   ],
   "note": "Proved for all lines, callbacks and earlier sub-commands at any depth for parsers in which no command has both arguments and sub-commands (C85_resumed_partial). False otherwise: waiting for mandatory arguments of the parent changes how the arguments of its first sub-command are counted (C85_counting_violated)."
  },
  {
   "property": "C86",
   "status": "partial",
   "theorems": [
    "Argos.C86_next_partial",
    "Argos.C86_parse_partial",
    "Argos.C86_counting_violated"
   ],
   "note": "C86_next_partial: the same reports, output, callback calls and stack for every continuation. C86_parse_partial: the same end for every continuation if parsing ends without reaching the end of the line (EndUntouched, Over). Missing: commands that need the number of arguments in advance, where the claim is false (C86_counting_violated: 'a' is TO, 'a b' makes it FROM)."
  },
  {
   "property": "C87",
   "status": "partial",
   "theorems": [
    "Argos.C87_accepted",
    "Argos.C87_parse_partial",
    "Argos.C87_names_violated"
   ],
   "note": "Proved for sub-commands with different names (without regard to case if case doesn't matter). False for two sub-commands with the same name, which the library accepts: C87_names_violated."
  },
  {
   "property": "C88",
   "status": "partial",
   "theorems": [
    "Argos.C88_accepted",
    "Argos.C88_absent_partial",
    "Argos.C88_parse_partial",
    "Argos.C88_several_violated"
   ],
   "note": "Proved for command lines on which no word is or ends with a new name, and, without commands that accept several sub-commands, for all command lines that do not lead to an unknown command. False with multi_command: C88_several_violated. Commands without any sub-command get none (that would change what their words mean)."
  },
  {
   "property": "C89",
   "status": "partial",
   "theorems": [
    "Argos.C89_said_partial",
    "Argos.C89_unambiguous",
    "Argos.C89_dash_violated",
    "Argos.C89_name_violated"
   ],
   "note": "Proved for options of the type NORMAL, arguments after an optional LAST_OPTION marker and sub-commands of any depth, for parsers without ignored words or commands that accept several sub-commands. False for arguments that look like options without a LAST_OPTION option (C89_dash_violated) and for sub-commands whose names look like options (C89_name_violated)."
  },
  {
   "property": "C90",
   "status": "partial",
   "theorems": [
    "Argos.C90_added_partial",
    "Argos.C90_removed_partial",
    "Argos.C90_value_partial",
    "Argos.C90_count_violated",
    "Argos.C90_none_partial"
   ],
   "note": "Missing: parsers that count arguments wrongly in advance (C90_count_violated), several sub-commands, and empty arguments in the SLASH and DASH styles (C57_empty_violated)."
  },
  {
   "property": "C91",
   "status": "partial",
   "theorems": [
    "Argos.C91_safe_partial",
    "Argos.C91_unchanged",
    "Argos.C91_survives",
    "Argos.C91_default",
    "Argos.C91_moved",
    "Argos.C91_moved_violated",
    "Argos.C91_default_violated",
    "Argos.C91_text_violated",
    "Argos.C91_values_violated",
    "Argos.C91_view_violated",
    "Argos.C91_view",
    "Argos.C91_text"
   ],
   "note": "Client programs as sequences of operations on variables; careful programs have no undefined behaviour, and what a value shows is independent of what happens to other objects. Violated for moved-from or default-constructed ParsedArguments / ArgumentValues (null pointer), for the text kept by a moved-from ArgumentValue, and for views outliving the results. Missing: ArgumentValueIterator, programs that hold results while an ArgumentIterator goes on."
  },
  {
   "property": "C92",
   "status": "partial",
   "theorems": [
    "Argos.C92_init",
    "Argos.C92_accepts",
    "Argos.C92_parse_partial",
    "Argos.C92_last",
    "Argos.C92_single",
    "Argos.C92_maximum_violated",
    "Argos.C92_minimum_violated",
    "Argos.C92_counting_violated"
   ],
   "note": "All ways of relaxing options, required sub-commands and counts that leave the distribution of values as it was. Violated when counts are relaxed so that another argument gets the values, or so that the library starts counting in advance. Missing: several sub-commands, callbacks that insert arguments or write values, ignored arguments."
  },
  {
   "property": "C93",
   "status": "partial",
   "theorems": [
    "Argos.C93_split_partial",
    "Argos.C93_hyphen_violated",
    "Argos.C93_comma_violated"
   ],
   "note": "proved exactly for all words in UTF-8 without a rule and widths above 2: the border found is the last one that leaves a column unused; violated: a border in the last two columns gets a needless hyphen, and a comma behind a word with a rule can begin the next line"
  },
  {
   "property": "C94",
   "status": "partial",
   "theorems": [
    "Argos.C94_init",
    "Argos.C94_parse_partial",
    "Argos.C94_help_violated",
    "Argos.C94_equals_violated",
    "Argos.C94_command_violated",
    "Argos.C94_abbreviation_violated"
   ],
   "note": "proved for parsers without abbreviations, with silent callbacks, one sub-command per level, and commands whose flags and sub-command names don't differ only in case; violated otherwise: -H takes -h from the help option, --FOO= takes the value of --foo=x, the sub-command add hides Add, abbreviations become ambiguous"
  },
  {
   "property": "C95",
   "status": "partial",
   "theorems": [
    "Argos.C95_safe_partial",
    "Argos.C95_ready_partial",
    "Argos.C95_nth",
    "Argos.C95_unchanged_partial",
    "Argos.C95_temporary_violated",
    "Argos.C95_default_violated",
    "Argos.C95_lists_violated"
   ],
   "note": "The rules (Spec/Cursors) exclude iterators whose list has been destroyed or assigned to, default-constructed ones, and comparing iterators of different lists; each exclusion has a proved violation. Moves of vectors take the elements along, as all standard libraries do it."
  },
  {
   "property": "C96",
   "status": "partial",
   "theorems": [
    "Argos.C96_kept_partial",
    "Argos.C96_unconcerned",
    "Argos.C96_last_partial",
    "Argos.C96_end",
    "Argos.C96_violated",
    "Argos.C96_silent_violated"
   ],
   "note": "Kept unless an option that assigns or clears is reported; violated for options given twice, and by an option of type LAST_ARGUMENT that is stored although next() reports an error. Callbacks that change values are left out."
  },
  {
   "property": "C97",
   "status": "partial",
   "theorems": [
    "Argos.C97_values",
    "Argos.C97_exact_partial",
    "Argos.C97_same_partial",
    "Argos.C97_violated"
   ],
   "note": "Holds up to one option of type LAST_ARGUMENT that is stored before the check that refuses it (violated there). Callbacks that change values are left out."
  },
  {
   "property": "C98",
   "status": "partial",
   "theorems": [
    "Argos.C98_exchange_partial",
    "Argos.C98_parse_partial",
    "Argos.C98_append_kept",
    "Argos.C98_count_violated",
    "Argos.C98_final_partial",
    "Argos.C98_values_partial",
    "Argos.C98_value"
   ],
   "note": "Both directions for parse. Missing: parsers whose prediction of the number of arguments is wrong (C98_count_violated), empty arguments in the SLASH and DASH styles (C57_empty_violated)."
  }
 ]
}