{
 "claims": [
  {
   "property": "C01",
   "status": "proved",
   "theorems": [
    "Zh.C01_split_line",
    "Zh.C01_split_quoted"
   ],
   "note": "Round trip for every well-formed line; words may mix plain and quoted pieces."
  },
  {
   "property": "C02",
   "status": "proved",
   "theorems": [
    "Zh.C02_split_words",
    "Zh.C02_words_nonempty"
   ],
   "note": "Every string without quote characters."
  },
  {
   "property": "C03",
   "status": "proved",
   "theorems": [
    "Zh.C03_split_fields",
    "Zh.C03_split_join",
    "Zh.C03_field_count",
    "Zh.C03_split_fields_noend"
   ],
   "note": "Every string without quotes, any separator set, blanks kept or dropped."
  },
  {
   "property": "C04",
   "status": "partial",
   "theorems": [
    "Zh.C04_separator_index_partial",
    "Zh.C04_separator_index_reading_partial",
    "Zh.C04_backarg_counterexample",
    "Zh.C04_backarg_weak_partial",
    "Zh.C04_run",
    "Zh.C04_run_witness"
   ],
   "note": "In every run in which no definition takes arguments from its left, every result list at every moment is right (C04_run). True for append, prepend, remove, clear, pop. False for moving left-hand arguments (witness); there only the weaker fact holds that recorded positions are increasing positions of separators."
  },
  {
   "property": "C05",
   "status": "proved",
   "theorems": [
    "Zh.C05_positional_argument",
    "Zh.C05_argument_exists"
   ],
   "note": "Every well-formed list and index >= 1."
  },
  {
   "property": "C06",
   "status": "partial",
   "theorems": [
    "Zh.C06_negative_index_partial",
    "Zh.C06_beyond_front_counterexample",
    "Zh.C06_exists_always_counterexample"
   ],
   "note": "True for 1<=k<=n. For every k>n the code crashes (overflow checks) or yields the whole list; both proved."
  },
  {
   "property": "C07",
   "status": "proved",
   "theorems": [
    "Zh.C07_to_strings",
    "Zh.C07_to_strings_default",
    "Zh.C07_count"
   ],
   "note": "Every list; sentence ends also delimit, as in the code."
  },
  {
   "property": "C08",
   "status": "partial",
   "theorems": [
    "Zh.C08_argument_line_partial",
    "Zh.C08_argument_line_counterexample",
    "Zh.C08_range_line_partial",
    "Zh.C08_range_line_counterexample"
   ],
   "note": "True for arguments without the double quote; false with it (witness). The line of a range of arguments likewise, but there empty arguments are lost (witness)."
  },
  {
   "property": "C09",
   "status": "proved",
   "theorems": [
    "Zh.C09_argument_range"
   ],
   "note": "Includes the removal of a trailing separator when nothing is selected."
  },
  {
   "property": "C10",
   "status": "proved",
   "theorems": [
    "Zh.C10_prefix_match"
   ],
   "note": ""
  },
  {
   "property": "C11",
   "status": "proved",
   "theorems": [
    "Zh.C11_leftmost_innermost_oldest",
    "Zh.C11_none"
   ],
   "note": "Every text, scope tree, module list and exclusion list."
  },
  {
   "property": "C12",
   "status": "proved",
   "theorems": [
    "Zh.C12_stored_once",
    "Zh.C12_reachable",
    "Zh.C12_latest_assignment",
    "Zh.C12_latest_assignment_outside",
    "Zh.C12_independent"
   ],
   "note": "Every history of assignments."
  },
  {
   "property": "C13",
   "status": "proved",
   "theorems": [
    "Zh.C13_nearest_scope",
    "Zh.C13_reachable",
    "Zh.C13_only_self",
    "Zh.C13_private_invisible"
   ],
   "note": "Every scope tree in which parents are older than children, which holds in every reachable state."
  },
  {
   "property": "C14",
   "status": "proved",
   "theorems": [
    "Zh.C14_stored_once",
    "Zh.C14_latest_definition",
    "Zh.C14_base_name_counterexample"
   ],
   "note": "Every history of definitions. Found: a redefinition with the same full pattern from another base name keeps the old base name (witness)."
  },
  {
   "property": "C15",
   "status": "proved",
   "theorems": [
    "Zh.C15_parse_finishes",
    "Zh.C15_parse_total",
    "Zh.C15_parse_forward"
   ],
   "note": "Every byte sequence: the parser ends, and every call consumes at least the bytes it is given credit for."
  },
  {
   "property": "C16",
   "status": "proved",
   "theorems": [
    "Zh.C16_no_utf8_error",
    "Zh.C16_bytes_rejected"
   ],
   "note": "Every source text; byte sequences that are not UTF-8 can be rejected."
  },
  {
   "property": "C17",
   "status": "proved",
   "theorems": [
    "Zh.C17_blanks_irrelevant",
    "Zh.C17_blanks_irrelevant_inside"
   ],
   "note": "Every program without quoting constructs, and every such stretch after any prefix that ends in code."
  },
  {
   "property": "C18",
   "status": "proved",
   "theorems": [
    "Zh.C18_comment"
   ],
   "note": "Every place where a comment may begin and no keyword is cut; every comment with balanced brackets."
  },
  {
   "property": "C19",
   "status": "proved",
   "theorems": [
    "Zh.C19_C20_texts",
    "Zh.C19_verbatim",
    "Zh.C19_in_context",
    "Zh.C19_nested"
   ],
   "note": "Nested verbatim texts to any depth, as long as something stands before the second of two marks at the beginning. Every content without the delimiters (also spelled with blanks) and without the continuation marks of C50, which are part of the language."
  },
  {
   "property": "C20",
   "status": "partial",
   "theorems": [
    "Zh.C19_C20_texts",
    "Zh.C20_quoted",
    "Zh.C20_in_context",
    "Zh.C20_nested",
    "Zh.C20_nested_counterexample",
    "Zh.C20_one_byte_counterexample"
   ],
   "note": "Every content without continuation marks and names; nested marks to any depth, except two of them in a row at the very beginning (witness). False for a text of one byte between two words without separator: it is glued to the following word (witness)."
  },
  {
   "property": "C21",
   "status": "proved",
   "theorems": [
    "Zh.C21_cache_transparent",
    "Zh.C21_parsed_once",
    "Zh.C21_reached",
    "Zh.C21_run_transparent",
    "Zh.C21_collision_counterexample"
   ],
   "note": "Every history, and every moment of every run; the hypothesis that no other source has the same hash is needed (witness)."
  },
  {
   "property": "C22",
   "status": "proved",
   "theorems": [
    "Zh.C22_in_order",
    "Zh.C22_in_order_conv",
    "Zh.C22_statements",
    "Zh.C22_witness"
   ],
   "note": "Every statement list, position, environment and state of the model."
  },
  {
   "property": "C23",
   "status": "proved",
   "theorems": [
    "Zh.C23_loop",
    "Zh.C23_plain",
    "Zh.C23_exactly",
    "Zh.C23_counter",
    "Zh.C23_ends",
    "Zh.C23_witness"
   ],
   "note": "Every count, start, body and state; the counter arithmetic is exact (the sum of the turn number and the start does not overflow 64 bits)."
  },
  {
   "property": "C24",
   "status": "proved",
   "theorems": [
    "Zh.C24_through",
    "Zh.C24_taken",
    "Zh.C24_passed",
    "Zh.C24_labels",
    "Zh.C24_statement_plain",
    "Zh.C24_statement_label",
    "Zh.C24_innermost",
    "Zh.C24_label_active",
    "Zh.C24_labelled",
    "Zh.C24_witness",
    "Zh.C24_innermost_witness",
    "Zh.C24_example",
    "Zh.C24_several_counterexample"
   ],
   "note": "For every nesting of statements (any chain of evaluations between the loop body and the jump statement, through conditions, switches, blocks, definitions, evaluated sources): an unlabelled break/continue is taken by the innermost construct of its kind, a labelled one by the nearest construct of its kind with that counter name; nothing else is evaluated in between; every other error passes through. Breaks with several words after them deviate (C24_several_counterexample)."
  },
  {
   "property": "C25",
   "status": "proved",
   "theorems": [
    "Zh.C25_labels_restored",
    "Zh.C25_loop_label",
    "Zh.C25_main",
    "Zh.C25_witness"
   ],
   "note": "Every call of every run of the interpreter, every outcome, every host."
  },
  {
   "property": "C26",
   "status": "partial",
   "theorems": [
    "Zh.C26_statement_plain",
    "Zh.C26_statement_named",
    "Zh.C26_statement_up",
    "Zh.C26_unwinds",
    "Zh.C26_plain",
    "Zh.C26_named",
    "Zh.C26_never_escapes",
    "Zh.C26_depth_999",
    "Zh.C26_plain_witness",
    "Zh.C26_named_witness"
   ],
   "note": "For every nesting of statements and every scope depth but 999, where the return has the number that means \"none\" and ends in an error instead (C26_depth_999). A named return ends the scopes below the named one, which goes on."
  },
  {
   "property": "C27",
   "status": "proved",
   "theorems": [
    "Zh.C27_blocked_pipe",
    "Zh.C27_witness"
   ],
   "note": "Every blocked pipe of every run; also for panics and evaluations that do not end."
  },
  {
   "property": "C28",
   "status": "proved",
   "theorems": [
    "Zh.C28_catching_pipe",
    "Zh.C28_never_fails",
    "Zh.C28_ends",
    "Zh.C28_witness"
   ],
   "note": "Every body, environment and state."
  },
  {
   "property": "C29",
   "status": "proved",
   "theorems": [
    "Zh.C29_compare_lists",
    "Zh.C29_any_of",
    "Zh.C29_any_of_left",
    "Zh.C29_missing",
    "Zh.C29_truth",
    "Zh.C29_not_equal_list"
   ],
   "note": "Every operator and list length."
  },
  {
   "property": "C30",
   "status": "partial",
   "theorems": [
    "Zh.C30_text_order",
    "Zh.C30_number_order",
    "Zh.C30_reflexive",
    "Zh.C30_antisymmetric",
    "Zh.C30_total_order_text_partial",
    "Zh.C30_transitive_numbers_partial",
    "Zh.C30_transitivity_counterexample",
    "Zh.C30_nan_counterexample"
   ],
   "note": "Reflexive, antisymmetric, code point order for texts: proved. Transitivity is false across numbers and texts (2 < 10 < 1a < 2); it is proved among texts and among totally ordered numbers."
  },
  {
   "property": "C31",
   "status": "proved",
   "theorems": [
    "Zh.C31_condition",
    "Zh.C31_if",
    "Zh.C31_witness",
    "Zh.C31_example",
    "Zh.C31_parenthesis_counterexample",
    "Zh.C31_not_parenthesis_counterexample"
   ],
   "note": "Every condition made of operands (values, comparisons, parentheses) with or/and between them, every state: an exact description of which operands are evaluated, in which order, and of the result. Found: \"or\" inside a parenthesis can end the whole condition; \"not\" before a parenthesis applies to the next operand (witnesses)."
  },
  {
   "property": "C32",
   "status": "partial",
   "theorems": [
    "Zh.C32_switch",
    "Zh.C32_default_iff",
    "Zh.C32_distinct_partial",
    "Zh.C32_parsed",
    "Zh.C32_run_branches",
    "Zh.C32_refused",
    "Zh.C32_body",
    "Zh.C32_witness",
    "Zh.C32_example",
    "Zh.C32_twice_counterexample"
   ],
   "note": "Exact description for every switch, subject and state: labels evaluated in order, then the bodies with a matching label in order, default iff no label matches, the exclusive form fails without running anything when several labels match. \"Exactly once per branch\" needs that no branch has the same label twice (otherwise it runs twice, witness)."
  },
  {
   "property": "C33",
   "status": "partial",
   "theorems": [
    "Zh.C33_arithmetic",
    "Zh.C33_grouping",
    "Zh.C33_sign_counterexample",
    "Zh.C33_trailing_counterexample",
    "Zh.C33_statement",
    "Zh.C33_statement_witness",
    "Zh.C33_example"
   ],
   "note": "True for every tree without signed operands; a sign takes the whole following product (witness), trailing tokens are ignored (witness). The statement 算术 appends exactly that value, written as asked, or fails with the reason."
  },
  {
   "property": "C34",
   "status": "partial",
   "theorems": [
    "Zh.C34_ends",
    "Zh.C34_no_crash_partial",
    "Zh.C34_zero_reported",
    "Zh.C34_remainder_counterexample"
   ],
   "note": "Always ends; never crashes without the remainder operator; remainder by a number between -1 and 1 crashes (witness)."
  },
  {
   "property": "C35",
   "status": "partial",
   "theorems": [
    "Zh.C35_normal",
    "Zh.C35_quit_code",
    "Zh.C35_quit_plain",
    "Zh.C35_failure",
    "Zh.C35_jump",
    "Zh.C35_quit_1000_counterexample"
   ],
   "note": "Quit 1000 is taken for no code and exits 254 (witness); everything else holds."
  },
  {
   "property": "C36",
   "status": "partial",
   "theorems": [
    "Zh.C36_code_partial",
    "Zh.C36_file_partial",
    "Zh.C36_lines",
    "Zh.C36_example",
    "Zh.C36_witness",
    "Zh.C36_mark_counterexample",
    "Zh.C36_env_counterexample",
    "Zh.C36_empty_line_counterexample"
   ],
   "note": "Every command line on which no word for the script ends with the #! mark: the script (code, or the file found) runs with exactly the words after it as its arguments, one each; every such line is covered (C36_lines). Missing: a word that ends with the mark changes which script runs (witness), and words of the #! line of the file are added to the arguments, among them the interpreter itself when it is started through env (witness)."
  },
  {
   "property": "C37",
   "status": "proved",
   "theorems": [
    "Zh.C37_directory",
    "Zh.C37_include_path"
   ],
   "note": "Every history of additions."
  },
  {
   "property": "C38",
   "status": "partial",
   "theorems": [
    "Zh.C38_names_partial",
    "Zh.C38_names_witness",
    "Zh.C38_name_counterexample",
    "Zh.C38_free_counterexample"
   ],
   "note": "Every run in which no 命名 and no 释放模块 is evaluated keeps the names of registered modules apart at every moment. Missing: with these statements it is false (two witnesses); the top scope is left out."
  },
  {
   "property": "C39",
   "status": "proved",
   "theorems": [
    "Zh.C39_events_kept",
    "Zh.C39_output_kept",
    "Zh.C39_output_grows"
   ],
   "note": "Every call, state, host and outcome."
  },
  {
   "property": "C40",
   "status": "proved",
   "theorems": [
    "Zh.C40_more_steps",
    "Zh.C40_deterministic",
    "Zh.C40_main"
   ],
   "note": "Every call, state and host."
  },
  {
   "property": "C41",
   "status": "proved",
   "theorems": [
    "Zh.C41_dispatch",
    "Zh.C41_option_arity",
    "Zh.C41_catchall_arity",
    "Zh.C41_match",
    "Zh.C41_spellings"
   ],
   "note": "Every option table and word list."
  },
  {
   "property": "C42",
   "status": "proved",
   "theorems": [
    "Zh.C42_depth",
    "Zh.C42_parents_kept",
    "Zh.C42_lookups_end",
    "Zh.C42_parents_older"
   ],
   "note": "Every state in which something is evaluated in a run."
  },
  {
   "property": "C43",
   "status": "proved",
   "theorems": [
    "Zh.C43_assignment",
    "Zh.C43_alias",
    "Zh.C43_distributes",
    "Zh.C43_read",
    "Zh.C43_witness",
    "Zh.C43_example",
    "Zh.C43_private_sticks_counterexample"
   ],
   "note": "Exact description of every assignment, including annotated names, objects, aliases and pipes; for names without annotations the resulting variables in closed form. Found: the annotation for \"private\" stays in force for the names after it (witness)."
  },
  {
   "property": "C44",
   "status": "partial",
   "theorems": [
    "Zh.C44_crash_partial",
    "Zh.C44_causes_partial",
    "Zh.C44_crash_iff",
    "Zh.C44_script_line",
    "Zh.C44_loaded_line",
    "Zh.C44_borrowed_by",
    "Zh.C44_release_assigns_counterexample",
    "Zh.C44_release_counterexample",
    "Zh.C44_redefine_counterexample",
    "Zh.C44_current_scope_counterexample",
    "Zh.C44_own_arguments_counterexample",
    "Zh.C44_up_counterexample",
    "Zh.C44_handler_counterexample",
    "Zh.C44_continued_counterexample"
   ],
   "note": "The property is false of the code: eight scripts that crash it. Proved for all runs: every crash of the interpreter has one of the causes listed in Cause (each a concrete situation of an evaluation that happened in the run); all other array accesses, unwraps and borrows never fail. The borrow causes are exact (the operation done, the scope or definition borrowed), and so are those of 释放模块 (fewer modules after the code of a module ran) and 算术 (the computation or the printing of its value crashes). The texts that are parsed and the files that are read are exact too (the parse or read done by that evaluation). C44_causes_partial is the converse: a run in which an evaluation is in one of these situations crashes when given enough steps; C44_crash_iff puts both together. Missing: the causes for arguments read with overflow checks or into the argument list itself are wider than the situations that really crash, so that for them C44_crash_iff asks in addition that the evaluation crashes."
  },
  {
   "property": "C45",
   "status": "proved",
   "theorems": [
    "Zh.C45_longest",
    "Zh.C45_found",
    "Zh.C45_reachable"
   ],
   "note": "Every quoting state and source."
  },
  {
   "property": "C46",
   "status": "partial",
   "theorems": [
    "Zh.C46_move_all_groups_partial",
    "Zh.C46_move_last_groups_partial",
    "Zh.C46_not_enough",
    "Zh.C46_stop_counterexample",
    "Zh.C46_zero_counterexample"
   ],
   "note": "True when no sentence end stands among the moved groups; otherwise fewer groups move without an error (witness). n=0 crashes."
  },
  {
   "property": "C47",
   "status": "partial",
   "theorems": [
    "Zh.C47_name_partial",
    "Zh.C47_number",
    "Zh.C47_attrname",
    "Zh.C47_witness",
    "Zh.C47_name_counterexample",
    "Zh.C47_number_counterexample"
   ],
   "note": "All chains of attribute sets with arbitrary histories. Missing: an attribute whose own name is a number, or the word for \"name\" with a number, is hidden by position lookup (witnesses). Nothing in this crate creates attribute sets."
  },
  {
   "property": "C48",
   "status": "proved",
   "theorems": [
    "Zh.C48_redirected",
    "Zh.C48_written",
    "Zh.C48_bad_option",
    "Zh.C48_reachable",
    "Zh.C48_example",
    "Zh.C48_witness",
    "Zh.C48_handler_assigns_counterexample"
   ],
   "note": "Every print statement in every state: with a definition on the chain the nearest one is run with the text as its argument and nothing is written by the statement; otherwise, or with the raw option, the text is written as the options say. Found: a handler that assigns a variable of the scope that defines it panics (witness)."
  },
  {
   "property": "C49",
   "status": "proved",
   "theorems": [
    "Zh.C49_waited",
    "Zh.C49_not_started",
    "Zh.C49_captured",
    "Zh.C49_parallel",
    "Zh.C49_passive",
    "Zh.C49_write",
    "Zh.C49_bad_option",
    "Zh.C49_missing_word",
    "Zh.C49_help",
    "Zh.C49_no_command",
    "Zh.C49_example",
    "Zh.C49_witness",
    "Zh.C49_passive_forever_counterexample"
   ],
   "note": "Exact description of every external-command statement, in every mode, for every behaviour of the operating system that answers a request with the matching kind of answer. Found: a passive command without code for its output is never finished."
  },
  {
   "property": "C50",
   "status": "partial",
   "theorems": [
    "Zh.C50_marks_partial",
    "Zh.C50_crash_iff_partial",
    "Zh.C50_counterexample"
   ],
   "note": "The continuation marks; overlapping marks crash the parser (witness)."
  },
  {
   "property": "C51",
   "status": "proved",
   "theorems": [
    "Zh.C51_split_open",
    "Zh.C51_fields_quoted"
   ],
   "note": "All well-formed beginnings of a line followed by a word with an open quote; all lists of quoted fields."
  },
  {
   "property": "C52",
   "status": "proved",
   "theorems": [
    "Zh.C52_truth"
   ],
   "note": "All texts; together with C29_truth and C31 this is what a condition without comparison means."
  },
  {
   "property": "C53",
   "status": "proved",
   "theorems": [
    "Zh.C53_variables",
    "Zh.C53_witness"
   ],
   "note": "Every evaluation in every state with every host: whatever happens inside (conditions, calls of definitions, printing, commands, loading), variables change only by the assignment statements and loop counters."
  },
  {
   "property": "C54",
   "status": "proved",
   "theorems": [
    "Zh.C54_definitions",
    "Zh.C54_witness"
   ],
   "note": "As C53, for definitions."
  },
  {
   "property": "C55",
   "status": "proved",
   "theorems": [
    "Zh.C55_outside",
    "Zh.C55_witness"
   ],
   "note": "As C53, for output, files and processes."
  },
  {
   "property": "C56",
   "status": "proved",
   "theorems": [
    "Zh.C56_read_i32",
    "Zh.C56_read_i64",
    "Zh.C56_read_usize",
    "Zh.C56_print",
    "Zh.C56_round_trip",
    "Zh.C56_print_injective"
   ],
   "note": "Exact description of the accepted texts and ranges of the three integer types, and the round trip. (Rust's FromStr is modelled after its documentation.)"
  },
  {
   "property": "C57",
   "status": "partial",
   "theorems": [
    "Zh.C57_argument_names",
    "Zh.C57_other_mark",
    "Zh.C57_pattern",
    "Zh.C57_name_reads",
    "Zh.C57_example",
    "Zh.C57_sticky_counterexample"
   ],
   "note": "True for every name that does not come after one marked as value; the mark of one name holds for all later ones (witness). C57_name_reads says what is read when the scope itself has no variable or definition of that name."
  },
  {
   "property": "C58",
   "status": "proved",
   "theorems": [
    "Zh.C58_read",
    "Zh.C58_read_simple",
    "Zh.C58_exists",
    "Zh.C58_exists_variable",
    "Zh.C58_exists_alias",
    "Zh.C58_exists_nothing",
    "Zh.C58_read_variable",
    "Zh.C58_reached",
    "Zh.C58_example"
   ],
   "note": "Every name that is not one of the words for arguments, every state; C58_reached shows that the hypotheses hold whenever a run reads a name."
  },
  {
   "property": "C59",
   "status": "partial",
   "theorems": [
    "Zh.C59_same_program",
    "Zh.C59_kept",
    "Zh.C59_text2_counterexample",
    "Zh.C59_comment_counterexample",
    "Zh.C59_empty_quote_counterexample"
   ],
   "note": "True for every sequence of plain words, quoted texts with names, verbatim texts, names, annotations and nested code. False for a text between 下文本 and 上文本 that contains parentheses, for a comment inside a word, and for code that begins with an empty quoted text (witnesses)."
  },
  {
   "property": "C60",
   "status": "proved",
   "theorems": [
    "Zh.C60_structure"
   ],
   "note": "Every script of the grammar in Props/GrammarSpec.lean: sentences of words, texts with names in them, verbatim texts, kept code, names with annotations, argument names, annotations and separators; every statement with one list or two, also inside conditions, names and other statements; conditions with all connectives, with and without braces; counted loops with their annotations; circles; switches with their branches. Outside the grammar: comments (C18), text2 quotes, texts glued side by side, the colon, and annotations between a keyword and its list in another order than written there."
  },
  {
   "property": "C61",
   "status": "partial",
   "theorems": [
    "Zh.C61_word",
    "Zh.C61_text",
    "Zh.C61_no_arguments",
    "Zh.C61_arguments_partial",
    "Zh.C61_reached",
    "Zh.C61_example",
    "Zh.C61_nested_counterexample"
   ],
   "note": "C61_word is complete: every evaluation of a word is the reading in Spec.Word and conversely. That a call takes exactly its own sentence is proved when no other definition is called in the rest of the word, and is false otherwise: the outer call then takes the next sentence too (witness). Arguments between separators: C62."
  },
  {
   "property": "C62",
   "status": "partial",
   "theorems": [
    "Zh.C62_separators_partial",
    "Zh.C62_pieces",
    "Zh.C62_hypotheses",
    "Zh.C62_example",
    "Zh.C62_lost_counterexample",
    "Zh.C62_window_counterexample"
   ],
   "note": "Definitions of the form argument, separator, argument, ... without left-hand arguments; when all separators are in the word of the name, or that word ends at a separator (or at the name) and no later word of the sentence is longer than it. False without this: text is lost, or the separator is not seen (witnesses). Other orders of names and separators are not covered."
  },
  {
   "property": "C63",
   "status": "partial",
   "theorems": [
    "Zh.C63_definition",
    "Zh.C63_not_covered",
    "Zh.C63_callable_partial",
    "Zh.C63_example",
    "Zh.C63_pattern_counterexample",
    "Zh.C63_text_counterexample"
   ],
   "note": "C63_definition is complete: every evaluation of the statement is Spec.Definition and conversely. That the definition is the one called by its name needs that no other definition of the scope has its name or pattern and that evaluating the text brought no shorter name; it is false otherwise (witnesses)."
  },
  {
   "property": "C64",
   "status": "partial",
   "theorems": [
    "Zh.C64_syntax_report",
    "Zh.C64_syntax_example",
    "Zh.C64_trace",
    "Zh.C64_script",
    "Zh.C64_reached",
    "Zh.C64_run",
    "Zh.C64_witness",
    "Zh.C64_else_counterexample"
   ],
   "note": "C64_syntax_report is for every script, C64_trace for every statement list. The quoted line is made again from the program: that it is a beginning of the script is proved for scripts of the grammar that are written plainly (no dropped blanks or comments, 否则 written out, texts without names, no 下原样/下代码); it is false without 否则 (witness)."
  },
  {
   "property": "C65",
   "status": "proved",
   "theorems": [
    "Zh.C65_statement",
    "Zh.C65_nested",
    "Zh.C65_text",
    "Zh.C65_text_reached",
    "Zh.C65_witness",
    "Zh.C65_example",
    "Zh.C65_arguments_example"
   ],
   "note": "C65_statement is complete: every evaluation of the statement is Spec.Evaluation and conversely, for 解释 and 加载, with and without 【在当前区】. C65_text is the reading for a text without arguments."
  },
  {
   "property": "C66",
   "status": "partial",
   "theorems": [
    "Zh.C65_statement",
    "Zh.C66_load",
    "Zh.tries_some",
    "Zh.tries_none",
    "Zh.C66_witness",
    "Zh.C66_example",
    "Zh.C66_here_counterexample",
    "Zh.C66_module_counterexample"
   ],
   "note": "C66_load is the property for a name written as a text and no arguments, in every run; C65_statement covers every form. With 【在当前区】 it is false: the file is found through the include path but the name is read as it is written, and nothing is loaded when the script itself is a module (witnesses)."
  },
  {
   "property": "C67",
   "status": "partial",
   "theorems": [
    "Zh.C67_naming",
    "Zh.C67_name",
    "Zh.C67_release",
    "Zh.C67_registers",
    "Zh.C67_released_partial",
    "Zh.C67_released_witness",
    "Zh.C67_example",
    "Zh.C67_twice_counterexample",
    "Zh.C67_wrong_module_counterexample"
   ],
   "note": "Equivalences for the three statements in every state; a name means the scope that got it by 模块. Exactly this module is released when it is registered once, its name is its own and its text leaves the module lists alone. Missing: without these conditions it is false of the code (two witnesses)."
  },
  {
   "property": "C68",
   "status": "proved",
   "theorems": [
    "Zh.C68_code",
    "Zh.C68_file",
    "Zh.C68_witness",
    "Zh.C68_witness_args",
    "Zh.C68_counting"
   ],
   "note": "Refinement in both directions between Ran (the whole program on its command line) and Spec.Does (CoreSpec.lean). Hypotheses: the program is written in the grammar of Spec.Prg.Ok, no name of a definition lies within another one or within a variable, and no other text has the hash of the script or of a procedure."
  },
  {
   "property": "C69",
   "status": "proved",
   "theorems": [
    "Zh.C69_chain",
    "Zh.C69_value",
    "Zh.C69_value_simple",
    "Zh.C69_endless",
    "Zh.C69_run_endless",
    "Zh.circle_endless",
    "Zh.ran_calls",
    "Zh.C69_chain_witness",
    "Zh.C69_circle_witness"
   ],
   "note": "For names without annotations. C69_circle_witness is a script that never ends."
  },
  {
   "property": "C70",
   "status": "proved",
   "theorems": [
    "Zh.C70_code",
    "Zh.C70_file",
    "Zh.C68_code",
    "Zh.C68_file",
    "Zh.C70_witness",
    "Zh.C70_witness_args",
    "Zh.C70_witness_endless",
    "Zh.C70_percent_counterexample"
   ],
   "note": "In the model: running out of native stack by deep recursion is outside it (see the trusted base). With C68, a script ends if the rules give it an end. The sign % must be excluded: 算术 crashes on 5%0.5 (witness)."
  },
  {
   "property": "C71",
   "status": "proved",
   "theorems": [
    "Zh.C71_nth",
    "Zh.C71_count",
    "Zh.C71_range",
    "Zh.C71_from_end",
    "Zh.C71_own_arguments",
    "Zh.C71_computed_nth",
    "Zh.C71_exists_nth",
    "Zh.C71_computed_count",
    "Zh.C71_run",
    "Zh.C71_witness",
    "Zh.C71_exists_witness",
    "Zh.C71_script"
   ],
   "note": "Every state whose lists are right, and by C04_run every moment of every run without left-hand arguments."
  },
  {
   "property": "C72",
   "status": "partial",
   "theorems": [
    "Zh.C72_copying",
    "Zh.C72_copying_annotated_partial",
    "Zh.C72_print_copied",
    "Zh.C72_blocking",
    "Zh.C72_nothing_passes",
    "Zh.C72_witness",
    "Zh.C72_script",
    "Zh.C72_lost_annotation_counterexample"
   ],
   "note": "The annotations of the copying pipe only where they are constant and outside the names and values of an assignment; inside, all but the last are lost (witness). Everything else for all bodies."
  },
  {
   "property": "C73",
   "status": "partial",
   "theorems": [
    "Zh.C73_written",
    "Zh.C73_computed",
    "Zh.C73_computed_word",
    "Zh.C73_computed_nowhere",
    "Zh.C73_computed_range",
    "Zh.C73_written_computed",
    "Zh.C73_zero",
    "Zh.C73_assigned",
    "Zh.C73_reached",
    "Zh.C73_witness",
    "Zh.C73_script",
    "Zh.C73_script_error",
    "Zh.C73_exists_above_counterexample"
   ],
   "note": "Everything but the last sentence holds; the question 存在 crashes on an annotation after 上 above the top (witness), and is covered for all annotations that lead somewhere."
  },
  {
   "property": "C74",
   "status": "partial",
   "theorems": [
    "Zh.C74_line",
    "Zh.C74_remembered",
    "Zh.C74_remembered_after",
    "Zh.C74_read",
    "Zh.C74_computed",
    "Zh.C74_reversed",
    "Zh.C74_read_witness",
    "Zh.C74_reversed_witness",
    "Zh.C74_computed_witness",
    "Zh.C74_script",
    "Zh.C74_reversed_counterexample"
   ],
   "note": "All but the last sentence holds in every run. A reversed stretch of the line gives the whole line instead of nothing (C74_reversed for all such stretches, script as witness); a stretch in order is C08_range_line_partial."
  },
  {
   "property": "C75",
   "status": "partial",
   "theorems": [
    "Zh.C75_apart_partial",
    "Zh.C75_joined",
    "Zh.C75_apart_witness",
    "Zh.C75_joined_counterexample",
    "Zh.C75_script_counterexample"
   ],
   "note": "Holds if every piece but the first and the last has more than one byte. A piece of one byte between two others is joined with the one after it and taken for what that is (C75_joined, for all such pieces): a definition with a one-letter name between two texts is not called (script as witness)."
  },
  {
   "property": "C76",
   "status": "partial",
   "theorems": [
    "Zh.C76_long_partial",
    "Zh.C76_exact",
    "Zh.C76_inner",
    "Zh.C76_witness",
    "Zh.C76_script",
    "Zh.C76_inner_counterexample",
    "Zh.C76_mark_counterexample"
   ],
   "note": "C76_long_partial says for every long text with names, inner quotes, inner verbatim and inner long texts what it becomes; C60 covers it anywhere in a script. Exact without inner quotes (C76_exact). False in inner quotes, which lose line ends and tabs (C76_inner for all of them), in inner code, which loses comments, and for a mark that stands alone beside a name or at the beginning: it becomes a word (witnesses)."
  },
  {
   "property": "C77",
   "status": "proved",
   "theorems": [
    "Zh.C77_parsed",
    "Zh.C77_run",
    "Zh.C77_witness",
    "Zh.C77_excludes"
   ],
   "note": "C77_parsed: for every source the parser accepts; C77_run: for every call of every evaluation function in every run. Some statements may be empty in the code and then are here too: a block, a loop body, a condition, 返回, 命名, 模块."
  },
  {
   "property": "C78",
   "status": "proved",
   "theorems": [
    "Zh.C78_code",
    "Zh.C78_file",
    "Zh.C78_never_code",
    "Zh.C78_never_file",
    "Zh.C78_witness",
    "Zh.C78_exceptions"
   ],
   "note": "C78_code/C78_file: the two kinds of crash that are left, described by the call that crashes; C78_never_code/C78_never_file: without 算术 and 存在 none is left. The parser crash is a hypothesis on the text (see C50 for when it happens). Scripts with the excluded statements can crash, see the counterexamples of C44; C78_exceptions shows that the two exceptions are real."
  },
  {
   "property": "C79",
   "status": "proved",
   "theorems": [
    "Zh.C79_written",
    "Zh.C79_without",
    "Zh.C79_code",
    "Zh.C79_never_code",
    "Zh.C79_never_file",
    "Zh.C79_witness"
   ],
   "note": "Stands: the keyword is a piece of the text after removing blanks. The other direction does not hold: a keyword inside quotes stands in the text but makes no item (C79_witness)."
  },
  {
   "property": "C80",
   "status": "proved",
   "theorems": [
    "Zh.C80_crash",
    "Zh.C80_witness"
   ],
   "note": "The three characters need not be together, since neighbouring texts are merged first: see the second case of C80_witness."
  },
  {
   "property": "C81",
   "status": "proved",
   "theorems": [
    "Zh.C81_code",
    "Zh.C81_silent_code",
    "Zh.C81_file",
    "Zh.C81_silent_file",
    "Zh.C81_witness"
   ],
   "note": "Events are the operations of the model that reach outside: output, files, processes. A file may have a #! line (Spec.Unhashed): the words in it do not count, as C81_witness shows. C81_witness also shows that the list of words cannot be shortened to 显示 and 执行."
  },
  {
   "property": "C82",
   "status": "proved",
   "theorems": [
    "Zh.C82_code",
    "Zh.C82_file",
    "Zh.C82_words_code",
    "Zh.C82_words_file",
    "Zh.C82_total_code",
    "Zh.C82_total_file",
    "Zh.C82_witness",
    "Zh.C82_counterexample"
   ],
   "note": "To end is to have an outcome other than going on: C82_code/C82_file say so from the parsed text, C82_words_* from its words; C82_total_* add that the outcome is no crash. A loop with a counter and no limit stops after 2^64-2 turns, so for it the statement is of no practical use unless it is left earlier. C82_counterexample: the two kinds of scripts that are left out do go on for ever."
  },
  {
   "property": "C83",
   "status": "proved",
   "theorems": [
    "Zh.C83_replay",
    "Zh.C83_code",
    "Zh.C83_file",
    "Zh.C83_witness",
    "Zh.C83_answers_matter"
   ],
   "note": "Hosts may differ in open, read, exec, write and readLine; hashing, arithmetic on numbers and the writing of paths are taken as the same (they are computations of the standard library). The answers of a host may depend on all that was asked before. Time, random numbers and the environment are not used by the modelled code."
  },
  {
   "property": "C84",
   "status": "proved",
   "theorems": [
    "Zh.C84_code",
    "Zh.C84_silent_code",
    "Zh.C84_file",
    "Zh.C84_silent_file",
    "Zh.C84_same_code",
    "Zh.C84_same_file",
    "Zh.C84_witness"
   ],
   "note": "Stated over the parsed program: the condition (Spec.WrittenOut) is that the text of each 定义 and 解释 is one constant and that the same holds of that text; writtenB decides it up to a depth. Overflow checks off (release build)."
  },
  {
   "property": "C85",
   "status": "partial",
   "theorems": [
    "Zh.C85_tree",
    "Zh.C85_text",
    "Zh.C85_crash",
    "Zh.C85_counterexample",
    "Zh.C85_witness",
    "Zh.C85_witness_line"
   ],
   "note": "C85_tree (refinement of the printer with its array to a specification without one) and C85_text hold for programs up to 64 levels; C85_crash: for every deeper program the printer crashes, C85_counterexample is a script that is parsed and does so. The flushing of the output and the partial trees of debug builds are not modelled."
  },
  {
   "property": "C86",
   "status": "proved",
   "theorems": [
    "Zh.C86_endless",
    "Zh.C86_rule",
    "Zh.C86_again",
    "Zh.C86_run_again",
    "Zh.C86_release_circle",
    "Zh.C86_release_circle_witness",
    "Zh.C86_release_circle_counterexample",
    "Zh.C86_release_itself",
    "Zh.C86_run_release_itself",
    "Zh.C86_run_release_itself_witness",
    "Zh.C86_release_counterexample"
   ],
   "note": "Every host, every command line. C86_rule is the same for one evaluation, as a rule for proofs. C86_release_itself shows one way to get there without loops, definitions and aliases: the text that runs at the release of a module is run before the module is taken out of the list, so a text that starts with the release of its own module never ends (in the program: endless recursion); C86_release_counterexample is a run of a script that does it. C86_release_circle is the same for several modules that release each other. The example beside it is a script with an endless loop (C70_witness_endless). Waiting of the operating system itself (a command that never returns) is outside the model: the host always answers."
  }
 ]
}