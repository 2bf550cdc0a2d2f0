CLAIMS = {
'C01': ('proved', ['C01_split_line', 'C01_split_quoted'], 'Round trip for every well-formed line; words may mix plain and quoted pieces.'),
'C02': ('proved', ['C02_split_words', 'C02_words_nonempty'], 'Every string without quote characters.'),
'C03': ('proved', ['C03_split_fields', 'C03_split_join', 'C03_field_count', 'C03_split_fields_noend'], 'Every string without quotes, any separator set, blanks kept or dropped.'),
'C04': ('partial', ['C04_separator_index_partial', 'C04_separator_index_reading_partial', 'C04_backarg_counterexample', 'C04_backarg_weak_partial', 'C04_run', 'C04_run_witness'], 'In every run in which no definition takes arguments from its left, every result list at every moment is right (C04_run). True for append, prepend, remove, clear, pop. False for moving left-hand arguments (witness); there only the weaker fact holds that recorded positions are increasing positions of separators.'),
'C05': ('proved', ['C05_positional_argument', 'C05_argument_exists'], 'Every well-formed list and index >= 1.'),
'C06': ('partial', ['C06_negative_index_partial', 'C06_beyond_front_counterexample', 'C06_exists_always_counterexample'], 'True for 1<=k<=n. For every k>n the code crashes (overflow checks) or yields the whole list; both proved.'),
'C07': ('proved', ['C07_to_strings', 'C07_to_strings_default', 'C07_count'], 'Every list; sentence ends also delimit, as in the code.'),
'C08': ('partial', ['C08_argument_line_partial', 'C08_argument_line_counterexample', 'C08_range_line_partial', 'C08_range_line_counterexample'], 'True for arguments without the double quote; false with it (witness). The line of a range of arguments likewise, but there empty arguments are lost (witness).'),
'C09': ('proved', ['C09_argument_range'], 'Includes the removal of a trailing separator when nothing is selected.'),
'C10': ('proved', ['C10_prefix_match'], ''),
'C46': ('partial', ['C46_move_all_groups_partial', 'C46_move_last_groups_partial', 'C46_not_enough', 'C46_stop_counterexample', 'C46_zero_counterexample'], 'True when no sentence end stands among the moved groups; otherwise fewer groups move without an error (witness). n=0 crashes.'),
'C21': ('proved', ['C21_cache_transparent', 'C21_parsed_once', 'C21_reached', 'C21_run_transparent', 'C21_collision_counterexample'], 'Every history, and every moment of every run; the hypothesis that no other source has the same hash is needed (witness).'),
'C29': ('proved', ['C29_compare_lists', 'C29_any_of', 'C29_any_of_left', 'C29_missing', 'C29_truth', 'C29_not_equal_list'], 'Every operator and list length.'),
'C30': ('partial', ['C30_text_order', 'C30_number_order', 'C30_reflexive', 'C30_antisymmetric', 'C30_total_order_text_partial', 'C30_transitive_numbers_partial', 'C30_transitivity_counterexample', 'C30_nan_counterexample'], 'Reflexive, antisymmetric, code point order for texts: proved. Transitivity is false across numbers and texts (2 < 10 < 1a < 2); it is proved among texts and among totally ordered numbers.'),
'C33': ('partial', ['C33_arithmetic', 'C33_grouping', 'C33_sign_counterexample', 'C33_trailing_counterexample', 'C33_statement', 'C33_statement_witness', 'C33_example'], 'True for every tree without signed operands; a sign takes the whole following product (witness), trailing tokens are ignored (witness). The statement 算术 appends exactly that value, written as asked, or fails with the reason.'),
'C34': ('partial', ['C34_ends', 'C34_no_crash_partial', 'C34_zero_reported', 'C34_remainder_counterexample'], 'Always ends; never crashes without the remainder operator; remainder by a number between -1 and 1 crashes (witness).'),
'C35': ('partial', ['C35_normal', 'C35_quit_code', 'C35_quit_plain', 'C35_failure', 'C35_jump', 'C35_quit_1000_counterexample'], 'Quit 1000 is taken for no code and exits 254 (witness); everything else holds.'),
'C37': ('proved', ['C37_directory', 'C37_include_path'], 'Every history of additions.'),
'C41': ('proved', ['C41_dispatch', 'C41_option_arity', 'C41_catchall_arity', 'C41_match', 'C41_spellings'], 'Every option table and word list.'),
'C11': ('proved', ['C11_leftmost_innermost_oldest', 'C11_none'], 'Every text, scope tree, module list and exclusion list.'),
'C12': ('proved', ['C12_stored_once', 'C12_reachable', 'C12_latest_assignment', 'C12_latest_assignment_outside', 'C12_independent'], 'Every history of assignments.'),
'C13': ('proved', ['C13_nearest_scope', 'C13_reachable', 'C13_only_self', 'C13_private_invisible'], 'Every scope tree in which parents are older than children, which holds in every reachable state.'),
'C14': ('proved', ['C14_stored_once', 'C14_latest_definition', 'C14_base_name_counterexample'], 'Every history of definitions. Found: a redefinition with the same full pattern from another base name keeps the old base name (witness).'),
'C15': ('proved', ['C15_parse_finishes', 'C15_parse_total', 'C15_parse_forward'], 'Every byte sequence: the parser ends, and every call consumes at least the bytes it is given credit for.'),
'C45': ('proved', ['C45_longest', 'C45_found', 'C45_reachable'], 'Every quoting state and source.'),
'C50': ('partial', ['C50_marks_partial', 'C50_crash_iff_partial', 'C50_counterexample'], 'The continuation marks; overlapping marks crash the parser (witness).'),
'C16': ('proved', ['C16_no_utf8_error', 'C16_bytes_rejected'], 'Every source text; byte sequences that are not UTF-8 can be rejected.'),
'C17': ('proved', ['C17_blanks_irrelevant', 'C17_blanks_irrelevant_inside'], 'Every program without quoting constructs, and every such stretch after any prefix that ends in code.'),
'C18': ('proved', ['C18_comment'], 'Every place where a comment may begin and no keyword is cut; every comment with balanced brackets.'),
'C19': ('proved', ['C19_C20_texts', 'C19_verbatim', 'C19_in_context', 'C19_nested'], 'Nested verbatim texts to any depth, as long as something stands before the second of two marks at the beginning. Every content without the delimiters (also spelled with blanks) and without the continuation marks of C50, which are part of the language.'),
'C20': ('partial', ['C19_C20_texts', 'C20_quoted', 'C20_in_context', 'C20_nested', 'C20_nested_counterexample', 'C20_one_byte_counterexample'], 'Every content without continuation marks and names; nested marks to any depth, except two of them in a row at the very beginning (witness). False for a text of one byte between two words without separator: it is glued to the following word (witness).'),
'C25': ('proved', ['C25_labels_restored', 'C25_loop_label', 'C25_main', 'C25_witness'], 'Every call of every run of the interpreter, every outcome, every host.'),
'C27': ('proved', ['C27_blocked_pipe', 'C27_witness'], 'Every blocked pipe of every run; also for panics and evaluations that do not end.'),
'C39': ('proved', ['C39_events_kept', 'C39_output_kept', 'C39_output_grows'], 'Every call, state, host and outcome.'),
'C40': ('proved', ['C40_more_steps', 'C40_deterministic', 'C40_main'], 'Every call, state and host.'),
'C42': ('proved', ['C42_depth', 'C42_parents_kept', 'C42_lookups_end', 'C42_parents_older'], 'Every state in which something is evaluated in a run.'),
'C22': ('proved', ['C22_in_order', 'C22_in_order_conv', 'C22_statements', 'C22_witness'], 'Every statement list, position, environment and state of the model.'),
'C23': ('proved', ['C23_loop', 'C23_plain', 'C23_exactly', 'C23_counter', 'C23_ends', 'C23_witness'], 'Every count, start, body and state; the counter arithmetic is exact (the sum of the turn number and the start does not overflow 64 bits).'),
    'C24': ('proved', ['C24_through', 'C24_taken', 'C24_passed', 'C24_labels', 'C24_statement_plain', 'C24_statement_label',
                       'C24_innermost', 'C24_label_active', 'C24_labelled', 'C24_witness', 'C24_innermost_witness', 'C24_example',
                       'C24_several_counterexample'],
            'For every nesting of statements (any chain of evaluations between the loop body and the jump statement, through '
            'conditions, switches, blocks, definitions, evaluated sources): an unlabelled break/continue is taken by the innermost '
            'construct of its kind, a labelled one by the nearest construct of its kind with that counter name; nothing else is '
            'evaluated in between; every other error passes through. Breaks with several words after them deviate '
            '(C24_several_counterexample).'),
    'C26': ('partial', ['C26_statement_plain', 'C26_statement_named', 'C26_statement_up', 'C26_unwinds', 'C26_plain', 'C26_named',
                        'C26_never_escapes', 'C26_depth_999', 'C26_plain_witness', 'C26_named_witness'],
            'For every nesting of statements and every scope depth but 999, where the return has the number that means "none" and '
            'ends in an error instead (C26_depth_999). A named return ends the scopes below the named one, which goes on.'),
    'C28': ('proved', ['C28_catching_pipe', 'C28_never_fails', 'C28_ends', 'C28_witness'],
            'Every body, environment and state.'),
    'C31': ('proved', ['C31_condition', 'C31_if', 'C31_witness', 'C31_example', 'C31_parenthesis_counterexample',
                       'C31_not_parenthesis_counterexample'],
            'Every condition made of operands (values, comparisons, parentheses) with or/and between them, every state: an exact '
            'description of which operands are evaluated, in which order, and of the result. Found: "or" inside a parenthesis can '
            'end the whole condition; "not" before a parenthesis applies to the next operand (witnesses).'),
    'C32': ('partial', ['C32_switch', 'C32_default_iff', 'C32_distinct_partial', 'C32_parsed', 'C32_run_branches', 'C32_refused', 'C32_body',
                        'C32_witness', 'C32_example', 'C32_twice_counterexample'],
            'Exact description for every switch, subject and state: labels evaluated in order, then the bodies with a matching '
            'label in order, default iff no label matches, the exclusive form fails without running anything when several labels '
            'match. "Exactly once per branch" needs that no branch has the same label twice (otherwise it runs twice, witness).'),
    'C43': ('proved', ['C43_assignment', 'C43_alias', 'C43_distributes', 'C43_read', 'C43_witness', 'C43_example',
                       'C43_private_sticks_counterexample'],
            'Exact description of every assignment, including annotated names, objects, aliases and pipes; for names without '
            'annotations the resulting variables in closed form. Found: the annotation for "private" stays in force for the '
            'names after it (witness).'),
    'C48': ('proved', ['C48_redirected', 'C48_written', 'C48_bad_option', 'C48_reachable', 'C48_example', 'C48_witness',
                       'C48_handler_assigns_counterexample'],
            'Every print statement in every state: with a definition on the chain the nearest one is run with the text as its '
            'argument and nothing is written by the statement; otherwise, or with the raw option, the text is written as the '
            'options say. Found: a handler that assigns a variable of the scope that defines it panics (witness).'),
    'C49': ('proved', ['C49_waited', 'C49_not_started', 'C49_captured', 'C49_parallel', 'C49_passive', 'C49_write', 'C49_bad_option',
                       'C49_missing_word', 'C49_help', 'C49_no_command', 'C49_example', 'C49_witness',
                       'C49_passive_forever_counterexample'],
            'Exact description of every external-command statement, in every mode, for every behaviour of the operating system '
            'that answers a request with the matching kind of answer. Found: a passive command without code for its output is '
            'never finished.'),
    'C36': ('partial', ['C36_code_partial', 'C36_file_partial', 'C36_lines', 'C36_example', 'C36_witness', 'C36_mark_counterexample',
                        'C36_env_counterexample', 'C36_empty_line_counterexample'],
            'Every command line on which no word for the script ends with the #! mark: the script (code, or the file found) runs with '
            'exactly the words after it as its arguments, one each; every such line is covered (C36_lines). Missing: a word that ends '
            'with the mark changes which script runs (witness), and words of the #! line of the file are added to the arguments, among '
            'them the interpreter itself when it is started through env (witness).'),
    'C47': ('partial', ['C47_name_partial', 'C47_number', 'C47_attrname', 'C47_witness', 'C47_name_counterexample',
                        'C47_number_counterexample'],
            'All chains of attribute sets with arbitrary histories. Missing: an attribute whose own name is a number, or the word for '
            '"name" with a number, is hidden by position lookup (witnesses). Nothing in this crate creates attribute sets.'),
    'C51': ('proved', ['C51_split_open', 'C51_fields_quoted'],
            'All well-formed beginnings of a line followed by a word with an open quote; all lists of quoted fields.'),
    'C52': ('proved', ['C52_truth'], 'All texts; together with C29_truth and C31 this is what a condition without comparison means.'),
    'C56': ('proved', ['C56_read_i32', 'C56_read_i64', 'C56_read_usize', 'C56_print', 'C56_round_trip', 'C56_print_injective'],
            "Exact description of the accepted texts and ranges of the three integer types, and the round trip. (Rust's FromStr is "
            'modelled after its documentation.)'),
    'C53': ('proved', ['C53_variables', 'C53_witness'],
            'Every evaluation in every state with every host: whatever happens inside (conditions, calls of definitions, printing, '
            'commands, loading), variables change only by the assignment statements and loop counters.'),
    'C54': ('proved', ['C54_definitions', 'C54_witness'], 'As C53, for definitions.'),
    'C55': ('proved', ['C55_outside', 'C55_witness'], 'As C53, for output, files and processes.'),
    'C38': ('partial', ['C38_names_partial', 'C38_names_witness', 'C38_name_counterexample', 'C38_free_counterexample'],
            'Every run in which no 命名 and no 释放模块 is evaluated keeps the names of registered modules apart at every moment. '
            'Missing: with these statements it is false (two witnesses); the top scope is left out.'),
    'C44': ('partial', ['C44_crash_partial', 'C44_causes_partial', 'C44_crash_iff', 'C44_script_line', 'C44_loaded_line', 'C44_borrowed_by', 'C44_release_assigns_counterexample', 'C44_release_counterexample',
            'C44_redefine_counterexample', 'C44_current_scope_counterexample', 'C44_own_arguments_counterexample',
            'C44_up_counterexample', 'C44_handler_counterexample', 'C44_continued_counterexample'],
            'The property is false of the code: eight scripts that crash it. Proved for all runs: every crash of the interpreter has '
            'one of the causes listed in Cause (each a concrete situation of an evaluation that happened in the run); all other '
            'array accesses, unwraps and borrows never fail. The borrow causes are exact (the operation done, the scope or definition borrowed), and so are those of 释放模块 (fewer modules after the code of a module ran) and 算术 (the computation or the printing of its value crashes). The texts that are parsed and the files that are read are exact too (the parse or read done by that evaluation). C44_causes_partial is the converse: a run in which an evaluation is in one of these situations crashes when given enough steps; C44_crash_iff puts both together. Missing: the causes for arguments read with overflow checks or into the argument list itself are wider than the situations that really crash, so that for them C44_crash_iff asks in addition that the evaluation crashes.'),
    'C57': ('partial', ['C57_argument_names', 'C57_other_mark', 'C57_pattern', 'C57_name_reads', 'C57_example', 'C57_sticky_counterexample'],
            'True for every name that does not come after one marked as value; the mark of one name holds for all later ones '
            '(witness). C57_name_reads says what is read when the scope itself has no variable or definition of that name.'),
    'C58': ('proved', ['C58_read', 'C58_read_simple', 'C58_exists', 'C58_exists_variable', 'C58_exists_alias', 'C58_exists_nothing', 'C58_read_variable', 'C58_reached', 'C58_example'],
            'Every name that is not one of the words for arguments, every state; C58_reached shows that the hypotheses hold whenever a run reads a name.'),
    'C59': ('partial', ['C59_same_program', 'C59_kept', 'C59_text2_counterexample', 'C59_comment_counterexample', 'C59_empty_quote_counterexample'],
            'True for every sequence of plain words, quoted texts with names, verbatim texts, names, annotations and nested code. False for '
            'a text between 下文本 and 上文本 that contains parentheses, for a comment inside a word, and for code that begins with an empty '
            'quoted text (witnesses).'),
    'C60': ('proved', ['C60_structure'],
            'Every script of the grammar in Props/GrammarSpec.lean: sentences of words, texts with names in them, verbatim texts, kept '
            'code, names with annotations, argument names, annotations and separators; every statement with one list or two, also '
            'inside conditions, names and other statements; conditions with all connectives, with and without braces; counted loops '
            'with their annotations; circles; switches with their branches. Outside the grammar: comments (C18), text2 quotes, texts '
            'glued side by side, the colon, and annotations between a keyword and its list in another order than written there.'),
    'C61': ('partial', ['C61_word', 'C61_text', 'C61_no_arguments', 'C61_arguments_partial', 'C61_reached', 'C61_example',
            'C61_nested_counterexample'],
            'C61_word is complete: every evaluation of a word is the reading in Spec.Word and conversely. That a call takes exactly '
            'its own sentence is proved when no other definition is called in the rest of the word, and is false otherwise: the outer '
            'call then takes the next sentence too (witness). Arguments between separators: C62.'),
    'C62': ('partial', ['C62_separators_partial', 'C62_pieces', 'C62_hypotheses', 'C62_example', 'C62_lost_counterexample',
            'C62_window_counterexample'],
            'Definitions of the form argument, separator, argument, ... without left-hand arguments; when all separators are in the '
            'word of the name, or that word ends at a separator (or at the name) and no later word of the sentence is longer than it. '
            'False without this: text is lost, or the separator is not seen (witnesses). Other orders of names and separators are not covered.'),
    'C63': ('partial', ['C63_definition', 'C63_not_covered', 'C63_callable_partial', 'C63_example', 'C63_pattern_counterexample',
            'C63_text_counterexample'],
            'C63_definition is complete: every evaluation of the statement is Spec.Definition and conversely. That the definition is '
            'the one called by its name needs that no other definition of the scope has its name or pattern and that evaluating the '
            'text brought no shorter name; it is false otherwise (witnesses).'),
    'C64': ('partial', ['C64_syntax_report', 'C64_syntax_example', 'C64_trace', 'C64_script', 'C64_reached', 'C64_run', 'C64_witness',
            'C64_else_counterexample'],
            'C64_syntax_report is for every script, C64_trace for every statement list. The quoted line is made again from the program: '
            'that it is a beginning of the script is proved for scripts of the grammar that are written plainly (no dropped blanks or '
            'comments, 否则 written out, texts without names, no 下原样/下代码); it is false without 否则 (witness).'),
    'C65': ('proved', ['C65_statement', 'C65_nested', 'C65_text', 'C65_text_reached', 'C65_witness', 'C65_example',
            'C65_arguments_example'],
            'C65_statement is complete: every evaluation of the statement is Spec.Evaluation and conversely, for 解释 and 加载, with and without '
            '【在当前区】. C65_text is the reading for a text without arguments.'),
    'C66': ('partial', ['C65_statement', 'C66_load', 'tries_some', 'tries_none', 'C66_witness', 'C66_example', 'C66_here_counterexample',
            'C66_module_counterexample'],
            'C66_load is the property for a name written as a text and no arguments, in every run; C65_statement covers every form. With '
            '【在当前区】 it is false: the file is found through the include path but the name is read as it is written, and nothing is '
            'loaded when the script itself is a module (witnesses).'),
    'C67': ('partial', ['C67_naming', 'C67_name', 'C67_release', 'C67_registers', 'C67_released_partial', 'C67_released_witness', 'C67_example',
            'C67_twice_counterexample', 'C67_wrong_module_counterexample'],
            'Equivalences for the three statements in every state; a name means the scope that got it by 模块. '
            'Exactly this module is released when it is registered once, its name is its own and its text leaves the module lists alone. '
            'Missing: without these conditions it is false of the code (two witnesses).'),
    'C68': ('proved', ['C68_code', 'C68_file', 'C68_witness', 'C68_witness_args', 'C68_counting'],
            'Refinement in both directions between Ran (the whole program on its command line) and Spec.Does (CoreSpec.lean). Hypotheses: '
            'the program is written in the grammar of Spec.Prg.Ok, no name of a definition lies within another one or within a variable, and '
            'no other text has the hash of the script or of a procedure.'),
    'C69': ('proved', ['C69_chain', 'C69_value', 'C69_value_simple', 'C69_endless', 'C69_run_endless', 'circle_endless', 'ran_calls',
            'C69_chain_witness', 'C69_circle_witness'],
            'For names without annotations. C69_circle_witness is a script that never ends.'),
    'C70': ('proved', ['C70_code', 'C70_file', 'C68_code', 'C68_file', 'C70_witness', 'C70_witness_args', 'C70_witness_endless', 'C70_percent_counterexample'],
            'In the model: running out of native stack by deep recursion is outside it (see the trusted base). With C68, a script ends if the '
            'rules give it an end. The sign % must be excluded: 算术 crashes on 5%0.5 (witness).'),
'C71': ('proved', ['C71_nth', 'C71_count', 'C71_range', 'C71_from_end', 'C71_own_arguments', 'C71_computed_nth', 'C71_exists_nth', 'C71_computed_count', 'C71_run', 'C71_witness', 'C71_exists_witness', 'C71_script'], 'Every state whose lists are right, and by C04_run every moment of every run without left-hand arguments.'),
'C72': ('partial', ['C72_copying', 'C72_copying_annotated_partial', 'C72_print_copied', 'C72_blocking', 'C72_nothing_passes', 'C72_witness', 'C72_script', 'C72_lost_annotation_counterexample'], 'The annotations of the copying pipe only where they are constant and outside the names and values of an assignment; inside, all but the last are lost (witness). Everything else for all bodies.'),
'C73': ('partial', ['C73_written', 'C73_computed', 'C73_computed_word', 'C73_computed_nowhere', 'C73_computed_range', 'C73_written_computed', 'C73_zero', 'C73_assigned', 'C73_reached', 'C73_witness', 'C73_script', 'C73_script_error', 'C73_exists_above_counterexample'], 'Everything but the last sentence holds; the question 存在 crashes on an annotation after 上 above the top (witness), and is covered for all annotations that lead somewhere.'),
'C74': ('partial', ['C74_line', 'C74_remembered', 'C74_remembered_after', 'C74_read', 'C74_computed', 'C74_reversed', 'C74_read_witness', 'C74_reversed_witness', 'C74_computed_witness', 'C74_script', 'C74_reversed_counterexample'], 'All but the last sentence holds in every run. A reversed stretch of the line gives the whole line instead of nothing (C74_reversed for all such stretches, script as witness); a stretch in order is C08_range_line_partial.'),
'C75': ('partial', ['C75_apart_partial', 'C75_joined', 'C75_apart_witness', 'C75_joined_counterexample', 'C75_script_counterexample'], 'Holds if every piece but the first and the last has more than one byte. A piece of one byte between two others is joined with the one after it and taken for what that is (C75_joined, for all such pieces): a definition with a one-letter name between two texts is not called (script as witness).'),
'C76': ('partial', ['C76_long_partial', 'C76_exact', 'C76_inner', 'C76_witness', 'C76_script', 'C76_inner_counterexample', 'C76_mark_counterexample'], 'C76_long_partial says for every long text with names, inner quotes, inner verbatim and inner long texts what it becomes; C60 covers it anywhere in a script. Exact without inner quotes (C76_exact). False in inner quotes, which lose line ends and tabs (C76_inner for all of them), in inner code, which loses comments, and for a mark that stands alone beside a name or at the beginning: it becomes a word (witnesses).'),
'C77': ('proved', ['C77_parsed', 'C77_run', 'C77_witness', 'C77_excludes'], 'C77_parsed: for every source the parser accepts; C77_run: for every call of every evaluation function in every run. Some statements may be empty in the code and then are here too: a block, a loop body, a condition, 返回, 命名, 模块.'),
'C78': ('proved', ['C78_code', 'C78_file', 'C78_never_code', 'C78_never_file', 'C78_witness', 'C78_exceptions'], 'C78_code/C78_file: the two kinds of crash that are left, described by the call that crashes; C78_never_code/C78_never_file: without 算术 and 存在 none is left. The parser crash is a hypothesis on the text (see C50 for when it happens). Scripts with the excluded statements can crash, see the counterexamples of C44; C78_exceptions shows that the two exceptions are real.'),
'C79': ('proved', ['C79_written', 'C79_without', 'C79_code', 'C79_never_code', 'C79_never_file', 'C79_witness'], 'Stands: the keyword is a piece of the text after removing blanks. The other direction does not hold: a keyword inside quotes stands in the text but makes no item (C79_witness).'),
'C80': ('proved', ['C80_crash', 'C80_witness'], 'The three characters need not be together, since neighbouring texts are merged first: see the second case of C80_witness.'),
'C81': ('proved', ['C81_code', 'C81_silent_code', 'C81_file', 'C81_silent_file', 'C81_witness'], 'Events are the operations of the model that reach outside: output, files, processes. A file may have a #! line (Spec.Unhashed): the words in it do not count, as C81_witness shows. C81_witness also shows that the list of words cannot be shortened to 显示 and 执行.'),
'C82': ('proved', ['C82_code', 'C82_file', 'C82_words_code', 'C82_words_file', 'C82_total_code', 'C82_total_file', 'C82_witness', 'C82_counterexample'], 'To end is to have an outcome other than going on: C82_code/C82_file say so from the parsed text, C82_words_* from its words; C82_total_* add that the outcome is no crash. A loop with a counter and no limit stops after 2^64-2 turns, so for it the statement is of no practical use unless it is left earlier. C82_counterexample: the two kinds of scripts that are left out do go on for ever.'),
'C83': ('proved', ['C83_replay', 'C83_code', 'C83_file', 'C83_witness', 'C83_answers_matter'], 'Hosts may differ in open, read, exec, write and readLine; hashing, arithmetic on numbers and the writing of paths are taken as the same (they are computations of the standard library). The answers of a host may depend on all that was asked before. Time, random numbers and the environment are not used by the modelled code.'),
'C84': ('proved', ['C84_code', 'C84_silent_code', 'C84_file', 'C84_silent_file', 'C84_same_code', 'C84_same_file', 'C84_witness'], 'Stated over the parsed program: the condition (Spec.WrittenOut) is that the text of each 定义 and 解释 is one constant and that the same holds of that text; writtenB decides it up to a depth. Overflow checks off (release build).'),
'C85': ('partial', ['C85_tree', 'C85_text', 'C85_crash', 'C85_counterexample', 'C85_witness', 'C85_witness_line'], 'C85_tree (refinement of the printer with its array to a specification without one) and C85_text hold for programs up to 64 levels; C85_crash: for every deeper program the printer crashes, C85_counterexample is a script that is parsed and does so. The flushing of the output and the partial trees of debug builds are not modelled.'),
    'C86': ('proved', ['C86_endless', 'C86_rule', 'C86_again', 'C86_run_again', 'C86_release_circle', 'C86_release_circle_witness', 'C86_release_circle_counterexample', 'C86_release_itself', 'C86_run_release_itself', 'C86_run_release_itself_witness', 'C86_release_counterexample'], 'Every host, every command line. C86_rule is the same for one evaluation, as a rule for proofs. C86_release_itself shows one way to get there without loops, definitions and aliases: the text that runs at the release of a module is run before the module is taken out of the list, so a text that starts with the release of its own module never ends (in the program: endless recursion); C86_release_counterexample is a run of a script that does it. C86_release_circle is the same for several modules that release each other. The example beside it is a script with an endless loop (C70_witness_endless). Waiting of the operating system itself (a command that never returns) is outside the model: the host always answers.'),
}
