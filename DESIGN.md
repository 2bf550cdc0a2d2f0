# Design: a Lean 4 model of zhscript2-rust

The Rust source in /repo is read as text and translated function by function into total Lean 4
functions.  The properties in `properties.jsonl` are proved about that translation.  The Rust
program is neither built nor run.

## Trusted base

* Lean 4.33.0's kernel.
* The axioms `propext`, `Quot.sound` and `Classical.choice` of Lean's library.  No axioms are added, and
  `sorry`, `native_decide`, `bv_decide`, `implemented_by` and `unsafe` are not used.  The list at the end of this
  file says which theorem needs which axioms; it is written by `tools/axioms.py` from `#print axioms`.
* The hand translation from Rust to Lean.  Every model definition cites file and lines; every
  simplification is stated in its comment.
* The meaning given to the pieces of Rust's standard library that the code uses: integer parsing and
  printing, `String`, `Vec`, UTF-8, the borrow rules of `RefCell`.

## Conventions

* `Str := List Char` for Rust `String`/`&str`.  The parser works on bytes: `List Nat`, with `utf8` from text to
  bytes (`Model/Utf8.lean`); that all of them are below 256 is proved.
* `Result` stays data (`Except`).  A Rust panic is an explicit outcome (`Out.panic`), never a default value.
* `&mut` arguments become returned values.  `Rc<RefCell<_>>` objects live in function-heaps
  addressed by numbers (`St` in `Model/State.lean`).  Borrows that are kept while something else is
  evaluated are recorded in `St.held`; an operation that would borrow such a cell mutably panics.
* An evaluation function is a program (`Prog`): a tree of primitive operations on the state and of calls of
  evaluation functions.  `run H n` runs a call with fuel `n`.  `Evals H c s r s'` says that some fuel gives this outcome;
  that more fuel never changes an outcome is proved (C40).
* Other loops without an obvious measure take a fuel argument, and it is proved that the fuel given is always enough
  (parser: C15, arithmetic: C34).
* Floating point, hashing, the file system, environment and processes are parameters (structure `Host`), so
  theorems hold for every behaviour of those.
* The release build is modelled.  Where a build with overflow checks differs (it panics), the flag `St.ovf`
  chooses between the two, and theorems hold for both unless they say so.

## What is modelled

| model | Rust |
|---|---|
| `Model/Basic.lean` | outcome type, `Str` |
| `Model/Str.lean` | `u2_/str_.rs`, `u_/t_.rs`, `u_/result2_.rs` |
| `Model/Clpars.lean` | `u2_/clpars_.rs` |
| `Model/ResultList.lean` | `u_/result_.rs`, `u_/def_/backarg_.rs`, `var_/arg_.rs`, `var_/args_.rs`, `var_/argc_.rs` |
| `Model/Vars.lean` | `u_/var_.rs`, `u_/def_.rs`, `u_/def_/argname_.rs`, `u_/equ_name_.rs`, lookups of `u_/qv_.rs` |
| `Model/Expl.lean` | `u_/expl_.rs` and the text side of `expl_.rs` |
| `Model/Cmp.lean` | comparison part of `if_.rs` |
| `Model/Keyword.lean` | `u_/keyword_.rs` |
| `Model/Utf8.lean` | UTF-8 (not code of the repository) |
| `Model/Code.lean` | the code items: constructors and `add__` of `src/*.rs`, `u_/code_/item1_.rs` |
| `Model/Pars.lean` | `u_/is_text_.rs`, `u_/keywords_.rs`, `u_/pars_.rs`, `u_/pars_/add_.rs`, `u_/pars_/layer_.rs` |
| `Model/Jump.lean` | `u_/jump_.rs` |
| `Model/World0.lean` | parts of `u_/world_.rs`, `u_/codes_cache_.rs` |
| `Model/State.lean` | the cells: `u_/qv_.rs`, `u_/result_.rs`, `u_/world_.rs`; the host |
| `Model/Eval.lean` | `u_/code_.rs`, `u_/eval_.rs`, `u_/qv_/rem4_.rs`, the `hello__` of all statements (`src/*.rs`, `var_.rs`, `var_/*.rs`), `main.rs`, start of `u_/world_.rs` |
| `Model/Attr.lean` | `u_/code_/attr_.rs` |

The model was run (`#eval`) on the sample scripts in /repo/src2 except `exe.zhscript`, and printed what they say.

## Not modelled

* Debug printing (`u_/dbg_.rs`, `debug_assertions` code) and the macro file `u3_`.  The one part of `u_/dbg_.rs` that release
  builds use, the tree printed with `-zhscript-d-tree`, is modelled on its own (`Model/Tree.lean`, C85) and not as part of the runs:
  the theorems about runs are about command lines whose `-zhscript-d-tree` is taken to print nothing.
* After the model was complete every Rust file was read a second time next to its model; the only difference found was this tree.
* The `thread` feature.
* What only a host program that links the crate can add: definitions with a native function (`Val_::F`), the hook `U11_` for
  unknown keywords, user keywords (`a2_`), attribute sets in the evaluator (`fa`; `Model/Attr.lean` models them alone).
* Failing writes to the standard output.
* The text of usage and help output beyond what a property mentions.
* Memory and stack limits: a recursion in the interpreter that never ends is an evaluation without outcome.

## Where things are

Property theorems are named after their property (`C22_…`) and are in `Props/`.  The specification they are stated with
is at the head of the same file, in the namespace `Zh.Spec`, or in `Spec/`.  `*_partial` proves less than the
property says, `*_counterexample` is a concrete run on which the code does not do what the property says, `*_witness`,
`*_example` and `*_hypotheses` show that the hypotheses of the theorems are met.

| files | contents |
|---|---|
| `Props/Split`, `Text`, `Misc`, `ResultList`, `Args`, `Clpars`, `Cmp`, `Expl`, `World0`, `Attr`, `Vars`, `Basics` | theorems on pure functions |
| `Props/ParsTotal`, `KwMatch`, `ParsLex`, `Lex`, `Utf8`, `Utf8Safe`, `Blanks`, `Quoting`, `Nesting`, `Grammar*`, `Reports` | the parser |
| `Props/Wp`, `Frame`, `Traverse*`, `FrameOk`, `Runs` | invariants of every state in which something is evaluated (`Reached`) |
| `Props/BigStep` | evaluation as a relation, with an induction principle |
| `Props/Stmts`, `Loops`, `Passing*`, `Jumps*`, `Conts`, `Returns`, `Pipes`, `Conds`, `Switch`, `Assign`, `Print`, `Exec`, `Reads`, `Calls`, `Separators`, `Defines`, `Evaluate`, `Modules2`, `Sums`, `Traces` | what the statements do |
| `Props/Only`, `Effects`, `Modules`, `Started`, `Shebang`, `FirstLine`, `Cached`, `NoText`, `NoText2`, `ScriptText`, `Capable`, `Ends`, `Replay`, `FixedText` | whole runs |
| `Props/Tame*`, `Crash*` | absence and causes of panics |
| `Props/Demo` | runs of the model on a host without files, for examples |

## Plan per property

| id | model | proof |
|---|---|---|
| C01-C03, C51 | `split2` over character lists | induction over the word list with an accumulator invariant |
| C04 | result list and its separator index | invariant over an inductive type of operations; the left-hand-argument move breaks it: witness, the rest is partial. For whole runs: a predicate on program trees (`Wt`) that every list written is right, shown for every evaluation function, then by induction over the run for all runs without left-hand arguments (`C04_run`) |
| C05, C06, C09 | argument readers | against a group specification; -k with k>n is a defect: witness and partial |
| C07 | string conversion | induction over items, against the group specification |
| C08 | argument line renderer and splitter | round trip; fails for words with `"`: witness and partial |
| C10 | `with` | iff the rest begins with the name |
| C11, C13 | scope chain search | against a first-match specification over the list of visible scopes |
| C12, C14 | per-scope stores | refinement of a history list |
| C15 | parser | enough fuel by a measure on layers and rest |
| C64 (syntax) | parser | every error comes from one of the named mistakes; where it stands, by the same invariant |
| C16 | parser | positions are character boundaries: invariant over every step |
| C17, C18 | parser | simulation between two sources |
| C19, C20, C50, C59 | parser, texts | one step per piece, induction over the pieces and the nesting; defects as witnesses |
| C45 | keyword table | decision over the whole table, then all sources |
| C60 | parser | a grammar as inductive type with its written form and its code; induction over it |
| C21 | cache | invariant over histories |
| C68 | parser and evaluator | a relation `Spec.Does` on an abstract syntax (`CoreSpec.lean`), proved to agree with `runMain` on the printed source in both directions, by induction over derivations and over runs |
| C69 | `get2P`, `simpP`, `getName` | a relation between asks (`Spec.Refers`); reading is invariant along it, proved from C58; an infinite path of it excludes every evaluation, by induction over derivations; a run that ends lets every call end (`ran_calls`) |
| C70 | parser and evaluator | with the relation `Spec.Does` of C68: an invariant over all states of a run that no crash follows (`Safe`), by induction over the number of steps, with what the rules of C68 give for the steps that end; the totality of the arithmetic without % (C34) |
| C71 | argument names in the evaluator | the programs `argiP`, `argcP`, `argsP` and `get2P` reduced with the big-step rules to the list theorems C05, C06, C09; `C04_run` gives the hypothesis on the lists in runs |
| C72 | pipes | the programs of `管道接` and `管道堵` unfolded with the big-step rules; constant annotations by induction over their list; that nothing passes a blocking pipe from the frame invariant of all runs with the result list protected. Inside an assignment annotations are lost: witness, so partial |
| C73 | annotations of a name (`scope_.rs`, `var_.rs`) | the scope an annotation list leads to is computed by a small specification function; evaluation of a name read with annotations equals a read in that scope, for every chain of scopes; `存在` with an annotation after `上` above the top crashes (witness), so partial |
| C74 | argument line (`result_.rs: to_s__`, the remembered line) | invariant over all runs: a remembered line equals the line of the current arguments; proved for every operation, then for whole runs; reversed stretches give the whole line (proved for all of them), so partial |
| C75 | parser | induction over the pieces with the step lemmas of C60, keeping track of whether the kind of the text being collected has been noted; a piece of one byte between two others is joined with the next one: proved for all such pieces, so partial |
| C76 | parser | long texts are a piece of the grammar of C60: a state machine over inner marks (nested 下文本, “, 下原样) for the tokens, and step lemmas for texts, marks and names; a mark alone next to a name becomes a word, inner quotes lose line ends, inner code loses comments (witnesses), so partial |
| C77 | parser, evaluator | an inductive description of complete items; the parser keeps it for all its lists (invariant over `pars`), the evaluator hands on only parts of what it was given or what a parse or the cache answered (one lemma per function, cache invariant of C21) |
| C78 | evaluator, command line, startup | a predicate on program trees (only such code is evaluated, never into the arguments of a scope, nothing is borrowed, no scope and no definition is made), one lemma per evaluator function; an invariant of the state over all runs; then every cause of C44 but two is excluded |
| C79 | parser | an invariant of the parser: every item collected so far is a word, a quoted text or belongs to a keyword that stands in the source (blanks removed), and so does every keyword kept for later; one lemma per parser function. With C78 and C80 it gives a condition on the text of a script under which no run crashes |
| C80 | parser | on the token version of the parser: every text that is collected is a subsequence of the source, and the only crash is that of `textNew` (C50) on 续, line break, 续 |
| C81 | evaluator, command line, startup | the tree predicate of C78 with the kinds of operations of C55: calls that happen in such a run cause only printing; the start of the run is computed exactly as it makes no calls |
| C82 | evaluator, command line, startup | the tree predicate of C78 with a second one: every call that `evalF c` makes is smaller than `c` in a lexicographic order (statements still to do, turns left of a loop, kind of call), and what a call returns keeps the order going; well-founded induction; the alias clause of the state invariant keeps names from being followed |
| C83 | evaluator, host interface | relational induction over programs: two interpretations of one program agree as long as the answers recorded in the trace of the first agree; the trace only grows (C39); with C81 for scripts that ask nothing |
| C84 | evaluator with definitions and `解释` | predicate `Wf` on program trees that allows `定义` and `解释` when the text given is the constant of the statement (known through the contract of the call that evaluates a constant); invariant: every definition in every scope has a text of the kind `Spec.WrittenOut` or is a built-in one, and so for the cached codes; checker `writtenB` with soundness for concrete scripts |
| C85 | the tree printer | refinement to a rendering without the array: mutual induction on the tree with the invariant that the array holds, below the current level, exactly the marks of the enclosing lines; lower bound on the depth gives the crash; induction on the program for the text. **False beyond 64 levels** (`C85_counterexample`) |
| C86 | the whole evaluator | the program of an evaluation is a finite tree (induction on it), so an endless one makes an endless call (determinism and monotonicity of fuel, C40); the chain is chosen step by step; the converse by induction on the fuel; for what is endless in it, every other call is smaller than its caller in a well-founded order (code size, then position or turns left), with the invariant that positions do not go back |
| C22, C23, C28, C31, C32, C43, C48, C49, C58, C61, C63, C64, C65, C66, C67 | evaluator | for each statement a relation that tells what it does, and an iff with the evaluator |
| C24, C26 | evaluator | a relation "passes through" for chains of nested evaluations |
| C25, C27, C39, C40, C42 | evaluator | invariants kept by every primitive operation and call |
| C29, C30, C52 | comparison | any-of specification; order laws; transitivity is false: witness |
| C33, C34 | arithmetic | round trip of rendered trees; the remainder crash is a witness |
| C35 | exit status | case analysis over all outcomes |
| C36, C41 | command line | induction over the word list |
| C37, C38 | include path, module list | invariant over histories; renaming breaks C38: witness and partial |
| C44 | evaluator | false: witnesses; for all runs a list of causes, by an invariant on every borrow and index |
| C46 | left-hand arguments | group specification, defects as witnesses |
| C47 | attribute chain | recursion on the chain |
| C53-C55 | evaluator | every change of the state belongs to a statement of the given kinds, by induction over the evaluation |
| C56, C57 | pure functions | case analysis, induction |
| C62 | separator search | against cutting a text at separators, induction over the separators |


## The log of wrong programs

`seeded/LOG.jsonl` has one line per edit of the model. `theorems_failed` lists theorems with an error in their own proof or in a lemma they
need. `not_determined` lists theorems for which this was not seen: a kernel computation in a module did not finish on the edited model, the
module was checked again with all its kernel computations left out, and these theorems depend on one that was left out. Earlier versions
of the log counted them as failed. Six edits have only such theorems. `claim` is the claim the edit was meant to break; where the theorems that
failed belong to other claims a note says so. Each edit was checked against the theorems of the time and of the modules chosen for it, not against
all theorems of the last commit.

## Axioms of the theorems in MANIFEST.json

* **none** (2): `C14_base_name_counterexample`, `C35_normal`.
* **propext** (39): `C02_split_words`, `C04_backarg_counterexample`, `C08_argument_line_counterexample`, `C08_range_line_counterexample`, `C16_bytes_rejected`, `C20_nested_counterexample`, `C20_one_byte_counterexample`, `C21_parsed_once`, `C21_collision_counterexample`, `C30_number_order`, `C30_reflexive`, `C30_transitive_numbers_partial`, `C30_nan_counterexample`, `C33_trailing_counterexample`, `C34_no_crash_partial`, `C35_quit_code`, `C35_quit_plain`, `C35_quit_1000_counterexample`, `C46_stop_counterexample`, `C46_zero_counterexample`, `C47_witness`, `C47_name_counterexample`, `C47_number_counterexample`, `C50_counterexample`, `C51_split_open`, `C51_fields_quoted`, `C57_other_mark`, `C59_text2_counterexample`, `C59_comment_counterexample`, `C59_empty_quote_counterexample`, `C64_syntax_example`, `tries_some`, `tries_none`, `C76_inner_counterexample`, `C76_mark_counterexample`, `C77_excludes`, `C80_witness`, `C85_witness`, `C85_witness_line`.
* **Quot.sound, propext** (215): `C02_words_nonempty`, `C03_split_fields`, `C03_split_join`, `C03_split_fields_noend`, `C04_run`, `C04_run_witness`, `C05_positional_argument`, `C05_argument_exists`, `C06_negative_index_partial`, `C06_beyond_front_counterexample`, `C06_exists_always_counterexample`, `C07_to_strings`, `C07_to_strings_default`, `C07_count`, `C09_argument_range`, `C12_stored_once`, `C12_reachable`, `C14_stored_once`, `C21_cache_transparent`, `C21_reached`, `C21_run_transparent`, `C22_in_order`, `C22_in_order_conv`, `C22_witness`, `C23_counter`, `C23_witness`, `C24_through`, `C24_taken`, `C24_passed`, `C24_statement_plain`, `C24_statement_label`, `C24_innermost`, `C24_witness`, `C24_innermost_witness`, `C24_example`, `C24_several_counterexample`, `C25_witness`, `C26_statement_plain`, `C26_statement_up`, `C26_unwinds`, `C26_depth_999`, `C26_plain_witness`, `C27_witness`, `C28_catching_pipe`, `C28_witness`, `C29_compare_lists`, `C29_any_of`, `C29_any_of_left`, `C29_missing`, `C29_truth`, `C29_not_equal_list`, `C30_text_order`, `C30_antisymmetric`, `C30_total_order_text_partial`, `C30_transitivity_counterexample`, `C31_example`, `C31_parenthesis_counterexample`, `C31_not_parenthesis_counterexample`, `C32_default_iff`, `C32_distinct_partial`, `C32_parsed`, `C32_refused`, `C32_witness`, `C32_example`, `C32_twice_counterexample`, `C33_statement_witness`, `C33_example`, `C35_failure`, `C35_jump`, `C36_code_partial`, `C36_file_partial`, `C36_lines`, `C36_example`, `C36_witness`, `C36_mark_counterexample`, `C36_env_counterexample`, `C36_empty_line_counterexample`, `C37_directory`, `C38_names_witness`, `C38_name_counterexample`, `C38_free_counterexample`, `C39_events_kept`, `C39_output_kept`, `C39_output_grows`, `C40_more_steps`, `C40_deterministic`, `C40_main`, `C41_option_arity`, `C41_catchall_arity`, `C41_match`, `C41_spellings`, `C43_assignment`, `C43_alias`, `C43_distributes`, `C43_witness`, `C43_example`, `C43_private_sticks_counterexample`, `C44_release_assigns_counterexample`, `C44_release_counterexample`, `C44_redefine_counterexample`, `C44_current_scope_counterexample`, `C44_own_arguments_counterexample`, `C44_up_counterexample`, `C44_handler_counterexample`, `C44_continued_counterexample`, `C45_longest`, `C45_found`, `C45_reachable`, `C46_move_all_groups_partial`, `C46_move_last_groups_partial`, `C46_not_enough`, `C48_redirected`, `C48_written`, `C48_bad_option`, `C48_example`, `C48_handler_assigns_counterexample`, `C49_waited`, `C49_not_started`, `C49_captured`, `C49_parallel`, `C49_passive`, `C49_write`, `C49_missing_word`, `C49_help`, `C49_no_command`, `C49_example`, `C49_witness`, `C49_passive_forever_counterexample`, `C50_marks_partial`, `C50_crash_iff_partial`, `C52_truth`, `C53_variables`, `C53_witness`, `C54_definitions`, `C54_witness`, `C55_outside`, `C55_witness`, `C56_read_i32`, `C56_read_i64`, `C56_read_usize`, `C57_argument_names`, `C57_pattern`, `C57_example`, `C57_sticky_counterexample`, `C58_example`, `C61_example`, `C61_nested_counterexample`, `C62_pieces`, `C62_hypotheses`, `C62_example`, `C62_lost_counterexample`, `C62_window_counterexample`, `C63_example`, `C63_pattern_counterexample`, `C63_text_counterexample`, `C64_witness`, `C64_else_counterexample`, `C65_witness`, `C65_example`, `C65_arguments_example`, `C66_witness`, `C66_example`, `C66_here_counterexample`, `C66_module_counterexample`, `C67_release`, `C67_registers`, `C67_released_partial`, `C67_released_witness`, `C67_example`, `C67_twice_counterexample`, `C67_wrong_module_counterexample`, `circle_endless`, `ran_calls`, `C69_chain_witness`, `C70_percent_counterexample`, `C71_nth`, `C71_count`, `C71_range`, `C71_from_end`, `C71_own_arguments`, `C71_run`, `C71_witness`, `C71_script`, `C72_copying`, `C72_copying_annotated_partial`, `C72_print_copied`, `C72_blocking`, `C72_witness`, `C72_script`, `C72_lost_annotation_counterexample`, `C73_written`, `C73_written_computed`, `C73_zero`, `C73_script`, `C73_script_error`, `C73_exists_above_counterexample`, `C74_line`, `C74_read_witness`, `C74_reversed_witness`, `C74_script`, `C74_reversed_counterexample`, `C75_script_counterexample`, `C76_script`, `C78_exceptions`, `C79_witness`, `C83_replay`, `C83_answers_matter`, `C84_code`, `C84_silent_code`, `C84_same_code`, `C84_witness`, `C85_tree`, `C85_text`, `C86_release_circle_witness`, `C86_run_release_itself_witness`.
* **Classical.choice, Quot.sound, propext** (207): `C01_split_line`, `C01_split_quoted`, `C03_field_count`, `C04_separator_index_partial`, `C04_separator_index_reading_partial`, `C04_backarg_weak_partial`, `C08_argument_line_partial`, `C08_range_line_partial`, `C10_prefix_match`, `C11_leftmost_innermost_oldest`, `C11_none`, `C12_latest_assignment`, `C12_latest_assignment_outside`, `C12_independent`, `C13_nearest_scope`, `C13_reachable`, `C13_only_self`, `C13_private_invisible`, `C14_latest_definition`, `C15_parse_finishes`, `C15_parse_total`, `C15_parse_forward`, `C16_no_utf8_error`, `C17_blanks_irrelevant`, `C17_blanks_irrelevant_inside`, `C18_comment`, `C19_C20_texts`, `C19_verbatim`, `C19_in_context`, `C19_nested`, `C20_quoted`, `C20_in_context`, `C20_nested`, `C22_statements`, `C23_loop`, `C23_plain`, `C23_exactly`, `C23_ends`, `C24_labels`, `C24_label_active`, `C24_labelled`, `C25_labels_restored`, `C25_loop_label`, `C25_main`, `C26_statement_named`, `C26_plain`, `C26_named`, `C26_never_escapes`, `C26_named_witness`, `C27_blocked_pipe`, `C28_never_fails`, `C28_ends`, `C31_condition`, `C31_if`, `C31_witness`, `C32_switch`, `C32_run_branches`, `C32_body`, `C33_arithmetic`, `C33_grouping`, `C33_sign_counterexample`, `C33_statement`, `C34_ends`, `C34_zero_reported`, `C34_remainder_counterexample`, `C37_include_path`, `C38_names_partial`, `C41_dispatch`, `C42_depth`, `C42_parents_kept`, `C42_lookups_end`, `C42_parents_older`, `C43_read`, `C44_crash_partial`, `C44_causes_partial`, `C44_crash_iff`, `C44_script_line`, `C44_loaded_line`, `C44_borrowed_by`, `C47_name_partial`, `C47_number`, `C47_attrname`, `C48_reachable`, `C48_witness`, `C49_bad_option`, `C56_print`, `C56_round_trip`, `C56_print_injective`, `C57_name_reads`, `C58_read`, `C58_read_simple`, `C58_exists`, `C58_exists_variable`, `C58_exists_alias`, `C58_exists_nothing`, `C58_read_variable`, `C58_reached`, `C59_same_program`, `C59_kept`, `C60_structure`, `C61_word`, `C61_text`, `C61_no_arguments`, `C61_arguments_partial`, `C61_reached`, `C62_separators_partial`, `C63_definition`, `C63_not_covered`, `C63_callable_partial`, `C64_syntax_report`, `C64_trace`, `C64_script`, `C64_reached`, `C64_run`, `C65_statement`, `C65_nested`, `C65_text`, `C65_text_reached`, `C66_load`, `C67_naming`, `C67_name`, `C68_code`, `C68_file`, `C68_witness`, `C68_witness_args`, `C68_counting`, `C69_chain`, `C69_value`, `C69_value_simple`, `C69_endless`, `C69_run_endless`, `C69_circle_witness`, `C70_code`, `C70_file`, `C70_witness`, `C70_witness_args`, `C70_witness_endless`, `C71_computed_nth`, `C71_exists_nth`, `C71_computed_count`, `C71_exists_witness`, `C72_nothing_passes`, `C73_computed`, `C73_computed_word`, `C73_computed_nowhere`, `C73_computed_range`, `C73_assigned`, `C73_reached`, `C73_witness`, `C74_remembered`, `C74_remembered_after`, `C74_read`, `C74_computed`, `C74_reversed`, `C74_computed_witness`, `C75_apart_partial`, `C75_joined`, `C75_apart_witness`, `C75_joined_counterexample`, `C76_long_partial`, `C76_exact`, `C76_inner`, `C76_witness`, `C77_parsed`, `C77_run`, `C77_witness`, `C78_code`, `C78_file`, `C78_never_code`, `C78_never_file`, `C78_witness`, `C79_written`, `C79_without`, `C79_code`, `C79_never_code`, `C79_never_file`, `C80_crash`, `C81_code`, `C81_silent_code`, `C81_file`, `C81_silent_file`, `C81_witness`, `C82_code`, `C82_file`, `C82_words_code`, `C82_words_file`, `C82_total_code`, `C82_total_file`, `C82_witness`, `C82_counterexample`, `C83_code`, `C83_file`, `C83_witness`, `C84_file`, `C84_silent_file`, `C84_same_file`, `C85_crash`, `C85_counterexample`, `C86_endless`, `C86_rule`, `C86_again`, `C86_run_again`, `C86_release_circle`, `C86_release_circle_counterexample`, `C86_release_itself`, `C86_run_release_itself`, `C86_release_counterexample`.

463 of 463 theorems
