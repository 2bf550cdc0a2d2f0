# Design: a Lean 4 model of zhscript2-rust

The Rust source in /repo is read as text and translated function by function into total Lean 4
functions.  The properties in `properties.jsonl` are proved about that translation.  The Rust
program is neither built nor run.

## Trusted base

* Lean 4.33.0's kernel.
* The axioms `propext`, `Quot.sound` and `Classical.choice` of Lean's library.  No axioms are added, and
  `sorry`, `native_decide`, `bv_decide`, `implemented_by` and `unsafe` are not used.  The list at the end of this
  file says which theorem needs which axioms; it is written by `tools/axioms.py` from `#print axioms`.
* The hand translation from Rust to Lean.  Every model definition cites file and lines; every
  simplification is stated in its comment.
* The meaning given to the pieces of Rust's standard library that the code uses: integer parsing and
  printing, `String`, `Vec`, UTF-8, the borrow rules of `RefCell`.

## Conventions

* `Str := List Char` for Rust `String`/`&str`.  The parser works on bytes: `List Nat`, with `utf8` from text to
  bytes (`Model/Utf8.lean`); that all of them are below 256 is proved.
* `Result` stays data (`Except`).  A Rust panic is an explicit outcome (`Out.panic`), never a default value.
* `&mut` arguments become returned values.  `Rc<RefCell<_>>` objects live in function-heaps
  addressed by numbers (`St` in `Model/State.lean`).  Borrows that are kept while something else is
  evaluated are recorded in `St.held`; an operation that would borrow such a cell mutably panics.
* An evaluation function is a program (`Prog`): a tree of primitive operations on the state and of calls of
  evaluation functions.  `run H n` runs a call with fuel `n`.  `Evals H c s r s'` says that some fuel gives this outcome;
  that more fuel never changes an outcome is proved (C40).
* Other loops without an obvious measure take a fuel argument, and it is proved that the fuel given is always enough
  (parser: C15, arithmetic: C34).
* Floating point, hashing, the file system, environment and processes are parameters (structure `Host`), so
  theorems hold for every behaviour of those.
* The release build is modelled.  Where a build with overflow checks differs (it panics), the flag `St.ovf`
  chooses between the two, and theorems hold for both unless they say so.

## What is modelled

| model | Rust |
|---|---|
| `Model/Basic.lean` | outcome type, `Str` |
| `Model/Str.lean` | `u2_/str_.rs`, `u_/t_.rs`, `u_/result2_.rs` |
| `Model/Clpars.lean` | `u2_/clpars_.rs` |
| `Model/ResultList.lean` | `u_/result_.rs`, `u_/def_/backarg_.rs`, `var_/arg_.rs`, `var_/args_.rs`, `var_/argc_.rs` |
| `Model/Vars.lean` | `u_/var_.rs`, `u_/def_.rs`, `u_/def_/argname_.rs`, `u_/equ_name_.rs`, lookups of `u_/qv_.rs` |
| `Model/Expl.lean` | `u_/expl_.rs` and the text side of `expl_.rs` |
| `Model/Cmp.lean` | comparison part of `if_.rs` |
| `Model/Keyword.lean` | `u_/keyword_.rs` |
| `Model/Utf8.lean` | UTF-8 (not code of the repository) |
| `Model/Code.lean` | the code items: constructors and `add__` of `src/*.rs`, `u_/code_/item1_.rs` |
| `Model/Pars.lean` | `u_/is_text_.rs`, `u_/keywords_.rs`, `u_/pars_.rs`, `u_/pars_/add_.rs`, `u_/pars_/layer_.rs` |
| `Model/Jump.lean` | `u_/jump_.rs` |
| `Model/World0.lean` | parts of `u_/world_.rs`, `u_/codes_cache_.rs` |
| `Model/State.lean` | the cells: `u_/qv_.rs`, `u_/result_.rs`, `u_/world_.rs`; the host |
| `Model/Eval.lean` | `u_/code_.rs`, `u_/eval_.rs`, `u_/qv_/rem4_.rs`, the `hello__` of all statements (`src/*.rs`, `var_.rs`, `var_/*.rs`), `main.rs`, start of `u_/world_.rs` |
| `Model/Attr.lean` | `u_/code_/attr_.rs` |

The model was run (`#eval`) on the sample scripts in /repo/src2 except `exe.zhscript`, and printed what they say.

## Not modelled

* Debug printing (`u_/dbg_.rs`, `debug_assertions` code) and the macro file `u3_`.  The one part of `u_/dbg_.rs` that release
  builds use, the tree printed with `-zhscript-d-tree`, is modelled on its own (`Model/Tree.lean`, C85) and not as part of the runs:
  the theorems about runs are about command lines whose `-zhscript-d-tree` is taken to print nothing.
* After the model was complete every Rust file was read a second time next to its model; the only difference found was this tree.
* The `thread` feature.
* What only a host program that links the crate can add: definitions with a native function (`Val_::F`), the hook `U11_` for
  unknown keywords, user keywords (`a2_`), attribute sets in the evaluator (`fa`; `Model/Attr.lean` models them alone).
* Failing writes to the standard output.
* The text of usage and help output beyond what a property mentions.
* Memory and stack limits: a recursion in the interpreter that never ends is an evaluation without outcome.

## Where things are

Property theorems are named after their property (`C22_…`) and are in `Props/`.  The specification they are stated with
is at the head of the same file, in the namespace `Zh.Spec`, or in `Spec/`.  `*_partial` proves less than the
property says, `*_counterexample` is a concrete run on which the code does not do what the property says, `*_witness`,
`*_example` and `*_hypotheses` show that the hypotheses of the theorems are met.

| files | contents |
|---|---|
| `Props/Split`, `Text`, `Misc`, `ResultList`, `Args`, `Clpars`, `Cmp`, `Expl`, `World0`, `Attr`, `Vars`, `Basics` | theorems on pure functions |
| `Props/ParsTotal`, `KwMatch`, `ParsLex`, `Lex`, `Utf8`, `Utf8Safe`, `Blanks`, `Quoting`, `Nesting`, `Grammar*`, `Reports` | the parser |
| `Props/Wp`, `Frame`, `Traverse*`, `FrameOk`, `Runs` | invariants of every state in which something is evaluated (`Reached`) |
| `Props/BigStep` | evaluation as a relation, with an induction principle |
| `Props/Stmts`, `Loops`, `Passing*`, `Jumps*`, `Conts`, `Returns`, `Pipes`, `Conds`, `Switch`, `Assign`, `Print`, `Exec`, `Reads`, `Calls`, `Separators`, `Defines`, `Evaluate`, `Modules2`, `Sums`, `Traces` | what the statements do |
| `Props/Only`, `Effects`, `Modules`, `Started`, `Shebang`, `FirstLine`, `Cached`, `NoText`, `NoText2`, `ScriptText`, `Capable`, `Ends`, `Replay`, `FixedText` | whole runs |
| `Props/Tame*`, `Crash*` | absence and causes of panics |
| `Props/Demo` | runs of the model on a host without files, for examples |

## Plan per property

| id | model | proof |
|---|---|---|
| C01-C03, C51 | `split2` over character lists | induction over the word list with an accumulator invariant |
| C04 | result list and its separator index | invariant over an inductive type of operations; the left-hand-argument move breaks it: witness, the rest is partial. For whole runs: a predicate on program trees (`Wt`) that every list written is right, shown for every evaluation function, then by induction over the run for all runs without left-hand arguments (`C04_run`) |
| C05, C06, C09 | argument readers | against a group specification; -k with k>n is a defect: witness and partial |
| C07 | string conversion | induction over items, against the group specification |
| C08 | argument line renderer and splitter | round trip; fails for words with `"`: witness and partial |
| C10 | `with` | iff the rest begins with the name |
| C11, C13 | scope chain search | against a first-match specification over the list of visible scopes |
| C12, C14 | per-scope stores | refinement of a history list |
| C15 | parser | enough fuel by a measure on layers and rest |
| C64 (syntax) | parser | every error comes from one of the named mistakes; where it stands, by the same invariant |
| C16 | parser | positions are character boundaries: invariant over every step |
| C17, C18 | parser | simulation between two sources |
| C19, C20, C50, C59 | parser, texts | one step per piece, induction over the pieces and the nesting; defects as witnesses |
| C45 | keyword table | decision over the whole table, then all sources |
| C60 | parser | a grammar as inductive type with its written form and its code; induction over it |
| C21 | cache | invariant over histories |
| C68 | parser and evaluator | a relation `Spec.Does` on an abstract syntax (`CoreSpec.lean`), proved to agree with `runMain` on the printed source in both directions, by induction over derivations and over runs |
| C69 | `get2P`, `simpP`, `getName` | a relation between asks (`Spec.Refers`); reading is invariant along it, proved from C58; an infinite path of it excludes every evaluation, by induction over derivations; a run that ends lets every call end (`ran_calls`) |
| C70 | parser and evaluator | with the relation `Spec.Does` of C68: an invariant over all states of a run that no crash follows (`Safe`), by induction over the number of steps, with what the rules of C68 give for the steps that end; the totality of the arithmetic without % (C34) |
| C71 | argument names in the evaluator | the programs `argiP`, `argcP`, `argsP` and `get2P` reduced with the big-step rules to the list theorems C05, C06, C09; `C04_run` gives the hypothesis on the lists in runs |
| C72 | pipes | the programs of `管道接` and `管道堵` unfolded with the big-step rules; constant annotations by induction over their list; that nothing passes a blocking pipe from the frame invariant of all runs with the result list protected. Inside an assignment annotations are lost: witness, so partial |
| C73 | annotations of a name (`scope_.rs`, `var_.rs`) | the scope an annotation list leads to is computed by a small specification function; evaluation of a name read with annotations equals a read in that scope, for every chain of scopes; `存在` with an annotation after `上` above the top crashes (witness), so partial |
| C74 | argument line (`result_.rs: to_s__`, the remembered line) | invariant over all runs: a remembered line equals the line of the current arguments; proved for every operation, then for whole runs; reversed stretches give the whole line (proved for all of them), so partial |
| C75 | parser | induction over the pieces with the step lemmas of C60, keeping track of whether the kind of the text being collected has been noted; a piece of one byte between two others is joined with the next one: proved for all such pieces, so partial |
| C76 | parser | long texts are a piece of the grammar of C60: a state machine over inner marks (nested 下文本, “, 下原样) for the tokens, and step lemmas for texts, marks and names; a mark alone next to a name becomes a word, inner quotes lose line ends, inner code loses comments (witnesses), so partial |
| C77 | parser, evaluator | an inductive description of complete items; the parser keeps it for all its lists (invariant over `pars`), the evaluator hands on only parts of what it was given or what a parse or the cache answered (one lemma per function, cache invariant of C21) |
| C78 | evaluator, command line, startup | a predicate on program trees (only such code is evaluated, never into the arguments of a scope, nothing is borrowed, no scope and no definition is made), one lemma per evaluator function; an invariant of the state over all runs; then every cause of C44 but two is excluded |
| C79 | parser | an invariant of the parser: every item collected so far is a word, a quoted text or belongs to a keyword that stands in the source (blanks removed), and so does every keyword kept for later; one lemma per parser function. With C78 and C80 it gives a condition on the text of a script under which no run crashes |
| C80 | parser | on the token version of the parser: every text that is collected is a subsequence of the source, and the only crash is that of `textNew` (C50) on 续, line break, 续 |
| C81 | evaluator, command line, startup | the tree predicate of C78 with the kinds of operations of C55: calls that happen in such a run cause only printing; the start of the run is computed exactly as it makes no calls |
| C82 | evaluator, command line, startup | the tree predicate of C78 with a second one: every call that `evalF c` makes is smaller than `c` in a lexicographic order (statements still to do, turns left of a loop, kind of call), and what a call returns keeps the order going; well-founded induction; the alias clause of the state invariant keeps names from being followed |
| C83 | evaluator, host interface | relational induction over programs: two interpretations of one program agree as long as the answers recorded in the trace of the first agree; the trace only grows (C39); with C81 for scripts that ask nothing |
| C84 | evaluator with definitions and `解释` | predicate `Wf` on program trees that allows `定义` and `解释` when the text given is the constant of the statement (known through the contract of the call that evaluates a constant); invariant: every definition in every scope has a text of the kind `Spec.WrittenOut` or is a built-in one, and so for the cached codes; checker `writtenB` with soundness for concrete scripts |
| C85 | the tree printer | refinement to a rendering without the array: mutual induction on the tree with the invariant that the array holds, below the current level, exactly the marks of the enclosing lines; lower bound on the depth gives the crash; induction on the program for the text. **False beyond 64 levels** (`C85_counterexample`) |
| C86 | the whole evaluator | the program of an evaluation is a finite tree (induction on it), so an endless one makes an endless call (determinism and monotonicity of fuel, C40); the chain is chosen step by step; the converse by induction on the fuel; for what is endless in it, every other call is smaller than its caller in a well-founded order (code size, then position or turns left), with the invariant that positions do not go back |
| C22, C23, C28, C31, C32, C43, C48, C49, C58, C61, C63, C64, C65, C66, C67 | evaluator | for each statement a relation that tells what it does, and an iff with the evaluator |
| C24, C26 | evaluator | a relation "passes through" for chains of nested evaluations |
| C25, C27, C39, C40, C42 | evaluator | invariants kept by every primitive operation and call |
| C29, C30, C52 | comparison | any-of specification; order laws; transitivity is false: witness |
| C33, C34 | arithmetic | round trip of rendered trees; the remainder crash is a witness |
| C35 | exit status | case analysis over all outcomes |
| C36, C41 | command line | induction over the word list |
| C37, C38 | include path, module list | invariant over histories; renaming breaks C38: witness and partial |
| C44 | evaluator | false: witnesses; for all runs a list of causes, by an invariant on every borrow and index |
| C46 | left-hand arguments | group specification, defects as witnesses |
| C47 | attribute chain | recursion on the chain |
| C53-C55 | evaluator | every change of the state belongs to a statement of the given kinds, by induction over the evaluation |
| C56, C57 | pure functions | case analysis, induction |
| C62 | separator search | against cutting a text at separators, induction over the separators |


## The log of wrong programs

`seeded/LOG.jsonl` has one line per edit of the model. `theorems_failed` lists theorems with an error in their own proof or in a lemma they
need. `not_determined` lists theorems for which this was not seen: a kernel computation in a module did not finish on the edited model, the
module was checked again with all its kernel computations left out, and these theorems depend on one that was left out. Earlier versions
of the log counted them as failed. Six edits have only such theorems. `claim` is the claim the edit was meant to break; where the theorems that
failed belong to other claims a note says so. Each edit was checked against the theorems of the time and of the modules chosen for it, not against
all theorems of the last commit.

