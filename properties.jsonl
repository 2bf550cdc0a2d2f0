{"id": "C01", "title": "Quoted command words survive splitting", "statement": "Splitting a command line built by quoting each word (with a quote character the word does not contain) and joining the words with blanks gives back exactly those words, in order, including empty words and words containing blanks.", "quantifier": "all lists of words (any length, any characters except that each word lacks at least one of the two quote characters)", "why_tests_cant": "there are infinitely many word lists; quoting bugs hide in rare character combinations", "anchors": ["src/u2_/str_.rs: split__, split2__"]}
{"id": "C02", "title": "Unquoted splitting is word splitting", "statement": "On a line without quote characters, splitting returns exactly the maximal runs of non-blank characters, left to right, and never an empty word.", "quantifier": "all strings without quote characters", "why_tests_cant": "needs every string length and blank placement", "anchors": ["src/u2_/str_.rs: split__, split2__"]}
{"id": "C03", "title": "Strict field splitting is the inverse of joining", "statement": "In strict mode with the closing field kept, splitting fields joined by the separator returns exactly those fields, so the number of fields is the number of separators plus one.", "quantifier": "all non-empty field lists whose fields contain no separator, quote or blank", "why_tests_cant": "unbounded field count and content", "anchors": ["src/u2_/str_.rs: split2__", "src/u2_/clpars_.rs: Item_::new__"]}
{"id": "C04", "title": "Separator positions always match the items", "statement": "After any sequence of operations on a result list, the recorded separator positions are exactly the positions at which a separator item stands, in increasing order.", "quantifier": "all histories of append, prepend, remove, clear and pop-trailing-separator, and of moving trailing groups out as left-hand arguments", "why_tests_cant": "the invariant is about histories; a test exercises one history", "anchors": ["src/u_/result_.rs: List_::add4__, ins__, rm__, clear, pop_end__", "src/u_/def_/backarg_.rs: backarg__"]}
{"id": "C05", "title": "Positional argument access returns the i-th argument", "statement": "In a well-formed argument list, reading argument i (1-based) appends exactly the items between separator i-1 and separator i to the result, and reading an index beyond the count appends nothing.", "quantifier": "all well-formed argument lists and all indices", "why_tests_cant": "unbounded lists and indices", "anchors": ["src/var_/arg_.rs: Argi_::hello__", "src/u_/result_.rs: List_::posi__, ret__, s3__"]}
{"id": "C06", "title": "Negative argument indices count from the end", "statement": "Argument -k of an n-argument list is argument n-k+1 for 1<=k<=n. For k>n there is no such argument and the read must not yield the whole list or crash.", "quantifier": "all argument lists and all negative indices", "why_tests_cant": "boundary behaviour over all counts", "anchors": ["src/u_/t_.rs: i2u__", "src/var_/arg_.rs: Argi_::hello__"]}
{"id": "C07", "title": "Turning a result into strings splits exactly at separators", "statement": "Converting a result list to strings yields one string per separator-delimited group, each the concatenation of the texts of its items; an empty list yields no strings.", "quantifier": "all result lists", "why_tests_cant": "unbounded lists with arbitrary item kinds", "anchors": ["src/u_/result_.rs: List_::to_vec0__, to_vec__, Item_::s3__"]}
{"id": "C08", "title": "The argument line can be split back into the arguments", "statement": "The single-line rendering of the arguments quotes them so that splitting that line with the command splitter gives back the argument list.", "quantifier": "all argument lists", "why_tests_cant": "quoting round trip over all strings", "anchors": ["src/u_/result_.rs: List_::s2__, s2s__, to1__", "src/u2_/str_.rs: split__"]}
{"id": "C09", "title": "Argument ranges select exactly the requested groups", "statement": "Reading the argument stack from b to e (1<=b<=e) appends exactly the groups b..min(e,count) with the separators between them and nothing else.", "quantifier": "all well-formed argument lists and all ranges", "why_tests_cant": "unbounded lists and bounds", "anchors": ["src/var_/args_.rs: Args_::hello__"]}
{"id": "C10", "title": "Prefix matching is exact", "statement": "Matching a name in a text at an offset succeeds iff the text from that offset starts with the name; the reported length is the name's length and the end flag says whether the match reaches the end of the text.", "quantifier": "all texts, names and offsets within the text", "why_tests_cant": "all strings", "anchors": ["src/u_/t_.rs: with__"]}
{"id": "C11", "title": "The definition chosen is leftmost, then innermost, then oldest", "statement": "When plain text is scanned for a defined word, the chosen occurrence is at the leftmost position where any visible definition matches; at that position the innermost scope wins, and inside a scope the earliest definition; excluded definitions are never chosen; none is chosen only if no visible definition matches anywhere.", "quantifier": "all texts, scope chains, modules and exclusion lists", "why_tests_cant": "all configurations", "anchors": ["src/u_/qv_.rs: find_def__, for3__", "src/u_/def_.rs: List_::find__"]}
{"id": "C12", "title": "Variables behave like a map", "statement": "Within one scope, reading a name returns the value of the latest assignment to that name; assigning one name never changes another; a name is stored at most once.", "quantifier": "all histories of assignments", "why_tests_cant": "histories are unbounded", "anchors": ["src/u_/var_.rs: List_::val2__, get2__"]}
{"id": "C13", "title": "Variable lookup follows the scope chain", "statement": "Reading a variable returns it from the nearest scope on the path to the top scope that has it (then from loaded modules in load order); a private variable of an enclosing scope is never returned to an inner scope.", "quantifier": "all scope chains, names and private flags", "why_tests_cant": "all scope shapes", "anchors": ["src/u_/qv_.rs: for3__, get__", "src/u_/var_.rs: List_::get2__"]}
{"id": "C14", "title": "Definitions behave like a map keyed by the full pattern", "statement": "Redefining a word with the same separator pattern replaces it in place and keeps its priority; a different pattern adds a new definition; no full pattern is stored twice in a scope.", "quantifier": "all histories of definitions", "why_tests_cant": "histories are unbounded", "anchors": ["src/u_/def_.rs: List_::val2__, Item_::mk_arg0__"]}
{"id": "C15", "title": "Parsing terminates on every source", "statement": "Parsing any byte string with the built-in keyword table finishes.", "quantifier": "all source texts", "why_tests_cant": "termination for all inputs cannot be tested", "anchors": ["src/u_/pars_.rs: Pars_::hello2__", "src/u_/pars_/layer_.rs: Layer_::i1__"]}
{"id": "C16", "title": "Parsing never breaks characters", "statement": "For every valid UTF-8 source, parsing never reports an invalid-UTF-8 error: every text collected between keywords is itself valid UTF-8.", "quantifier": "all valid UTF-8 sources", "why_tests_cant": "all byte strings", "anchors": ["src/u_/pars_.rs: is_kw__, hello2__", "src/u_/pars_/add_.rs: add_text__"]}
{"id": "C17", "title": "Blanks outside quotes do not matter", "statement": "In code outside any quoting construct, inserting or removing blanks and control characters anywhere, even inside a keyword, does not change the parsed program.", "quantifier": "all sources without quoting keywords and all ways to insert blanks", "why_tests_cant": "all insertion positions in all programs", "anchors": ["src/u_/pars_.rs: is_kw__", "src/u_/is_text_.rs: add__"]}
{"id": "C18", "title": "Comments are invisible", "statement": "A comment in code position leaves the parsed program unchanged, whatever the comment contains, as long as its brackets are balanced.", "quantifier": "all comment bodies with balanced brackets, all surrounding states", "why_tests_cant": "all comment contents", "anchors": ["src/u_/is_text_.rs: add4__, add__", "src/u_/pars_.rs: hello2__"]}
{"id": "C19", "title": "Verbatim text is preserved exactly", "statement": "The verbatim construct yields its content byte for byte, including blanks, newlines and every keyword except its own delimiters.", "quantifier": "all contents without the verbatim delimiters", "why_tests_cant": "all contents", "anchors": ["src/u_/is_text_.rs: add__", "src/u_/pars_.rs: hello2__", "src/text_.rs: Item_::new"]}
{"id": "C20", "title": "Quoted text is preserved except control characters", "statement": "A quoted text without nested quotes or variable brackets yields its content with only control characters below blank removed.", "quantifier": "all contents", "why_tests_cant": "all contents", "anchors": ["src/u_/is_text_.rs: add__", "src/u_/pars_.rs: hello2__"]}
{"id": "C21", "title": "The parse cache is transparent", "statement": "If distinct sources have distinct hashes, evaluating a source through the cache gives the same program as parsing it afresh, after any history of cache use.", "quantifier": "all histories of cached parses", "why_tests_cant": "histories are unbounded", "anchors": ["src/u_/codes_cache_.rs: List_", "src/u_/world_.rs: codes_cache__"]}
{"id": "C22", "title": "The first error stops a statement list", "statement": "Statements run in order and the first one that fails ends the list with that error; nothing after it runs and everything before it has run.", "quantifier": "all programs and states", "why_tests_cant": "all programs", "anchors": ["src/u_/code_.rs: z2__, List_::hello2__"]}
{"id": "C23", "title": "A counted loop runs its body exactly n times", "statement": "A loop with count n whose body ends normally or with an unlabelled continue runs its body exactly max(n,0) times; with a counter name, iteration k sees the counter at start+k.", "quantifier": "all counts, starts, bodies and states", "why_tests_cant": "all counts and bodies", "anchors": ["src/for_.rs: Item1_::hello__, Cnt_::hello__"]}
{"id": "C24", "title": "Break and continue reach exactly their loop", "statement": "An unlabelled break or continue is consumed by the innermost enclosing construct of its kind (loop or circle); a labelled one passes through every construct whose counter name differs and is consumed by the nearest one with that name; every other error passes through loops unchanged.", "quantifier": "all nestings, labels and states", "why_tests_cant": "all nestings", "anchors": ["src/for_.rs: Item1_::hello__", "src/u_/jump_.rs: Item_::hello__"]}
{"id": "C25", "title": "The loop label stack is always restored", "statement": "After any evaluation that returns, normally or with an error or jump, the stack of active loop labels is what it was before.", "quantifier": "all programs, states and outcomes", "why_tests_cant": "all executions", "anchors": ["src/for_.rs: Item1_::hello__", "src/u_/code_/env_.rs: Jump_"]}
{"id": "C26", "title": "Return unwinds to the right scope", "statement": "A plain return ends exactly the evaluation of the scope it is in; a named return ends the scopes up to the nearest enclosing one of that name; return never escapes as an error when its target scope is being evaluated.", "quantifier": "all scope depths and names", "why_tests_cant": "all nestings", "anchors": ["src/u_/jump_.rs: return__, Item_::hello__", "src/u_/eval_.rs: hello4__"]}
{"id": "C27", "title": "A blocked pipe leaks nothing", "statement": "A blocked-pipe statement never changes the result list of the surrounding expression, whatever it evaluates and however it ends.", "quantifier": "all programs and states", "why_tests_cant": "all programs", "anchors": ["src/guandaodu_.rs", "src/u_/code_.rs: Env_"]}
{"id": "C28", "title": "The catching pipe never fails", "statement": "The catching-pipe statement never ends with an error or jump; it appends a separator, and after a failure also the error's code, detail, message and trace in that order.", "quantifier": "all bodies and states", "why_tests_cant": "all bodies", "anchors": ["src/guandaojie2_.rs"]}
{"id": "C29", "title": "Comparing against a list means any-of", "statement": "A comparison with lists of values walks both lists in step, each sticking at its last element, and is true iff the comparison holds for one of the visited pairs; with one value on the left it is true iff it holds for some value on the right.", "quantifier": "all value lists and operators", "why_tests_cant": "all lists", "anchors": ["src/if_.rs: Item_::cmp__"]}
{"id": "C30", "title": "Comparison is a sane order", "statement": "Comparison of values is reflexive and antisymmetric, orders non-numbers by bytes (which is code point order), and is transitive.", "quantifier": "all pairs and triples of strings", "why_tests_cant": "all strings", "anchors": ["src/if_.rs: Item_::cmp2__"]}
{"id": "C31", "title": "And/or evaluate left to right and stop early", "statement": "In a condition, operands after a true one joined by 'or' are not evaluated, and after a false one joined by 'and' everything up to the next 'or' is skipped without evaluation.", "quantifier": "all conditions", "why_tests_cant": "all conditions", "anchors": ["src/if_.rs: Item_::b2__"]}
{"id": "C32", "title": "Switch runs exactly the matching branches", "statement": "A switch runs, in order, exactly the branches having a label equal to the subject, the default iff no branch matches; the exclusive form fails instead of running anything when several match.", "quantifier": "all switches, subjects and states", "why_tests_cant": "all branch lists", "anchors": ["src/switch_.rs: add__, hello__"]}
{"id": "C33", "title": "Arithmetic follows precedence and associativity", "statement": "Evaluating the rendering of any arithmetic expression tree gives the tree's value: power binds tightest and to the right, then multiplication, division and remainder to the left, then addition and subtraction to the left; parentheses override.", "quantifier": "all expression trees and all number operations", "why_tests_cant": "all trees", "anchors": ["src/u_/expl_.rs: z2__, z3__, z4__, z5__"]}
{"id": "C34", "title": "Arithmetic never crashes", "statement": "Arithmetic on any expression text ends with a number or a reported error, never with a crash; division and remainder by zero are reported.", "quantifier": "all expression texts", "why_tests_cant": "all texts", "anchors": ["src/u_/expl_.rs: z3__", "src/expl_.rs: hello__"]}
{"id": "C35", "title": "The exit status is faithful", "statement": "A script that ends normally exits 0; an explicit quit exits with the given code; every other failure exits with a status in 0..=255 that is 254 for all errors and jumps the interpreter itself raises.", "quantifier": "all outcomes", "why_tests_cant": "all error values", "anchors": ["src/u_/world_.rs: ret__", "src/u_/result2_.rs: exitcode__", "src/u_/jump_.rs: Item_::hello__"]}
{"id": "C36", "title": "Script arguments arrive verbatim and in order", "statement": "Words after the script name that are not interpreter options reach the script as its arguments, in order, unchanged, one argument per word.", "quantifier": "all command lines", "why_tests_cant": "all word lists", "anchors": ["src/u_/world_.rs: clpars__", "src/u2_/clpars_.rs: List_::for3__"]}
{"id": "C37", "title": "The include path has no duplicate directories", "statement": "After any history of additions the include path holds at most one entry per directory, in order of first addition, and only entries with a directory part.", "quantifier": "all histories of additions", "why_tests_cant": "histories are unbounded", "anchors": ["src/u_/world_.rs: path2__"]}
{"id": "C38", "title": "Module names are unique", "statement": "After any history of module declarations, renamings and releases, no two registered modules share a name.", "quantifier": "all histories", "why_tests_cant": "histories are unbounded", "anchors": ["src/mod_.rs: can__", "src/name_.rs: Item1_::hello__", "src/mod_free_.rs"]}
{"id": "C39", "title": "Output is append-only", "statement": "Evaluation never retracts output: what was printed before any evaluation step is a prefix of what is printed after it, also when the step fails.", "quantifier": "all programs, states and outcomes", "why_tests_cant": "all executions", "anchors": ["src/print_.rs", "src/u_/code_.rs"]}
{"id": "C40", "title": "Evaluation is deterministic", "statement": "Given the same program, state and environment answers, evaluation has at most one outcome: giving the model interpreter more steps never changes an outcome already reached.", "quantifier": "all programs, states and step budgets", "why_tests_cant": "all executions", "anchors": ["src/u_/code_.rs", "src/u_/eval_.rs"]}
{"id": "C41", "title": "Every command word is dispatched once", "statement": "The option parser hands every word either to an option (with exactly its declared number of following words), or to the catch-all, or to the fallback; it reports missing words and unknown options and stops at the first error.", "quantifier": "all option tables and word lists", "why_tests_cant": "all tables and lists", "anchors": ["src/u2_/clpars_.rs: List_::for3__, add__, Item_::tag__"]}
{"id": "C42", "title": "Scopes form a tree of known depth", "statement": "In every reachable state each scope's depth is its parent's plus one (0 without parent), parents are never changed, and so every lookup up the chain ends.", "quantifier": "all programs and reachable states", "why_tests_cant": "all executions", "anchors": ["src/u_/qv_.rs: Qv_::new6, for3__"]}
{"id": "C43", "title": "Multiple assignment distributes values", "statement": "Assigning n names from m values gives the i-th name the i-th value; missing values repeat the last one; extra values are dropped; exactly n assignments happen, in order.", "quantifier": "all name and value lists", "why_tests_cant": "all lists", "anchors": ["src/set_.rs: Item_::hello2__"]}
{"id": "C44", "title": "No script can crash the interpreter", "statement": "Evaluating any program ends in a value, an error or a jump, never in a crash of the interpreter (double borrow, index underflow, division).", "quantifier": "all programs and states", "why_tests_cant": "all executions", "anchors": ["src/mod_free_.rs", "src/print_.rs", "src/eval_.rs", "src/var_/arg_.rs", "src/u_/code_.rs: z4__"]}
{"id": "C45", "title": "Keyword recognition is longest-match", "statement": "The keyword recognised at a position of the source is the longest keyword of the table that matches there; no keyword is hidden by an earlier one.", "quantifier": "all source texts and positions", "why_tests_cant": "all sources", "anchors": ["src/u_/keyword_.rs: List_::new", "src/u_/pars_.rs: is_kw__"]}
{"id": "C46", "title": "Left-hand arguments take exactly n groups", "statement": "Moving n left-hand groups out of a result list moves exactly the last n groups, in order, in front of the call's own arguments, and leaves the earlier groups as they were; with fewer than n groups it reports an error and moves nothing.", "quantifier": "all result lists and n", "why_tests_cant": "all lists", "anchors": ["src/u_/def_/backarg_.rs: backarg__"]}
{"id": "C47", "title": "Attribute lookup is nearest-first", "statement": "Reading an attribute by name or number finds it in the nearest enclosing attribute set that has it.", "quantifier": "all chains of attribute sets", "why_tests_cant": "all chains", "anchors": ["src/u_/code_/attr_.rs: get__"]}
{"id": "C48", "title": "Enabling redirection intercepts print", "statement": "If a scope on the chain defines the print word, printing runs the nearest such definition with the text as its argument and writes nothing itself, unless raw printing is requested.", "quantifier": "all scope chains and texts", "why_tests_cant": "all programs", "anchors": ["src/print_.rs: hello__"]}
{"id": "C49", "title": "External command status is reported as two fields", "statement": "Running an external command appends code and separator, or separator and message on a signal, or 255, separator and message if it cannot be started.", "quantifier": "all outcomes of the operating system", "why_tests_cant": "all outcomes", "anchors": ["src/exec_.rs: hello2__, exitcode__"]}
{"id": "C50", "title": "Continuation marks only trim the text ends", "statement": "A text starting with the continuation mark plus newline, or ending with newline plus mark, loses exactly those marks; the construction never crashes.", "quantifier": "all texts", "why_tests_cant": "all texts", "anchors": ["src/text_.rs: Item_::new"]}
{"id": "C51", "title": "An unclosed quote reaches to the end", "statement": "If a quote in a command line is never closed, the words before it are split as usual and everything after it, blanks and separators included, belongs to the last word; in strict field splitting quotes protect separators and blanks.", "quantifier": "all well-formed line beginnings, all rests and all lists of quoted fields", "why_tests_cant": "unbounded texts", "anchors": ["src/u2_/str_.rs: split2__"]}
{"id": "C52", "title": "Truth of a text", "statement": "A text standing alone in a condition counts as false exactly when it is empty, 0, false or NULL, and as true otherwise; negation reverses this.", "quantifier": "all texts", "why_tests_cant": "infinitely many texts", "anchors": ["src/u_/t_.rs: true__", "src/if_.rs: cmp3__"]}
{"id": "C53", "title": "Only assignments change variables", "statement": "An evaluation in which no assignment, alias or counted loop happens leaves every variable of every existing scope as it was, however it ends.", "quantifier": "all programs, states and behaviours of the operating system", "why_tests_cant": "a statement about everything any program does not do", "anchors": ["src/set_.rs", "src/alias_.rs", "src/for_.rs", "src/u_/qv_.rs"]}
{"id": "C54", "title": "Only definitions change definitions", "statement": "An evaluation in which no definition statement happens leaves the definitions of every existing scope as they were.", "quantifier": "all programs, states and behaviours of the operating system", "why_tests_cant": "a statement about everything any program does not do", "anchors": ["src/def_.rs", "src/u_/def_.rs"]}
{"id": "C55", "title": "Only printing, commands and loading act outside", "statement": "An evaluation in which no print statement, external command or load happens prints nothing, opens and reads no file, and starts and talks to no process.", "quantifier": "all programs, states and behaviours of the operating system", "why_tests_cant": "a statement about everything any program does not do", "anchors": ["src/print_.rs", "src/exec_.rs", "src/load_.rs", "src/eval_.rs"]}
{"id": "C56", "title": "Numbers are read and printed faithfully", "statement": "A text is read as a number exactly when it is an optional sign followed by at least one digit and the value fits the type; the text of a number is read back as the same number.", "quantifier": "all texts and all integers", "why_tests_cant": "infinitely many texts, boundary values of three types", "anchors": ["src/u_/t_.rs: s2n__"]}
{"id": "C57", "title": "Argument names stand for the arguments at their places", "statement": "The words after the name of a definition name its arguments in order; words marked as separators are not counted; inside the definition an unmarked name stands for the argument given at its place, and the full pattern of a definition with separators spells the separators and has a dot for each argument.", "quantifier": "all lists of names, all argument lists and states", "why_tests_cant": "unbounded lists of names and arguments", "anchors": ["src/u_/def_/argname_.rs: ArgNames_::new", "src/u_/def_.rs: mk_arg0__", "src/u_/qv_.rs: get__"]}
{"id": "C58", "title": "Reading a name and asking whether it exists", "statement": "Reading a name gives what the nearest scope on the way to the top, then the modules, has under it, and is an error if none has it; asking for existence looks at the scope itself only, gives 1 or nothing, and is never an error.", "quantifier": "all names, scope trees, modules and states", "why_tests_cant": "unbounded scope trees, any name", "anchors": ["src/var_.rs: get2__", "src/has_.rs", "src/u_/qv_.rs: get__", "src/u_/var_.rs: get2__"]}
{"id": "C59", "title": "Code kept as text is the same program", "statement": "What stands between the code quotes is kept as a text that, when it is run later, parses to the same program as the code written there directly; only blanks between words are lost.", "quantifier": "all code made of plain words, quoted and verbatim texts, names, annotations and nested code quotes", "why_tests_cant": "unbounded nesting and texts", "anchors": ["src/u_/is_text_.rs: add__, add4__", "src/u_/pars_.rs: hello2__", "src/u_/keywords_.rs"]}
{"id": "C60", "title": "A script has the structure it is written with", "statement": "A script made of sentences, statements, blocks, conditions and loops is parsed into exactly the program it spells: the pieces of a sentence in order, each statement with the rest of its sentence, each block, branch and body with its own sentences, whatever the nesting.", "quantifier": "all scripts of the grammar, any nesting, any words, texts, names and annotations", "why_tests_cant": "infinitely many scripts of unbounded nesting", "anchors": ["src/u_/pars_.rs: hello__, hello2__, add_kw__, add_text__", "src/u_/code_.rs", "src/u_/keywords_.rs"]}
{"id": "C61", "title": "Calling a definition", "statement": "A word is read from left to right: the text before the first name of a usable definition is written as it is; a definition without arguments runs and the reading goes on after its name; a definition with arguments gets the rest of the word and of the sentence, evaluated in the scope of the caller, as its arguments, runs in a fresh scope inside the caller's, and the evaluation goes on with the next sentence; a word without names of definitions is a text.", "quantifier": "all words, statement lists, definitions, scope trees, states and behaviours of the operating system", "why_tests_cant": "unbounded words, sentences, numbers of definitions and nesting of calls", "anchors": ["src/u_/code_.rs: z2__, z4__", "src/u_/qv_.rs: get_def__", "src/u_/def_.rs"]}
{"id": "C62", "title": "Arguments between separators", "statement": "A definition whose arguments have separators between them is called exactly when all its separators occur, one after the other, in the rest of its word and the words that follow in the sentence; its arguments are what stands between them, each separator at its first occurrence after the one before.", "quantifier": "all lists of separators, all words and sentences", "why_tests_cant": "unbounded numbers of separators, words and items", "anchors": ["src/u_/code_.rs: z4__ (259-406)", "src/u_/def_/argname_.rs"]}
{"id": "C63", "title": "Making a definition", "statement": "The statement 定义 evaluates the name, reads its annotations, evaluates the argument names and then the text; it is refused exactly when the name is empty, an annotation or an argument name is wrong, or a definition that can be used there has a shorter name with which the name begins; otherwise the definition is put into the scope meant, nothing else changes, and it is the one called by its name from then on.", "quantifier": "all names, texts, annotations, scope trees, states and behaviours of the operating system", "why_tests_cant": "unbounded numbers of definitions and scopes, any text", "anchors": ["src/def_.rs: hello__", "src/u_/def_.rs: val2__, find__", "src/u_/qv_.rs: for3__"]}
{"id": "C64", "title": "Error reports quote the script", "statement": "A script with a syntax error is refused with a message that names the mistake and quotes the script up to the place where it was noticed. A statement list that fails while it runs adds one line to the report: its own text up to the item that failed; the items before it were evaluated in order and the error itself is the one the item left. For a script written plainly this line is a beginning of the script as the user wrote it.", "quantifier": "all scripts, all statement lists, states and behaviours of the operating system", "why_tests_cant": "any script may fail anywhere; unbounded scripts and nesting", "anchors": ["src/u_/pars_.rs: ret3__, hello__", "src/u_/code_.rs: hello2__, s__", "src/u_/result2_.rs"]}
{"id": "C65", "title": "Evaluating a text", "statement": "The statement 解释 evaluates its text and then its arguments in the scope it stands in, and runs the text as a script in a new scope inside that one, with exactly those arguments and with the annotation as its argument 0; nothing that was there before is changed by making the scope. With 【在当前区】 the text runs in the scope of the statement itself and the arguments are added to those of that scope. What the text ends with is what the statement ends with.", "quantifier": "all texts, arguments, scope trees, states and behaviours of the operating system", "why_tests_cant": "any text may be evaluated in any state, unbounded nesting", "anchors": ["src/eval_.rs: hello__", "src/u_/code_/item1_.rs: split2_2__", "src/u_/eval_.rs: hello__"]}
{"id": "C66", "title": "Loading a file", "statement": "The statement 加载 looks for the file next to each file of the include path in order, then next to the files of the scopes around it, nearest first, then under the name as it is written; a name that begins with / only as it is written. The first file that can be opened is read, its #! line is taken off and its options are taken, and the rest runs like the text of 解释. When a module comes from that very file nothing is read and nothing runs.", "quantifier": "all names, include paths, scope trees, states and behaviours of the operating system", "why_tests_cant": "unbounded include paths, scope chains and file systems", "anchors": ["src/load_.rs: src__", "src/u_/eval_.rs: ok_src2__, src__, src2__", "src/eval_.rs: hello__"]}
{"id": "C67", "title": "Names and modules", "statement": "命名 gives the scope it stands in a name and a text to be run at its release; 模块 also registers the scope as a module, or as a data module when 数据 is asked for, and is refused exactly when the name is empty, an option is unknown or a registered module has the name; from then on the name means this scope. 释放模块 takes its names in order, skips unknown ones, runs the text of the first module with the name in that module's scope and then takes exactly this module off the list, so that no module has the name any more and all others stay.", "quantifier": "all names, options, module lists, texts, states and behaviours of the operating system", "why_tests_cant": "unbounded numbers of modules and names; the text run at a release may be any script", "anchors": ["src/mod_.rs: can__", "src/name_.rs: hello__", "src/mod_free_.rs: hello__"]}
{"id": "C68", "title": "Plain scripts run like a simple imperative language", "statement": "A script made of procedures with or without arguments, assignments, prints, arithmetic, conditions with 并且 and 或者, endless and counted loops, 跳出, 再来, 返回 and calls, written plainly, does exactly what the rules of a small imperative language say: from the command line or from a file, it ends if and only if the rules let it end, with the outcome they give, and what it prints is what they print, in order. A procedure has variables and arguments of its own and sees the variables of its callers; the arguments of the script are the words on the command line.", "quantifier": "all programs of the small language of any size and nesting, all words on the command line, all behaviours of the operating system, all floating point implementations", "why_tests_cant": "the whole way from the source text through the parser, the code kept as text, the definitions, the cache and the evaluator to the output, for unboundedly many programs, recursion and loops included", "anchors": ["src/u_/pars_.rs", "src/u_/code_.rs", "src/def_.rs", "src/for_.rs", "src/if_.rs", "src/set_.rs", "src/print_.rs", "src/expl_.rs", "src/u_/eval_.rs", "src/main.rs"]}
{"id": "C69", "title": "An alias reads as its target, however many aliases lie between", "statement": "Reading a name that is an alias is reading the target of the alias in the scope that has the alias, and so on over any number of aliases: when a variable is at the end its value is what is read, as it is at that moment. When the aliases have no end, as in a circle, the reading does not end, and neither does the script.", "quantifier": "all chains of aliases of any length through any scopes, all states of all runs", "why_tests_cant": "unbounded chains, and tests cannot show that a run does not end", "anchors": ["src/u_/qv_.rs: get__", "src/var_.rs: get2__", "src/var_/simp_.rs: hello__", "src/alias_.rs", "src/u_/var_.rs: get2__"]}
{"id": "C70", "title": "Plain scripts never crash", "statement": "A script of the small language of C68 that has no sign %, run with words without it, never makes the interpreter crash, whatever the operating system answers: the script ends as the rules say, with success or with a reported error, or it runs forever, and it runs forever exactly when the rules give it no end.", "quantifier": "all programs of the small language without %, all behaviours of the operating system, all floating point implementations that print numbers without %, both build profiles", "why_tests_cant": "that something never happens, over unboundedly many programs and unbounded runs, ending or not", "anchors": ["src/u_/pars_.rs", "src/u_/code_.rs", "src/expl_.rs", "src/set_.rs", "src/if_.rs", "src/for_.rs", "src/main.rs"]}
{"id": "C71", "title": "The arguments as a script sees them", "statement": "In a run in which no definition takes arguments from its left, ‘参数i’ in a running script appends exactly the items that stand between the separators i-1 and i of the arguments of its scope, nothing when there are fewer arguments, and changes nothing else; ‘参数-k’ counts from the end; ‘参数数目’ is the number of arguments; ‘参数栈【b】【e】’ is the stretch from b to e with its separators. A name computed while the script runs reads the same, and 存在 of it says whether there are so many arguments. While the list of these arguments is itself being filled, every such reading stops with a crash.", "quantifier": "all argument lists, indices, scopes, states and moments of all such runs", "why_tests_cant": "unbounded lists of arguments, any computed name, any state", "anchors": ["src/var_/arg_.rs: hello__", "src/var_/argc_.rs", "src/var_/args_.rs: hello__", "src/var_.rs: get2__", "src/u_/result_.rs"]}
{"id": "C72", "title": "Copying and blocking pipes", "statement": "管道接 runs its body and asks for what its annotations say, the printed texts when it has none; a text printed in it is written and also appended once to the results; the outcome is that of the body. 管道堵 runs its body with a result list of its own: nothing that happens in the body gets into the results of the statement around it, however the body ends.", "quantifier": "all bodies, annotations, states and behaviours of the operating system; for the blocking pipe all moments of all runs", "why_tests_cant": "that nothing gets through, whatever the body is and does; unbounded bodies", "anchors": ["src/guandaojie_.rs: hello__", "src/guandaodu_.rs: hello__", "src/print_.rs: hello__", "src/rem2_.rs: hello__", "src/u_/code_/item1_.rs: rems__"]}
{"id": "C73", "title": "Annotations of a name choose the scope it is read in", "statement": "In ‘甲【a】【b】’ each annotation is read in the scope the one before led to: 顶 is the top scope, 上 the scope around, 所 the calling scope, any other word the nearest scope with that name, on the way to the top, then among the modules, then among the data scopes. The name is then read in that scope exactly as without annotations, after its name as a comment with 与名. Any other annotation, 上 above the top and 所 without a caller are errors that name the annotation and change nothing. The same holds for a name computed while the script runs, for the numbered 参数栈, and for the scope and the words of an assigned name; an ordinary name means the same written and computed. ‘参数0’ tells what the scope was started as. The question 存在 never fails by its annotations.", "quantifier": "all rows of annotations, names, scope trees and states with parents older than children (every reached one)", "why_tests_cant": "unbounded rows of annotations and trees of scopes, any state", "anchors": ["src/u_/qv_/rem4_.rs", "src/var_.rs: get2__, hello__", "src/var_/simp_.rs", "src/var_/arg_.rs: Arg0_", "src/var_/args_.rs: with2__", "src/set_.rs"]}
{"id": "C74", "title": "The line of the arguments is never stale", "statement": "‘参数’, the arguments joined into one line, is computed once and remembered by the scope. At every moment of every run what a scope remembers is the line of the arguments it has at that moment: each argument written bare or in quotes, separated by one blank. So every reading of ‘参数’, written or computed, gives the line of the present arguments, also after arguments were added in the same scope or the scope was left and entered again. ‘参数【b】【e】’ is the part of the line from b to e, nothing when e lies before b.", "quantifier": "all scopes, all moments of all runs, all argument lists, all behaviours of the operating system", "why_tests_cant": "cache coherence over unboundedly long runs in which arguments are added, definitions are called and modules are loaded in any order", "anchors": ["src/var_/args_.rs: hello__", "src/u_/qv_.rs: args_1_", "src/u_/eval_.rs", "src/u_/result_.rs: to_s__"]}
{"id": "C75", "title": "Words and quoted texts side by side stay apart", "statement": "In a sentence in which words and quoted texts stand side by side, as in 甲“和”乙“。”, each word is that word and each quoted text is that text: nothing of one becomes part of another, and no word is taken for a text.", "quantifier": "all sequences of words and quoted texts, of any length", "why_tests_cant": "unboundedly many sentences; the fault shows only for single bytes between two others", "anchors": ["src/u_/is_text_.rs: need_clear__, clear__", "src/u_/pars_.rs: 339-346", "src/u_/pars_/add_.rs: add_text__"]}
{"id": "C76", "title": "A long text is kept as it is written", "statement": "Between 下文本 and 上文本 everything is kept exactly as it is written: keywords, blanks, line ends, comments and the marks of other quotes mean nothing there; only names in ‘…’ are replaced by their values.", "quantifier": "all long texts, with names and inner quotes to any depth", "why_tests_cant": "unboundedly many texts; the losses need particular combinations of marks and names", "anchors": ["src/u_/is_text_.rs: add__, add4__", "src/u_/pars_.rs: 111-194", "src/u_/keywords_.rs: 34-116"]}
{"id": "C77", "title": "Only complete statements are evaluated", "statement": "Whatever a script contains and however a run gets there (the script itself, modules it loads, texts it evaluates, definitions, handlers), every item that is evaluated is complete, and so is everything inside it: a word has a character; printing, arithmetic, execution, evaluation and a switch have something to work on and a definition has a name; the annotations of a loop are annotations and none are left in its body; the table of a switch describes its body; the noted place of a separator is the place of the first 、; an argument number is not zero. A statement that lacks a part is refused by the parser and nothing of its text runs.", "quantifier": "all source texts, all runs, all behaviours of the operating system", "why_tests_cant": "the parser builds each item from pieces collected by different functions, and the evaluator indexes into them without checking; all sources and all ways of reaching an item", "anchors": ["src/u_/pars_/add_.rs", "src/u_/pars_.rs", "src/u_/code_.rs", "src/for_.rs", "src/switch_.rs", "src/eval_.rs", "src/def_.rs", "src/u_/qv_/rem4_.rs"]}
{"id": "C78", "title": "Scripts that run no text do not crash", "statement": "A script in which none of 定义, 解释, 加载, 执行, 释放模块 occurs, and on which the parser itself does not crash, crashes the release build of the interpreter only in an 算术 of words with % or too many decimals, or in a 存在 of a name with 上 followed by another annotation. If neither 算术 nor 存在 occurs either, it never crashes, whatever its loops, conditions, pipes, names, assignments and arguments, and whatever the words of the command line.", "quantifier": "all hosts, all scripts of this kind (as code or in a file whose #! line, if there is one, is read without a crash), all command lines, all running times", "why_tests_cant": "Scripts and command lines are unbounded, and RefCell borrows fail only for particular nestings that tests have to guess.", "anchors": ["src/u_/world_.rs", "src/u_/eval_.rs", "src/u_/code_.rs", "src/u_/qv_.rs", "src/u_/qv_/rem4_.rs", "src/has_.rs", "src/expl_.rs", "src/for_.rs", "src/main.rs"]}
{"id": "C79", "title": "Every statement of a program stands in its text", "statement": "Every item of a parsed program that is not a word or a quoted text, at any depth, comes from a keyword that stands in the source text, blanks aside. So what a script cannot do can be read from its text: if none of 定义, 解释, 加载, 执行, 释放模块, 算术, 存在 stands in it, and the characters 续, line break, 续 do not occur in this order, it never crashes the release build.", "quantifier": "all source texts (for crashes: as code or in a file whose #! line, if there is one, is read without a crash), all hosts, all command lines, all running times", "why_tests_cant": "The parser assembles items from pieces collected at different levels, with keywords kept for later and given back; that none is invented concerns all texts.", "anchors": ["src/u_/pars_.rs", "src/u_/pars_/add_.rs", "src/u_/keyword_.rs", "src/u_/code_.rs"]}
{"id": "C80", "title": "When the parser crashes", "statement": "Parsing a text crashes only if the text contains the characters 续, line break, 续 in this order (the crash is in the trimming of texts with continuation marks); every other text is parsed or refused with a message.", "quantifier": "all source texts", "why_tests_cant": "The crash sits behind the merging of neighbouring texts, whose combinations are unbounded.", "anchors": ["src/u_/pars_.rs", "src/u_/pars_/add_.rs", "src/text_.rs"]}
{"id": "C81", "title": "What a script cannot do can be read from its text", "statement": "A script in whose text (blanks aside) none of 定义, 解释, 加载, 执行, 释放模块 stands acts on the world outside only by printing: it starts and talks to no process, and opens and reads no file but the one it is in (under the names it is looked for). If 显示 does not stand in it either it causes nothing outside but the notes about unknown options of the interpreter.", "quantifier": "all hosts, all such scripts (as code or in a file; a #! line of the file is no part of the script), all command lines, all running times", "why_tests_cant": "All scripts without certain words and all runs of them; a test sees the effects of single runs.", "anchors": ["src/u_/world_.rs", "src/u_/eval_.rs", "src/print_.rs", "src/exec_.rs", "src/load_.rs", "src/main.rs"]}
{"id": "C82", "title": "Which scripts come to an end can be read from their text", "statement": "A script that uses none of 定义, 解释, 加载, 执行, 释放模块, 别名 and each of whose loops (循环, 圈子) has a limit or a counter comes to an end, on every host and with every input. If also 算术, 存在 and a continuation mark do not stand in it and it has no loops, it ends with a result or with an error message. A loop with neither limit nor counter, and a circle of aliases, may go on for ever.", "quantifier": "all hosts, all such scripts (as code or in a file; a #! line of the file is no part of the script), all command lines", "why_tests_cant": "That something ends needs a bound for all inputs and all scripts; a test sees that single runs end, and a run that does not cannot be told from a slow one.", "anchors": ["src/for_.rs", "src/u_/world_.rs", "src/u_/eval_.rs", "src/if_.rs", "src/switch_.rs", "src/u_/code_.rs"]}
{"id": "C83", "title": "A run depends on the outside only through the answers it gets", "statement": "If on two machines every question that a run asks (can this file be opened, what is in it, what does this command answer, what does this process write) gets the same answer, the runs are the same: the same output, the same questions in the same order, the same end. So a script in whose text none of 定义, 解释, 加载, 执行, 释放模块 stands runs in the same way whatever files and programs there are, and when it is in a file, only what is answered about that file matters.", "quantifier": "all pairs of hosts that compute in the same way, all scripts, all command lines, all running times", "why_tests_cant": "A test runs on one machine; that nothing else of the machine is used cannot be seen from any number of runs.", "anchors": ["src/u_/world_.rs", "src/u_/eval_.rs", "src/exec_.rs", "src/load_.rs", "src/main.rs"]}
{"id": "C84", "title": "Scripts whose texts are written out do only what stands in them", "statement": "A script may make definitions (定义) and evaluate texts (解释) without losing what C81 and C83 give, as long as each text defined or evaluated is a constant that stands in the script. If none of 加载, 执行, 释放模块 occurs in the script or in one of these texts, at any depth, it starts no process, opens no file besides itself and does nothing outside but print; if 显示 does not occur either, it does nothing outside at all; and it runs in the same way whatever files and programs there are. This holds with arguments, with definitions within definitions, with redefinition at run time, and with definitions that handle 显示. A text that is put together at run time is not covered: it may start a process although 执行 occurs nowhere.", "quantifier": "all hosts, all such scripts (as code or in a file), all command lines, all running times", "why_tests_cant": "The texts of definitions are parsed when they are called, and which one is called is found by comparing words at run time; that no sequence of calls reaches a text that was not in the script is a statement about all runs.", "anchors": ["src/def_.rs", "src/u_/def_.rs", "src/u_/code_.rs", "src/print_.rs", "src/eval_.rs", "src/u_/eval_.rs", "src/u_/world_.rs"]}
{"id": "C85", "title": "The tree shown for a program is the program", "statement": "With the option -zhscript-d-tree every parsed program is printed as a tree. The lines of the tree, read from top to bottom without the drawing, are the program written out; every line is indented by its nesting, and the bars in front of it say for each level around it whether another line follows on that level. This holds for programs of at most 64 levels; a deeper program, which runs without the option, crashes with it.", "quantifier": "all parsed programs", "why_tests_cant": "The bars come from one array that all levels write to; that no program leaves a stale mark in it is a statement about all trees.", "anchors": ["src/u_/dbg_.rs", "src/u_/world_.rs", "src/u_/code_.rs"]}
{"id": "C86", "title": "What goes on for ever", "statement": "A run goes on for ever exactly when there is an endless chain of evaluations, the first made by the interpreter itself and each of the others made directly by the one before (the next turn of a loop counts as made by the turn before); otherwise it ends, with a result, with a message, or with a crash. No evaluation is endless by itself, and statements, conditions, branches, assignments and counting loops alone are never endless: in such a chain a text is run, definitions are looked for in a word, a name is followed, the output of a process is read, or a loop that does not count makes a turn, again and again. The release of a module whose release text starts with the release of the same module (or of one of several modules that release each other in this way) is such a run.", "quantifier": "all command lines, scripts, states and behaviours of the operating system", "why_tests_cant": "whether a run ends cannot be observed; a test can only wait", "anchors": ["src/u_/code_.rs", "src/for_.rs", "src/if_.rs", "src/u_/eval_.rs", "src/exec_.rs", "src/mod_free_.rs"]}
