# Generates /verif/properties.jsonl.  Edit here, then run: python3 tools/props.py
import json, os
P=[]
def p(id,title,statement,quant,why,*anchors):
    P.append(dict(id=id,title=title,statement=statement,quantifier=quant,why_tests_cant=why,anchors=list(anchors)))

p("C01","Quoted command words survive splitting",
  "Splitting a command line built by quoting each word (with a quote character the word does not contain) and joining the words with blanks gives back exactly those words, in order, including empty words and words containing blanks.",
  "all lists of words (any length, any characters except that each word lacks at least one of the two quote characters)",
  "there are infinitely many word lists; quoting bugs hide in rare character combinations",
  "src/u2_/str_.rs: split__, split2__")
p("C02","Unquoted splitting is word splitting",
  "On a line without quote characters, splitting returns exactly the maximal runs of non-blank characters, left to right, and never an empty word.",
  "all strings without quote characters","needs every string length and blank placement",
  "src/u2_/str_.rs: split__, split2__")
p("C03","Strict field splitting is the inverse of joining",
  "In strict mode with the closing field kept, splitting fields joined by the separator returns exactly those fields, so the number of fields is the number of separators plus one.",
  "all non-empty field lists whose fields contain no separator, quote or blank","unbounded field count and content",
  "src/u2_/str_.rs: split2__","src/u2_/clpars_.rs: Item_::new__")
p("C04","Separator positions always match the items",
  "After any sequence of operations on a result list, the recorded separator positions are exactly the positions at which a separator item stands, in increasing order.",
  "all histories of append, prepend, remove, clear and pop-trailing-separator, and of moving trailing groups out as left-hand arguments",
  "the invariant is about histories; a test exercises one history",
  "src/u_/result_.rs: List_::add4__, ins__, rm__, clear, pop_end__","src/u_/def_/backarg_.rs: backarg__")
p("C05","Positional argument access returns the i-th argument",
  "In a well-formed argument list, reading argument i (1-based) appends exactly the items between separator i-1 and separator i to the result, and reading an index beyond the count appends nothing.",
  "all well-formed argument lists and all indices","unbounded lists and indices",
  "src/var_/arg_.rs: Argi_::hello__","src/u_/result_.rs: List_::posi__, ret__, s3__")
p("C06","Negative argument indices count from the end",
  "Argument -k of an n-argument list is argument n-k+1 for 1<=k<=n. For k>n there is no such argument and the read must not yield the whole list or crash.",
  "all argument lists and all negative indices","boundary behaviour over all counts",
  "src/u_/t_.rs: i2u__","src/var_/arg_.rs: Argi_::hello__")
p("C07","Turning a result into strings splits exactly at separators",
  "Converting a result list to strings yields one string per separator-delimited group, each the concatenation of the texts of its items; an empty list yields no strings.",
  "all result lists","unbounded lists with arbitrary item kinds",
  "src/u_/result_.rs: List_::to_vec0__, to_vec__, Item_::s3__")
p("C08","The argument line can be split back into the arguments",
  "The single-line rendering of the arguments quotes them so that splitting that line with the command splitter gives back the argument list.",
  "all argument lists","quoting round trip over all strings",
  "src/u_/result_.rs: List_::s2__, s2s__, to1__","src/u2_/str_.rs: split__")
p("C09","Argument ranges select exactly the requested groups",
  "Reading the argument stack from b to e (1<=b<=e) appends exactly the groups b..min(e,count) with the separators between them and nothing else.",
  "all well-formed argument lists and all ranges","unbounded lists and bounds",
  "src/var_/args_.rs: Args_::hello__")
p("C10","Prefix matching is exact",
  "Matching a name in a text at an offset succeeds iff the text from that offset starts with the name; the reported length is the name's length and the end flag says whether the match reaches the end of the text.",
  "all texts, names and offsets within the text","all strings",
  "src/u_/t_.rs: with__")
p("C11","The definition chosen is leftmost, then innermost, then oldest",
  "When plain text is scanned for a defined word, the chosen occurrence is at the leftmost position where any visible definition matches; at that position the innermost scope wins, and inside a scope the earliest definition; excluded definitions are never chosen; none is chosen only if no visible definition matches anywhere.",
  "all texts, scope chains, modules and exclusion lists","all configurations",
  "src/u_/qv_.rs: find_def__, for3__","src/u_/def_.rs: List_::find__")
p("C12","Variables behave like a map",
  "Within one scope, reading a name returns the value of the latest assignment to that name; assigning one name never changes another; a name is stored at most once.",
  "all histories of assignments","histories are unbounded",
  "src/u_/var_.rs: List_::val2__, get2__")
p("C13","Variable lookup follows the scope chain",
  "Reading a variable returns it from the nearest scope on the path to the top scope that has it (then from loaded modules in load order); a private variable of an enclosing scope is never returned to an inner scope.",
  "all scope chains, names and private flags","all scope shapes",
  "src/u_/qv_.rs: for3__, get__","src/u_/var_.rs: List_::get2__")
p("C14","Definitions behave like a map keyed by the full pattern",
  "Redefining a word with the same separator pattern replaces it in place and keeps its priority; a different pattern adds a new definition; no full pattern is stored twice in a scope.",
  "all histories of definitions","histories are unbounded",
  "src/u_/def_.rs: List_::val2__, Item_::mk_arg0__")
p("C15","Parsing terminates on every source",
  "Parsing any byte string with the built-in keyword table finishes.",
  "all source texts","termination for all inputs cannot be tested",
  "src/u_/pars_.rs: Pars_::hello2__","src/u_/pars_/layer_.rs: Layer_::i1__")
p("C16","Parsing never breaks characters",
  "For every valid UTF-8 source, parsing never reports an invalid-UTF-8 error: every text collected between keywords is itself valid UTF-8.",
  "all valid UTF-8 sources","all byte strings",
  "src/u_/pars_.rs: is_kw__, hello2__","src/u_/pars_/add_.rs: add_text__")
p("C17","Blanks outside quotes do not matter",
  "In code outside any quoting construct, inserting or removing blanks and control characters anywhere, even inside a keyword, does not change the parsed program.",
  "all sources without quoting keywords and all ways to insert blanks","all insertion positions in all programs",
  "src/u_/pars_.rs: is_kw__","src/u_/is_text_.rs: add__")
p("C18","Comments are invisible",
  "A comment in code position leaves the parsed program unchanged, whatever the comment contains, as long as its brackets are balanced.",
  "all comment bodies with balanced brackets, all surrounding states","all comment contents",
  "src/u_/is_text_.rs: add4__, add__","src/u_/pars_.rs: hello2__")
p("C19","Verbatim text is preserved exactly",
  "The verbatim construct yields its content byte for byte, including blanks, newlines and every keyword except its own delimiters.",
  "all contents without the verbatim delimiters","all contents",
  "src/u_/is_text_.rs: add__","src/u_/pars_.rs: hello2__","src/text_.rs: Item_::new")
p("C20","Quoted text is preserved except control characters",
  "A quoted text without nested quotes or variable brackets yields its content with only control characters below blank removed.",
  "all contents","all contents",
  "src/u_/is_text_.rs: add__","src/u_/pars_.rs: hello2__")
p("C21","The parse cache is transparent",
  "If distinct sources have distinct hashes, evaluating a source through the cache gives the same program as parsing it afresh, after any history of cache use.",
  "all histories of cached parses","histories are unbounded",
  "src/u_/codes_cache_.rs: List_","src/u_/world_.rs: codes_cache__")
p("C22","The first error stops a statement list",
  "Statements run in order and the first one that fails ends the list with that error; nothing after it runs and everything before it has run.",
  "all programs and states","all programs",
  "src/u_/code_.rs: z2__, List_::hello2__")
p("C23","A counted loop runs its body exactly n times",
  "A loop with count n whose body ends normally or with an unlabelled continue runs its body exactly max(n,0) times; with a counter name, iteration k sees the counter at start+k.",
  "all counts, starts, bodies and states","all counts and bodies",
  "src/for_.rs: Item1_::hello__, Cnt_::hello__")
p("C24","Break and continue reach exactly their loop",
  "An unlabelled break or continue is consumed by the innermost enclosing construct of its kind (loop or circle); a labelled one passes through every construct whose counter name differs and is consumed by the nearest one with that name; every other error passes through loops unchanged.",
  "all nestings, labels and states","all nestings",
  "src/for_.rs: Item1_::hello__","src/u_/jump_.rs: Item_::hello__")
p("C25","The loop label stack is always restored",
  "After any evaluation that returns, normally or with an error or jump, the stack of active loop labels is what it was before.",
  "all programs, states and outcomes","all executions",
  "src/for_.rs: Item1_::hello__","src/u_/code_/env_.rs: Jump_")
p("C26","Return unwinds to the right scope",
  "A plain return ends exactly the evaluation of the scope it is in; a named return ends the scopes up to the nearest enclosing one of that name; return never escapes as an error when its target scope is being evaluated.",
  "all scope depths and names","all nestings",
  "src/u_/jump_.rs: return__, Item_::hello__","src/u_/eval_.rs: hello4__")
p("C27","A blocked pipe leaks nothing",
  "A blocked-pipe statement never changes the result list of the surrounding expression, whatever it evaluates and however it ends.",
  "all programs and states","all programs",
  "src/guandaodu_.rs","src/u_/code_.rs: Env_")
p("C28","The catching pipe never fails",
  "The catching-pipe statement never ends with an error or jump; it appends a separator, and after a failure also the error's code, detail, message and trace in that order.",
  "all bodies and states","all bodies",
  "src/guandaojie2_.rs")
p("C29","Comparing against a list means any-of",
  "A comparison with lists of values walks both lists in step, each sticking at its last element, and is true iff the comparison holds for one of the visited pairs; with one value on the left it is true iff it holds for some value on the right.",
  "all value lists and operators","all lists",
  "src/if_.rs: Item_::cmp__")
p("C30","Comparison is a sane order",
  "Comparison of values is reflexive and antisymmetric, orders non-numbers by bytes (which is code point order), and is transitive.",
  "all pairs and triples of strings","all strings",
  "src/if_.rs: Item_::cmp2__")
p("C31","And/or evaluate left to right and stop early",
  "In a condition, operands after a true one joined by 'or' are not evaluated, and after a false one joined by 'and' everything up to the next 'or' is skipped without evaluation.",
  "all conditions","all conditions",
  "src/if_.rs: Item_::b2__")
p("C32","Switch runs exactly the matching branches",
  "A switch runs, in order, exactly the branches having a label equal to the subject, the default iff no branch matches; the exclusive form fails instead of running anything when several match.",
  "all switches, subjects and states","all branch lists",
  "src/switch_.rs: add__, hello__")
p("C33","Arithmetic follows precedence and associativity",
  "Evaluating the rendering of any arithmetic expression tree gives the tree's value: power binds tightest and to the right, then multiplication, division and remainder to the left, then addition and subtraction to the left; parentheses override.",
  "all expression trees and all number operations","all trees",
  "src/u_/expl_.rs: z2__, z3__, z4__, z5__")
p("C34","Arithmetic never crashes",
  "Arithmetic on any expression text ends with a number or a reported error, never with a crash; division and remainder by zero are reported.",
  "all expression texts","all texts",
  "src/u_/expl_.rs: z3__","src/expl_.rs: hello__")
p("C35","The exit status is faithful",
  "A script that ends normally exits 0; an explicit quit exits with the given code; every other failure exits with a status in 0..=255 that is 254 for all errors and jumps the interpreter itself raises.",
  "all outcomes","all error values",
  "src/u_/world_.rs: ret__","src/u_/result2_.rs: exitcode__","src/u_/jump_.rs: Item_::hello__")
p("C36","Script arguments arrive verbatim and in order",
  "Words after the script name that are not interpreter options reach the script as its arguments, in order, unchanged, one argument per word.",
  "all command lines","all word lists",
  "src/u_/world_.rs: clpars__","src/u2_/clpars_.rs: List_::for3__")
p("C37","The include path has no duplicate directories",
  "After any history of additions the include path holds at most one entry per directory, in order of first addition, and only entries with a directory part.",
  "all histories of additions","histories are unbounded",
  "src/u_/world_.rs: path2__")
p("C38","Module names are unique",
  "After any history of module declarations, renamings and releases, no two registered modules share a name.",
  "all histories","histories are unbounded",
  "src/mod_.rs: can__","src/name_.rs: Item1_::hello__","src/mod_free_.rs")
p("C39","Output is append-only",
  "Evaluation never retracts output: what was printed before any evaluation step is a prefix of what is printed after it, also when the step fails.",
  "all programs, states and outcomes","all executions",
  "src/print_.rs","src/u_/code_.rs")
p("C40","Evaluation is deterministic",
  "Given the same program, state and environment answers, evaluation has at most one outcome: giving the model interpreter more steps never changes an outcome already reached.",
  "all programs, states and step budgets","all executions",
  "src/u_/code_.rs","src/u_/eval_.rs")
p("C41","Every command word is dispatched once",
  "The option parser hands every word either to an option (with exactly its declared number of following words), or to the catch-all, or to the fallback; it reports missing words and unknown options and stops at the first error.",
  "all option tables and word lists","all tables and lists",
  "src/u2_/clpars_.rs: List_::for3__, add__, Item_::tag__")
p("C42","Scopes form a tree of known depth",
  "In every reachable state each scope's depth is its parent's plus one (0 without parent), parents are never changed, and so every lookup up the chain ends.",
  "all programs and reachable states","all executions",
  "src/u_/qv_.rs: Qv_::new6, for3__")
p("C43","Multiple assignment distributes values",
  "Assigning n names from m values gives the i-th name the i-th value; missing values repeat the last one; extra values are dropped; exactly n assignments happen, in order.",
  "all name and value lists","all lists",
  "src/set_.rs: Item_::hello2__")
p("C44","No script can crash the interpreter",
  "Evaluating any program ends in a value, an error or a jump, never in a crash of the interpreter (double borrow, index underflow, division).",
  "all programs and states","all executions",
  "src/mod_free_.rs","src/print_.rs","src/eval_.rs","src/var_/arg_.rs","src/u_/code_.rs: z4__")
p("C45","Keyword recognition is longest-match",
  "The keyword recognised at a position of the source is the longest keyword of the table that matches there; no keyword is hidden by an earlier one.",
  "all source texts and positions","all sources",
  "src/u_/keyword_.rs: List_::new","src/u_/pars_.rs: is_kw__")
p("C46","Left-hand arguments take exactly n groups",
  "Moving n left-hand groups out of a result list moves exactly the last n groups, in order, in front of the call's own arguments, and leaves the earlier groups as they were; with fewer than n groups it reports an error and moves nothing.",
  "all result lists and n","all lists",
  "src/u_/def_/backarg_.rs: backarg__")
p("C47","Attribute lookup is nearest-first",
  "Reading an attribute by name or number finds it in the nearest enclosing attribute set that has it.",
  "all chains of attribute sets","all chains",
  "src/u_/code_/attr_.rs: get__")
p("C48","Enabling redirection intercepts print",
  "If a scope on the chain defines the print word, printing runs the nearest such definition with the text as its argument and writes nothing itself, unless raw printing is requested.",
  "all scope chains and texts","all programs",
  "src/print_.rs: hello__")
p("C49","External command status is reported as two fields",
  "Running an external command appends code and separator, or separator and message on a signal, or 255, separator and message if it cannot be started.",
  "all outcomes of the operating system","all outcomes",
  "src/exec_.rs: hello2__, exitcode__")
p("C50","Continuation marks only trim the text ends",
  "A text starting with the continuation mark plus newline, or ending with newline plus mark, loses exactly those marks; the construction never crashes.",
  "all texts","all texts",
  "src/text_.rs: Item_::new")
p("C51","An unclosed quote reaches to the end",
  "If a quote in a command line is never closed, the words before it are split as usual and everything after it, blanks and separators included, belongs to the last word; in strict field splitting quotes protect separators and blanks.",
  "all well-formed line beginnings, all rests and all lists of quoted fields","unbounded texts",
  "src/u2_/str_.rs: split2__")
p("C52","Truth of a text",
  "A text standing alone in a condition counts as false exactly when it is empty, 0, false or NULL, and as true otherwise; negation reverses this.",
  "all texts","infinitely many texts",
  "src/u_/t_.rs: true__","src/if_.rs: cmp3__")
p("C53","Only assignments change variables",
  "An evaluation in which no assignment, alias or counted loop happens leaves every variable of every existing scope as it was, however it ends.",
  "all programs, states and behaviours of the operating system","a statement about everything any program does not do",
  "src/set_.rs","src/alias_.rs","src/for_.rs","src/u_/qv_.rs")
p("C54","Only definitions change definitions",
  "An evaluation in which no definition statement happens leaves the definitions of every existing scope as they were.",
  "all programs, states and behaviours of the operating system","a statement about everything any program does not do",
  "src/def_.rs","src/u_/def_.rs")
p("C55","Only printing, commands and loading act outside",
  "An evaluation in which no print statement, external command or load happens prints nothing, opens and reads no file, and starts and talks to no process.",
  "all programs, states and behaviours of the operating system","a statement about everything any program does not do",
  "src/print_.rs","src/exec_.rs","src/load_.rs","src/eval_.rs")
p("C56","Numbers are read and printed faithfully",
  "A text is read as a number exactly when it is an optional sign followed by at least one digit and the value fits the type; the text of a number is read back as the same number.",
  "all texts and all integers","infinitely many texts, boundary values of three types",
  "src/u_/t_.rs: s2n__")
p("C57","Argument names stand for the arguments at their places",
  "The words after the name of a definition name its arguments in order; words marked as separators are not counted; inside the definition an unmarked name stands for the argument given at its place, and the full pattern of a definition with separators spells the separators and has a dot for each argument.",
  "all lists of names, all argument lists and states","unbounded lists of names and arguments",
  "src/u_/def_/argname_.rs: ArgNames_::new","src/u_/def_.rs: mk_arg0__","src/u_/qv_.rs: get__")
p("C58","Reading a name and asking whether it exists",
  "Reading a name gives what the nearest scope on the way to the top, then the modules, has under it, and is an error if none has it; asking for existence looks at the scope itself only, gives 1 or nothing, and is never an error.",
  "all names, scope trees, modules and states","unbounded scope trees, any name",
  "src/var_.rs: get2__","src/has_.rs","src/u_/qv_.rs: get__","src/u_/var_.rs: get2__")
p("C59","Code kept as text is the same program",
  "What stands between the code quotes is kept as a text that, when it is run later, parses to the same program as the code written there directly; only blanks between words are lost.",
  "all code made of plain words, quoted and verbatim texts, names, annotations and nested code quotes","unbounded nesting and texts",
  "src/u_/is_text_.rs: add__, add4__","src/u_/pars_.rs: hello2__","src/u_/keywords_.rs")
p("C60","A script has the structure it is written with",
  "A script made of sentences, statements, blocks, conditions and loops is parsed into exactly the program it spells: the pieces of a sentence in order, each statement with the rest of its sentence, each block, branch and body with its own sentences, whatever the nesting.",
  "all scripts of the grammar, any nesting, any words, texts, names and annotations","infinitely many scripts of unbounded nesting",
  "src/u_/pars_.rs: hello__, hello2__, add_kw__, add_text__","src/u_/code_.rs","src/u_/keywords_.rs")
p("C61","Calling a definition",
  "A word is read from left to right: the text before the first name of a usable definition is written as it is; a definition without arguments runs and the reading goes on after its name; a definition with arguments gets the rest of the word and of the sentence, evaluated in the scope of the caller, as its arguments, runs in a fresh scope inside the caller's, and the evaluation goes on with the next sentence; a word without names of definitions is a text.",
  "all words, statement lists, definitions, scope trees, states and behaviours of the operating system","unbounded words, sentences, numbers of definitions and nesting of calls",
  "src/u_/code_.rs: z2__, z4__","src/u_/qv_.rs: get_def__","src/u_/def_.rs")
p("C62","Arguments between separators",
  "A definition whose arguments have separators between them is called exactly when all its separators occur, one after the other, in the rest of its word and the words that follow in the sentence; its arguments are what stands between them, each separator at its first occurrence after the one before.",
  "all lists of separators, all words and sentences","unbounded numbers of separators, words and items",
  "src/u_/code_.rs: z4__ (259-406)","src/u_/def_/argname_.rs")
p("C63","Making a definition",
  "The statement 定义 evaluates the name, reads its annotations, evaluates the argument names and then the text; it is refused exactly when the name is empty, an annotation or an argument name is wrong, or a definition that can be used there has a shorter name with which the name begins; otherwise the definition is put into the scope meant, nothing else changes, and it is the one called by its name from then on.",
  "all names, texts, annotations, scope trees, states and behaviours of the operating system","unbounded numbers of definitions and scopes, any text",
  "src/def_.rs: hello__","src/u_/def_.rs: val2__, find__","src/u_/qv_.rs: for3__")
p("C64","Error reports quote the script",
  "A script with a syntax error is refused with a message that names the mistake and quotes the script up to the place where it was noticed. A statement list that fails while it runs adds one line to the report: its own text up to the item that failed; the items before it were evaluated in order and the error itself is the one the item left. For a script written plainly this line is a beginning of the script as the user wrote it.",
  "all scripts, all statement lists, states and behaviours of the operating system","any script may fail anywhere; unbounded scripts and nesting",
  "src/u_/pars_.rs: ret3__, hello__","src/u_/code_.rs: hello2__, s__","src/u_/result2_.rs")
p("C65","Evaluating a text",
  "The statement 解释 evaluates its text and then its arguments in the scope it stands in, and runs the text as a script in a new scope inside that one, with exactly those arguments and with the annotation as its argument 0; nothing that was there before is changed by making the scope. With 【在当前区】 the text runs in the scope of the statement itself and the arguments are added to those of that scope. What the text ends with is what the statement ends with.",
  "all texts, arguments, scope trees, states and behaviours of the operating system","any text may be evaluated in any state, unbounded nesting",
  "src/eval_.rs: hello__","src/u_/code_/item1_.rs: split2_2__","src/u_/eval_.rs: hello__")
p("C66","Loading a file",
  "The statement 加载 looks for the file next to each file of the include path in order, then next to the files of the scopes around it, nearest first, then under the name as it is written; a name that begins with / only as it is written. The first file that can be opened is read, its #! line is taken off and its options are taken, and the rest runs like the text of 解释. When a module comes from that very file nothing is read and nothing runs.",
  "all names, include paths, scope trees, states and behaviours of the operating system","unbounded include paths, scope chains and file systems",
  "src/load_.rs: src__","src/u_/eval_.rs: ok_src2__, src__, src2__","src/eval_.rs: hello__")
p("C67","Names and modules",
  "命名 gives the scope it stands in a name and a text to be run at its release; 模块 also registers the scope as a module, or as a data module when 数据 is asked for, and is refused exactly when the name is empty, an option is unknown or a registered module has the name; from then on the name means this scope. 释放模块 takes its names in order, skips unknown ones, runs the text of the first module with the name in that module's scope and then takes exactly this module off the list, so that no module has the name any more and all others stay.",
  "all names, options, module lists, texts, states and behaviours of the operating system","unbounded numbers of modules and names; the text run at a release may be any script",
  "src/mod_.rs: can__","src/name_.rs: hello__","src/mod_free_.rs: hello__")
p("C68","Plain scripts run like a simple imperative language",
  "A script made of procedures with or without arguments, assignments, prints, arithmetic, conditions with 并且 and 或者, endless and counted loops, 跳出, 再来, 返回 and calls, written plainly, does exactly what the rules of a small imperative language say: from the command line or from a file, it ends if and only if the rules let it end, with the outcome they give, and what it prints is what they print, in order. A procedure has variables and arguments of its own and sees the variables of its callers; the arguments of the script are the words on the command line.",
  "all programs of the small language of any size and nesting, all words on the command line, all behaviours of the operating system, all floating point implementations","the whole way from the source text through the parser, the code kept as text, the definitions, the cache and the evaluator to the output, for unboundedly many programs, recursion and loops included",
  "src/u_/pars_.rs","src/u_/code_.rs","src/def_.rs","src/for_.rs","src/if_.rs","src/set_.rs","src/print_.rs","src/expl_.rs","src/u_/eval_.rs","src/main.rs")
p("C69","An alias reads as its target, however many aliases lie between",
  "Reading a name that is an alias is reading the target of the alias in the scope that has the alias, and so on over any number of aliases: when a variable is at the end its value is what is read, as it is at that moment. When the aliases have no end, as in a circle, the reading does not end, and neither does the script.",
  "all chains of aliases of any length through any scopes, all states of all runs","unbounded chains, and tests cannot show that a run does not end",
  "src/u_/qv_.rs: get__","src/var_.rs: get2__","src/var_/simp_.rs: hello__","src/alias_.rs","src/u_/var_.rs: get2__")
p("C70","Plain scripts never crash",
  "A script of the small language of C68 that has no sign %, run with words without it, never makes the interpreter crash, whatever the operating system answers: the script ends as the rules say, with success or with a reported error, or it runs forever, and it runs forever exactly when the rules give it no end.",
  "all programs of the small language without %, all behaviours of the operating system, all floating point implementations that print numbers without %, both build profiles","that something never happens, over unboundedly many programs and unbounded runs, ending or not",
  "src/u_/pars_.rs","src/u_/code_.rs","src/expl_.rs","src/set_.rs","src/if_.rs","src/for_.rs","src/main.rs")
p("C71","The arguments as a script sees them",
  "In a run in which no definition takes arguments from its left, ‘参数i’ in a running script appends exactly the items that stand between the separators i-1 and i of the arguments of its scope, nothing when there are fewer arguments, and changes nothing else; ‘参数-k’ counts from the end; ‘参数数目’ is the number of arguments; ‘参数栈【b】【e】’ is the stretch from b to e with its separators. A name computed while the script runs reads the same, and 存在 of it says whether there are so many arguments. While the list of these arguments is itself being filled, every such reading stops with a crash.",
  "all argument lists, indices, scopes, states and moments of all such runs","unbounded lists of arguments, any computed name, any state",
  "src/var_/arg_.rs: hello__","src/var_/argc_.rs","src/var_/args_.rs: hello__","src/var_.rs: get2__","src/u_/result_.rs")
p("C72","Copying and blocking pipes",
  "管道接 runs its body and asks for what its annotations say, the printed texts when it has none; a text printed in it is written and also appended once to the results; the outcome is that of the body. 管道堵 runs its body with a result list of its own: nothing that happens in the body gets into the results of the statement around it, however the body ends.",
  "all bodies, annotations, states and behaviours of the operating system; for the blocking pipe all moments of all runs","that nothing gets through, whatever the body is and does; unbounded bodies",
  "src/guandaojie_.rs: hello__","src/guandaodu_.rs: hello__","src/print_.rs: hello__","src/rem2_.rs: hello__","src/u_/code_/item1_.rs: rems__")
p("C73","Annotations of a name choose the scope it is read in",
  "In ‘甲【a】【b】’ each annotation is read in the scope the one before led to: 顶 is the top scope, 上 the scope around, 所 the calling scope, any other word the nearest scope with that name, on the way to the top, then among the modules, then among the data scopes. The name is then read in that scope exactly as without annotations, after its name as a comment with 与名. Any other annotation, 上 above the top and 所 without a caller are errors that name the annotation and change nothing. The same holds for a name computed while the script runs, for the numbered 参数栈, and for the scope and the words of an assigned name; an ordinary name means the same written and computed. ‘参数0’ tells what the scope was started as. The question 存在 never fails by its annotations.",
  "all rows of annotations, names, scope trees and states with parents older than children (every reached one)","unbounded rows of annotations and trees of scopes, any state",
  "src/u_/qv_/rem4_.rs","src/var_.rs: get2__, hello__","src/var_/simp_.rs","src/var_/arg_.rs: Arg0_","src/var_/args_.rs: with2__","src/set_.rs")
p("C74","The line of the arguments is never stale",
  "‘参数’, the arguments joined into one line, is computed once and remembered by the scope. At every moment of every run what a scope remembers is the line of the arguments it has at that moment: each argument written bare or in quotes, separated by one blank. So every reading of ‘参数’, written or computed, gives the line of the present arguments, also after arguments were added in the same scope or the scope was left and entered again. ‘参数【b】【e】’ is the part of the line from b to e, nothing when e lies before b.",
  "all scopes, all moments of all runs, all argument lists, all behaviours of the operating system","cache coherence over unboundedly long runs in which arguments are added, definitions are called and modules are loaded in any order",
  "src/var_/args_.rs: hello__","src/u_/qv_.rs: args_1_","src/u_/eval_.rs","src/u_/result_.rs: to_s__")
p("C75","Words and quoted texts side by side stay apart",
  "In a sentence in which words and quoted texts stand side by side, as in 甲“和”乙“。”, each word is that word and each quoted text is that text: nothing of one becomes part of another, and no word is taken for a text.",
  "all sequences of words and quoted texts, of any length","unboundedly many sentences; the fault shows only for single bytes between two others",
  "src/u_/is_text_.rs: need_clear__, clear__","src/u_/pars_.rs: 339-346","src/u_/pars_/add_.rs: add_text__")
p("C76","A long text is kept as it is written",
  "Between 下文本 and 上文本 everything is kept exactly as it is written: keywords, blanks, line ends, comments and the marks of other quotes mean nothing there; only names in ‘…’ are replaced by their values.",
  "all long texts, with names and inner quotes to any depth","unboundedly many texts; the losses need particular combinations of marks and names",
  "src/u_/is_text_.rs: add__, add4__","src/u_/pars_.rs: 111-194","src/u_/keywords_.rs: 34-116")
p("C77","Only complete statements are evaluated",
  "Whatever a script contains and however a run gets there (the script itself, modules it loads, texts it evaluates, definitions, handlers), every item that is evaluated is complete, and so is everything inside it: a word has a character; printing, arithmetic, execution, evaluation and a switch have something to work on and a definition has a name; the annotations of a loop are annotations and none are left in its body; the table of a switch describes its body; the noted place of a separator is the place of the first 、; an argument number is not zero. A statement that lacks a part is refused by the parser and nothing of its text runs.",
  "all source texts, all runs, all behaviours of the operating system","the parser builds each item from pieces collected by different functions, and the evaluator indexes into them without checking; all sources and all ways of reaching an item",
  "src/u_/pars_/add_.rs","src/u_/pars_.rs","src/u_/code_.rs","src/for_.rs","src/switch_.rs","src/eval_.rs","src/def_.rs","src/u_/qv_/rem4_.rs")
p("C78","Scripts that run no text do not crash",
 "A script in which none of 定义, 解释, 加载, 执行, 释放模块 occurs, and on which the parser itself does not crash, crashes the release build of the interpreter only in an 算术 of words with % or too many decimals, or in a 存在 of a name with 上 followed by another annotation. If neither 算术 nor 存在 occurs either, it never crashes, whatever its loops, conditions, pipes, names, assignments and arguments, and whatever the words of the command line.",
 "all hosts, all scripts of this kind (as code or in a file whose #! line, if there is one, is read without a crash), all command lines, all running times",
 "Scripts and command lines are unbounded, and RefCell borrows fail only for particular nestings that tests have to guess.",
 "src/u_/world_.rs","src/u_/eval_.rs","src/u_/code_.rs","src/u_/qv_.rs","src/u_/qv_/rem4_.rs","src/has_.rs","src/expl_.rs","src/for_.rs","src/main.rs")

p("C79","Every statement of a program stands in its text",
 "Every item of a parsed program that is not a word or a quoted text, at any depth, comes from a keyword that stands in the source text, blanks aside. So what a script cannot do can be read from its text: if none of 定义, 解释, 加载, 执行, 释放模块, 算术, 存在 stands in it, and the characters 续, line break, 续 do not occur in this order, it never crashes the release build.",
 "all source texts (for crashes: as code or in a file whose #! line, if there is one, is read without a crash), all hosts, all command lines, all running times",
 "The parser assembles items from pieces collected at different levels, with keywords kept for later and given back; that none is invented concerns all texts.",
 "src/u_/pars_.rs","src/u_/pars_/add_.rs","src/u_/keyword_.rs","src/u_/code_.rs")
p("C80","When the parser crashes",
 "Parsing a text crashes only if the text contains the characters 续, line break, 续 in this order (the crash is in the trimming of texts with continuation marks); every other text is parsed or refused with a message.",
 "all source texts",
 "The crash sits behind the merging of neighbouring texts, whose combinations are unbounded.",
 "src/u_/pars_.rs","src/u_/pars_/add_.rs","src/text_.rs")
p("C81","What a script cannot do can be read from its text",
 "A script in whose text (blanks aside) none of 定义, 解释, 加载, 执行, 释放模块 stands acts on the world outside only by printing: it starts and talks to no process, and opens and reads no file but the one it is in (under the names it is looked for). If 显示 does not stand in it either it causes nothing outside but the notes about unknown options of the interpreter.",
 "all hosts, all such scripts (as code or in a file; a #! line of the file is no part of the script), all command lines, all running times",
 "All scripts without certain words and all runs of them; a test sees the effects of single runs.",
 "src/u_/world_.rs","src/u_/eval_.rs","src/print_.rs","src/exec_.rs","src/load_.rs","src/main.rs")

p("C82","Which scripts come to an end can be read from their text",
 "A script that uses none of 定义, 解释, 加载, 执行, 释放模块, 别名 and each of whose loops (循环, 圈子) has a limit or a counter comes to an end, on every host and with every input. If also 算术, 存在 and a continuation mark do not stand in it and it has no loops, it ends with a result or with an error message. A loop with neither limit nor counter, and a circle of aliases, may go on for ever.",
 "all hosts, all such scripts (as code or in a file; a #! line of the file is no part of the script), all command lines",
 "That something ends needs a bound for all inputs and all scripts; a test sees that single runs end, and a run that does not cannot be told from a slow one.",
 "src/for_.rs","src/u_/world_.rs","src/u_/eval_.rs","src/if_.rs","src/switch_.rs","src/u_/code_.rs")

p("C83","A run depends on the outside only through the answers it gets",
 "If on two machines every question that a run asks (can this file be opened, what is in it, what does this command answer, what does this process write) gets the same answer, the runs are the same: the same output, the same questions in the same order, the same end. So a script in whose text none of 定义, 解释, 加载, 执行, 释放模块 stands runs in the same way whatever files and programs there are, and when it is in a file, only what is answered about that file matters.",
 "all pairs of hosts that compute in the same way, all scripts, all command lines, all running times",
 "A test runs on one machine; that nothing else of the machine is used cannot be seen from any number of runs.",
 "src/u_/world_.rs","src/u_/eval_.rs","src/exec_.rs","src/load_.rs","src/main.rs")

p("C84","Scripts whose texts are written out do only what stands in them",
 "A script may make definitions (定义) and evaluate texts (解释) without losing what C81 and C83 give, as long as each text defined or evaluated is a constant that stands in the script. If none of 加载, 执行, 释放模块 occurs in the script or in one of these texts, at any depth, it starts no process, opens no file besides itself and does nothing outside but print; if 显示 does not occur either, it does nothing outside at all; and it runs in the same way whatever files and programs there are. This holds with arguments, with definitions within definitions, with redefinition at run time, and with definitions that handle 显示. A text that is put together at run time is not covered: it may start a process although 执行 occurs nowhere.",
 "all hosts, all such scripts (as code or in a file), all command lines, all running times",
 "The texts of definitions are parsed when they are called, and which one is called is found by comparing words at run time; that no sequence of calls reaches a text that was not in the script is a statement about all runs.",
 "src/def_.rs","src/u_/def_.rs","src/u_/code_.rs","src/print_.rs","src/eval_.rs","src/u_/eval_.rs","src/u_/world_.rs")

p("C85","The tree shown for a program is the program",
 "With the option -zhscript-d-tree every parsed program is printed as a tree. The lines of the tree, read from top to bottom without the drawing, are the program written out; every line is indented by its nesting, and the bars in front of it say for each level around it whether another line follows on that level. This holds for programs of at most 64 levels; a deeper program, which runs without the option, crashes with it.",
 "all parsed programs",
 "The bars come from one array that all levels write to; that no program leaves a stale mark in it is a statement about all trees.",
 "src/u_/dbg_.rs","src/u_/world_.rs","src/u_/code_.rs")

p("C86","What goes on for ever",
 "A run goes on for ever exactly when there is an endless chain of evaluations, the first made by the interpreter itself and each of the others made directly by the one before (the next turn of a loop counts as made by the turn before); otherwise it ends, with a result, with a message, or with a crash. No evaluation is endless by itself, and statements, conditions, branches, assignments and counting loops alone are never endless: in such a chain a text is run, definitions are looked for in a word, a name is followed, the output of a process is read, or a loop that does not count makes a turn, again and again. The release of a module whose release text starts with the release of the same module (or of one of several modules that release each other in this way) is such a run.",
 "all command lines, scripts, states and behaviours of the operating system",
 "whether a run ends cannot be observed; a test can only wait",
 "src/u_/code_.rs","src/for_.rs","src/if_.rs","src/u_/eval_.rs","src/exec_.rs","src/mod_free_.rs")

with open(os.path.join(os.path.dirname(__file__),"..","properties.jsonl"),"w") as f:
    for x in P: f.write(json.dumps(x,ensure_ascii=False)+"\n")
print(len(P))
