{"id": "C01", "title": "Weak-head normalisation preserves meaning", "statement": "Whenever evaluating a term to weak-head normal form in a global context terminates, the returned term is equal to the input term in the equational theory generated by beta and the rewrite rules stored in that context (contextually closed), even though evaluation shares and overwrites lazy closures.", "quantifier": "every global context (any rules, well formed or not), every term (open or closed), every evaluation length, every sharing pattern of closures and reference counts", "why_tests_cant": "The evaluator mutates shared closures; a bug shows only for particular sharing histories and rule sets, an infinite space.", "anchors": ["kontroli/src/kernel/reduce.rs: State::whnf, STerm::whnf, RState::whnf, From<State>, psubst, match_flatten", "kontroli/src/kernel/subst.rs"]}
{"id": "C02", "title": "Conversion test is sound", "statement": "If the conversion test answers yes for two terms, the two terms are equal in the equational theory generated by beta, the stored rewrite rules, and eta exactly when the eta flag of the context is set.", "quantifier": "every global context, every pair of terms, every run that terminates", "why_tests_cant": "Soundness is a claim about all pairs of terms and rule sets; a false 'yes' on one pair makes the checker inconsistent.", "anchors": ["kontroli/src/kernel/reduce.rs: STerm::convertible", "kontroli/src/kernel/convertible.rs: step, step1, step2, shift_app"]}
{"id": "C03", "title": "Evaluation really stops at a weak-head normal form", "statement": "The result of evaluating a term to weak-head normal form is a sort, a variable, product or abstraction, possibly applied to arguments, or a constant applied to arguments such that the result has no head beta-redex, and every stored rule for the head constant was tried on the argument stack and refused.", "quantifier": "every global context and term for which evaluation terminates", "why_tests_cant": "A missed redex would make well-typed input be rejected or lead to wrong product/sort decisions on inputs not in the test-suite.", "anchors": ["kontroli/src/kernel/reduce.rs: State::whnf", "kontroli/src/comb.rs: Comb::is_whnf"]}
{"id": "C04", "title": "Inferred types are derivable", "statement": "If type inference returns a type A for a term t in a global and a local context, then the judgement 't has type A' is derivable in a declarative type system for the lambda-Pi calculus modulo the stored rules.", "quantifier": "all global contexts, local contexts and terms, all terminating runs", "why_tests_cant": "Soundness of a type checker quantifies over all terms and contexts.", "anchors": ["kontroli/src/kernel/infer_check.rs: STerm::infer, SComb::infer, LCtx::bind_of_type, LCtx::get_type"]}
{"id": "C05", "title": "Successful checks are derivable", "statement": "If checking a term t against a type A answers true, then 't has type A' is derivable in the declarative type system for the lambda-Pi calculus modulo the stored rules.", "quantifier": "all global contexts, local contexts, terms and types, all terminating runs", "why_tests_cant": "Soundness of a type checker quantifies over all terms and contexts.", "anchors": ["kontroli/src/kernel/infer_check.rs: STerm::check", "kontroli/src/kernel/mod.rs: Check::check"]}
{"id": "C06", "title": "Introducing a name is justified", "statement": "If introducing a name succeeds (and, for annotated definitions and theorems, the returned check succeeds), then the type recorded for it is itself typable (or is the inferred type of the body), and a given body has the recorded type, in the context before the introduction.", "quantifier": "all introduction commands and global contexts", "why_tests_cant": "Holds for arbitrary commands in arbitrary contexts, not a finite sample.", "anchors": ["kontroli/src/kernel/mod.rs: intro, declare, define, theorem, Check::check"]}
{"id": "C07", "title": "Whole-session soundness", "statement": "After processing any sequence of commands without error starting from the empty context, every name in the context was introduced exactly once, its recorded type was justified by a derivation in the context at the time of its introduction, every definition's or theorem's body has the recorded type there, and these derivations remain valid in the final context.", "quantifier": "all finite command histories", "why_tests_cant": "The number of histories is unbounded; later commands could invalidate earlier derivations.", "anchors": ["kontroli/src/kernel/mod.rs: intro, Check::check", "kontroli/src/gctx.rs: GCtx::insert, GCtx::add_rule", "kocheck/src/infer_checks.rs: infer_with, infer_check"]}
{"id": "C08", "title": "The kernel never panics", "statement": "Evaluating, comparing, inferring and checking never panics: no lazy closure is entered while being evaluated, no cell is borrowed while mutably borrowed, no index subtraction underflows, no internal 'unreachable' or 'unwrap' fails.", "quantifier": "all global contexts with any rewrite rules, all terms and types, open or closed, all run lengths", "why_tests_cant": "RefCell and thunk re-entrancy failures depend on the dynamic sharing graph; tests explore few graphs.", "anchors": ["kontroli/src/kernel/reduce.rs: RState::whnf, RTTerm::force, State::whnf, psubst", "kontroli/src/kernel/subst.rs: psubst_single", "kontroli/src/kernel/infer_check.rs"]}
{"id": "C09", "title": "Substitution and shifting are capture-avoiding, independent of sharing", "statement": "In-place substitution and shifting of a term compute exactly textbook capture-avoiding de Bruijn substitution and shifting, whatever the reference counts of shared subterms are, and report 'no change' only if the term is unchanged.", "quantifier": "all terms, substituted terms, depths, and all outcomes of every unique-reference test", "why_tests_cant": "Behaviour depends on reference counts at run time; the wrong copy is made only for particular sharing.", "anchors": ["kontroli/src/kernel/subst.rs: apply_subst, subst, shift, shift_mut, psubst_single", "kontroli/src/kernel/sterm.rs: STerm::apply, get_comb"]}
{"id": "C10", "title": "Theorems are opaque", "statement": "A symbol introduced as a theorem never unfolds: after its introduction there is no rewrite rule for it, none can be added later, and evaluation, conversion and typing of every term give the same results whatever the proof term was.", "quantifier": "all theorem introductions, all later command histories, all terms", "why_tests_cant": "Opacity is a hyperproperty comparing all possible proofs.", "anchors": ["kontroli/src/kernel/mod.rs: theorem, intro", "kontroli/src/gctx.rs: GCtx::insert, add_rule", "dedukti-parse/src/cmd.rs: Intro::rewritable"]}
{"id": "C11", "title": "Only rewritable symbols compute", "statement": "A rewrite rule can only ever be attached to a symbol that was introduced by a definition; a symbol introduced by a plain declaration or a theorem never acquires a rule in any later history, and a term headed by it evaluates to itself headed by the same symbol.", "quantifier": "all command histories and all terms headed by a static symbol", "why_tests_cant": "Quantifies over all future histories.", "anchors": ["kontroli/src/gctx.rs: GCtx::insert, add_rule", "kontroli/src/kernel/reduce.rs: State::whnf", "dedukti-parse/src/cmd.rs: Intro::rewritable"]}
{"id": "C12", "title": "The global context only grows", "statement": "A successful introduction or rule addition keeps the type of every earlier symbol and keeps every earlier rule in place and order (rules are only appended at the end).", "quantifier": "all contexts, all sequences of successful operations", "why_tests_cant": "A monotonicity law over all histories.", "anchors": ["kontroli/src/gctx.rs: GCtx::insert, add_rule, intro_type, intro_rules"]}
{"id": "C13", "title": "Refused introductions leave the global context unchanged", "statement": "If introducing a symbol into the global context is refused with an error, the types and rules of all symbols are as before.", "quantifier": "all contexts, symbols, typings", "why_tests_cant": "Requires all contexts and the already-present symbol case; (found false of the code for the symbol itself: the type is overwritten before the error is returned).", "anchors": ["kontroli/src/gctx.rs: GCtx::insert, intro_type, intro_rules"]}
{"id": "C14", "title": "Rewrite rules are tried in order of declaration", "statement": "Among the rules of a symbol, the first rule in order of addition that matches is the one applied; adding a list of rules appends exactly the accepted prefix, stopping at the first rule headed by a non-rewritable symbol.", "quantifier": "all rule lists, all argument stacks", "why_tests_cant": "Order of matching over arbitrary rule lists and arguments.", "anchors": ["kontroli/src/kernel/reduce.rs: State::whnf", "kontroli/src/gctx.rs: add_rule", "kocheck/src/infer_checks.rs: infer_with"]}
{"id": "C15", "title": "Name lookup resolves innermost module first", "statement": "Looking up a possibly qualified name returns the symbol found under the innermost enclosing open module for which the qualified path and name exist, and fails exactly when no enclosing module provides it.", "quantifier": "all module trees, open-module paths, qualified names", "why_tests_cant": "Resolution over arbitrary nested module trees.", "anchors": ["kontroli/src/symbols.rs: Symbols::get, set_path"]}
{"id": "C16", "title": "A freshly inserted name resolves to the inserted symbol and nothing else changes", "statement": "After a successful insertion of a name in the current module, looking it up unqualified yields the inserted symbol; other names resolve as before; different successful insertions of different symbol objects never become equal.", "quantifier": "all symbol tables and names", "why_tests_cant": "A law over all tables and histories.", "anchors": ["kontroli/src/symbols.rs: Symbols::insert, get", "kontroli/src/symbol.rs: PartialEq for Symbol"]}
{"id": "C17", "title": "Refused name insertions leave the symbol table unchanged", "statement": "If inserting a name is refused because the name exists in the current module, lookups of all names give the same symbols as before.", "quantifier": "all symbol tables and names", "why_tests_cant": "Needs the already-present state; (found false of the code: the old symbol is overwritten before the error is returned).", "anchors": ["kontroli/src/symbols.rs: Symbols::insert"]}
{"id": "C18", "title": "Sharing a term succeeds iff all its constants resolve and keeps its shape", "statement": "Converting a parsed term succeeds iff every constant in it resolves in the symbol table; the result is the same term with each constant replaced by its symbol; on failure the error names the leftmost unresolvable constant with its full path.", "quantifier": "all parsed terms, all symbol tables", "why_tests_cant": "Structural claim over all terms.", "anchors": ["kontroli/src/share.rs: Share for Symb, AppH, PTerm"]}
{"id": "C19", "title": "Argument telescopes mean products and abstractions", "statement": "An introduction with parameters x1:A1,...,xn:An, type T and body t is equivalent to one without parameters, with type (x1:A1)->...->T and body x1:A1=>...=>t, in that nesting order.", "quantifier": "all parameter lists, types and bodies", "why_tests_cant": "Nesting order for every length of telescope.", "anchors": ["kontroli/src/share.rs: Share<Command>", "dedukti-parse/src/cmd.rs: Intro::map_type, map_term"]}
{"id": "C20", "title": "Accepted rewrite-rule left-hand sides are first-order patterns", "statement": "A parsed rule is accepted iff its constants resolve, and its left-hand side is a symbol applied to first-order patterns (symbols, rule variables, wildcards); no abstraction, product, sort or applied variable is ever accepted; wildcards become pattern positions that match anything; rule variables keep their position in the context.", "quantifier": "all parsed rules", "why_tests_cant": "Decision over all terms.", "anchors": ["kontroli/src/share.rs: Share<Rule>, TryFrom<&LTerm> for Pattern", "kontroli/src/pattern.rs: joke, TryFrom<Pattern> for TopPattern", "dedukti-parse/src/cmd.rs"]}
{"id": "C21", "title": "The parser never panics", "statement": "Parsing any text, as a whole or line by line in any split, never panics: every outcome is a command, an error value or the end of input.", "quantifier": "all strings and all sequences of lines", "why_tests_cant": "All strings; panics hide in rare token sequences.", "anchors": ["dedukti-parse/src/lib.rs: State::feed, Strict::next, Lazy::next", "dedukti-parse/src/term.rs", "dedukti-parse/src/cmd.rs", "dedukti-parse/src/lex.rs"]}
{"id": "C22", "title": "Printed terms and commands parse back", "statement": "Printing a term or command whose identifiers are lexically valid and parsing the text again yields the same term or command. The commands of any text that can be parsed, as a whole or line by line, are of this kind, so printing them yields a text of the same commands; the formatter, which prints nothing between commands, does not do so, and in all its parsing modes prints exactly the commands of the text or panics; with scoping, variables are printed as indices, which are read as names.", "quantifier": "all terms and commands with valid identifiers", "why_tests_cant": "Parenthesisation must be right for every nesting.", "anchors": ["dedukti-parse/src/term.rs: Display", "dedukti-parse/src/cmd.rs: Display", "dedukti-parse/src/lib.rs: Strict", "kofmt/src/main.rs: print_cmds", "kofmt/src/main.rs: main"]}
{"id": "C23", "title": "Line-by-line parsing equals whole-text parsing", "statement": "Parsing a text line by line yields the same commands in the same order, and ends in error iff, parsing the whole text at once does (when no line contains the end of more than one erroneous command and no token spans lines).", "quantifier": "all texts, all splits into lines", "why_tests_cant": "All splits of all texts.", "anchors": ["dedukti-parse/src/lib.rs: Lazy::next, Strict::next, State::feed"]}
{"id": "C24", "title": "Scoping resolves variables to the right binder", "statement": "An unqualified name under binders becomes a variable with the index of the innermost enclosing binder of that name, and a constant iff there is no such binder; qualified names are always constants; this holds inside nested binders, products, arguments, definitions and rules.", "quantifier": "all terms, with any nesting and shadowing of binders", "why_tests_cant": "The parser manages one mutable scope; leaks show only for particular nestings.", "anchors": ["dedukti-parse/src/term.rs: Ctx, Scope, parse", "dedukti-parse/src/cmd.rs: RuleCtx, rulel, close"]}
{"id": "C25", "title": "Comments are whitespace", "statement": "Replacing any properly nested comment between tokens by a space does not change what is parsed; a text with n unclosed comment openers reports exactly n.", "quantifier": "all texts, all nesting depths", "why_tests_cant": "Unbounded nesting depth.", "anchors": ["dedukti-parse/src/lex.rs: comment, comment1"]}
{"id": "C26", "title": "Formatting preserves the token sequence", "statement": "The output of the formatter in lexing mode lexes to the same sequence of tokens as its input.", "quantifier": "all texts made of lexically valid tokens", "why_tests_cant": "All token sequences.", "anchors": ["kofmt/src/main.rs: print_token"]}
{"id": "C27", "title": "Commands parse independently", "statement": "Parsing the concatenation of two texts, each being a sequence of complete commands, gives the commands of the first followed by those of the second; no binder or scope from one command leaks to the next.", "quantifier": "all pairs of texts", "why_tests_cant": "Parser state after each command must be clean for every command.", "anchors": ["dedukti-parse/src/lib.rs: Strict::next, State", "dedukti-parse/src/term.rs: Ctx", "dedukti-parse/src/cmd.rs: close"]}
{"id": "C28", "title": "Errors come after the commands that precede them", "statement": "When parsing line by line, all commands that precede a syntax error in the text are delivered before the error, in order.", "quantifier": "all lines", "why_tests_cant": "(Found false of the code for several commands and an error on the same line.)", "anchors": ["dedukti-parse/src/lib.rs: Lazy::next"]}
{"id": "C29", "title": "Producer/consumer pipeline equals direct processing", "statement": "Processing files in one go yields the same verdict as reading them by a producer and feeding the produced events to a consumer.", "quantifier": "all event sequences and option settings", "why_tests_cant": "All sequences of events.", "anchors": ["kocheck/src/process.rs: run, produce, consume", "kocheck/src/event.rs"]}
{"id": "C30", "title": "Parallel checking agrees with sequential checking", "statement": "Deferring the checks and running them concurrently in any order accepts exactly the same histories as checking each immediately.", "quantifier": "all command histories, all schedules of the deferred checks", "why_tests_cant": "All interleavings.", "anchors": ["kocheck/src/infer_checks.rs: infer_checks, infer_check, infer, check", "kocheck/src/main.rs"]}
{"id": "C31", "title": "Omitting stages never rejects more", "statement": "If a history is accepted with all stages enabled, it is accepted when any later stage is omitted; omitting does not change the context reached by successful runs of enabled stages.", "quantifier": "all histories and all omit settings", "why_tests_cant": "All histories and settings.", "anchors": ["kocheck/src/opt.rs: omits", "kocheck/src/stage.rs", "kocheck/src/process.rs", "kocheck/src/infer_checks.rs"]}
{"id": "C32", "title": "Annotated rewrite rules are type preserving", "statement": "When a rule whose variables are all annotated (and has no wildcard) is accepted by the checking driver, both sides have a common type derivable in the rule's context.", "quantifier": "all rules and contexts", "why_tests_cant": "Soundness claim over all rules.", "anchors": ["kontroli/src/kernel/mod.rs: rewrite, Check::check", "kontroli/src/rule.rs: TryFrom", "kocheck/src/infer_checks.rs: infer_with"]}
{"id": "C33", "title": "Eta is used only on request", "statement": "With the eta flag off, a positive answer of the conversion test is justified without the eta law; with the flag on, everything accepted is justified by beta, rules and eta.", "quantifier": "all contexts, terms", "why_tests_cant": "Claim about all derivations behind every positive answer.", "anchors": ["kontroli/src/kernel/convertible.rs: step, step2, step1", "kontroli/src/gctx.rs: GCtx::eta"]}
{"id": "C34", "title": "Conversion is reflexive and symmetric", "statement": "The conversion test answers yes, without evaluating anything, on syntactically equal terms, and its verdict does not depend on the order of its two arguments.", "quantifier": "all contexts and terms", "why_tests_cant": "All pairs of terms.", "anchors": ["kontroli/src/kernel/reduce.rs: STerm::convertible", "kontroli/src/kernel/convertible.rs: step"]}
{"id": "C35", "title": "The local context is restored", "statement": "After a successful inference or check the local typing context handed in by the caller is exactly what it was before.", "quantifier": "all terms, contexts", "why_tests_cant": "All nestings of binders.", "anchors": ["kontroli/src/kernel/infer_check.rs: LCtx::bind, infer, check"]}
{"id": "C36", "title": "Module path of a file", "statement": "The module path derived from a file path is the list of its directory components followed by the file stem (a dash, which denotes standard input, gives the module of that name), and a path with any other kind of component (root, current or parent directory) or without file stem is refused.", "quantifier": "all paths", "why_tests_cant": "All component lists.", "anchors": ["kocheck/src/path_read.rs: module_path, is_dash"]}
{"id": "C37", "title": "Web checker processes dependencies first", "statement": "For every acyclic dependency graph, the computed processing order contains the requested file and all its transitive dependencies, each exactly once, and each file comes after everything it depends on; the graph is the one described by the make file; for a file that needs a file on a cycle nothing is returned.", "quantifier": "all acyclic dependency graphs", "why_tests_cant": "All graphs.", "anchors": ["koweb/src/parse_make.rs: get_full_dependency_path_inorder, get_all_children, remove_dup"]}
{"id": "C38", "title": "Strict type-system soundness", "statement": "Under the usual meta-theoretic assumptions on the rewrite rules (subject reduction, product injectivity), a term accepted by inference or checking is typable in the textbook lambda-Pi calculus modulo rewriting, in which conversion is restricted to well-sorted types.", "quantifier": "all contexts, terms satisfying the assumptions", "why_tests_cant": "Soundness with respect to the published type system; all terms.", "anchors": ["kontroli/src/kernel/infer_check.rs", "kontroli/src/kernel/mod.rs"]}
{"id": "C39", "title": "Answers do not depend on reference counts", "statement": "The verdicts of evaluation, conversion, inference and checking are the same for every possible outcome of the unique-reference tests made on the way.", "quantifier": "all terms, all sequences of outcomes of the unique-reference tests", "why_tests_cant": "Reference counts are schedule- and history-dependent and not controllable by tests.", "anchors": ["kontroli/src/kernel/subst.rs: apply_subst", "kontroli/src/kernel/sterm.rs: apply, get_comb"]}
{"id": "C40", "title": "Introduced types are proper sorts", "statement": "Every type recorded for a symbol by a successful introduction is itself a type or kind (its own type is Type or Kind).", "quantifier": "all introduction commands", "why_tests_cant": "(Found false of the code for theorems and annotated definitions, where the given type only has to be typable.)", "anchors": ["kontroli/src/kernel/mod.rs: declare, define, theorem"]}
{"id": "C41", "title": "End-to-end soundness from text", "statement": "If the text of a session is parsed, scoped, shared and checked without error, every definition and theorem in the final context is derivable in the declarative type system.", "quantifier": "all texts", "why_tests_cant": "Composition of all stages over all inputs.", "anchors": ["dedukti-parse/src/lib.rs", "kontroli/src/share.rs", "kontroli/src/kernel/mod.rs", "kocheck/src/infer_checks.rs"]}
{"id": "C42", "title": "Negative answers of the conversion test are witnessed", "statement": "If the conversion test answers no, then the two terms reduce to weak-head normal forms that visibly differ: different heads, different numbers of arguments, an abstraction against something else (without eta), or components at the same position for which the same holds.", "quantifier": "all global contexts, terms and outcomes of unique-reference tests for which the test terminates", "why_tests_cant": "Tests can only show some refusals; a wrong refusal on an untested pair of terms rejects a correct proof.", "anchors": ["kontroli/src/kernel/convertible.rs: step", "kontroli/src/kernel/convertible.rs: convertible"]}
{"id": "C43", "title": "The conversion test decides conversion for confluent rules", "statement": "For rules that are confluent (in particular for orthogonal rules, where two rules may match the same term if both give the same result, and for no rules at all) and without eta, the conversion test answers yes exactly if the terms are equal in the equational theory. Without confluence, or with eta and rules that match on constants of function type, negative answers can be wrong.", "quantifier": "all global contexts with confluent rules, all pairs of terms and outcomes of unique-reference tests for which the test terminates", "why_tests_cant": "Completeness is a claim about all pairs of equal terms, and needs confluence of the whole rewrite relation.", "anchors": ["kontroli/src/kernel/convertible.rs: step", "kontroli/src/kernel/convertible.rs: convertible", "kontroli/src/kernel/reduce.rs: State::whnf", "kontroli/src/kernel/reduce.rs: matches"]}
{"id": "C44", "title": "Refusals of the type checker are justified", "statement": "For confluent rules without eta, in a context whose constants have small types or kinds (Type occurs only at the end of kinds) and whose rules have small right-hand sides: if inference or checking of a term fails, then the term does not have a type (the given type) in the lambda-Pi calculus modulo the rules; the only exception is that inference refuses abstractions without annotation. The exception occurs for a typable term exactly if one of its abstractions without annotation stands where its type is not known (as head of an application, as domain or codomain of a product, or as the whole term, when the type is to be inferred). Consequently every other typable term is accepted if the run ends, its inferred type is convertible with every other type of it, and every command that is right by the textbook is accepted. Without the level condition, typable terms can be refused because sorts are compared before evaluation.", "quantifier": "all levelled global contexts with confluent rules, all local contexts, terms, types, commands, fuel and outcomes of unique-reference tests", "why_tests_cant": "Completeness quantifies over all typable terms, and a refusal of a right proof only shows on the input concerned; it needs uniqueness of types and the decision property of the conversion test.", "anchors": ["kontroli/src/kernel/infer_check.rs: infer", "kontroli/src/kernel/infer_check.rs: check", "kontroli/src/kernel/convertible.rs: convertible", "kontroli/src/kernel/mod.rs: intro", "kontroli/src/kernel/mod.rs: rewrite"]}
{"id": "C45", "title": "Right sessions are accepted, and levels are an invariant", "statement": "Accepted sessions without eta and with orthogonal rules keep the global context levelled (Type occurs only at the end of the types of constants and never on right-hand sides), provided given kinds are written as products and unchecked rules and rule annotations are small. A session in which every command is right by the textbook in the context made by its predecessors, with confluent rules, is accepted unless the run does not end.", "quantifier": "all sessions (lists of commands), all fuel and outcomes of unique-reference tests", "why_tests_cant": "Completeness and the invariant quantify over all sequences of commands; tests only run a few files.", "anchors": ["kocheck/src/infer_checks.rs: infer_with", "kocheck/src/infer_checks.rs: infer_checks", "kontroli/src/gctx.rs: insert", "kontroli/src/kernel/mod.rs: intro", "kontroli/src/kernel/mod.rs: rewrite"]}
{"id": "C46", "title": "Accepted rewrite rules and evaluation preserve types", "statement": "Without eta, with confluent rules and constants whose types have sorts: every rewrite rule whose sides have a common type in a well-formed context of rule variables preserves types (subject reduction), so evaluation of a well-typed term yields a term of the same type; in particular this holds in the context at the end of an accepted session.", "quantifier": "all theories, rules, terms, contexts, sessions", "why_tests_cant": "Subject reduction is a statement about all well-typed terms and all reduction sequences.", "anchors": ["kontroli/src/kernel/mod.rs: rewrite", "kontroli/src/kernel/reduce.rs", "kontroli/src/kernel/infer_check.rs"]}
{"id": "C47", "title": "The parser recognises exactly the grammar", "statement": "The lazy parser yields a list of commands without an error if and only if these commands are what the tokens of the lines mean by the (declarative) grammar of Dedukti; otherwise it yields an error. The strict parser does the same for the tokens of a text, except that it also refuses pragmas at the end. The grammar is unambiguous: a sequence of tokens means at most one sequence of commands, and at most one term.", "quantifier": "all texts and lists of lines, all sequences of commands, all token sequences", "why_tests_cant": "The parser is a push-down automaton with infinitely many inputs; that it accepts nothing more and nothing less than the grammar, with the right tree, is an equivalence over all token sequences.", "anchors": ["dedukti-parse/src/term.rs: State::parse", "dedukti-parse/src/term.rs: Loc", "dedukti-parse/src/cmd.rs: State::parse", "dedukti-parse/src/cmd.rs: State::apply", "dedukti-parse/src/lib.rs: Lazy", "dedukti-parse/src/lib.rs: Strict"]}
{"id": "C48", "title": "The lexer yields the longest words", "statement": "The tokens of a text are found by repeatedly taking the longest word (sign, keyword or qualified name) at its beginning, skipping whitespace and nested comments; unclosed comments are counted, and unclosed {| and unknown characters are errors. Every text has exactly one such token sequence, and the lexer yields it. Lines are split at \\n and \\r\\n.", "quantifier": "all texts", "why_tests_cant": "Maximal munch, keyword priority and comment nesting interact; the claim compares with every other word at every position of every text.", "anchors": ["dedukti-parse/src/lex.rs: Token", "dedukti-parse/src/lex.rs: symb", "dedukti-parse/src/lex.rs: moustache", "dedukti-parse/src/lex.rs: comment", "kocheck/src/process.rs"]}
{"id": "C49", "title": "A run accepts exactly the correct programs", "statement": "A program is correct if its texts belong to the grammar, every name resolves to an earlier introduction, no name is introduced twice in a module, and each command is right by the textbook (typing rules of the lambda-Pi calculus modulo rewriting) in the theory made by the commands before it. For programs whose rules have typed variables and no wildcards, with rule contexts of sort Type and orthogonal rules, without eta: a run with all stages that comes to an end accepts if and only if the paths denote texts that form a correct program in which every abstraction without annotation stands where its type is known, and the theory of the final context is the theory of that program; such a program never leads to an error or a panic, also with threads or a channel.", "quantifier": "all file systems, paths, texts, programs, reference counts and thread schedules", "why_tests_cant": "Both directions quantify over all programs and all typing derivations: a test can show neither that no wrong program is accepted nor that no correct program is refused.", "anchors": ["kocheck/src/main.rs", "kocheck/src/process.rs: infer_checks", "kocheck/src/infer_checks.rs", "kocheck/src/infer_checks.rs", "kontroli/src/kernel/infer_check.rs", "kontroli/src/kernel/mod.rs", "kontroli/src/share.rs", "kontroli/src/symbols.rs", "dedukti-parse/src/lib.rs"]}
{"id": "C50", "title": "The web checker accepts exactly the correct programs", "statement": "The web checker (check_single, check_multiple) with all stages accepts a text, or the dependencies of a module, only if the texts read as a whole belong to the grammar and form a program whose statements are right by the textbook; for regular programs without eta, a check that comes to an end accepts if and only if the program is correct and its abstractions without annotation stand where their types are known (there are correct programs that are refused for this reason only). check_multiple checks the first program of the wanted name, with modules named by their file name without its last three bytes; a missing module and dependencies without an address are silently left out; a file name without a character boundary three bytes before its end is a panic.", "quantifier": "all texts, lists of programs, module names, fetch results and reference counts", "why_tests_cant": "The statement is about all texts and all program lists, including names in any characters.", "anchors": ["koweb/src/lib.rs: produce", "koweb/src/lib.rs: get_omit", "koweb/src/lib.rs: check_single", "koweb/src/lib.rs: check_multiple", "kocheck/src/process.rs: consume"]}
{"id": "C51", "title": "Checking comes to an end for normalising theories", "statement": "Evaluation of a strongly normalising term and comparison of strongly normalising terms come to an end with a value, whatever the reference counts (with eta: if the rules only unfold definitions); without eta and with confluent rules, or with eta and rules that only unfold definitions, the comparison decides convertibility. In a well-formed, confluent theory (with eta: one whose rules only unfold definitions) in which typed terms are strongly normalising, inference and checking of any term (typable or not) and any introduction come to an end; the checks of a list of commands, also wrong ones, come to an end if this is so after each prefix; for regular programs the run then decides whether the program is correct. Without normalisation evaluation may run for ever.", "quantifier": "all contexts, rules, terms, local contexts, commands, programs, reference counts", "why_tests_cant": "Termination is about all executions; a test that does not end proves nothing, and that no input makes the checker loop is a statement about infinitely many inputs.", "anchors": ["kontroli/src/kernel/reduce.rs: State::whnf", "kontroli/src/kernel/reduce.rs: STerm::convertible", "kontroli/src/kernel/infer_check.rs", "kocheck/src/infer_checks.rs"]}
{"id": "C52", "title": "Programs without rewrite rules are decided", "statement": "Typed terms over right declarations, definitions and theorems without rewrite rules are strongly normalising (lambda-Pi calculus with definitions). So, if no input text contains the sign for rewrite rules, a run without threads, with or without eta, always comes to an end, whatever else the texts contain; it accepts iff the paths denote texts of a program that is correct (with eta in the conversion iff the option is given) in which abstractions without annotation stand where their types are known, and the same holds for every run with threads or a channel.", "quantifier": "all file systems, paths, texts (well-formed or not), reference counts, thread schedules", "why_tests_cant": "Termination for every input text, and strong normalisation of a dependently typed calculus, cannot be observed by finitely many runs.", "anchors": ["kocheck/src/main.rs", "kocheck/src/process.rs", "kocheck/src/infer_checks.rs", "kontroli/src/kernel/reduce.rs", "kontroli/src/kernel/infer_check.rs"]}
{"id": "C53", "title": "The channel between parser and checker", "statement": "With a channel of any capacity (0 and unbounded included), under all schedules of the producing thread, the consuming thread and its thread pool: no execution gets stuck, none goes on for ever, a verdict is final; the verdict is accepting iff a direct run accepts, and then in all executions; the possible verdicts are those of the big-step description (exactly, if the capacity is unbounded); never more events than the capacity wait in the channel; with capacity n and without threads, a failure of the consumer on the first m events is the verdict whenever there are more than m+n events. The exit status of the program is 0 iff the paths denote a correct program.", "quantifier": "all file lists, kernels, options, capacities, schedules", "why_tests_cant": "Deadlocks and races depend on the schedule; a test sees one schedule of unboundedly many.", "anchors": ["kocheck/src/main.rs: main", "kocheck/src/process.rs: produce", "kocheck/src/process.rs: consume", "kocheck/src/infer_checks.rs: infer_checks"]}
{"id": "C54", "title": "Counting of symbols", "statement": "For every file that consists of commands, symcount prints a count for exactly the constants that are introduced or occur in an introduction, namely the number of occurrences in introductions from the last introduction of the constant on; for other files it panics. As documented, this is the number of all occurrences of the constant if there are no rewrite rules and constants are introduced once and before they occur; otherwise it need not be.", "quantifier": "all texts, all constants", "why_tests_cant": "The count must be right for every file, with arbitrary nesting of terms and order of introductions.", "anchors": ["dedukti-parse/examples/symcount.rs: atoms", "dedukti-parse/examples/symcount.rs: insert", "dedukti-parse/examples/symcount.rs: main"]}
{"id": "C55", "title": "Inlining of definitions", "statement": "For every text of commands and list of names, inline terminates with a text of commands; if every inlined name occurs at most once after its definition, this is the program where the definitions are dropped and their names replaced by their expanded bodies. In general, correct programs can become incorrect: by a second occurrence, by capture of variables, by rules. For texts that are not commands it panics. With names that symcount counts once (the documented use) and that are no names of bound variables, the output is the expansion; occurrences in rules break even this use.", "quantifier": "all texts and lists of names", "why_tests_cant": "The order in which the single replacement is used up matters for every shape of program.", "anchors": ["dedukti-parse/examples/inline.rs: map_atoms", "dedukti-parse/examples/inline.rs: subst", "dedukti-parse/examples/inline.rs: main", "dedukti-parse/examples/README.md"]}
{"id": "C56", "title": "Dependency graphs", "statement": "For every text, dep2dot prints a graph whose edges are, line by line, those from the target of a line that contains ' : ' (cut at the first one, none further on) to the words after it but the first, without their extensions .dko; in particular, for every Makefile in the format of dkdep the edges are the dependencies.", "quantifier": "all texts, all Makefiles", "why_tests_cant": "All texts, including overlapping separators, unusual white space and repeated extensions.", "anchors": ["misc/dep2dot.rs: trim", "misc/dep2dot.rs: main"]}
{"id": "C57", "title": "Consistency", "statement": "Types are read as propositions: a product is an implication, the arguments of a type are forgotten. In the theory of a correct program (confluent rules; with eta, rules that only unfold definitions), every assignment of truth values to the type constants that respects the rules for types and makes the types of the symbols introduced without a body true makes the type of every typed term true. If the rewrite rules are for objects, such values can be chosen freely for the symbols introduced without a body. Hence a declared type in which no declaration ends has no closed term, so no program that is accepted proves it; in particular, if no text contains '-->' and only types are declared, no accepted definition or theorem has a declared type.", "quantifier": "all programs, all terms, all truth values, all runs, with or without eta", "why_tests_cant": "That a checker accepts no proof of an empty type is a statement about all proofs.", "anchors": ["kocheck/src/infer_checks.rs", "kocheck/src/process.rs: infer_checks", "kontroli/src/kernel/infer_check.rs", "kontroli/src/kernel/mod.rs"]}
{"id": "C58", "title": "Structural recursion terminates", "statement": "If the commands of a program are right, their rules are orthogonal, rewrite objects only, take variables inside patterns only at types made by constants without rules, and recur only on proper parts of one argument (symbols of lower levels may be used freely), then every typed term is strongly normalising. So for regular programs of this kind, right or wrong, a run without threads and without eta comes to an end, and accepts iff the program is correct and its abstractions without types stand where their types are known. The criterion can be tested. Without the condition on variables inside patterns the claim is false: a single rule without recursion can have a typed term with an infinite reduction.", "quantifier": "all programs with such rules, all typed terms, all reductions, all sharing oracles", "why_tests_cant": "Termination of all reductions of all typed terms is an unbounded statement; a test sees only one evaluation.", "anchors": ["kontroli/src/kernel/reduce.rs", "kontroli/src/kernel/convertible.rs", "kontroli/src/kernel/infer_check.rs", "examples/nat.dk", "kocheck/src/infer_checks.rs"]}
{"id": "C59", "title": "The documented library loop accepts exactly the correct programs, apart from rules, which it does not check", "statement": "The loop shown in the crate documentation and used by the benchmarks (parse strictly, share, infer, check, insert; rules are added without type-checking) accepts a text only if it is a program, and, when the rules of the program are right and orthogonal, exactly if the program is correct by the textbook typing rules and the abstractions without types in its introductions stand where their types are known (unless it does not end). Everything koweb accepts from a text without qualified names is accepted by the loop with the same context; without rules, both accept the same. The benchmarks' parse-all-then-check variant gives the same result. The loop accepts ill-typed rules that koweb refuses, and names qualified by `main` are understood by koweb only.", "quantifier": "all texts, all kernels that behave like the modelled one (any sharing oracle, any fuel)", "why_tests_cant": "The doc test runs one fixed text; that a loop without type-checking of rules and without module paths agrees with the full checker on all other texts needs an argument over all programs.", "anchors": ["kontroli/src/lib.rs", "kontroli/benches/bench.rs", "koweb/src/lib.rs", "kontroli/src/kernel/infer_check.rs"]}
{"id": "C60", "title": "The parser reports the first error, and its kind is determined by what could have followed", "statement": "The first error of the strict parser (and of the lazy one) is the error at the first token with which the tokens cannot be continued to any text of the grammar, and the kind of the error is characterised by which tokens could have followed in place of it; if there is no such token, then input is expected exactly if a comment is open or the tokens are not yet a text. The commands before the first error of the strict parser are those of the longest text with which the tokens begin. The kind of the first error is unique. False of the code: an error that names `,` or `]` (a command) means that these could have followed: after `[` no comma can follow, and for a `.` after the type of a rule variable a command is said to be expected.", "quantifier": "all texts, all sequences of lines, all kinds of error", "why_tests_cant": "The tests have 19 texts with one expected kind of error each; that no error is reported late, early, or with a wrong kind for any other text requires that everything read so far can be completed to a text of the grammar.", "anchors": ["dedukti-parse/src/lib.rs", "dedukti-parse/src/cmd.rs", "dedukti-parse/src/term.rs"]}
{"id": "C61", "title": "The benchmark generators print correct programs, which are accepted", "statement": "After any number of rounds, what each program of examples/bench/*.rs has printed is a text that consists, by the grammar, of the commands that its comment describes. These commands form a correct program in any module, with every abstraction typed. The checker (from a file or standard input), the web checker and the documented loop accept it whatever references are shared, as soon as enough steps are allowed, and the result is unique. The sizes in the comments are right: n abstractions, n occurrences of `a`, 2^n occurrences of `f 0 0`, 2^(n-1) occurrences of `fst x y` and of `snd x y`, n occurrences of `id`.", "quantifier": "all five generators, all numbers of rounds, all modules, all sharing oracles, all file systems", "why_tests_cant": "The generators do not end; a test can only run finitely many rounds. The terms grow exponentially.", "anchors": ["examples/bench/abst_chain.rs", "examples/bench/prod_chain.rs", "examples/bench/btree_app.rs", "examples/bench/fst_snd.rs", "examples/bench/id.rs"]}
{"id": "C62", "title": "What runs limited to some stages accept", "statement": "A run that omits sharing (and all after it) accepts if and only if all files are there and consist of commands by the grammar. A run that omits inference accepts if and only if moreover every name is introduced once per module and before it is used, and left-hand sides of rules are patterns. In both cases nothing is added to the context and the kernel is not used. A run that omits checks accepts only programs that are right up to bodies with a given type and right-hand sides of rules. The same for a run with a channel, and for levels 0, 1 and 2 of the web checker; what one level accepts, the levels below accept; from level 4 on it panics; nothing is said of a module that is not there.", "quantifier": "all kernels, options, file systems, paths, texts, lists of programs, with or without threads", "why_tests_cant": "The tests run all stages only; an equivalence between the verdict and the grammar or the scoping rules speaks of all texts.", "anchors": ["kocheck/src/stage.rs", "kocheck/src/process.rs", "kocheck/src/infer_checks.rs", "koweb/src/lib.rs"]}
{"id": "C63", "title": "The formatter as a program: layout, quiet mode, files and failures", "statement": "Without --parse, every command is printed on a line of its own, with one space between two tokens except after opening brackets and before closing brackets, commas and dots; the formatter fails exactly if there is a lexical error, and has then printed the layout of the tokens before it (and perhaps a space). With --quiet nothing is printed, whatever happens. The program ends well if and only if all files are there and each is parsed (with --parse) or has no lexical error or --quiet is given; otherwise it has printed the files before the first that is not there (an error of main) or not fine (a panic).", "quantifier": "all options, file systems, lists of paths, texts", "why_tests_cant": "There are no tests of the formatter; all token sequences and all lists of files.", "anchors": ["kofmt/src/main.rs"]}
{"id": "C64", "title": "Printed kernel terms can be read in one way only", "statement": "If the names of the symbols are names as in a text, differ from one another and are none of Kind, Type and _, and binders are named as in a text or not at all, then two terms of the kernel are printed alike exactly if they have the same tree (long and short terms, and a head and its application to nothing, are not told apart); then they denote the same term. The same holds for two terms in one line of the log, and for rewrite rules. Without the conditions it fails: symbols are printed without their module.", "quantifier": "all terms, rules, names", "why_tests_cant": "Display of terms is not tested; ambiguity depends on all pairs of terms.", "anchors": ["kontroli/src/app.rs", "kontroli/src/comb.rs", "kontroli/src/lterm.rs", "kontroli/src/kernel/sterm.rs", "kontroli/src/pattern.rs", "kontroli/src/rule.rs"]}
{"id": "C65", "title": "The program does not panic, and what its exit status means", "statement": "With any options, with or without a channel and threads, for all paths, texts and schedules, kocheck does not panic. So a run that ends has the exit status 0 or 1, and under the conditions of C49 it is 1 exactly if the paths do not denote texts of a correct and directed program.", "quantifier": "all options, channels, file systems, paths, schedules", "why_tests_cant": "All inputs and all interleavings of the threads.", "anchors": ["kocheck/src/main.rs", "kocheck/src/process.rs", "kocheck/src/infer_checks.rs"]}
{"id": "C66", "title": "Programs checked with eta", "statement": "With or without the option eta: a run that comes to an end accepts a program if and only if the paths denote texts that form a program which is correct by the textbook rules, where conversion contains eta exactly if the option is given, and in which every abstraction without a type stands where its type is known. With eta this needs that the rules only unfold definitions, as in every program without rewrite rules. What is correct without eta is correct with eta, but not conversely, and a program without rewrite rules that is accepted without eta is not refused with eta. If no text contains the sign for rewrite rules, both runs come to an end.", "quantifier": "all options, file systems, paths, texts, reference counts, numbers of steps", "why_tests_cant": "It is about all texts and all derivations of a declarative type system with untyped eta.", "anchors": ["kontroli/src/kernel/convertible.rs", "kontroli/src/kernel/infer_check.rs", "kontroli/src/gctx.rs", "kocheck/src/opt.rs", "kocheck/src/infer_checks.rs"]}
{"id": "C67", "title": "What a run logs", "statement": "A run on files without threads logs, for every command that it reads, one line that names the symbol or tells the number of rules, in order; after the line for some rules it logs one warning for each of them that has a variable without type or a wildcard on its left-hand side, that is, for each rule that it does not check. So if a run is accepted without a warning, all of its rules were checked, and the program is correct if the types of variables of rules are right and the rules are orthogonal. If a run fails, the commands before the last line that is not a warning are accepted by themselves, and the command named by that line (or the syntax error after it, or the file that cannot be opened) is at fault. Logging does not change the verdict.", "quantifier": "all file systems, paths, texts, options without threads, reference counts, numbers of steps", "why_tests_cant": "It relates the log to the meaning of all programs; a test sees a few logs.", "anchors": ["kocheck/src/process.rs:36-50", "kocheck/src/infer_checks.rs:8-45", "kocheck/src/main.rs:12-16"]}
{"id": "C68", "title": "Evaluation finds weak-head normal forms", "statement": "If the rules only unfold definitions, the evaluation of a term comes to an end with a value, for all reference counts, if and only if the term reduces in some way to a weak-head normal form; equivalently, if and only if the steps at its head come to an end. Otherwise no number of steps suffices. The comparison of two terms that have normal forms, with or without eta, comes to an end and tells whether they are convertible, even if they have infinite reductions. For rewrite rules this is false, even for orthogonal ones: arguments are evaluated for the first rule even if a later rule would not need them.", "quantifier": "all global contexts with definitions, terms (also ill-typed), reference counts", "why_tests_cant": "It is about termination and divergence of all terms, including terms with infinite reductions.", "anchors": ["kontroli/src/kernel/reduce.rs:154-240", "kontroli/src/kernel/convertible.rs"]}
{"id": "C69", "title": "Files that are not texts", "statement": "If the bytes of the files encode texts in UTF-8 and can be read to the end, the program does exactly what the properties about texts say about these texts; the line splitting on bytes agrees with that on texts. The program accepts (exit status 0) only then. It panics only if some file is not UTF-8 or cannot be read; and without threads and channel it does panic (exit status 101) if the first file begins with accepted lines followed by a line that is not UTF-8 or cannot be read.", "quantifier": "all byte sequences as files and standard input, I/O errors at any position, paths, options, schedules, capacities of the channel", "why_tests_cant": "Tests contain texts; the claim is about all byte sequences and all positions of invalid bytes and read errors.", "anchors": ["kocheck/src/process.rs:44-50", "kocheck/src/process.rs:56-90", "kocheck/src/path_read.rs:22-34", "kocheck/src/main.rs:11-48"]}
{"id": "C70", "title": "The example files compute", "statement": "The files examples/nat.dk, examples/bool.dk and examples/magic.dk, as they stand in the repository, are read as the commands given in the specification. Once nat.dk is accepted, `thm s : Dep e := dep e'.` is accepted, unless the checker does not come to an end, exactly if the expressions e and e' (of 0, succ, 1 to 9, add, mul, exp, fac, fib) have the same number as value; and the conversion test answers whether the values are the same. Once bool.dk is accepted, the conversion test answers whether expressions of truth values have the same value. Once magic.dk is accepted, `cons m` is accepted as a function of n elements that gives a list of length l exactly if n = m and l = m. Rules that only say what follows from other rules by conversion keep confluence. The theories of nat.dk and bool.dk are well-formed and every typed term is strongly normalising in them, although their rules do not give the types of their variables; so whatever name is introduced after nat.dk, the checker comes to an end, and with enough steps it accepts `thm s : Dep e := dep e'.` if the values are the same and otherwise gives an error. The same holds for definitions after nat.dk instead of theorems; so the benchmark examples/bench/fib24.dk is accepted with enough steps.", "quantifier": "all expressions, numbers n, l, m, fresh symbols, kernels that are exact, reference-count oracles, step bounds", "why_tests_cant": "Tests compute finitely many values; the claim is about all expressions, and also says that no wrong equation is accepted.", "anchors": ["examples/nat.dk:1-46", "examples/bool.dk:1-30", "examples/magic.dk:1-23", "kontroli/src/kernel/convertible.rs:1-57", "kontroli/src/kernel/reduce.rs:1-347", "kocheck/src/infer_checks.rs:14-75", "examples/bench/fib24.dk:1-3"]}
{"id": "C71", "title": "What is proved is true", "statement": "Types can be read as sets of terms: a product as the functions that map the one set into the other, products and convertible types alike. If every constant belongs to what its type is read as, every typed closed term belongs to what its type is read as; so a type that is read as the empty set has no closed term (consistency). The file examples/fo_imp.dk, as it stands in the repository, is read as the commands given in the specification. If theorems that state formulas of minimal implicational logic are accepted after its declarations, with whatever proofs, then the formulas are provable in natural deduction. Conversely a formula has a proof term that is right by the textbook exactly if it is provable in natural deduction, and such a proof term is accepted by every exact kernel, unless the checker does not come to an end (which C72 excludes).", "quantifier": "all theories, readings, terms; all formulas, proof terms, lists of theorems, fresh symbols, kernels that are exact, reference-count oracles, step bounds", "why_tests_cant": "Consistency says that no proof term whatsoever is accepted for an unprovable formula; tests can try only finitely many terms.", "anchors": ["examples/fo_imp.dk:1-5", "kontroli/src/kernel/infer_check.rs:1-117", "kontroli/src/kernel/convertible.rs:1-57", "kocheck/src/infer_checks.rs:14-75"]}
{"id": "C72", "title": "Termination where rules compute types", "statement": "If types can be read as sets of terminating terms (products as functions, convertible types alike) such that every constant belongs to what its type is read as, and the rules are confluent, then every typed term is strongly normalising, even if rules compute types. In a session only the constants for which rules are given have to be looked at. This applies to examples/fo_imp.dk: whatever names are introduced after its declarations, with whatever closed definitions and proofs, the checker comes to an end; with enough steps it accepts some proof of a formula exactly if the formula is provable in minimal logic, and for whatever is given as a proof of an unprovable formula it gives an error. It also applies to examples/magic.dk, whose rules compute types by recursion and do not say the types of their variables: once the file is accepted, its theory is well-formed and normalising, so whatever name is introduced next, the checker comes to an end; with enough steps it accepts `cons m` as a function of n elements that gives a list of length l if n = m and l = m, and otherwise gives an error.", "quantifier": "all theories without eta, sessions, formulas, proof terms, lists of declarations, definitions and theorems, fresh symbols, reference-count oracles, step bounds", "why_tests_cant": "Termination of all checks is a claim about all terms; no test can tell that a check takes long from that it does not end.", "anchors": ["examples/fo_imp.dk:1-5", "examples/magic.dk:1-23", "kontroli/src/kernel/reduce.rs:1-347", "kontroli/src/kernel/infer_check.rs:1-117", "kontroli/src/kernel/convertible.rs:1-57", "kocheck/src/infer_checks.rs:14-75"]}
{"id": "C73", "title": "The check that does not terminate", "statement": "A term without weak-head normal form is not evaluated, nor compared to any other term, whatever the number of steps and the rules are. examples/bench/inf.dk (after examples/nat.dk) has inf, which rewrites to succ inf, and to_zero, which takes off succ: all terms to_zero (succ (... inf)) are convertible and none has a weak-head normal form. So the last command of the file, does_not_terminate : Dep (to_zero inf) := dep (to_zero (succ inf)), is right by the textbook rules, and the checker neither accepts nor refuses it, with any number of steps; the same holds for any two different numbers of succ. With eta it is not accepted either.", "quantifier": "all rules, terms, step bounds, reference-count oracles, numbers of succ, fresh symbols, kernels that accepted the beginning of the file", "why_tests_cant": "That a run never ends cannot be observed; a test can only see that it has not ended yet.", "anchors": ["examples/bench/inf.dk:1-11", "examples/nat.dk:1-45", "kontroli/src/kernel/reduce.rs:146-240", "kontroli/src/kernel/convertible.rs:1-57", "kontroli/src/kernel/infer_check.rs:58-116"]}
