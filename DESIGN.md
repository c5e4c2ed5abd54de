# Formal model of kontroli-rs in Lean 4

Everything is in `lean/Verif`.  The source is `/repo` (01mf02/kontroli-rs at the pinned commit), read as text.

Layout

* `Verif/Model/*`  computable transcription of the Rust code, one definition per function, each citing file and lines.
* `Verif/Spec/*`   small independent specifications: plain lambda terms, the equational theory, the declarative
  type systems, the named-scoping specification, the order of modules...
* `Verif/Proofs/*` lemmas.
* `Verif/Props/*`  one theorem (or a few) per property of `properties.jsonl`, with a concrete non-trivial instance.

## Trusted base

* The Lean 4.33.0 kernel; every property theorem depends only on `propext`, `Classical.choice`, `Quot.sound`
  (printed by `#print axioms` in the `Props` files).
* The transcription from Rust to Lean itself (by reading).
* External crates and std, modelled by what they document:
  * `Rc`: cloning shares; `Rc::get_mut`/`try_unwrap` succeed or not according to an arbitrary oracle stream
    (`St.rc`), so theorems hold for all possible reference counts.
  * `RefCell`: a flag "mutably borrowed"; `borrow`/`borrow_mut` on a flagged cell panic.
    Shared borrows are not counted: in `match_pat` a `Ref` lives only until the stack has been cloned.
  * `lazy_st::Thunk`: unevaluated / evaluating / evaluated; entering an evaluating thunk panics.
  * `im`/`fnv` hash maps: finite maps (association lists with unique lookup).
  * `nested_modules::Context`: see `Model/Symbols.lean`; the crate source is not on this machine. Modelled as a tree of
    modules with an open path; `find path` yields, innermost open module first, the module reached from it by `path`.
  * `logos` lexer: longest match, literals win over regexes at equal length, an unmatched character is one error token;
    a callback that returns `None` makes an error token and lexing goes on where the callback stopped bumping.
  * `std::path` (`components`, `parent`, `file_stem`, `is_dir` of a constant file system) for Unix paths in UTF-8
    (`Model/Files.lean`); `BufRead::lines` and `str::lines` (`Model/Text.lean`).
  * The file system is constant during a run. Files are texts in all properties but C69, where they are bytes whose reading may fail; C69 relates
    both. UTF-8 is that of Lean's core library (`String.utf8EncodeChar`, `ByteArray.utf8Decode?`). A failure of `build_global` in main.rs L24
    is not modelled.
  * `rayon`/`flume`: arbitrary schedules / FIFO channel.
* `usize` overflow on addition is ignored (indices are `Nat`); subtraction underflow is a panic.
* Logging other than C67 (the lines of a run on files without threads, at the levels `info` and `warn`) and C64 (how terms and rules are printed), wall-clock, file reading, allocation failure and stack overflow are not modelled.
* Non-termination: recursive functions take fuel and return `timeout`; all theorems quantify over all fuel, so they speak
  of all terminating runs (partial correctness), and panic freedom speaks of all prefixes of runs. C51 and C52 are the
  theorems on termination: from some fuel on there is a result, so the code returns.

## What is modelled

| Rust | Lean |
|------|------|
| kontroli comb.rs, lterm.rs, pattern.rs, rule.rs, app.rs | `Model/Base`, `Model/Kernel` |
| kontroli kernel/sterm.rs, kernel/subst.rs | `Model/Base`, `Model/Subst` |
| kontroli kernel/reduce.rs, kernel/convertible.rs | `Model/Monad` (heap, `RefCell`, thunks, `Rc` oracle), `Model/Reduce` |
| kontroli kernel/infer_check.rs, kernel/mod.rs, typing.rs | `Model/Infer`, `Model/Kernel` |
| kontroli gctx.rs | `Model/GCtx` |
| kontroli symbol.rs, symbols.rs, share.rs, command.rs | `Model/Symbols`, `Model/Share` |
| dedukti-parse lex.rs, symb.rs, term.rs, cmd.rs, lib.rs | `Model/Lex`, `Model/Syntax`, `Model/Parse`, `Model/Text` |
| kocheck infer_checks.rs, stage.rs, opt.rs (omits), event.rs, process.rs | `Model/Driver`, `Model/Process` |
| kocheck path_read.rs | `Model/Files` |
| kocheck main.rs (channel, threads, exit status) | `Model/Channel`, `Model/Main` |
| kocheck process.rs `log_cmd`, infer_checks.rs L29 (log lines of a run without threads) | `Model/Log` |
| kocheck process.rs `parse` (L44-50) on bytes | `Model/Raw` |
| kofmt main.rs (arguments as a structure, without log) | `Model/Fmt`, `Model/FmtMain` |
| dedukti-parse examples/symcount.rs, examples/inline.rs; misc/dep2dot.rs | `Model/Count`, `Model/Inline`, `Model/Dot` |
| koweb parse_make.rs | `Model/Make` |
| kontroli/src/lib.rs (documented loop), kontroli/benches/bench.rs (`check`, `parse`) | `Model/Library` |
| kontroli: `Display` for terms, patterns and rules (app.rs, comb.rs, lterm.rs, kernel/sterm.rs, pattern.rs, rule.rs) | `Model/Display` |
| examples/bench/*.rs (what is printed after n rounds; the range of the counter is not modelled) | `Model/Bench` |
| koweb lib.rs (`produce`, `consume`, `get_omit`, `check_single`, `check_multiple`; fetching is a parameter) | `Model/Web` |

The drivers of `Model/Driver` and `Model/Process` are parametric in the kernel (`Kern`: the outcome of one kernel call as a
function of context and argument).  `Kern.Real` (`Spec/Program.lean`) says that a `Kern` answers by runs of the modelled
kernel, each with some fuel and some reference counts.

Not modelled: command line parsing (crate `clap`), logging with threads or a channel, the JavaScript glue and the fetching of koweb (output and
conversions in lib.rs, fetch.rs), measuring in benchmarks.

## Per property plan

| id | model | proof |
|----|-------|-------|
| C01 | `Model/Reduce`: the abstract machine with heap of closures and thunks | ghost terms for each heap cell, invariant "denotation of a cell is `Conv` to its ghost term"; induction on fuel |
| C02 | `convertible`, `step*` | same Hoare triple; `Conv` congruence rules |
| C03 | `State.whnf` | post-condition of the loop |
| C04, C05 | `infer`, `check` | induction on fuel into the declarative system `HasType` |
| C06, C07 | `intro`, `check`, `GCtx.insert`, `addRule` | history invariant, weakening of derivations along context extension |
| C08 | all of the above with explicit `panic` results | ghost ranks (rationals): every reference of a cell has smaller rank, every lock has rank at least the level of the running computation |
| C09 | `applySubst` with oracle | equation with parallel substitution on plain terms |
| C10, C11, C12, C13, C14 | `GCtx` | case analysis + history induction; C13 is false of the code: negation with witness + `_partial` for the other symbols |
| C15, C16, C17 | `Symbols` | C17 false of the code: negation + `_partial` |
| C18, C19, C20 | `Share` | structural induction against a functional specification |
| C21–C28 | `Lex`, `ParseTerm`, `ParseCmd`, `Parse` | structural induction on tokens/terms; C28 false: negation + `_partial`; `Delivery`: what holds instead, exactly (C23_exact, C28_exact, C28_iff) |
| C29–C31 | `Process` | induction on event lists and schedules |
| C32 | `rewrite` | corollary of C04/C05 |
| C33 | | `Conv` parameterised by eta |
| C34 | | reflexivity by computation; symmetry from the simulation of C39, in which constraints may be swapped |
| C35 | | part of the triple for infer/check |
| C36 | `Model/Files` | paths as lists of components; textual specification in `Spec/Path.lean` |
| C37 | `Model/Make` | the order is a topological order of the reachable part (`Spec/Make.lean`); cycles: no fuel suffices |
| C38 | | strict type system of `Spec/Typing.lean` (conversion only between types that have a sort); subject reduction, rules preserve types (C46), invariant `GCtx.Right` along a session |
| C39 | | simulation between any two runs on terms that denote the same (`Proofs/Sim*.lean`): heaps related by a growing relation on cells, results denote the same plain terms; lifted to inference, the kernel, sessions and programs. No assumption on the rules; about runs that end |
| C40 | | false for theorem/annotated definition: negation + `_partial`; true if rules are confluent and preserve types |
| C41 | `Model/Process`, `Model/Files` | composition of parsing, scoping, sharing, checking for whole runs |
| C42 | | `Apart`: terms with distinct rigid heads are not convertible to each other; a negative answer exhibits it |
| C43 | | confluence by parallel reduction for orthogonal rules, where two rules for a symbol may overlap at the root if they agree there, as `and F _ --> F` and `and _ F --> F` (`Proofs/Orthogonal.lean`); the test decides conversion; with eta, for rules that only unfold definitions (`Spec/Eta`, `Proofs/Eta`, `Proofs/EtaApart`, `Props/Eta`) |
| C44 | | completeness of the bidirectional algorithm against the strict system; refusals are justified; levels, and places where types of abstractions are known (`Spec/Levels.lean`; necessary and sufficient by `Proofs/Known.lean`) |
| C45 | | C44 along commands and sessions |
| C46 | | rules typed as the code checks them preserve types (substitution read off a match is typed) |
| C47 | `Model/Parse` | declarative grammar over tokens (`Spec/Grammar.lean`); an invariant of the automaton states for soundness, runs of the automaton by induction on derivations for completeness; hence the grammar is not ambiguous. `Spec/Program.lean` (C41) says what a program is by this grammar, not by the parser |
| C48 | `Model/Lex`, `Model/Text` | declarative words and longest match (`Spec/Tokens.lean`); comments by counting their marks; lines of a text |
| C49 | all models together | one notion of correct program (`Spec/Correct.lean`: grammar, name resolution, typing rules in the theory made so far); soundness by induction on the session from C38, completeness from C44/C45 and from success of sharing and parsing (`Proofs/CorrectProgram.lean`); a test for orthogonality (`Spec/Overlap.lean`, not part of the code) shows that the hypothesis is meaningful; abstractions without types are allowed where the types are known (`Directed`), which is also necessary (`C50_directed_needed`) |
| C50 | `Model/Web` | as C41 and C49, with the parser for whole texts (C47_strict, C24_strict) |
| C51 | `Model/Reduce`, `Model/Infer`, `Model/Driver` | "comes to an end" is: from some fuel on the result is the same and not `timeout`; strong normalisation is accessibility of one-step reduction (`Spec/Normal.lean`); the machine is measured by the accessibility of its reading together with sub-terms (`Proofs/Terminate.lean`), inference by the size of the term (`Proofs/TerminateInfer.lean`). With eta, the terms that are compared are parts of the given ones up to renaming, applied to new variables; the comparison is measured by a game on the accessibility of both sides (`Proofs/TerminateEta.lean`) |
| C52 | all models | reducibility candidates on simple types into which dependent types are erased (`Proofs/Reducible.lean`, `Proofs/StaticNormal.lean`), also with eta in the conversion rule; what reaches the kernel before the first failure is a prefix of a program (`Proofs/Delivered.lean`) |
| C53 | `Model/Channel`, `Model/Main` | transition system of producer, channel (queue with capacity, rendezvous for 0) and consumer; `Piped` is derived from it; assumption on rayon: after a failure the threads of the pool stop eventually |
| C54 | `Model/Count` | a map of counts as a function; spec: occurrences since the last introduction of the name; the documented claim fails for rules and for names that occur before their introduction |
| C55 | `Model/Inline` | replacement that uses up its bodies against replacement at all occurrences; the invariant is that bodies that were used up have no occurrences left (`Proofs/Inline.lean`); names in the output are names of the input, so it can be parsed (`Proofs/Parsed.lean`) |
| C56 | `Model/Dot` | words, first separator and extensions stated without functions; then Makefiles as dkdep writes them |
| C57 | all models | truth values of types, with or without eta, preserved by reduction of terms that begin neither with a variable nor with an object constant, as all typed terms that are not objects do (`Proofs/Consistent.lean`); false with rewrite rules for types (`C57_rules_false`) |
| C58 | all models | levels and descent into patterns (`Spec/Structural.lean`, with a test); reducibility of the symbols of rules by induction on the level and on the normalising argument (`Proofs/Structural.lean`); the condition on variables inside patterns is needed (`C58_nested_false`) |
| C59 | `Model/Library` | the loop is the checker without the checks of rules (`seqLoop_lib`); soundness and completeness by sessions (`lib_sound`, `lib_complete`); programs without paths can be moved to another module (`Shared.move`) |
| C60 | `Model/Parse`, `Model/Lex` | every state that the parser reaches can be completed to a text (`ready_complete`, `term_complete`, `viable_iff`), so it does not go on too far; the kind of an error by cases of the state, given what may follow (`Follows`, `pstep_kind`); the specification (`Spec/Viable.lean`) only uses the grammar |
| C61 | `Model/Bench`, all of the checker | lines that hold one command each are lexed and parsed one by one (`lines_text`); a family of introductions whose names differ, whose constants were introduced before and that are right in every theory with the types so far makes a correct program (`Gen.Good.correct`); then C51/C52 (programs without rules come to an end), C50 and C59. The specification (`Spec/Bench`) gives the commands as trees, and counts occurrences of a term. |
| C62 | `Model/Process`, `Model/Driver`, `Model/Web` | without sharing or inference only errors are left of the stream, so the kernel is not called (`limited_errors`); then the specifications of parsing and sharing (C24, C41, C47); without checks, the part of soundness that inference gives (`Spec/Limited`) |
| C63 | `Model/Fmt`, `Model/FmtMain` | the layout is a relation between tokens and text (`Spec/Layout`); the flag `space` is determined by the token before (`printTokens_line`) |
| C64 | `Model/Display` | a term is read from its text by `Shape` (`Spec/Display`); printing is a function of the shape, and injective by induction on the length of the text |
| C65 | `Model/Main` | absence of panics is an invariant of the pool and of the channel, from C08 (kernel) and C21 (parser) |
| C66 | all models | the theorems of C38, C44–C46, C49, C50 for any eta: instead of confluence they need `Theory.Church` (`Spec/Eta`: confluence without eta; rules that only unfold definitions with eta), in contexts that are well-formed (`GCtx.Apt`); by that, convertible products have convertible domains and bodies, and types keep their sorts, also with untyped eta. `SessionIn eta`, `CorrectIn eta`, `RegularIn eta` (`Spec/Correct`) are the notions of C49 with eta as a parameter; that eta is harmless is a translation of derivations (`Strict.withEta`) |
| C67 | `Model/Log` | the loops of `run` once more, one command after another as in the code, with the lines that they log; `C67_run` is the refinement of `RunFiles` (where the commands of a file are shared all at once). The log of a program is a relation on written commands (`Spec/Log`), in which a rule is complete by `PRule.Full` of C49; so the absence of warnings is the hypothesis `full` of C49 and C66 (`C67_correct`). With threads or a channel, and the lines of kofmt: not modelled |
| C68 | `Model/Reduce` | head reduction (`Spec/Head`) is deterministic; parallel reduction is head steps followed by a parallel step inside (`Proofs/Head`), so reduction in any way to a weak-head normal form makes the head steps finite; the machine is measured by their number (`Proofs/HeadMachine`), the comparison by the size of the normal forms (`Proofs/WeakNormal`). For rewrite rules the claim is false of the code (`C68_rules_false`), as for any strategy that tries the rules from the first to the last |
| C69 | `Model/Raw` | files as bytes, followed by the end of the file or an I/O error; `rawLines` splits bytes (not characters) into lines and decodes each line, as `BufRead::lines` does, and is shown to agree with `splitLines` on texts. The parser is `Lazy` once more, over lines that may be errors. `Spec/Raw` says what it means that files are texts (`Texts`). `C69_panics` is for runs without threads and channel; with them, `C69_accepts` says that the program does not accept |
| C70 | `Spec/Arith`, `Spec/Fib` | the texts of three example files of the repository and of the benchmark fib24.dk (checked against `/repo/examples` when they were copied), the commands that they stand for (shown by computation with the parser and `share` of the model, tested by `cmdsAre` in `Proofs/SameCmd`), and the values of expressions with Lean's and Mathlib's functions. Confluence of nat.dk is by `C70_redundant`: `fac (succ 0) --> 1` follows from the other rules. For nat.dk and bool.dk that the checker comes to an end is shown (`Proofs/Like`, `Proofs/ArithEnds`: the rules do the same as rules with typed variables, to which the criterion of C58 applies); for magic.dk, whose rules are about types, it is a hypothesis of `C70_magic`, and C72 shows it |
| C71 | `Spec/Reading`, `Spec/Logic` | a reading of types as sets of terms, depending on worlds (`Reads`: a product is the terms that map the one set into the other in all later worlds, and convertible types are read alike); natural deduction of minimal implicational logic (`Proves`); the text of examples/fo_imp.dk and the commands it stands for. Worlds are sets of formulas; `prf φ` is read as the terms, in the worlds from which `φ` is provable. `C71_fo_complete` has the case of a timeout, which C72 excludes |
| C72 | `Spec/Candidate` | types read as sets of strongly normalising terms (`Denotes`; `Flat`: what is no product and no sort is read as all strongly normalising terms; `FlatT`, `FlatK`: `Type` and `Kind` as the terms that can be read; `Fine`: a term belongs to what its type is read as). Unlike the criterion of C58, rules may compute types; without eta. Applied to fo_imp.dk followed by declarations, definitions and theorems (`Cmd.Later`), and to magic.dk followed by any introduction |
| C73 | `Spec/Unending` | the text of examples/bench/inf.dk (read after nat.dk, on which it depends) and the commands it stands for; `HasWhnf`: the term reduces to a `Whnf` of C06. That the checker does not end is: for every fuel the outcome is `timeout`. Not refused is by C44, not accepted by following the run of the check up to the comparison of the arguments of `Dep` |

## Validation of the model

The code is not run.  As a check of the transcription (not a proof), the model was evaluated with `#eval` on files of the repository
(with a constant sharing oracle, for `magic.dk` with both): `examples/bool.dk`, `nat.dk`, `magic.dk`, `fo_imp.dk` and `bool.dk` with `nat.dk` and `bench/or_n` are accepted, as their comments and the benchmarks
demand; `magic.dk` with the line that it comments out as failing, and wrong variants of the benchmark statement, are refused.

## Findings (where the code differs from what a user may expect)

* A file that is not UTF-8 (even if only in a comment), or a directory given as a file, makes kocheck panic instead of reporting an error: `line.unwrap()` in process.rs L46 (C69).
* `GCtx::insert` and `Symbols::insert` overwrite the old entry before returning the error (C13, C17).
* Adding a batch of rules is not atomic: rules before the failing one stay (C14).
* `intro` documents that the type is "verified to be of a proper sort"; `define` with annotation and `theorem` only verify
  that it is typable (C40).
* `Strict` yields `Err(ExpectedInput)` for a text ending in a pragma such as `#EVAL x.`, `Lazy` yields nothing (C23).
* `Lazy` after an unclosed end of input returns `ExpectedInput` for ever.
* `Lazy` on a line with commands followed by an error returns the error first and afterwards the buffered commands in
  reverse order (C28).
* `\r` is not whitespace for the lexer, `lines()` strips it, so CRLF files differ between strict and lazy (C23).
* `{|...|}` identifiers spanning lines differ between strict and lazy (C23).
* Rules with a context variable that does not occur on the left never fire.
* Rules with an unannotated variable or wildcard are not type-checked at all (C32).
* In `check`, the annotation of an abstraction need only be typable and convertible with the domain.
* kofmt `--parse` and `Display for Command` print commands without terminating dot or newline (C22).
* `Display` for symbols leaves out the module, so different constants may be printed alike in the log, and a constant named `Kind` like the sort
  (C64_ambiguous).
* kofmt `--scope` prints variables as indices, which are names when read again (C22_scope_false).
* `def x` with neither type nor term, and an empty list of rules, print to text that does not parse (C22_false).
* `symcount` neither counts occurrences in rules nor, for a name, what comes before its introduction (C54).
* `inline` replaces only the first occurrence of a name and drops its definition, replaces names in scope of a binder of the
  same name or of a name in the body, and leaves rules alone: correct programs become incorrect (C55).
  The documentation (`dedukti-parse/examples/README.md`) asks for names that `symcount` counts once; this excludes the first, but not the others, as occurrences in rules are not counted either (`C55_pipeline_false`).
* kofmt panics on an error token and drops unclosed comments (C26_false).
* The scoper's context keeps the bound names and the stack of an unfinished command after an error (C24_after_error_false).
* `./a.dk`, absolute paths and paths with `..` are refused as module paths; a lone `-` (also `-/.`) means standard input and
  gives the module name `-` (C36).
* The documented loop and the benchmarks do not check rules (the documentation says so): ill-typed rules are accepted (C59_rules_false).
* Errors of the parser do not always name what could have followed: after `[`, a comma is said to be possible (C60_comma_false); for a `.` after the type of a variable of a rule, a command is said to be expected (C60_cmd_false).
* koweb: cyclic dependencies recurse for ever (C37_cycle); dependencies without an address and unknown modules are silently
  skipped (C50_truncated, C50_missing).
* Types of the variables of a rule context are not checked to be types (hypothesis of C38_session).
* Matching is incomplete with eta (C43_eta_false; right for programs without rewrite rules: C43_eta_definitions); negative answers mean something only for confluent rules
  (C43_not_confluent).
* Sorts are compared before evaluation in `bind_of_type` and for products (C44_levels_needed).
* Abstractions without annotation are not inferable (C44_domain_free): there are correct programs that are refused (C50_directed_needed).
