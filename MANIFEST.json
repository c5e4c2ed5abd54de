{
 "claims": [
  {
   "property": "C01",
   "status": "proved",
   "theorems": [
    "Kontroli.C01_whnf_sound",
    "Kontroli.C01_whnf_reduct"
   ],
   "note": "For the modelled evaluator with explicit heap, any oracle for reference counts, any fuel; both as conversion and as directed reduction."
  },
  {
   "property": "C02",
   "status": "proved",
   "theorems": [
    "Kontroli.C02_convertible_sound"
   ],
   "note": "Conversion is the least congruence with beta, rules, eta iff the flag is set; annotations of abstractions are ignored, as in the code."
  },
  {
   "property": "C03",
   "status": "proved",
   "theorems": [
    "Kontroli.C03_whnf",
    "Kontroli.C03_shape",
    "Kontroli.C03_no_beta",
    "Kontroli.C03_no_rule"
   ],
   "note": "Specification of weak-head normal forms in Spec/Whnf.lean, independent of the machine; C03_no_rule is the direct reading for left-linear rules."
  },
  {
   "property": "C04",
   "status": "proved",
   "theorems": [
    "Kontroli.C04_infer_sound",
    "Kontroli.C04_infer_sound_long"
   ],
   "note": "Declarative system HasType (conversion without sort condition). The strict system is C38. Contexts of long terms need no condition; arbitrary short contexts must be free of Kind."
  },
  {
   "property": "C05",
   "status": "proved",
   "theorems": [
    "Kontroli.C05_check_sound",
    "Kontroli.C05_check_sound_long"
   ],
   "note": "As C04."
  },
  {
   "property": "C06",
   "status": "proved",
   "theorems": [
    "Kontroli.C06_intro_sound"
   ],
   "note": ""
  },
  {
   "property": "C07",
   "status": "proved",
   "theorems": [
    "Kontroli.C07_session_sound"
   ],
   "note": "For the sequential driver with the modelled kernel (any fuel/oracle per call); the concurrent driver is related by C30."
  },
  {
   "property": "C08",
   "status": "proved",
   "theorems": [
    "Kontroli.C08_no_panic"
   ],
   "note": "All entry points of the kernel, any fuel, from the empty heap, any reference counts."
  },
  {
   "property": "C09",
   "status": "proved",
   "theorems": [
    "Kontroli.C09_shift",
    "Kontroli.C09_subst",
    "Kontroli.C09_apply_subst"
   ],
   "note": "Totality and exact result for every oracle and every heap."
  },
  {
   "property": "C10",
   "status": "proved",
   "theorems": [
    "Kontroli.C10_theorem_opaque"
   ],
   "note": "The resulting context is the same for any two accepted proofs, and the symbol is static for ever (C11_static_forever)."
  },
  {
   "property": "C11",
   "status": "proved",
   "theorems": [
    "Kontroli.C11_static_forever",
    "Kontroli.C11_static_iff",
    "Kontroli.C11_rules_typed",
    "Kontroli.C11_static_stuck"
   ],
   "note": "Rules can be attached to definitions and also to injective declarations (`inj`), see C11_static_iff."
  },
  {
   "property": "C12",
   "status": "proved",
   "theorems": [
    "Kontroli.C12_grows",
    "Kontroli.C12_grows_history",
    "Kontroli.C12_intro_exact",
    "Kontroli.C12_rules_exact"
   ],
   "note": ""
  },
  {
   "property": "C13",
   "status": "partial",
   "theorems": [
    "Kontroli.C13_false",
    "Kontroli.C13_refused_partial"
   ],
   "note": "False of the code: the type of the symbol itself is overwritten (C13_false). The partial theorem shows that nothing else changes."
  },
  {
   "property": "C14",
   "status": "proved",
   "theorems": [
    "Kontroli.C14_first_match",
    "Kontroli.C14_no_match",
    "Kontroli.C14_add_rules"
   ],
   "note": ""
  },
  {
   "property": "C15",
   "status": "proved",
   "theorems": [
    "Kontroli.C15_get_some",
    "Kontroli.C15_get_none",
    "Kontroli.C15_unique",
    "Kontroli.C15_set_path"
   ],
   "note": "The crate nested_modules is modelled as a tree of modules with an open path (source not in the repository)."
  },
  {
   "property": "C16",
   "status": "proved",
   "theorems": [
    "Kontroli.C16_inserted",
    "Kontroli.C16_others",
    "Kontroli.C16_distinct",
    "Kontroli.C16_fresh"
   ],
   "note": "Lookup of the name qualified by the current module itself may change too, as it should; all other lookups are unchanged."
  },
  {
   "property": "C17",
   "status": "partial",
   "theorems": [
    "Kontroli.C17_false",
    "Kontroli.C17_refused_partial",
    "Kontroli.C17_refused_iff"
   ],
   "note": "False of the code: the entry is overwritten before the error is returned (C17_false). The partial theorem shows that nothing else changes."
  },
  {
   "property": "C18",
   "status": "proved",
   "theorems": [
    "Kontroli.C18_ok",
    "Kontroli.C18_error",
    "Kontroli.C18_sym",
    "Kontroli.C18_den"
   ],
   "note": "For every symbol table and parsed term; the shape is given by a replacement function independent of the model, and by the plain term denoted."
  },
  {
   "property": "C19",
   "status": "proved",
   "theorems": [
    "Kontroli.C19_telescope",
    "Kontroli.C19_den_type",
    "Kontroli.C19_den_term"
   ],
   "note": "Equivalence of successful results (the reported error may name another unknown constant). Excludes introductions without type and body, which the parser never produces."
  },
  {
   "property": "C20",
   "status": "proved",
   "theorems": [
    "Kontroli.C20_accepted_iff",
    "Kontroli.C20_result",
    "Kontroli.C20_pattern_unique"
   ],
   "note": "Exact characterisation of accepted rules and of their patterns."
  },
  {
   "property": "C21",
   "status": "proved",
   "theorems": [
    "Kontroli.C21_strict_no_panic",
    "Kontroli.C21_lazy_no_panic"
   ],
   "note": "Strict and lazy parser, any scoping function, any text or lines, also after errors."
  },
  {
   "property": "C22",
   "status": "proved",
   "theorems": [
    "Kontroli.C22_term",
    "Kontroli.C22_commands",
    "Kontroli.C22_false",
    "Kontroli.C22_text",
    "Kontroli.C22_lines",
    "Kontroli.C22_range",
    "Kontroli.C22_kofmt",
    "Kontroli.C22_kofmt_lazy",
    "Kontroli.C22_kofmt_scope",
    "Kontroli.C22_kofmt_lazy_scope",
    "Kontroli.C22_scope_false",
    "Kontroli.C22_kofmt_false"
   ],
   "note": "Terms (C22_term) and lists of commands (C22_commands), unscoped, with valid names; Display for Command prints no final dot, which the statement adds. Definitions with neither type nor term and empty lists of rules, which the parser never yields, do not parse back (C22_false)."
  },
  {
   "property": "C23",
   "status": "partial",
   "theorems": [
    "Kontroli.C23_exact",
    "Kontroli.C23_same_commands",
    "Kontroli.C23_converse_partial",
    "Kontroli.C23_first_error",
    "Kontroli.C23_false",
    "Kontroli.C23_moustache_false"
   ],
   "note": "Acceptance carries over from the whole text to lines; the converse without pragmas; the first error is the same. False as stated: a trailing pragma is an error for the strict parser only; a {| ... |} across lines is an error for the lazy one only. C23_exact says exactly which lines are accepted: those whose text is accepted when followed by any complete command."
  },
  {
   "property": "C24",
   "status": "proved",
   "theorems": [
    "Kontroli.C24_strict",
    "Kontroli.C24_lazy",
    "Kontroli.C24_innermost",
    "Kontroli.C24_constant",
    "Kontroli.C24_constant_iff",
    "Kontroli.C24_after_error_false"
   ],
   "note": "Parsing with the scoper of the checker is parsing without scopes followed by scoping of the tree, up to and including the first error, for both parsers; scoping of the tree is a separate specification, characterised by C24_innermost and C24_constant_iff. The name Type without binder is the sort. After an error, binders of the failed command stay in scope (C24_after_error_false); the checker never parses after an error."
  },
  {
   "property": "C25",
   "status": "proved",
   "theorems": [
    "Kontroli.C25_comment_is_space",
    "Kontroli.C25_parse",
    "Kontroli.C25_unclosed",
    "Kontroli.C25_reported"
   ],
   "note": "At token level, hence for parsing; unclosed comments are reported with their exact number, and conversely."
  },
  {
   "property": "C26",
   "status": "proved",
   "theorems": [
    "Kontroli.C26_tokens",
    "Kontroli.C26_idempotent",
    "Kontroli.C26_false"
   ],
   "note": "For all texts without lexical errors and unclosed comments; C26_false shows that unclosed comments are dropped and that the formatter panics at lexical errors."
  },
  {
   "property": "C27",
   "status": "proved",
   "theorems": [
    "Kontroli.C27_strict",
    "Kontroli.C27_lazy"
   ],
   "note": "Whole texts separated by whitespace, and sequences of lines; what follows may be anything."
  },
  {
   "property": "C28",
   "status": "partial",
   "theorems": [
    "Kontroli.C28_exact",
    "Kontroli.C28_iff",
    "Kontroli.C28_false",
    "Kontroli.C28_partial"
   ],
   "note": "False of the code (witness); holds when commands end at line ends. C28_exact gives the order of delivery exactly, and C28_iff says that the property holds if and only if no command is complete on the line of the first error."
  },
  {
   "property": "C29",
   "status": "proved",
   "theorems": [
    "Kontroli.C29_accepts_iff",
    "Kontroli.C29_same_context",
    "Kontroli.C29_pipe_never_refuses",
    "Kontroli.C29_run_never_refuses",
    "Kontroli.C29_same_verdict"
   ],
   "note": "Accept/refuse equivalence of run and produce+consume for all files, options and schedules, same context; without threads and if all files open, also the same error. Hypothesis of the driver model: outcomes of kernel calls are functions of context and command (Kern)."
  },
  {
   "property": "C30",
   "status": "proved",
   "theorems": [
    "Kontroli.C30_accepts_iff",
    "Kontroli.C30_never_refuses",
    "Kontroli.C30_has_verdict"
   ],
   "note": "For every schedule of the pool; the outcome of one check is a function of the context and the check (Kern). Order of several errors is arbitrary in the code and in the model."
  },
  {
   "property": "C31",
   "status": "proved",
   "theorems": [
    "Kontroli.C31_omit_check",
    "Kontroli.C31_omit_infer",
    "Kontroli.C31_parallel",
    "Kontroli.C31_run",
    "Kontroli.C31_piped"
   ],
   "note": "For streams of commands, and for whole runs (direct and piped) including the omitted share stage; any combination of threads."
  },
  {
   "property": "C32",
   "status": "proved",
   "theorems": [
    "Kontroli.C32_rule_sound"
   ],
   "note": "For rules with complete annotation and no wildcard, as stated; other rules are not checked by the code at all."
  },
  {
   "property": "C33",
   "status": "proved",
   "theorems": [
    "Kontroli.C33_no_eta",
    "Kontroli.C33_eta"
   ],
   "note": ""
  },
  {
   "property": "C34",
   "status": "proved",
   "theorems": [
    "Kontroli.C34_refl",
    "Kontroli.C34_symm",
    "Kontroli.C34_refl_den"
   ],
   "note": "Reflexivity by computation (C34_refl, without evaluation); symmetry for all contexts, terms, heaps and reference counts (C34_symm), whenever both runs end; C34_refl_den: yes on any two representations of a plain term. No confluence needed."
  },
  {
   "property": "C35",
   "status": "proved",
   "theorems": [
    "Kontroli.C35_context_restored"
   ],
   "note": ""
  },
  {
   "property": "C36",
   "status": "proved",
   "theorems": [
    "Kontroli.C36_module_path",
    "Kontroli.C36_ordinary",
    "Kontroli.C36_unique",
    "Kontroli.C36_dash",
    "Kontroli.C36_dash_module"
   ],
   "note": "std::path (components, parent, file_stem) modelled for Unix UTF-8 paths; a path with a leading ./, a .. or a root is refused as a module path, and a lone dash means standard input with module name -."
  },
  {
   "property": "C37",
   "status": "proved",
   "theorems": [
    "Kontroli.C37_order",
    "Kontroli.C37_returned",
    "Kontroli.C37_cycle",
    "Kontroli.C37_no_panic",
    "Kontroli.C37_all",
    "Kontroli.C37_all_cycle",
    "Kontroli.C37_text",
    "Kontroli.C37_suffix"
   ],
   "note": "koweb/src/parse_make.rs modelled completely (text to graph to order); the conversion to JavaScript values is left out. For cyclic inputs the code recurses without end: C37_cycle, and C37_all_cycle: exactly when a cycle can be reached."
  },
  {
   "property": "C38",
   "status": "proved",
   "theorems": [
    "Kontroli.C38_infer",
    "Kontroli.C38_check",
    "Kontroli.C38_infer_exact",
    "Kontroli.C38_check_exact",
    "Kontroli.C38_infer_known",
    "Kontroli.C38_check_known",
    "Kontroli.C38_command",
    "Kontroli.C38_session",
    "Kontroli.C38_introductions"
   ],
   "note": "Assumptions: Theory.Church (without eta: confluent rules; with eta: rules that only unfold definitions), types of constants have sorts, rules preserve types (derived for sessions: C46). C38_session needs, for rules, that the types of their variables have type Type (not checked by the code). C38_introductions needs no assumption on rules, with or without eta."
  },
  {
   "property": "C39",
   "status": "proved",
   "theorems": [
    "Kontroli.C39_whnf",
    "Kontroli.C39_convertible",
    "Kontroli.C39_infer",
    "Kontroli.C39_check",
    "Kontroli.C39_session",
    "Kontroli.C39_program",
    "Kontroli.C39_threads"
   ],
   "note": "Any two runs that end agree, for any rules, reference counts, fuel and heaps: evaluation, conversion, inference (types and errors), checking, sessions and whole programs. Inference and checking are for proper terms (applications have arguments), which is what sharing produces; sessions of texts need no such hypothesis (C39_program)."
  },
  {
   "property": "C40",
   "status": "partial",
   "theorems": [
    "Kontroli.C40_accepted_partial",
    "Kontroli.C40_sort_partial",
    "Kontroli.C40_false"
   ],
   "note": "False of the code for annotated definitions and theorems (C40_false). Proved for introductions without body (C40_sort_partial), and for all accepted introductions if the rules are confluent and preserve types (C40_accepted_partial)."
  },
  {
   "property": "C41",
   "status": "proved",
   "theorems": [
    "Kontroli.C41_sound",
    "Kontroli.C41_piped",
    "Kontroli.C41_unique",
    "Kontroli.C41_meaning_unique"
   ],
   "note": "End to end for kocheck runs on paths (direct and piped, sequential and threaded), all stages enabled: texts found by path, lines parsed, scoped, shared, checked. The kernel is any Kern.Real (runs of the modelled kernel with any fuel and reference counts). Syntax is characterised by the model parser without scoping (TextOf), everything after it by a separate name-based specification."
  },
  {
   "property": "C42",
   "status": "proved",
   "theorems": [
    "Kontroli.C42_not_convertible"
   ],
   "note": "Apart in Spec/Whnf.lean."
  },
  {
   "property": "C43",
   "status": "proved",
   "theorems": [
    "Kontroli.C43_decides",
    "Kontroli.C43_orthogonal",
    "Kontroli.C43_no_rules",
    "Kontroli.C43_not_confluent",
    "Kontroli.C43_eta_false",
    "Kontroli.C43_eta_definitions",
    "Kontroli.C43_eta_confluent",
    "Kontroli.C43_eta_program"
   ],
   "note": "Confluence is a hypothesis, proved for orthogonal rules in the weak sense (C43_orthogonal; two rules for a symbol may both match if they then agree); without confluence, and with eta and rules that match constants, concrete witnesses show that answers can be wrong. With eta and rules that only unfold definitions (programs without rewrite rules) the test is right, too (C43_eta_definitions, C43_eta_program)."
  },
  {
   "property": "C44",
   "status": "proved",
   "theorems": [
    "Kontroli.C44_command_complete",
    "Kontroli.C44_command_known",
    "Kontroli.C44_command_necessary",
    "Kontroli.C44_infer_refuses",
    "Kontroli.C44_check_refuses",
    "Kontroli.C44_annotated",
    "Kontroli.C44_known",
    "Kontroli.C44_infer_typed",
    "Kontroli.C44_check_typed",
    "Kontroli.C44_infer_complete",
    "Kontroli.C44_check_complete",
    "Kontroli.C44_unique",
    "Kontroli.C44_levels_needed",
    "Kontroli.C44_domain_free"
   ],
   "note": "Infer/check errors imply untypability (except domain-free abstractions), for levelled contexts that are confluent (without eta), or well-formed with rules that only unfold definitions (with eta); the exception occurs for a typable term exactly if an abstraction without type stands where its type is not known (C44_known, C44_infer_typed, C44_check_typed, C44_command_known, C44_command_necessary); uniqueness; witnesses that levels and annotations are needed."
  },
  {
   "property": "C45",
   "status": "proved",
   "theorems": [
    "Kontroli.C45_command_levelled",
    "Kontroli.C45_session_levelled",
    "Kontroli.C45_session_complete"
   ],
   "note": "Levels are kept by accepted commands and sessions (orthogonal rules, no eta); sessions of textbook-right annotated commands are accepted or run out of fuel."
  },
  {
   "property": "C46",
   "status": "proved",
   "theorems": [
    "Kontroli.C46_rule_preserves",
    "Kontroli.C46_whnf"
   ],
   "note": "RuleTyped rules preserve types; evaluation preserves types; the theory at the end of an accepted session is well-formed (C38_session, C38_introductions)."
  },
  {
   "property": "C47",
   "status": "proved",
   "theorems": [
    "Kontroli.C47_lazy",
    "Kontroli.C47_lazy_error",
    "Kontroli.C47_strict",
    "Kontroli.C47_unambiguous",
    "Kontroli.C47_term_unambiguous"
   ],
   "note": "Soundness and completeness of the automaton for a declarative grammar over tokens; lazy parser over lines and strict parser over a text; unambiguity follows. Names are scoped as plain symbols (scopeSymb); C24 relates this to scoping."
  },
  {
   "property": "C48",
   "status": "proved",
   "theorems": [
    "Kontroli.C48_lex",
    "Kontroli.C48_unique",
    "Kontroli.C48_lines"
   ],
   "note": "lex = longest match over the declared words, for every text; includes nested comments, unclosed ones, errors, and splitting into lines."
  },
  {
   "property": "C49",
   "status": "proved",
   "theorems": [
    "Kontroli.C49_session_sound",
    "Kontroli.C49_session_known",
    "Kontroli.C49_session_complete",
    "Kontroli.C49_session_exact",
    "Kontroli.C49_sound",
    "Kontroli.C49_complete",
    "Kontroli.C49_exact",
    "Kontroli.C49_any",
    "Kontroli.C49_orthogonal",
    "Kontroli.C49_static"
   ],
   "note": "Composition of parser, scoper, sharing, symbol table and kernel into one statement about texts. Correctness is defined in Spec/Correct.lean (Correct, Session, Introduces, Shared) from the grammar, the name resolution and the strict textbook system; accepted are exactly the correct programs that are Directed (abstractions without types only where the types are known). Hypotheses (Regular): rule variables typed, no wildcards, rule contexts well-formed (the code does not check this), rules orthogonal (testable: C49_orthogonal); no eta (with eta: C66); the run does not exceed the fuel."
  },
  {
   "property": "C50",
   "status": "proved",
   "theorems": [
    "Kontroli.C50_directed_needed",
    "Kontroli.C50_single_sound",
    "Kontroli.C50_single_exact",
    "Kontroli.C50_multiple_sound",
    "Kontroli.C50_multiple_exact",
    "Kontroli.C50_name",
    "Kontroli.C50_missing",
    "Kontroli.C50_truncated"
   ],
   "note": "With or without eta. fetch is a parameter (address to text, or panic); page output and JavaScript conversion are not modelled. The silent omissions are proved as C50_missing and C50_truncated."
  },
  {
   "property": "C51",
   "status": "proved",
   "theorems": [
    "Kontroli.C51_whnf",
    "Kontroli.C51_convertible",
    "Kontroli.C51_decides",
    "Kontroli.C51_infer",
    "Kontroli.C51_check",
    "Kontroli.C51_intro",
    "Kontroli.C51_session",
    "Kontroli.C51_run",
    "Kontroli.C51_run_decides",
    "Kontroli.C51_loop"
   ],
   "note": "Termination relative to strong normalisation, for any eta; with eta the rules must only unfold definitions. Fuel is the only bound of the model, so a result that is not timeout for all larger fuels means that the code returns."
  },
  {
   "property": "C52",
   "status": "proved",
   "theorems": [
    "Kontroli.C52_normalising",
    "Kontroli.C52_ends",
    "Kontroli.C52_decides",
    "Kontroli.C52_any"
   ],
   "note": "Strong normalisation of the calculus with definitions is proved (reducibility), with or without eta in the conversion rule, so no normalisation hypothesis remains for texts without -->."
  },
  {
   "property": "C53",
   "status": "proved",
   "theorems": [
    "Kontroli.C53_refines",
    "Kontroli.C53_exact",
    "Kontroli.C53_progress",
    "Kontroli.C53_ends",
    "Kontroli.C53_final",
    "Kontroli.C53_accepts",
    "Kontroli.C53_advance",
    "Kontroli.C53_bounded",
    "Kontroli.C53_main",
    "Kontroli.C53_verdict",
    "Kontroli.C53_which_error"
   ],
   "note": "flume is modelled as a queue with blocking send and receive, rayon as an arbitrary schedule whose threads may stop after a failure. The exit status is that of the trait Termination of the standard library."
  },
  {
   "property": "C54",
   "status": "partial",
   "theorems": [
    "Kontroli.C54_counts",
    "Kontroli.C54_fails",
    "Kontroli.C54_documented_partial",
    "Kontroli.C54_rules_false",
    "Kontroli.C54_reset_false"
   ],
   "note": "C54_counts is exact. The documented claim is C54_documented_partial (no rules; introduced before it occurs); C54_rules_false and C54_reset_false are witnesses against the general claim."
  },
  {
   "property": "C55",
   "status": "partial",
   "theorems": [
    "Kontroli.C55_expands_partial",
    "Kontroli.C55_output",
    "Kontroli.C55_fails",
    "Kontroli.C55_twice_false",
    "Kontroli.C55_capture_false",
    "Kontroli.C55_rules_false",
    "Kontroli.C55_pipeline_partial",
    "Kontroli.C55_pipeline_false"
   ],
   "note": "C55_expands_partial needs that inlined names occur at most once, C55_pipeline_partial that symcount counts them once and that they are no bound names; the general claim is false of the code (C55_twice_false, C55_capture_false, C55_rules_false, C55_pipeline_false)."
  },
  {
   "property": "C56",
   "status": "proved",
   "theorems": [
    "Kontroli.C56_edges",
    "Kontroli.C56_unique",
    "Kontroli.C56_makefile"
   ],
   "note": "The grammar of DOT is not modelled."
  },
  {
   "property": "C57",
   "status": "proved",
   "theorems": [
    "Kontroli.C57_true",
    "Kontroli.C57_models",
    "Kontroli.C57_empty",
    "Kontroli.C57_program",
    "Kontroli.C57_run",
    "Kontroli.C57_text",
    "Kontroli.C57_rules_false"
   ],
   "note": "Propositional reading of types; truth of every typed term's type, emptiness of types for which nothing is made, and the run-level and text-level consequences. C57_rules_false shows that the condition on rules for types is needed."
  },
  {
   "property": "C58",
   "status": "proved",
   "theorems": [
    "Kontroli.C58_normalising",
    "Kontroli.C58_test",
    "Kontroli.C58_tame",
    "Kontroli.C58_ends",
    "Kontroli.C58_decides",
    "Kontroli.C58_nested_false"
   ],
   "note": "Strong normalisation of typed terms for orthogonal, structurally recursive rules on objects; hence termination and decision for regular programs of this kind. Without the condition on variables inside patterns it is false (C58_nested_false)."
  },
  {
   "property": "C59",
   "status": "proved",
   "theorems": [
    "Kontroli.C59_sound",
    "Kontroli.C59_exact",
    "Kontroli.C59_web",
    "Kontroli.C59_web_norules",
    "Kontroli.C59_bench",
    "Kontroli.C59_rules_false",
    "Kontroli.C59_qualified_false"
   ],
   "note": "The documented loop of the library: sound, complete and against koweb; it does not check rules (C59_rules_false), as the documentation says, and knows no module main (C59_qualified_false)."
  },
  {
   "property": "C60",
   "status": "proved",
   "theorems": [
    "Kontroli.C60_strict",
    "Kontroli.C60_lazy",
    "Kontroli.C60_before",
    "Kontroli.C60_viable",
    "Kontroli.C60_comma_false",
    "Kontroli.C60_cmd_false"
   ],
   "note": "Position and kind of the first error of both parsers, in terms of the grammar only; the commands before it; uniqueness. The stronger claim that errors only name tokens that could have followed is false of the code (C60_comma_false, C60_cmd_false)."
  },
  {
   "property": "C61",
   "status": "proved",
   "theorems": [
    "Kontroli.C61_text",
    "Kontroli.C61_correct",
    "Kontroli.C61_accepted",
    "Kontroli.C61_web_library",
    "Kontroli.C61_sizes"
   ],
   "note": "All five generators, with or without eta; the counter does not overflow in the model. Acceptance is for a number of steps that is large enough (the model bounds recursion by fuel)."
  },
  {
   "property": "C62",
   "status": "proved",
   "theorems": [
    "Kontroli.C62_parse_only",
    "Kontroli.C62_scope_only",
    "Kontroli.C62_types_only",
    "Kontroli.C62_kernel_unused",
    "Kontroli.C62_pipe_parse_only",
    "Kontroli.C62_pipe_scope_only",
    "Kontroli.C62_single_parse",
    "Kontroli.C62_single_scope",
    "Kontroli.C62_single_types",
    "Kontroli.C62_single_levels",
    "Kontroli.C62_no_level",
    "Kontroli.C62_multiple",
    "Kontroli.C62_missing"
   ],
   "note": "Exact for runs that stop after parsing or after sharing (with or without channel and threads) and for the levels 0 and 1 of the web checker; for runs without checks soundness of types and left-hand sides."
  },
  {
   "property": "C63",
   "status": "proved",
   "theorems": [
    "Kontroli.C63_layout",
    "Kontroli.C63_done",
    "Kontroli.C63_quiet",
    "Kontroli.C63_files",
    "Kontroli.C63_tokens",
    "Kontroli.C63_parsed"
   ],
   "note": "Exact layout in lexing mode, quiet mode, several files and all ways to end. A file that is not UTF-8 counts as one that is not there."
  },
  {
   "property": "C64",
   "status": "proved",
   "theorems": [
    "Kontroli.C64_terms",
    "Kontroli.C64_meaning",
    "Kontroli.C64_line",
    "Kontroli.C64_rules",
    "Kontroli.C64_ambiguous"
   ],
   "note": "Printing of kernel terms, of lines with two terms and of rules is injective up to shape, for names as in a text that differ; C64_ambiguous shows that the conditions are needed."
  },
  {
   "property": "C65",
   "status": "proved",
   "theorems": [
    "Kontroli.C65_no_panic",
    "Kontroli.C65_status",
    "Kontroli.C65_refused"
   ],
   "note": "Whole program with all options, channels and schedules; invalid UTF-8 in files and failure to build the thread pool are outside of the model."
  },
  {
   "property": "C66",
   "status": "proved",
   "theorems": [
    "Kontroli.C66_session_sound",
    "Kontroli.C66_session_known",
    "Kontroli.C66_session_complete",
    "Kontroli.C66_session_exact",
    "Kontroli.C66_sound",
    "Kontroli.C66_complete",
    "Kontroli.C66_exact",
    "Kontroli.C66_any",
    "Kontroli.C66_static",
    "Kontroli.C66_differs",
    "Kontroli.C66_more",
    "Kontroli.C66_turn_on",
    "Kontroli.C66_turn_on_ends"
   ],
   "note": "Any eta. With eta the hypothesis RegularIn asks for rules that only unfold definitions; C66_static has no hypothesis but the absence of rewrite rules (and that the fuel suffices; C52_decides: it does). C66_differs, C66_more, C66_turn_on, C66_turn_on_ends compare the two."
  },
  {
   "property": "C67",
   "status": "proved",
   "theorems": [
    "Kontroli.C67_run",
    "Kontroli.C67_accepted",
    "Kontroli.C67_silent",
    "Kontroli.C67_correct",
    "Kontroli.C67_infos",
    "Kontroli.C67_failure",
    "Kontroli.C67_rules",
    "Kontroli.C67_text"
   ],
   "note": "Sequential runs on files (no jobs, no channel). C67_accepted gives the exact log of accepted runs, C67_failure and C67_rules that of failing ones, C67_correct turns a log without warnings into correctness of the program; C67_run shows that logging and laziness do not change the verdict."
  },
  {
   "property": "C68",
   "status": "proved",
   "theorems": [
    "Kontroli.C68_whnf",
    "Kontroli.C68_head",
    "Kontroli.C68_diverges",
    "Kontroli.C68_convertible",
    "Kontroli.C68_rules_false"
   ],
   "note": "Under definitions only; C68_rules_false shows that orthogonal rewrite rules do not suffice (strong normalisation does, C51)."
  },
  {
   "property": "C69",
   "status": "proved",
   "theorems": [
    "Kontroli.C69_same",
    "Kontroli.C69_accepts",
    "Kontroli.C69_correct",
    "Kontroli.C69_panic_only",
    "Kontroli.C69_panics"
   ],
   "note": "C69_panics is for runs without threads and channel"
  },
  {
   "property": "C70",
   "status": "proved",
   "theorems": [
    "Kontroli.C70_nat_text",
    "Kontroli.C70_bool_text",
    "Kontroli.C70_magic_text",
    "Kontroli.C70_redundant",
    "Kontroli.C70_nat_confluent",
    "Kontroli.C70_nat",
    "Kontroli.C70_nat_convertible",
    "Kontroli.C70_bool",
    "Kontroli.C70_untyped",
    "Kontroli.C70_nat_normalising",
    "Kontroli.C70_bool_normalising",
    "Kontroli.C70_nat_ends",
    "Kontroli.C70_nat_decides",
    "Kontroli.C70_nat_converts",
    "Kontroli.C70_bool_decides",
    "Kontroli.C70_magic",
    "Kontroli.C70_nat_defines",
    "Kontroli.C70_fib24_text",
    "Kontroli.C70_fib24"
   ],
   "note": "The three example files are read by the model parser and share stage as they stand in the repository; what is accepted after them is compared with arithmetic and truth tables. For nat.dk and bool.dk termination is proved (C70_nat_normalising, C70_nat_ends, C70_nat_decides, C70_bool_decides); so the benchmark fib24.dk is accepted with enough steps (C70_fib24). For magic.dk, where rules compute types, termination is a hypothesis of C70_magic, and C72 proves it."
  },
  {
   "property": "C71",
   "status": "proved",
   "theorems": [
    "Kontroli.C71_belongs",
    "Kontroli.C71_unique",
    "Kontroli.C71_empty",
    "Kontroli.C71_fo_text",
    "Kontroli.C71_fo_sound",
    "Kontroli.C71_fo_exact",
    "Kontroli.C71_fo_complete"
   ],
   "note": "Generic: readings of types are sound for textbook typing (C71_belongs, C71_empty). For fo_imp.dk: acceptance implies provability in minimal logic (C71_fo_sound); provability is exactly existence of a textbook-right proof (C71_fo_exact); such a proof is accepted unless timeout (C71_fo_complete)."
  },
  {
   "property": "C72",
   "status": "proved",
   "theorems": [
    "Kontroli.C72_normalising",
    "Kontroli.C72_session",
    "Kontroli.C72_fo_normalising",
    "Kontroli.C72_fo_ends",
    "Kontroli.C72_fo_decides",
    "Kontroli.C72_fo_refuses",
    "Kontroli.C72_magic_normalising",
    "Kontroli.C72_magic_ends",
    "Kontroli.C72_magic_decides"
   ],
   "note": "Criterion by reading types as sets of terminating terms; applied to fo_imp.dk and magic.dk."
  },
  {
   "property": "C73",
   "status": "proved",
   "theorems": [
    "Kontroli.C73_whnf",
    "Kontroli.C73_convertible",
    "Kontroli.C73_inf_text",
    "Kontroli.C73_inf_terms",
    "Kontroli.C73_inf_right",
    "Kontroli.C73_inf_unending",
    "Kontroli.C73_inf_never",
    "Kontroli.C73_inf_file"
   ],
   "note": "inf.dk: for every fuel the outcome of the last command is timeout, although the command is right (C73_inf_right) and never refused. Stated for the kernel of the model (Kern.std). That it is never accepted is with or without eta (C73_inf_never, C73_inf_file); that it is never refused (C73_inf_unending) is without eta, as it rests on confluence."
  }
 ]
}