{
 "claims": [
  {
   "property": "C16",
   "status": "proved",
   "theorems": [
    "Tic.Numck.accepted_iff",
    "Tic.Numck.accepted_codegen_value",
    "Tic.Numck.invalid_iff",
    "Tic.Numck.overflow_iff"
   ],
   "note": "All token texts; code generator parse included."
  },
  {
   "property": "C17",
   "status": "proved",
   "theorems": [
    "Tic.Matchck.accepted_iff_each_once",
    "Tic.Matchck.diagnostics_shape",
    "Tic.Matchck.missing_reported",
    "Tic.Matchck.silent_cases"
   ],
   "note": "All constructor and case lists."
  },
  {
   "property": "C23",
   "status": "proved",
   "theorems": [
    "Tic.Lsp.translator_never_panics",
    "Tic.Lsp.toLsp_correct",
    "Tic.Lsp.roundtrip",
    "Tic.Lsp.columns_are_utf16"
   ],
   "note": "All texts, offsets and request histories."
  },
  {
   "property": "C24",
   "status": "partial",
   "theorems": [
    "Tic.Lsp.toTicc_in_line",
    "Tic.Lsp.toTicc_no_line",
    "Tic.Lsp.toTicc_past_line_partial",
    "Tic.Lsp.clampsToLineEnd_fails"
   ],
   "note": "Columns past the end of a line whose successor line has not been indexed yet are not clamped by the code (counterexample proved); everything else proved for all histories."
  },
  {
   "property": "C25",
   "status": "proved",
   "theorems": [
    "Tic.Lsp.semantic_tokens_decode"
   ],
   "note": "All texts and ordered token lists."
  },
  {
   "property": "C28",
   "status": "proved",
   "theorems": [
    "Tic.Names.generated_names_fresh",
    "Tic.Names.generator_total",
    "Tic.Names.showDebug_injective"
   ],
   "note": "All generator histories."
  },
  {
   "property": "C29",
   "status": "partial",
   "theorems": [
    "Tic.Names.printedStringsUnambiguous_partial",
    "Tic.Names.printedStringsUnambiguous_fails",
    "Tic.Names.printedStrings_printable"
   ],
   "note": "Backslash is not escaped by the code, so the full claim is false (counterexample proved); proved for strings without byte 92."
  },
  {
   "property": "C01",
   "status": "proved",
   "theorems": [
    "Tic.Heap.gc_preserves_reachable"
   ],
   "note": "All client histories (objects of at most 64 fields), roots, grow amounts, paths; sharing included. Non-vacuity: demo_history."
  },
  {
   "property": "C02",
   "status": "proved",
   "theorems": [
    "Tic.Heap.heap_integrity",
    "Tic.Heap.alloc_reads_back",
    "Tic.Heap.allocBytes_reads_back"
   ],
   "note": "All client histories with objects of at most 64 fields (the pointer bitmap has 64 bits)."
  },
  {
   "property": "C03",
   "status": "proved",
   "theorems": [
    "Tic.Heap.collection_reclaims"
   ],
   "note": "All client histories, roots and grow amounts."
  },
  {
   "property": "C04",
   "status": "proved",
   "theorems": [
    "Tic.Heap.start_never_fails",
    "Tic.Heap.object_alloc_never_fails",
    "Tic.Heap.bytes_alloc_never_fails",
    "Tic.Heap.large_object_fails",
    "Tic.Heap.heap_api_table_too_short"
   ],
   "note": "Every run of the interpreter's allocation policy with less than 4 GiB; objects of at most 128 bytes. large_object_fails shows the bound is needed, heap_api_table_too_short that the heap alone does not guarantee it."
  },
  {
   "property": "C05",
   "status": "proved",
   "theorems": [
    "Tic.Core.operators_total",
    "Tic.Core.div_mod_identity"
   ],
   "note": "All 64-bit operands, any operand expressions and environments, in the tree-walking evaluator."
  },
  {
   "property": "C06",
   "status": "proved",
   "theorems": [
    "Tic.Core.string_length_total",
    "Tic.Core.string_concat_total",
    "Tic.Core.string_char_at_total",
    "Tic.Core.string_substring_total",
    "Tic.Core.string_from_char_total",
    "Tic.Core.int_to_string_reads_back"
   ],
   "note": "All byte strings and integers, in the tree-walking evaluator."
  },
  {
   "property": "C10",
   "status": "proved",
   "theorems": [
    "Tic.Core.iterate_applies_n_times"
   ],
   "note": "All 64-bit n, all function values, all argument expressions and environments, every outcome (value, trap, abort) and divergence."
  },
  {
   "property": "C27",
   "status": "proved",
   "theorems": [
    "Tic.Core.noMain_iff",
    "Tic.Core.invalidMain_iff",
    "Tic.Core.selectMain_ok_iff",
    "Tic.Core.evalMain_runs"
   ],
   "note": "All definition lists; with several exported mains the first one is run."
  },
  {
   "property": "C12",
   "status": "proved",
   "theorems": [
    "Tic.Core.reducePi_preserves"
   ],
   "note": "All well-named programs, all questions about their definitions; values, traps, crashes and divergence preserved in both directions."
  },
  {
   "property": "C13",
   "status": "proved",
   "theorems": [
    "Tic.Core.reduceApply_preserves"
   ],
   "note": "All well-named programs, all questions about their definitions; values, traps, crashes and divergence preserved in both directions."
  },
  {
   "property": "C14",
   "status": "proved",
   "theorems": [
    "Tic.Core.inlineSimple_preserves",
    "Tic.Core.walkPre_inlineSimple_eq"
   ],
   "note": "All well-named programs and questions; values preserved, no new trap or crash (traps themselves may disappear: example beside the theorem)."
  },
  {
   "property": "C11",
   "status": "proved",
   "theorems": [
    "Tic.Core.dce_preserves",
    "Tic.Core.dce_keeps_exactly_needed",
    "Tic.Core.dce_removes_unneeded_locals"
   ],
   "note": "All well-named programs and all questions through exported definitions."
  },
  {
   "property": "C15",
   "status": "proved",
   "theorems": [
    "Tic.Core.merge_match_preserves",
    "Tic.Core.merge_match_no_panic",
    "Tic.Core.walkPre_mergeMatch_eq"
   ],
   "note": "All well-named programs and questions, whenever the pass itself does not panic; values and trap messages preserved.  merge_match_no_panic: a match on a match is no panic when the outer match covers the constructors in which the inner branches end."
  },
  {
   "property": "C31",
   "status": "proved",
   "theorems": [
    "Tic.Core.move_match_preserves",
    "Tic.Core.move_match_no_panic",
    "Tic.Core.walkPre_moveMatch_eq"
   ],
   "note": "All well-named programs and questions; values preserved (traps and divergence of a moved definition may disappear when the function is only partially applied)."
  },
  {
   "property": "C18",
   "status": "proved",
   "theorems": [
    "Tic.Unify.unify_sound",
    "Tic.Unify.unify_sound_eq",
    "Tic.Unify.unify_sound_resolved",
    "Tic.Unify.unify_keeps",
    "Tic.Unify.unify_keeps_equal",
    "Tic.Unify.unify_most_general",
    "Tic.Unify.unify_failure_genuine"
   ],
   "note": "Every reachable unifier, every pair of types; soundness up to error types, and most generality for exact equality."
  },
  {
   "property": "C19",
   "status": "proved",
   "theorems": [
    "Tic.Unify.unify_terminates",
    "Tic.Unify.taint_terminates",
    "Tic.Unify.no_cyclic_types",
    "Tic.Unify.denotes_total",
    "Tic.Unify.unify_failure_no_trace",
    "Tic.Unify.sat_exists"
   ],
   "note": "Every history of operations."
  },
  {
   "property": "C32",
   "status": "proved",
   "theorems": [
    "Tic.Unify.toIr_denotes",
    "Tic.Unify.toIr_never_panics",
    "Tic.Unify.checkTy_wellKinded",
    "Tic.Unify.checkTy_id",
    "Tic.Unify.instantiate_spec",
    "Tic.Unify.instantiate_safe",
    "Tic.Unify.toIr_panics_on_ill_kinded_constructor"
   ],
   "note": "The last theorem is the panic the code has: constructor function types are not kind-checked."
  },
  {
   "property": "C20",
   "status": "proved",
   "theorems": [
    "Tic.Parser.parse_lossless",
    "Tic.Parser.parse_total"
   ],
   "note": "Every lexer (kinds and lengths of tokens are a parameter), every source, every history of requests."
  },
  {
   "property": "C21",
   "status": "proved",
   "theorems": [
    "Tic.Parser.compile_terminates",
    "Tic.Parser.parse_total"
   ],
   "note": "The parser never panics and consumes at least one token; the driver loop ends. The analyses after parsing are a parameter (total functions)."
  },
  {
   "property": "C22",
   "status": "proved",
   "theorems": [
    "Tic.Parser.stepwise_syntax",
    "Tic.Parser.stepwise_same",
    "Tic.Parser.stepwise_may_differ"
   ],
   "note": "Syntax, spans and parser diagnostics unconditionally; analysis results when checking does not change what an item contributes to the table of definitions. kind_check does change it for ill-kinded annotations, and then results differ (last theorem, DESIGN finding 20)."
  },
  {
   "property": "C26",
   "status": "partial",
   "theorems": [
    "Tic.Imports.cli_imports_terminate",
    "Tic.Imports.cli_depth_irrelevant",
    "Tic.Imports.cli_cycle_is_real",
    "Tic.Imports.cli_acyclic_no_cycle_error",
    "Tic.Imports.cli_cycle_detected",
    "Tic.Imports.cli_each_file_once",
    "Tic.Imports.cli_self_import",
    "Tic.Imports.lsp_imports_terminate",
    "Tic.Imports.lsp_cycle_detected",
    "Tic.Imports.lsp_cycle_is_real_partial",
    "Tic.Imports.lsp_opened_file_never_shows_cycle",
    "Tic.Imports.lsp_hides_mutual_import",
    "Tic.Imports.lsp_missing_twice_called_cycle",
    "Tic.Imports.cli_dotdot_diverges"
   ],
   "note": "Command line: proved in full for every finite file graph. Language server: termination and detection proved for imported files; the code itself does not satisfy the rest (a missing file imported twice is called a cycle, the opened file never shows a cycle: both proved)."
  },
  {
   "property": "C30",
   "status": "proved",
   "theorems": [
    "Tic.Resolve.name_refers_to_innermost",
    "Tic.Resolve.symbols_distinct_and_defined",
    "Tic.Resolve.exported_name_is_latest",
    "Tic.Resolve.resolve_meets_spec",
    "Tic.Resolve.nameless_type_leaves_dangling_symbol"
   ],
   "note": "Every unit, every value item, every position. resolve_meets_spec also covers types, patterns, namespaced names and imports against a flat-environment specification. The last theorem is a defect (finding 24)."
  },
  {
   "property": "C07",
   "status": "proved",
   "theorems": [
    "Tic.Core.treewalk_lambda_agree",
    "Tic.Core.treewalk_lambda_same_behaviour",
    "Tic.Core.wrong_arity_differs",
    "Tic.Core.shadowed_global_differs"
   ],
   "note": "All well-named programs and expressions, every hash-set iteration order, runs of any length; assertions and slot lookups of the closure compiler included. The last two theorems show that the hypotheses (no panic of the tree-walking evaluator, unique names) are needed."
  },
  {
   "property": "C08",
   "status": "proved",
   "theorems": [
    "Tic.Core.bytecode_compiles",
    "Tic.Core.bytecode_argsFirst",
    "Tic.Core.bytecode_same_values",
    "Tic.Core.bytecode_only_values",
    "Tic.Core.bytecode_values_iff",
    "Tic.Core.bytecode_traps",
    "Tic.Core.bytecodeEval_stable",
    "Tic.Core.program_same",
    "Tic.Core.traps_may_differ"
   ],
   "note": "Compiler, linker and interpreter loop over values as trees (the heap representation is the subject of C01-C04), code below 2^48 instructions. bytecode_argsFirst is an exact correspondence (values, trap messages, divergence) with evaluation that does arguments before the function; traps_may_differ shows that trap messages really differ from treewalk."
  },
  {
   "property": "C09",
   "status": "proved",
   "theorems": [
    "Tic.Core.tail_calls_constant_stack"
   ],
   "note": "Every function value a program can call at top level, every sequence of tail self-calls (through if, match, let, letrec and type abstractions), any number of iterations; tail_loop (Tic.Core.Bc) is the same for calls from anywhere. Calls through a type application (f[t] x) are not recognised as self-calls by compile.rs and are not claimed."
  },
  {
   "property": "C33",
   "status": "proved",
   "theorems": [
    "Tic.Core.inline_preserves"
   ],
   "note": "All of inline.rs. The walk is modelled with a depth bound; the theorem gives a depth from which on the result exists and no longer changes."
  },
  {
   "property": "C34",
   "status": "proved",
   "theorems": [
    "Tic.Core.saturate_preserves",
    "Tic.Core.usesN_stable",
    "Tic.Core.collapseN_stable"
   ],
   "note": "All of saturate.rs. Questions are the definitions themselves: how a rewritten function is applied changes, inside the program every use is adapted."
  },
  {
   "property": "C35",
   "status": "proved",
   "theorems": [
    "Tic.Core.optimize_preserves"
   ],
   "note": "opt.rs:14-60 over the models of all passes. verify only reads the program and is left out. C31 and C15 say when move_match and merge_match do not panic."
  },
  {
   "property": "C36",
   "status": "proved",
   "theorems": [
    "Tic.Core.verify_names",
    "Tic.Core.verify_wellNamed",
    "Tic.Core.verify_sound",
    "Tic.Core.verify_values_sound"
   ],
   "note": "verify.rs complete. The hypotheses of soundness (Vouched) are what the verifier leaves unchecked; verify_accepts_incomplete_match, verify_accepts_letrec_value and verify_accepts_capture show that each kind is needed."
  },
  {
   "property": "C37",
   "status": "proved",
   "theorems": [
    "Tic.Front.typecheck_sound",
    "Tic.Front.typecheck_sound_simple",
    "Tic.Front.typecheck_total",
    "Tic.Front.unannotated_item_stays_unknown",
    "Tic.Front.unannotated_item_has_any_type",
    "Tic.Front.escaping_variable_is_accepted"
   ],
   "note": "Complete resolved trees (anything else comes with a diagnostic of an earlier pass), items with a declared type. The last three theorems are findings: items without a declared type keep an unknown type and can be used at any type; a local definition's type variable can escape."
  },
  {
   "property": "C38",
   "status": "proved",
   "theorems": [
    "Tic.Front.accepted_program_runs",
    "Tic.Front.accepted_program_total",
    "Tic.Front.program_runs",
    "Tic.Front.accepted_value_ok",
    "Tic.Front.escaping_variable_panics",
    "Tic.Front.nested_fold_panics",
    "Tic.Front.unannotated_item_panics",
    "Tic.Front.empty_match_stops_compiler",
    "Tic.Front.ten_fields_panic"
   ],
   "note": "gen_core.rs complete, run by the tree-walking evaluator before optimization (C35 says what the optimizer keeps). The last five are findings: each of the side conditions is needed."
  },
  {
   "property": "C39",
   "status": "proved",
   "theorems": [
    "Tic.Front.accepted_program_means",
    "Tic.Front.program_means",
    "Tic.Front.means_unique",
    "Tic.Front.sim"
   ],
   "note": "All expressions of the language, all items; the semantics (Meaning.lean) is the specification and does not mention core. Functions are compared by being functions: what they do is part of sim. The result of the optimizer and of the bytecode machine on the generated program is covered by C35 and C08."
  },
  {
   "property": "C40",
   "status": "proved",
   "theorems": [
    "Tic.Front.accepted_program_verifies",
    "Tic.Front.generated_verifies",
    "Tic.Front.accepted_program_names",
    "Tic.Front.check_gen"
   ],
   "note": "The model of the verifier of C36 on the model of code generation of C38, before optimization. Formeds (a type has a constructor; built-ins other than iterate are monomorphic) is guaranteed by the parser and by the standard library; the example emptyItems shows it is needed."
  },
  {
   "property": "C41",
   "status": "proved",
   "theorems": [
    "Tic.Front.emitted_program_means",
    "Tic.Front.emitCore_verified",
    "Tic.Front.emit_core_may_panic",
    "Tic.Core.verify_bcShape",
    "Tic.Front.accepted_program_shaped"
   ],
   "note": "Composition of C38-C40, C35, C36, C07 and C08. The panic disjunct is real (finding 36, emit_core_may_panic): a valid program on which the default options panic. SmallCode (code below 2^48 instructions) remains a hypothesis for the bytecode machine."
  },
  {
   "property": "C42",
   "status": "proved",
   "theorems": [
    "Tic.Core.heap_same_values",
    "Tic.Core.heap_only_values",
    "Tic.Core.heap_values_right",
    "Tic.Core.heap_traps",
    "Tic.Core.heap_fits_values",
    "Tic.Core.concat_fails"
   ],
   "note": "Step-by-step simulation between the machine on trees (C08) and the machine on the heap (C01-C04): a representation relation between trees and heap values that allocations and collections keep. Limits of the heap (out of space, 4 GiB, 64 fields) are an explicit outcome; heap_fits_values excludes it under bounds, concat_fails shows it is reached (finding 37)."
  },
  {
   "property": "C43",
   "status": "proved",
   "theorems": [
    "Tic.Format.layout_as_specified",
    "Tic.Format.layout_tokens",
    "Tic.Format.layout_dense",
    "Tic.Format.one_line"
   ],
   "note": "FormatSpec reads the calls left to right without a tree; the model builds and walks the tree as the code does. 2^32: the indentation level is a u32."
  },
  {
   "property": "C44",
   "status": "proved",
   "theorems": [
    "Tic.Pretty.listing",
    "Tic.Pretty.modulo_listed_as_times"
   ],
   "note": "Rust's quoting of export names and trap messages is a parameter. modulo_listed_as_times is finding 6."
  },
  {
   "property": "C45",
   "status": "proved",
   "theorems": [
    "Tic.Api.definition_of_use",
    "Tic.Api.definition_of_own_use",
    "Tic.Api.definition_of_definition",
    "Tic.Api.references_of_use",
    "Tic.Api.references_of_definition",
    "Tic.Api.nothing_elsewhere",
    "Tic.Api.unexposed_use",
    "Tic.Api.bare_import_hides_exposed_names",
    "Tic.Api.later_exposure_depends_on_history"
   ],
   "note": "Laid states what the parser guarantees about positions (C20, C21); the last two theorems are the exceptions."
  },
  {
   "property": "C46",
   "status": "proved",
   "theorems": [
    "Tic.Api.own_reported_iff",
    "Tic.Api.reported_not_used",
    "Tic.Api.lints_reported",
    "Tic.Api.exposed_ctor_credits_wrong_type"
   ],
   "note": "Exact for the unit's own definitions; for exposed names no false alarms about referenced names, and the wrong credit is proved."
  },
  {
   "property": "C47",
   "status": "proved",
   "theorems": [
    "Tic.Api.complete_plain",
    "Tic.Api.complete_moduleName",
    "Tic.Api.complete_unknown_module",
    "Tic.Api.complete_pattern_in_module",
    "Tic.Api.complete_value_in_module",
    "Tic.Api.complete_type_in_module",
    "Tic.Api.complete_nowhere",
    "Tic.Api.constructor_not_offered",
    "Tic.Api.type_not_offered"
   ],
   "note": "Typing x at the cursor is renItem on the item as parsed again; what the compiler says about it is the resolver model of C30. The last two theorems are finding 41."
  },
  {
   "property": "C48",
   "status": "proved",
   "theorems": [
    "Tic.Grammar.accepts_iff_grammar",
    "Tic.Grammar.parses_as_grammar",
    "Tic.Grammar.program_iff_grammar",
    "Tic.Grammar.item_unique",
    "Tic.Grammar.expr_unique",
    "Tic.Grammar.type_unique",
    "Tic.Grammar.operators_group",
    "Tic.Grammar.arrows_group"
   ],
   "note": "GrammarSpec is a context-free grammar given as inductive predicates on trees; it does not mention the parser. The lexer is a parameter."
  },
  {
   "property": "C49",
   "status": "proved",
   "theorems": [
    "Tic.Lower.file_reads_back",
    "Tic.Lower.reads_back",
    "Tic.Lower.accepted_shows",
    "Tic.Lower.shows_one",
    "Tic.Lower.written_one"
   ],
   "note": "LowerSpec gives programs, how they are written, and what it means that the accessors show a program. The lexer is a parameter; that a span is inside the text and at character boundaries is not modelled."
  },
  {
   "property": "C50",
   "status": "proved",
   "theorems": [
    "Tic.Lower.token_never_missing",
    "Tic.Lower.first_token",
    "Tic.Lower.child_token"
   ],
   "note": "For every tree the parser returns, also with errors. FnType::arrow_token, which is never called, is not covered."
  },
  {
   "property": "C51",
   "status": "proved",
   "theorems": [
    "Tic.Lexer.lexer_exact",
    "Tic.Lexer.lexer_error",
    "Tic.Lexer.layout_free",
    "Tic.Lexer.text_read",
    "Tic.Lexer.can_be_written",
    "Tic.Lexer.isA_unique",
    "Tic.Lexer.letter_exact",
    "Tic.Lexer.digit_exact",
    "Tic.Lexer.wordChar_exact"
   ],
   "note": "The token patterns of the logos attributes with the documented choice of logos (longest match, fixed texts before regular expressions); how long an error token is, is a parameter."
  },
  {
   "property": "C52",
   "status": "proved",
   "theorems": [
    "Tic.Print.printed_unambiguous",
    "Tic.Print.printed_unambiguous_of",
    "Tic.Print.printed_alone",
    "Tic.Print.printed_reads",
    "Tic.Print.printed_annotation",
    "Tic.Print.underscore_ambiguous"
   ],
   "note": "The exception is finding 42. Unambiguity by a reader for printed types, which is part of the proof only."
  },
  {
   "property": "C53",
   "status": "proved",
   "theorems": [
    "Tic.Hover.hover_answers",
    "Tic.Hover.found_expr",
    "Tic.Hover.found_none",
    "Tic.Hover.typed_all",
    "Tic.Hover.hover_panics"
   ],
   "note": "For any lexer, any analyses, any history. Which nodes get a type is modelled as the calls of check_expr on itself through the accessors, not as a run of the checker. In items with syntax errors it may panic: hover_panics is finding 43."
  },
  {
   "property": "C54",
   "status": "proved",
   "theorems": [
    "Tic.Units.unit_laid",
    "Tic.Units.laid_of_trees",
    "Tic.Units.lex_apart",
    "Tic.Units.name_token",
    "Tic.Units.name_span_inj",
    "Tic.Units.root_le"
   ],
   "note": "The hypothesis Laid of the theorems about editor queries, for the unit made of the parser's trees of any text, through the accessors of C49. Hypothesis: what an import gives has symbols of other units only."
  },
  {
   "property": "C55",
   "status": "proved",
   "theorems": [
    "Tic.Spell.spelled_same",
    "Tic.Spell.references_same",
    "Tic.Spell.definition_same",
    "Tic.Spell.imports_of_files",
    "Tic.Spell.exports_named"
   ],
   "note": "End to end: from any text through lexer, parser, accessors and resolution to the answers of the two queries. What is assumed of imports (symbols of other units, one name per symbol) is proved of the exports of other files with different keys."
  },
  {
   "property": "C56",
   "status": "proved",
   "theorems": [
    "Tic.Spell.answers_everywhere",
    "Tic.Spell.answer_at_name",
    "Tic.Spell.read_one",
    "Tic.Spell.item_known"
   ],
   "note": "End to end: from any text, through lexer, parser, driver, accessors and resolver to the query. Scope errors are those of the scope rules (C30); the parts of qualified names are excepted because the code does not answer there (see the example)."
  },
  {
   "property": "C57",
   "status": "proved",
   "theorems": [
    "Tic.Server.server_fresh",
    "Tic.Server.server_total",
    "Tic.Server.refresh_spec",
    "Tic.Server.spec_reads"
   ],
   "note": "By induction on histories. The compiler is a parameter (what a text imports, which file an import names, what is built of a text and the results of its imports). Several texts in one change are excepted: the code uses the first (batched_change_uses_first)."
  },
  {
   "property": "C58",
   "status": "proved",
   "theorems": [
    "Tic.Jit.jit_same",
    "Tic.Jit.jit_operations",
    "Tic.Jit.op_ok",
    "Tic.Jit.run_ok"
   ],
   "note": "A machine with apart memories whose old addresses fault after a move runs the emitted instructions; simulation of the operations, instruction by instruction. Excepted: literals in [2^31, 2^32) (pushInt_wrong). The encoding of instructions and the end of the stack buffer are not modelled."
  },
  {
   "property": "C59",
   "status": "proved",
   "theorems": [
    "Tic.Jit.jit_values",
    "Tic.Jit.jit_traps",
    "Tic.Jit.jit_endless",
    "Tic.Jit.jit_bytecode",
    "Tic.Jit.jit_values_fits",
    "Tic.Jit.jit_traps_fits",
    "Tic.Jit.jit_endless_fits"
   ],
   "note": "End to end: compiler simulation over an abstract machine (LP), the JIT operations on trees as its instance (jlp_ok), trees to heap (jvStep_ok), operations to machine code (C58). Excepted: literals in [2^31, 2^32) (jit_wrong_literal) and programs the evaluator gets stuck on; the limit of the heap is an allowed outcome, except for programs that fit (JFits: objects of at most 13 fields, computed strings of at most 104 bytes, live data below 4 GiB), where the results are exact."
  },
  {
   "property": "C60",
   "status": "proved",
   "theorems": [
    "Tic.Api.info_of_use",
    "Tic.Api.info_of_definition",
    "Tic.Api.info_elsewhere",
    "Tic.Api.infoAt_of_use",
    "Tic.Api.doc_tells"
   ],
   "note": "On the laid out units of C45. Modules get no description (as in the code), and exposed names of an import that names no module are hidden (bare_import_hides_info, finding 50). Definitions types after checking and the texts of spans are parameters."
  },
  {
   "property": "C61",
   "status": "proved",
   "theorems": [
    "Tic.Print.diagnostics_alone",
    "Tic.Print.message_tells",
    "Tic.Print.missing_tells"
   ],
   "note": "Messages of the type, match and kind checks and of the lint (those of the resolver, the parser and the number check are fixed texts with at most one name). A type mentioned may not be called _ (finding 42); definitions the file has no name for are all ??? in types and WTF elsewhere (finding 51, missing_has_no_name)."
  }
 ]
}