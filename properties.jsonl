{"id": "C01", "title": "Garbage collection preserves every reachable value", "statement": "After Heap::collect or Heap::collect_and_grow, reading any root back from the heap (tag, scalar fields, pointed-to objects, to any depth, including sharing) gives exactly what it gave before the collection.", "quantifier": "every heap built by any sequence of allocations, field writes and earlier collections; every list of roots; every ensure_free amount; every read depth", "why_tests_cant": "The set of heap shapes, root sets and collection points is unbounded; an object moved over another live object or a missed pointer shows up only for particular layouts.", "anchors": ["ticc-eval/src/heap.rs: Heap::collect_inner, Heap::collect, Heap::collect_and_grow, Heap::obj_with_fields"]}
{"id": "C02", "title": "Heap integrity under any history", "statement": "At every point of any history of allocations and collections the heap is exactly tiled by objects between the bump pointer and the capacity, no two objects overlap, every pointer field points at the start of an object allocated earlier (a higher address), and free + allocated = capacity.", "quantifier": "every history of Heap operations starting from Heap::new", "why_tests_cant": "An invariant over all operation sequences; tests only visit finitely many.", "anchors": ["ticc-eval/src/heap.rs: Heap::new, raw_alloc, alloc_object, alloc_bytes, ObjAlloc::put_ptr, collect_inner, allocated, free_space"]}
{"id": "C03", "title": "Collection reclaims all garbage and leaves room", "statement": "After a collection the allocated bytes are exactly the total size of the objects reachable from the roots, the capacity never shrinks, at least three quarters of the heap or the requested ensure_free bytes are free, and nothing unreachable survives.", "quantifier": "every well-formed heap, every root list, every ensure_free", "why_tests_cant": "Quantifies over every object graph; leaks only show in particular graphs.", "anchors": ["ticc-eval/src/heap.rs: Heap::collect_inner"]}
{"id": "C04", "title": "The collector never indexes outside its forwarding table and the VM allocator always has room for small objects", "statement": "In the bytecode interpreter's allocation policy (constants first, with a grow before each constant that does not fit; then the two booleans; then a collection whenever more than half of the heap is allocated) no allocation of at most 128 bytes ever runs out of space and no collection ever indexes outside its forwarding table, for any program run.", "quantifier": "every list of string constants and every subsequent run-time allocation/collection history with objects of at most 128 bytes", "why_tests_cant": "Depends on an interaction between capacity rounding, growth policy and table resizing across the whole history; the violating histories (if any) are rare residues modulo 24.", "anchors": ["ticc-eval/src/heap.rs: collect_inner, raw_alloc", "ticc-eval/src/bytecode.rs: link, run, maybe_gc"]}
{"id": "C05", "title": "Integer operators are total and wrap modulo 2^64", "statement": "+, - and * compute modulo 2^64, x / 0 is 0, x % 0 is x, otherwise / and % are unsigned quotient and remainder (so (x / y) * y + x % y = x always), comparisons are unsigned; no operator application ever aborts.", "quantifier": "all pairs of 64-bit integers", "why_tests_cant": "2^128 input pairs per operator.", "anchors": ["ticc-eval/src/treewalk.rs: eval_impl", "ticc-eval/src/bytecode.rs: run", "ticc-eval/src/lambda.rs"]}
{"id": "C06", "title": "String builtins are total and clamp out-of-range arguments", "statement": "string length, concat, char-at, substring, from-char and int-to-string never abort for any arguments; char-at past the end is 0; substring start len s is the longest piece of s starting at start and not longer than len; int-to-string is the decimal representation (reading it back gives the integer).", "quantifier": "all byte strings and all 64-bit integers", "why_tests_cant": "Unbounded strings times 2^64 indices.", "anchors": ["ticc-eval/src/treewalk.rs: eval_impl", "ticc-eval/src/bytecode.rs: run"]}
{"id": "C07", "title": "The tree-walking and the closure-compiling evaluator agree", "statement": "For every program with unique names that the tree-walking evaluator can run without a crash, ticc_eval::treewalk::eval and ticc_eval::lambda::eval produce the same values, the same trap message, or both run forever; the second one never crashes on it.", "quantifier": "every core program (every nesting of lambdas, captures, recursion), every expression list, runs of any length", "why_tests_cant": "Slot resolution, capture order and frame handling interact for arbitrarily nested closures.", "anchors": ["ticc-eval/src/treewalk.rs: eval", "ticc-eval/src/lambda.rs: eval, EnvResolver, CompactEnv"]}
{"id": "C08", "title": "The bytecode compiler and VM agree with the tree-walking evaluator", "statement": "Compiling and linking a program with unique names never crashes. If treewalk evaluation ends with values, the VM ends with the same values, and whenever the VM returns a value it is the one treewalk computes; if treewalk traps or runs forever, the VM returns no value (it may trap with another message, or run on, because bytecode evaluates arguments before the function).", "quantifier": "every core program in which names are unique, every list of expressions to evaluate, every run length", "why_tests_cant": "A compiler correctness statement over all programs.", "anchors": ["ticc-eval/src/compile.rs: compile, compile_expr", "ticc-eval/src/bytecode.rs: run, link", "ticc-eval/src/treewalk.rs: eval"]}
{"id": "C09", "title": "Self tail calls run in constant VM stack", "statement": "A call of a recursive function to itself in tail position does not grow the VM stack: the stack height when the function body is re-entered equals the height at first entry, however many iterations run.", "quantifier": "every recursive function, every number of iterations", "why_tests_cant": "Unbounded iteration counts.", "anchors": ["ticc-eval/src/compile.rs: tail_call_entry handling in compile_expr"]}
{"id": "C10", "title": "iterate n f x applies f exactly n times", "statement": "The builtin iterate, evaluated with n, f and x, returns f applied n times to x, for every n (0 returns x and never calls f).", "quantifier": "all 64-bit n, every function f and start value x", "why_tests_cant": "n ranges over 2^64 values and f over all functions.", "anchors": ["ticc/src/codegen/gen_core.rs: gen_iterate / intrinsic iterate", "ticc/src/builtin.rs"]}
{"id": "C11", "title": "Dead code elimination never changes an exported result", "statement": "Removing unused definitions and unused lets keeps every exported definition, and every program run that ended with a value ends with the same value after the pass.", "quantifier": "every core program with unique names", "why_tests_cant": "All programs; use/def chains of any length.", "anchors": ["ticc/src/codegen/opt/dce.rs"]}
{"id": "C12", "title": "Erasing and reducing type abstractions never changes a result", "statement": "reduce_pi (beta-reduction of type application) leaves the outcome of evaluation (value, trap message or abort) of every program unchanged.", "quantifier": "every core program", "why_tests_cant": "All programs.", "anchors": ["ticc/src/codegen/opt/reduce_pi.rs"]}
{"id": "C13", "title": "reduce_apply preserves results", "statement": "Rewriting an applied lambda into lets preserves the outcome of every program.", "quantifier": "every core program with unique names", "why_tests_cant": "All programs.", "anchors": ["ticc/src/codegen/opt/reduce_apply.rs"]}
{"id": "C14", "title": "inline_simple preserves results", "statement": "If a program evaluates to a value then after substituting once-used and trivial let-bound expressions it evaluates to the same value.", "quantifier": "every core program with unique names", "why_tests_cant": "All programs; capture and evaluation-order mistakes appear only for particular nestings.", "anchors": ["ticc/src/codegen/opt/inline_simple.rs"]}
{"id": "C15", "title": "merge_match preserves results", "statement": "Merging a match on a match keeps the value of every program.", "quantifier": "every core program with unique names", "why_tests_cant": "All programs.", "anchors": ["ticc/src/codegen/opt/merge_match.rs"]}
{"id": "C16", "title": "Number literals: accepted exactly when they fit 64 bits, with the decimal value", "statement": "A number literal gets no diagnostic iff it consists of decimal digits and denotes a value below 2^64; in that case the value used by code generation is exactly the decimal value and code generation cannot abort on it; the two error messages are given for a first bad character resp. overflow.", "quantifier": "all token texts of any length", "why_tests_cant": "Unbounded digit strings.", "anchors": ["ticc/src/compiler/numck.rs: check_numbers, parse_int", "ticc/src/codegen/gen_core.rs: NumberExpr"]}
{"id": "C17", "title": "A match accepted without diagnostics covers every constructor exactly once", "statement": "If the match checker reports nothing for a match on a type with listed constructors, every constructor of the type is handled by exactly one case; if some constructor is not handled, or one is handled twice, an error is reported naming the right number of missing constructors.", "quantifier": "every constructor list and every case list", "why_tests_cant": "Unbounded numbers of constructors and cases.", "anchors": ["ticc/src/compiler/matchck.rs: check"]}
{"id": "C18", "title": "Unification is sound", "statement": "If Unifier::unify succeeds then the two types, fully resolved, are equal (up to error types), and no previously equal types become different.", "quantifier": "every pair of types over any unifier state reachable by operations", "why_tests_cant": "All types and histories.", "anchors": ["ticc/src/compiler/typeck.rs: Unifier::unify, normalize, occurs, unify_and_commit/rollback"]}
{"id": "C19", "title": "Unification terminates and never builds cyclic types; failed unification leaves no trace", "statement": "Type variables are never bound to types containing themselves, so resolving always terminates; when unify fails, the unifier's committed state is unchanged.", "quantifier": "every history of unifier operations", "why_tests_cant": "All histories.", "anchors": ["ticc/src/compiler/typeck.rs: Unifier"]}
{"id": "C20", "title": "The parser loses no text", "statement": "For any source text, the concatenated text of the parsed items' tokens equals the source, item by item, and all spans are within bounds and nested.", "quantifier": "every token sequence / source text, including malformed ones", "why_tests_cant": "All inputs.", "anchors": ["ticc/src/compiler/parser.rs: Parser, events_to_node, reorder_forward_parents", "ticc-syntax/src/lib.rs: SyntaxBuilder"]}
{"id": "C21", "title": "Compiling always makes progress and terminates", "statement": "Each parse_one_item call on non-exhausted input consumes at least one token, so CompilationUnit::compile_up_to / compile_all terminate with items partitioning the source.", "quantifier": "every source text and every target position", "why_tests_cant": "All inputs.", "anchors": ["ticc/src/lib.rs: CompilationUnit::compile_up_to", "ticc/src/compiler/parser.rs"]}
{"id": "C22", "title": "Compiling in steps equals compiling at once", "statement": "Requesting information at any sequence of positions (which compiles lazily up to those positions) and then compiling to the end yields the same syntax trees, spans and parser diagnostics as compiling to the end directly, and the same analysis results provided that checking an item does not change the definitions it exports; without that proviso (ill-kinded annotations) the results can differ.", "quantifier": "every source, every lexer, every sequence of requested positions", "why_tests_cant": "All request histories.", "anchors": ["ticc/src/lib.rs: CompilationUnit::compile_up_to"]}
{"id": "C23", "title": "LSP position translation round-trips", "statement": "Translating any character-boundary offset of a source to an LSP (line, UTF-16 column) position and back gives the same offset, whatever translations were requested before.", "quantifier": "every source text (any Unicode), every character boundary offset, every prior history of translation requests", "why_tests_cant": "All texts, offsets and query histories (the translator is a lazily filled cache).", "anchors": ["ticc-lsp/src/utils.rs: LocationTranslator::line_index, find_next_line_position, ToLsp for Pos, ToTicc for Position"]}
{"id": "C24", "title": "LSP positions past the end of a line or file are clamped, independent of earlier requests", "statement": "Translating an arbitrary LSP position gives the offset of the character containing that UTF-16 column on that line, the end of the line when the column is past it, the end of the file when the line does not exist; the answer does not depend on which translations were requested before.", "quantifier": "every source text, every (line, column), every prior history of requests", "why_tests_cant": "The translator is stateful: correctness must hold for every cache state.", "anchors": ["ticc-lsp/src/utils.rs: ToTicc for Position"]}
{"id": "C25", "title": "Semantic token stream decodes to the tokens' positions", "statement": "Decoding the relative (delta line, delta start, length) encoding sent to the editor yields exactly the LSP position and UTF-16 length of every token, in order.", "quantifier": "every source text and every ordered list of token spans", "why_tests_cant": "All texts and token lists.", "anchors": ["ticc-lsp/src/semantic_tokens.rs: get_semantic_tokens"]}
{"id": "C26", "title": "Import cycles are always detected", "statement": "Resolving imports terminates for every file graph, and an import that leads back to a file being compiled is reported as an import cycle; acyclic graphs get no cycle error.", "quantifier": "every finite file/import graph", "why_tests_cant": "All graphs.", "anchors": ["ticc/src/main.rs: FileModuleResolver, ChildResolver", "ticc-lsp/src/main.rs: CompilationModuleResolver"]}
{"id": "C27", "title": "Which definition is run as main", "statement": "ticc main runs an exported definition called main of the right type; which one is run when there are several, and when the result is 'invalid main' / 'no main', is determined exactly.", "quantifier": "every list of program definitions", "why_tests_cant": "All definition lists.", "anchors": ["ticc/src/interpreter.rs: do_eval_main"]}
{"id": "C28", "title": "Generated names are never reused", "statement": "Every name produced by the name generator during compilation and optimization differs from all names produced before, and the printed form name_id of two different names differs.", "quantifier": "every history of name generator calls", "why_tests_cant": "All histories; all debug names (which may themselves end in digits and underscores).", "anchors": ["ticc-core/src/ir.rs: NameGenerator, ShowName"]}
{"id": "C29", "title": "Printed string values are unambiguous", "statement": "Two different string values are printed differently by ByteString's Debug (used for evaluator output).", "quantifier": "all pairs of byte strings", "why_tests_cant": "Infinite domain.", "anchors": ["ticc-core/src/ir.rs: impl Debug for ByteString"]}
{"id": "C30", "title": "Name resolution finds the innermost definition", "statement": "A name used in an expression refers to the most recent enclosing/previous definition of that name in the right namespace; an undefined name is an error and never a wrong symbol.", "quantifier": "every sequence of scope operations", "why_tests_cant": "All nestings.", "anchors": ["ticc/src/compiler/resolve.rs", "ticc/src/compiler.rs: Scope"]}
{"id": "C31", "title": "move_match preserves values and does not abort", "statement": "Moving a local definition under the next lambda of a recursive function keeps every value a program gives, keeps names unique and scoped, and does not abort on programs whose recursive definitions are lambdas.", "quantifier": "every core program with unique names", "why_tests_cant": "All programs.", "anchors": ["ticc/src/codegen/opt/move_match.rs"]}
{"id": "C32", "title": "Reading back inferred types never fails; kind checking makes instantiation safe", "statement": "Turning an inferred type into a reported type terminates, yields the type it stands for and does not panic, for every history of the type checker in which type arguments are only given to named types; types cleaned by kind checking only lead to such histories.  (A constructor's function type is not cleaned, and there it does panic.)", "quantifier": "every history of unifier operations, every type, every kind environment", "why_tests_cant": "All types and histories.", "anchors": ["ticc/src/compiler/typeck.rs: Unifier::to_ir, Unifier::instantiate", "ticc/src/compiler/kindck.rs: check_ty", "ticc/src/compiler/resolve.rs: resolve_type_case (fn_ty)"]}
{"id": "C33", "title": "Inlining ends, captures nothing and changes no outcome", "statement": "The inlining pass terminates on every program with unique names; every inlined copy gets new bound names, so no name is captured or bound twice; the same things are defined and exported; and every question about the definitions has the same outcome (value, trap message, crash or no outcome) before and after.", "quantifier": "every core program with unique names, every state of the name generator above its names, every expression over its definitions", "why_tests_cant": "All programs, unbounded chains of inlined definitions, runs of any length.", "anchors": ["ticc/src/codegen/opt/inline.rs: optimize, walk_expressions, inline_functions, create_copy, check_inlinable, check_small_inlinable", "ticc-core/src/ir.rs: NameGenerator"]}
{"id": "C34", "title": "Turning curried functions into functions of all arguments changes no outcome", "statement": "The saturation pass never fails on a program with unique names; it may change how a function takes its arguments and adapts every use, so that partial applications, recursion and functions passed as values still work: asking for any definition has the same outcome (value, trap message, crash or no outcome) before and after; names and exports stay, and new names are really new.", "quantifier": "every core program with unique names, every state of the name generator above its names, every list of its definitions", "why_tests_cant": "All programs, any number of argument groups and type parameters, uses in any position, runs of any length.", "anchors": ["ticc/src/codegen/opt/saturate.rs: optimize, check_for_rewrite, rewrite_expr, rewrite_use, add_args, collapse_lambdas", "ticc-core/src/ir.rs: NameGenerator, TyGenerator"]}
{"id": "C35", "title": "The optimizer as a whole ends and keeps every exported value", "statement": "Running the optimizer (up to ten rounds of ten passes, stopping when the hash no longer changes) always ends. Unless a pass panics, the result has unique names, the same types and the same exports in the same order, and every exported value the program had is the same afterwards, whatever hash function decides about another round; with optimization off the program is untouched.", "quantifier": "every core program with unique names, every state of the name generator above its names, every hash function, every list of exported definitions", "why_tests_cant": "All programs, all sequences of passes and rounds, all hash collisions.", "anchors": ["ticc/src/codegen/opt.rs: optimize, optimize_iteration, hash_program"]}
{"id": "C36", "title": "What the core verifier accepts is well named and does not go wrong", "statement": "If the verifier accepts a core program then every type, constructor, definition and local binder has its own name below the generator's limit and definitions mention only earlier ones. If moreover the program has only quantifier-free fields and annotations, type arguments in scope, complete matches and recursive definitions that are functions (things the verifier does not check), then running it never panics (calls a non-function, branches on a non-boolean, fails to find a name or a branch), and each definition's value is of its declared type; extra values checked with the program likewise.", "quantifier": "every core program (any types, polymorphism, recursion), every bound on the depth of evaluation, every list of extra values", "why_tests_cant": "All programs and all runs of them: type soundness.", "anchors": ["ticc-core/src/verify.rs: assert_valid, assert_valid_with_values, Names, Validator, check_expr, check_ty, assert_fits, replace", "ticc-eval/src/treewalk.rs: eval"]}
{"id": "C37", "title": "What the type checker accepts is well typed, and type checking always ends", "statement": "Type checking a resolved value item with a declared type always ends, without panicking, and the outcome does not depend on any step limit. If it reports nothing, the annotated expression is the one that was written, and every annotation (open types become Int, as in code generation) makes it a typing derivation of the declared type by the language's typing rules: names at instances of their declared types, functions, operators, declared and inferred lets, matches on types and on fold parameters, fold lambdas - provided the match checker accepts it, no type variable of a local definition escapes (automatic if local definitions have none) and no fold goes over a fold's parameter.", "quantifier": "every set of type declarations and definitions, every resolved expression of any size, every declared type", "why_tests_cant": "All expressions and all orders in which unification discovers the types.", "anchors": ["ticc/src/compiler/typeck.rs: type_check, check_expr, instantiate_name, lookup_name_opaque, unify", "ticc/src/compiler/matchck.rs: check_matches", "ticc/src/compiler/ir.rs"]}
{"id": "C38", "title": "An accepted program compiles and computes what its types promise", "statement": "If every item of a module and of the modules it imports passed the checks (resolved names with symbols of their own, declared types, type checker without diagnostics, complete matches, at most nine fields per constructor, no escaping type variable, no fold over the parameter of a fold), then generating core code does not fail, the program exports the root module's exported values, each once and in order (and nothing of imported modules), and running it ends: either every export has a value of its declared type (of every instance, if polymorphic), built from the constructors of the declared types, or the run stops with the message of a hole of the program. It never panics and never runs forever, although core has unrestricted recursion.", "quantifier": "every list of modules, types and values of any size, every import structure (modules seen twice are emitted once), every number of steps", "why_tests_cant": "All programs and all their runs: type soundness and termination of the whole language, through a logical relation.", "anchors": ["ticc/src/codegen/gen_core.rs: generate_core, emit_module, gen_type_item, gen_value_item, gen_expr, gen_ty, iterate_intrinsic", "ticc/src/compiler/builtin.rs: intrinsics", "ticc-eval/src/treewalk.rs: eval"]}
{"id": "C39", "title": "The compiled program computes what the source program means", "statement": "An accepted program means exactly one thing (by the rules of the source language: call by value, a fold is first applied to the recursive fields and then sees the results in their place, iterate n f x applies f n times, 64-bit wrapping arithmetic with x/0 = 0 and x%0 = x, a hole stops the program with its text, modules run once and in import order), and every long enough run of the generated core program shows exactly that: each export, in order, has the number, boolean, string, constructor tree or function of the source value, or else the run stops with the message of the very hole the source program stops at.", "quantifier": "every accepted list of modules, types and values, every nesting of lambdas, folds, matches and partial applications, every number of steps", "why_tests_cant": "A semantic preservation theorem over all programs: tests compare results of a few programs with results written by hand.", "anchors": ["ticc/src/codegen/gen_core.rs: gen_expr, gen_type_item, gen_value_item, fold generation, iterate_intrinsic, *_intrinsic", "ticc-eval/src/treewalk.rs: eval", "ticc/src/compiler/builtin.rs: intrinsics"]}
{"id": "C40", "title": "The compiler's own verifier accepts every program the compiler generates", "statement": "If every item of a module and of the modules it imports passed the checks of the front end (as in C38; types have at least one constructor, as the parser makes sure), the core program generated from them passes the core verifier that emit_core runs (on by default) before the optimizer: no assertion of it fails. So compiling an accepted program without optimization never panics, every type annotation in the generated code (parameters, type abstractions and applications, constructor functions, both versions of every data type, the recursive functions of folds, built-in functions, exported definitions) is consistent, every binder has a name of its own below the limit of the name generator, and definitions mention only earlier ones.", "quantifier": "every accepted list of modules, types and values, with any nesting of folds, matches and polymorphic definitions", "why_tests_cant": "The verifier follows the whole generated program and panics at the first inconsistency; tests see it on the programs they contain, but an inconsistent annotation changes no result and needs the right combination of features.", "anchors": ["ticc-core/src/verify.rs: assert_valid, check_expr, check_type, check_type_def, is_fitting_type", "ticc/src/codegen/gen_core.rs: generate_core, gen_expr, gen_ty, inst_ty, gen_type_item, gen_value_item", "ticc/src/codegen.rs: emit_core"]}
{"id": "C41", "title": "What the compiler puts out computes what the source means, on every evaluator", "statement": "Let the front end accept every item of a module and of the modules it imports. Then the source has exactly one meaning (C39), and for every combination of the options verify and optimize, emit_core (code generation, verification, up to ten turns of ten optimizer passes each followed by verification) either returns a program whose exports have the names of the source's exports in order and, if the source program gives its exports values, the same values; or it panics, which can happen only with the optimizer on. With verification on, or the optimizer off, the tree-walking evaluator, the closure compiler (for every iteration order of its hash sets) and the bytecode compiler and machine all produce those values. Without the optimizer, it never panics and the result also traps exactly when the source does, with the same message.", "quantifier": "every accepted list of modules, types and values; both options; every hash function; every iteration order of hash sets; all three evaluators", "why_tests_cant": "It composes every stage of the compiler with every evaluator; the stages interact only through the shape of the intermediate programs, and the inputs that break an interaction (see the finding) combine features no test combines.", "anchors": ["ticc/src/codegen.rs: emit_core, Options", "ticc/src/codegen/opt.rs: optimize, optimize_iteration", "ticc/src/codegen/gen_core.rs: generate_core", "ticc-core/src/verify.rs: assert_valid", "ticc-eval/src/treewalk.rs, lambda.rs, compile.rs, bytecode.rs"]}
{"id": "C42", "title": "The bytecode evaluator computes the same on its garbage-collected heap", "statement": "Running a program with the bytecode evaluator as it is, on a stack of words and pointers into its garbage-collected heap (string constants allocated when linking, an allocation for every object, closure and computed string, a moving collection after an allocation whenever more than half of the heap is in use, results decoded from the heap at the end), gives the values the tree-walking evaluator gives, whenever that gives values; it never gives others, and never panics on a dangling or misread pointer; a program that traps gives no value. The only other way for a run to end is a limit of the heap; and a program with objects of at most 13 fields, computed strings of at most 104 bytes, and constants and live data (unshared) below 4 GiB never hits one. (The limits are real: concatenating two strings of 200 bytes panics, see the findings.)", "quantifier": "every well-named core program and list of expressions, every number of machine steps, hence every sequence of allocations and collections", "why_tests_cant": "Whether an address is stale depends on exactly when a collection happens between two instructions, so on the whole history of allocation sizes; a test exercises one such history.", "anchors": ["ticc-eval/src/bytecode.rs: eval, run, decode_value, maybe_gc, gc, Stack::ptrs, Bools, link", "ticc-eval/src/heap.rs: collect, alloc_object, alloc_bytes, obj_with_fields, obj_with_bytes"]}
{"id": "C43", "title": "The layout builder writes its tokens, in order, with the layout its calls ask for", "statement": "Whatever methods of a FormatBuilder are called and in whatever order (nodes left open, or finished too often), finish does not panic. The text consists of the tokens in order and unchanged; nothing stands before the first, at most one line feed after the last. Two neighbours are on one line, with one space between them unless one sticks to the other, or on different lines if a line break was asked for between them; a large line break counts exactly when the innermost open node, or a node inside it (started earlier or later), is large. A new line is indented by four spaces per level: the level of the innermost open indenting node that already has a token of its own; a node is one level deeper than the one around it if a line was broken directly in that one before. So it is never deeper than the number of open indenting nodes, and without large nodes and line breaks the text is one line.", "quantifier": "every sequence of fewer than 2^32 calls, with any texts, stickiness and nesting", "why_tests_cant": "The text depends on the nesting and on calls made later (largeness propagates outward to line breaks added earlier); the assertions inside depend on all earlier calls.", "anchors": ["formatter/src/lib.rs: FormatBuilder::add_token, add_sticky_token, add_newline, add_large_newline, add_whitespace, start_node, finish_node, finish", "formatter/src/lib.rs: FormatNode::mark_large, format", "formatter/src/lib.rs: RawBuilder"]}
{"id": "C44", "title": "The listing of the emitted program shows every definition completely", "statement": "emit_ir's listing of a program whose names are all in its name table is produced without panic: one paragraph per definition, in order, separated by an empty line, starting with its export name, let, its name and id and ending in a semicolon; apart from blanks the paragraph is the plain text of the definition's type and value, with brackets where an operand does not bind tighter. (It does not identify the program: the operator % is written as *.)", "quantifier": "every core program over its name table whose definitions take fewer than 2^32 pieces to write", "why_tests_cant": "It must hold for every nesting of expressions in expressions.", "anchors": ["ticc-core/src/pretty.rs: pretty_print, write_def, write_expr, write_ty, write_number, expr_prec, expr_node", "ticc/src/codegen.rs: emit_ir", "ticc-core/src/ir.rs: show_debug"]}
{"id": "C45", "title": "Go to definition and find references agree with the scope rules", "statement": "At any position in a name: if the name is a use, find_definition answers with the span of exactly the name the scope rules say it refers to (for a name of another unit, the place where the unit first exposes it), and find_references answers with the spans of all the names of the whole unit that refer to the same thing, in order; at a name that introduces something, find_definition answers with that name and find_references with all its uses; at a position in no name, and at a use of another unit's name that is not exposed, both say there is nothing. The answers do not depend on which queries were made before. (Exceptions, proved: inside an import that names no module every position counts as the import; a use m.x of a name exposed only by a later item depends on earlier queries.)", "quantifier": "every unit, every position, every history of earlier queries", "why_tests_cant": "It must hold for every shape of program and every nesting of scopes, and for every order of queries.", "anchors": ["ticc/src/api/navigation.rs: find_definition, find_references", "ticc/src/api.rs: find_ref_at, find_def_at, find_def_or_ref_at, find_def", "ticc/src/lib.rs: compile_up_to", "ticc/src/compiler/resolve.rs"]}
{"id": "C46", "title": "Exactly the unused definitions are reported as never used", "statement": "The lint reports a definition of the unit itself exactly if its name does not begin with an underscore, no name of the unit refers to it, it is neither exported nor a type variable, and, if it is a type, none of its constructors is exported or referred to. It never reports an exposed name that is referred to. (For exposed types it credits uses of constructors to the first type the same import exposes: proved.)", "quantifier": "every unit", "why_tests_cant": "It must hold for every shape of program.", "anchors": ["ticc/src/lint/unused.rs: lints", "ticc/src/compiler/resolve.rs"]}
{"id": "C47", "title": "Completions are the names that would resolve", "statement": "Completing a plain name offers, in order and without duplicates, exactly the names for which the compiler would record a reference if they were typed there, plus the modules that may be named there; before a dot exactly the modules imported by name; after `m.` in a pattern exactly the constructors that would resolve, in an expression exactly the values that would resolve and are not constructors of the module. Nothing is offered where no name is used. The answer does not depend on what was compiled before. (In a type after `m.` the values of the module are offered instead of its types, and its constructors are not offered in expressions: proved.)", "quantifier": "every unit, cursor position in it, and state of incremental compilation", "why_tests_cant": "The set of names in scope differs at every position of every program; tests fix a few.", "anchors": ["ticc/src/api/completion.rs: completions_at, Resolver::on_name, add_keys_from, add_exports", "ticc/src/compiler/resolve.rs: on_name"]}
{"id": "C48", "title": "The parser accepts exactly the grammar and gives each program its grammar tree", "statement": "A source text is compiled without syntax errors exactly if its tokens (spaces and comments aside) are those of a list of items of the language's grammar: imports, let items and type items, with the operators in four levels (|>, comparisons, + and -, * / %), all associating to the left, application tighter than operators and associating to the left, -> in types associating to the right, and let/if/match/lambda extending as far as possible. The syntax tree is then the one the grammar gives those tokens, and the grammar gives only one.", "quantifier": "all token sequences, lexers, positions and histories of requests", "why_tests_cant": "the set of programs is infinite; tests look at a few trees, and cannot show that no program outside the grammar is accepted nor that no program inside it is rejected or grouped differently", "anchors": ["ticc/src/compiler/parser.rs: parse_one_item, Parser, Marker, reorder_forward_parents, events_to_node", "ticc/src/compiler/parser/expr.rs: expr, op_expr, apply_expr, atom_expr, binding_power", "ticc/src/compiler/parser/type_.rs: type_, non_fn_type, atom_type", "ticc/src/compiler/parser/item.rs: item", "ticc/src/lib.rs: compile_up_to"]}
{"id": "C49", "title": "The compiler sees what the user wrote", "statement": "A file is accepted without syntax errors exactly if it is a sequence of items written with the brackets their operators need (with any spaces and comments between tokens). Then what every later pass reads from the syntax tree is exactly those items in that order: each name, literal text, operator, export flag, parameter, constructor, field, case, branch, argument and annotation is the written one, in its place; none is missing, swapped or merged. The items are determined by the text: no text can be read as two different programs.", "quantifier": "all programs of the surface language (all nesting depths), all spaces and comments, all lexers that produce the tokens, all histories of incremental compile requests", "why_tests_cant": "The accessors find children by kind and position (first expression, second expression, a token before or after `=`); a wrong index or an optional part that is absent shifts the meaning only for some shapes, at some depth, and the tests look at error messages, not at what each accessor returns.", "anchors": ["ticc/src/compiler/syntax.rs: children, child, child2, child3, child_token, ItemSyntax::item", "ticc/src/compiler/syntax/node.rs: all accessors, type_export_token", "ticc-syntax/src/cursor.rs: all_children, children, into_token", "ticc-syntax/src/lib.rs: span_source", "ticc/src/compiler/parser.rs: parse_one_item"]}
{"id": "C50", "title": "Reading a name, literal or operator from the tree never panics", "statement": "For any text, well-formed or not: in the tree the parser gives, every name, literal, hole, operator and built-in type, at any depth, consists of exactly one token (and spaces or comments); the token is of a kind it is written with and its text is that of a token of the source. So the accessors that unwrap this token never panic, in the compiler and in editor requests on broken code.", "quantifier": "all token sequences, with or without syntax errors; all nodes of the resulting tree", "why_tests_cant": "The property is about every recovery path of the parser and about the reordering of its events; a path that completes such a node without its token panics only on inputs that take it.", "anchors": ["ticc/src/compiler/syntax/node.rs: Name::token, BoolExpr::token, NumberExpr::token, StringExpr::token, BinaryOp::token, HoleExpr::token, IntType::token, BoolType::token, StringType::token", "ticc/src/compiler/parser.rs: bump_name, complete, precede, reorder_forward_parents, events_to_node", "ticc/src/compiler/parser/expr.rs: atom_expr, op_expr", "ticc/src/compiler/parser/type_.rs: atom_type"]}
{"id": "C51", "title": "Text is read as its longest tokens, and layout does not matter", "statement": "The tokens of a text are the longest ones: keywords, names, numbers, strings, holes, punctuation, comments, spaces and line breaks; a text has at most one reading as tokens, the lexer finds it, and reports an error exactly where nothing can be read. However the tokens of a properly bracketed program are laid out with spaces, line breaks and comments, compiling the text finds no syntax error and the compiler sees that program. Every program whose names, numbers and strings are of their kind can be written.", "quantifier": "all texts; all programs; all ways to lay out their tokens", "why_tests_cant": "Whether two adjacent tokens run together depends on all pairs of tokens and on what follows; tests try a few texts.", "anchors": ["ticc/src/compiler/lexer.rs: TokenKind, Lexer::next, lex", "ticc/src/compiler/parser.rs: classify_token, parse_one_item"]}
{"id": "C52", "title": "Printed types are unambiguous and can be pasted into the program", "statement": "The type shown in a hover or a message identifies the type: two types printed alike are alike up to definitions with the same name (types of other modules are all printed `???`; no type may be called `_`), and it does not depend on what was printed before. A completely known type of the file is printed as the language writes it: used as an annotation it has no syntax error and means the printed type.", "quantifier": "all types of any depth, all files with proper names, all histories of one printer", "why_tests_cant": "Where parentheses are needed depends on nesting; tests cover a few types.", "anchors": ["ticc/src/api.rs: TypePrinter::print_type, print_type_prec, lookup_name, find_def", "ticc/src/api/info.rs: def_info, expr_info", "ticc/src/api/errors.rs: format_message"]}
{"id": "C53", "title": "Hovering is about the innermost expression and does not panic in items without syntax errors", "statement": "Asking for information at a position gives nothing exactly if no expression is there; otherwise it is about one expression there such that no expression inside it is there too, and any other expression there is around it or ends where it begins. If its item has no syntax error then the type of that very expression is shown with its extent; the request does not panic.", "quantifier": "all texts, all lexers, all positions, all histories of requests", "why_tests_cant": "Depends on the nesting and the extents of all expressions, and on the type checker visiting every one of them.", "anchors": ["ticc/src/api/info.rs: info_at, expr_info, find_expr_at_pos", "ticc/src/compiler/typeck.rs: check_types, check_expr", "ticc-syntax/src/cursor.rs: descendants"]}
{"id": "C54", "title": "Navigation, completion and the lint apply to every text", "statement": "For every text, with or without syntax errors, and whatever was compiled before: items are not empty and follow each other; every name that the resolver reads lies inside its item, on an identifier token of its own; no two names are read from the same place, and names of the text never touch each other. So a position belongs to at most one name, and the answers of go to definition, find references, completion and the unused-definition lint are those the scope rules give.", "quantifier": "all texts, all histories of requests, all modules that imports may give", "why_tests_cant": "The position arithmetic of the queries relies on these facts for every tree the parser can produce, including those of erroneous input; tests use a few well-formed files.", "anchors": ["ticc/src/compiler/syntax/node.rs: Name::token", "ticc/src/compiler/resolve.rs: resolve_item", "ticc/src/api.rs: find_ref_at, find_def_at", "ticc/src/compiler/lexer.rs: Token"]}
{"id": "C55", "title": "Renaming by find-references touches only that identifier", "statement": "Every place that find-references lists is an identifier token of the file, spelled exactly like the identifier the cursor is at; and the place go-to-definition goes to is either where the cursor already is, or an identifier token spelled like the one at the cursor.", "quantifier": "all texts with or without errors, all positions, all histories of requests, all modules that imports may give", "why_tests_cant": "Whether the place found and the cursor agree depends on scoping, on the accessors and on the positions of every node; tests look at a few positions of a few files.", "anchors": ["ticc/src/api/navigation.rs: find_definition, find_references", "ticc/src/compiler/resolve.rs: resolve_item, lookup", "ticc/src/compiler/syntax/node.rs: Name::token", "ticc/src/import.rs: collect_exports"]}
{"id": "C56", "title": "Go-to-definition answers at every identifier of an item without errors", "statement": "Every identifier token of a file lies in one of its items; and if this item has no syntax errors and no scope errors, then go-to-definition gives an answer with the cursor anywhere at the identifier, unless the identifier is one of the two parts of a qualified name m.x.", "quantifier": "all texts (other items may have errors), all identifiers, all positions at them, all histories of requests, all modules that imports may give", "why_tests_cant": "That no identifier is missed needs that the parser makes a name of every identifier it accepts, that the accessors visit every name, and that the resolver records every name; tests look at a few positions of a few files.", "anchors": ["ticc/src/api/navigation.rs: find_definition", "ticc/src/compiler/resolve.rs: resolve_item, resolve_type, resolve_expr", "ticc/src/compiler/syntax/node.rs", "ticc/src/compiler/parser.rs"]}
{"id": "C57", "title": "What the language server shows is up to date after every history of notifications", "statement": "After every history of open, change and close notifications (each change with one text), for every open file the compiled unit by which requests are answered is exactly what compiling the file from scratch would give when every file has the text the editor sent last (or what was read from the disk if it never sent one), and the diagnostics last published for it are those of this unit; files that are not open have no unit and no diagnostics. Every notification is handled, whatever cycles the imports form.", "quantifier": "all histories of notifications, all import graphs (also changing and cyclic ones), all contents of the disk at each time, all orders of updating", "why_tests_cant": "The server recompiles only files whose own or dependencies' version grew; that nothing stale survives depends on the whole history of edits and on which files each compilation read.", "anchors": ["ticc-lsp/src/main.rs: CompilationSet, FileSet, Compilation::refresh, is_any_dependency_stale, CompilationModuleResolver::lookup", "ticc-lsp/src/handlers.rs: on_open, on_change, on_close, on_file_update, send_diagnostics"]}
{"id": "C58", "title": "The machine code of the JIT does what the operations mean", "statement": "For every program, whatever volatile registers hold after calls, whatever the stack buffer and the other registers contain at the start, however the stack buffer grows and moves and wherever the collector moves objects, jit::eval gives what the operations mean: the same values, a trap with the same message, or the same limit of the heap, in the same number of operations; unless the operations themselves get stuck, the machine code never reads or writes through a stale or foreign address, never divides by zero and never jumps anywhere but to an operation. (Integer literals from 2^31 to 2^32 - 1 excepted: they come out wrong.)", "quantifier": "all programs, all contents of volatile registers and memory, all policies for growing the stack buffer, all numbers of operations run", "why_tests_cant": "The machine code keeps heap addresses in registers and in the stack buffer across calls that may move both; whether a stale address is ever used depends on when collections and growth happen.", "anchors": ["ticc-eval/src/jit.rs: eval, exec_in_heap, assemble, alloc_obj, grow_stack, string_concat, string_char_at, string_substring, string_from_char, int_to_string, decode_value, ExecState, CtorTags"]}
{"id": "C59", "title": "jit::eval computes what the language means", "statement": "For every program the compiler takes (whose literals the JIT encodes right), if the evaluator gives values, jit::eval ends and gives the same values, or reaches the limit of the heap; if evaluating with arguments first traps, so does jit::eval with the same message; if it does not end, jit::eval gives nothing; and whatever the bytecode interpreter gives, jit::eval gives: whatever registers and memory hold at the start, however the stack buffer grows and wherever the collector moves objects.", "quantifier": "all programs within the size limits, all expressions, all contents of registers and memory, all policies for growing the stack buffer, all numbers of operations run", "why_tests_cant": "Tests compare the backends on some programs; a wrong label, tag, slot or a missed root shows only in programs and allocation histories that reach it.", "anchors": ["ticc-eval/src/jit.rs: eval, exec_in_heap, assemble, CtorTags", "ticc-eval/src/compile.rs: compile", "ticc-eval/src/treewalk.rs: eval"]}
{"id": "C60", "title": "Hovering over a name agrees with go to definition", "statement": "At a position in a use of a name, hovering answers with the extent of that use and describes the definition that go to definition leads to, whatever was compiled before; at a position in the name of a definition, with the extent of the name and describes that definition. In no name, it answers about the expression there. The text shown determines the name, whether it is a type, and its type or number of parameters.", "quantifier": "all units, all uses and definitions in them, all positions, all histories of requests; all types and names", "why_tests_cant": "Tests hover over a few positions; a wrong span, a shadowed name, or an item not compiled yet shows only in particular layouts and histories.", "anchors": ["ticc/src/api/info.rs: info_at, def_info", "ticc/src/api.rs: find_def_or_ref_at, find_def, TypePrinter"]}
{"id": "C61", "title": "Error messages tell what they are about", "statement": "Each diagnostic's message is the same whatever else is reported in the file, and it determines the kind of the error and the types, names and numbers it is about, as the file names them: two messages about types, fields, matches, type arguments or unused definitions with the same text say the same. Of constructors not covered it tells all names up to two, and else one name and how many others there are.", "quantifier": "all files' definitions, all lists of diagnostics, all types, names and numbers in them", "why_tests_cant": "Tests compare some messages; that no two different errors read the same, and that the shared printer never mixes them up, is about all pairs and all histories.", "anchors": ["ticc/src/api/errors.rs: diagnostics, format_message", "ticc/src/error.rs: RawSegment, err_fmt", "ticc/src/compiler/typeck.rs: unify", "ticc/src/compiler/matchck.rs", "ticc/src/compiler/kindck.rs: report_type", "ticc/src/lint/unused.rs"]}
