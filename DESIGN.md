# A Lean 4 model of jDomantas/tic

## What this is

`/repo` is the compiler, evaluators and language server of `tic`, a small total functional language.
`/verif/lean/Verif` holds a Lean 4 model of its logic, written function by function from the Rust source
(every definition cites the file and lines it models), and theorems about that model, one group per
property of `properties.jsonl`.  `MANIFEST.json` maps properties to theorems.

## Trusted base

* Lean 4.33.0's kernel.
* Axioms: every theorem depends on at most `propext`, `Classical.choice`, `Quot.sound` (checked with
  `#print axioms`).  No axioms are added; no proof uses compiled evaluation; concrete cases are closed by `rfl`,
  `decide` or `decide +kernel`, all of which the kernel checks.
* The reading of the Rust source: the model is hand-written from the text; no code was run.
* Rust's semantics for the modelled fragment: a panic (failed assert, `unwrap` of nothing, missing map entry,
  slice out of range, arithmetic overflow in a debug build) is an explicit value (`none` / `.panic`) of the
  model; `Rc`/`Box`/borrow structure is erased; machine integers are `UInt64` or `Nat` with the wrap written
  out where the code can wrap; a `HashMap` used only by key is an association list; where the iteration order of a hash
  set matters it is a parameter of the model and theorems hold for every order; memory exhaustion and native
  stack overflow of the Rust process are not modelled.
* Non-termination: recursive Rust functions are Lean functions with a fuel argument where termination is not
  structural.  Theorems say that results do not depend on the fuel, or quantify over it ("for every fuel the two
  sides agree", "there is a fuel from which on"), so divergence is a statement too.

## Layout

One module per component: a model file, helper lemma files, and `Prop*.lean` files with the small specification,
the property theorems and the non-vacuity examples.

| component | model | proofs | properties |
|---|---|---|---|
| heap and allocation policy | `Heap`, `VmAlloc` | `HeapLemmas`, `HeapAlloc`, `HeapCompact`, `PropHeap`, `PropVmAlloc` | C01-C04 |
| core IR and tree-walking evaluator | `Ir`, `Treewalk` | `EvalLemmas`, `Cost`, `PropEval` | C05, C06, C10 |
| closure-compiling evaluator | `Lambda` | `LambdaOK`, `LambdaSim`, `PropLambda` | C07 |
| bytecode compiler, linker, VM | `Bytecode` | `ArgsFirst`, `BytecodeOK/Link/Machine/Sim/Run/Fn/Step/SimAll/Prog/Tail`, `PropBytecode`, `PropTail` | C08, C09 |
| optimizer walkers | `Walk`, `WalkO`, `Scope` | `Logrel`, `Logrel2`, `LeJ`, `Passes`, `OptSpec`, `WnCheck` | |
| optimizer passes | `Reduce`, `InlineSimple`, `Dce`, `MergeMatch`, `MoveMatch` | `*Lemmas`, `*OK`, `PropReduce`, `PropInlineSimple`, `PropDce`, `PropMerge`, `PropMove` | C11-C15, C31 |
| inlining pass | `Inline` | `Rename`, `RenameCopy`, `Rebuild`, `InlineOK/Go/Term`, `PropInline` | C33 |
| saturation pass | `Saturate` | `SatRel/Sem/Pass/Walk/Coll/Defs`, `PropSaturate` | C34 |
| optimizer driver | `Optimize` | `PropOptimize` | C35 |
| core verifier | `Verify` | `TySem`, `TyCompat`, `VerifyScope`, `VerifyTypes`, `PropVerify` | C36 |
| type checker | `Source`, `Typeck`, `TypeckItem` (specification: `Typing`, `Scoped`) | `TypeckInv`, `TypeckSol`, `TypeckSound`, `PropTypeck`, `TypeckTotal`, `TypeckEscape`, `TypeckExamples` | C37 |
| code generation | `Generate` (specification: `ProgramOK`) | `Logic`, `GenExt`, `GenTotal`, `GenSound`, `GenRun`, `GenFns`, `GenTypes`, `GenItems`, `PropGenerate`, `GenChecked`, `GenExamples`, `GenFindings` | C38 |
| meaning of source programs | `Meaning` (a specification: nothing of it is in the repository) | `MeaningDet`, `MeaningRel`, `MeaningSim`, `MeaningApply`, `MeaningDefs`, `GenItems`, `PropMeaning`, `MeaningExamples` | C39 |
| verifier on generated code | (no new definitions: `Verify`, `Generate`) | `VerTy`, `VerScope`, `VerInst`, `VerSteps`, `VerExpr`, `VerGen`, `VerTypes`, `VerDefs`, `VerCtors`, `VerItems`, `VerValue`, `VerType`, `PropVerified` | C40 |
| bytecode interpreter on its garbage-collected heap (`bytecode.rs`, `heap.rs` together) | `HeapVm` | `HeapVmRep`, `HeapVmOK`, `HeapVmStart`, `HeapVmEval`, `HeapVmFits`, `PropHeapVm` | C42 |
| `codegen.rs` `emit_core` end to end | `EmitCore` | `GenShape`, `VerifyShape`, `PropEmit`, `EmitExamples` | C41 |
| layout builder (crate `formatter`) | `Format` (specification: `FormatSpec`) | `FormatProof`, `FormatEvents`, `FormatRun`, `PropFormat` | C43 |
| listing of core programs (`pretty.rs`) | `Pretty` | `PropPretty` | C44 |
| navigation and unused-definition lint (`api.rs`, `api/navigation.rs`, `lint/unused.rs`) | `Api` | `ApiNodes`, `ApiProof`, `ApiNav`, `PropApi`, `PropUnused` | C45, C46 |
| completions (`api/completion.rs`, the `on_name` callbacks of `resolve.rs`) | `Complete` | `CompleteSpec`, `CompleteProof`, `CompleteItem`, `PropComplete` | C47 |
| the grammar (`parser.rs`, `parser/{item,expr,type_}.rs`, `SyntaxBuilder`, driver) | `Parser`, `Driver` | spec: `GrammarSpec`; `GrammarEvents`, `GrammarErase`, `GrammarEmit`, `GrammarFwd`, `GrammarFwdExpr`, `GrammarFwdItem`, `GrammarMono`, `GrammarBack`, `GrammarBackItem`, `GrammarErrors`, `PropGrammar` | C48 |
| accessors of the syntax tree (`compiler/syntax.rs`, `syntax/node.rs`) | `Lower` | spec: `LowerSpec`; `LowerLabel`, `LowerShow(s)`, `LowerItems`, `LowerBack`, `PropLower`, `LowerUniq`, `LowerExample` | C49 |
| nodes of one token | `Parser`, `Lower` | `LeafEvents`, `LeafParse`, `LeafReorder`, `LeafTree`, `PropLeaf` | C50 |
| lexer (`lexer.rs`) | `Lexer` | spec: `LexerSpec`; `LexerProof`, `LexerWrite`, `PropLexer`, `LexerExample` | C51 |
| hovering (`api/info.rs`) | `Hover` | `HoverFind`, `HoverChecked`, `PropHover`, `HoverExample` | C53 |
| units from trees (glue of `node.rs`, `resolve.rs`, `api`) | `UnitOf` | `UnitCount`, `UnitSpan`, `PropUnit`, `UnitExample` | C54 |
| spelling of names (composition of the above) | (no new code) | `Spell`, `SpellNames`, `PropSpell`, `SpellExample` | C55 |
| no identifier is missed (composition of the above) | (no new code) | `SpellCount`, `SpellShow`, `SpellWhole`, `SpellFound`, `PropEvery`, `EveryExample` | C56 |
| state of the language server (`ticc-lsp/src/main.rs`, `handlers.rs`) | `Server` | `ServerProof`, `PropServer`, `ServerTotal`, `ServerExample` | C57 |
| JIT compiler (`ticc-eval/src/jit.rs`) | `Jit` | `JitProof`, `JitCalls`, `JitGc`, `JitRun`, `JitExample` | C58 |
| JIT compiler from program to result | `Jit`, `JitMean` | `JitMean`, `JitHeap`, `PropJitMean`, `JitFits` | C59 |
| hovering over names (`info.rs`: `info_at`, `def_info`) | `NameInfo` | `PropNameInfo` | C60 |
| messages (`errors.rs`, `error.rs`, the `err_fmt!`s of the checks and the lint) | `Messages` | `PropMessages` | C61 |
| printing of types (`api.rs`) | `PrintTy` | `PrintTyProof`, `PropPrint`, `PrintExample` | C52 |
| number literals | `Numck` | `PropNumck` | C16 |
| match checker | `Matchck` | `PropMatchck` | C17 |
| unifier, kinds, instantiation | `Unify`, `PropKinds` | `UnifyLemmas`, `PropUnify`, `PropKinds` | C18, C19, C32 |
| parser, syntax tree, driver | `Parser`, `Driver` | `ParserEvents/Reorder/Spec/Grammar/Tree`, `PropParser` | C20-C22 |
| language server positions and tokens | `Lsp` | `LspLemmas`, `PropLsp`, `PropTokens` | C23-C25 |
| imports | `Imports` | `PropImports` | C26 |
| `main` selection | `Interp` | `PropMain` | C27 |
| names, printing | `Names` | `PropNames` | C28, C29 |
| name resolution | `Resolve` | `ResolveSpec`, `ResolveProof`, `PropResolve` | C30 |

## Per property: what is modelled, how it is proved

| id | method |
|----|--------|
| C01-C04 | Byte-addressed memory, bump allocator, mark/sweep/compact with the forwarding table, growth policy. Heap invariant (objects tile the used part, pointers are in range) preserved by every operation; a graph isomorphism between the heap before and after a collection gives equality of everything reachable by any path, sharing included; the interpreter's allocation policy is a second state machine on top. |
| C05, C06 | Algebra on `UInt64` and byte lists; the theorems are about evaluating operator and intrinsic expressions, not about the helper functions. |
| C07 | The closure compiler builds code from slots and captured values. Simulation with an inductive value relation (a closure's code is the compilation of its body); induction on fuel. Hash-set iteration order is a parameter. |
| C08 | Compiler emits operations with labels, linker resolves them, machine runs them over tree-shaped values. (1) the compiler never panics and what it emits is well-formed (unique, resolvable labels; stack depths); (2) linking maps positions to addresses; (3) simulation: code of `e` at any position, in any frame, does what evaluation "arguments first" does -- values, traps, and at least as many steps as fuel used, which gives divergence; (4) arguments-first evaluation has the same values as the tree-walking evaluator. |
| C09 | Inductive relation "this expression comes down to a self-call with these arguments in tail position", stated over the tree-walking evaluator; induction shows the machine comes back to the same address with the same frame. |
| C10 | Core expression generated for `iterate`; induction on n. |
| C11-C15, C31 | One step-indexed logical relation between values and evaluations (`Logrel`), closed under contexts; every pass is a local step that is shown to stay within the relation; the walkers lift steps to expressions and programs. Results are stated as outcomes of whole programs asked arbitrary questions. |
| C33 | Copies are related to originals by an injective renaming; a state invariant says which recorded values may be inlined where (their free names still mean the same); termination by a weight that counts, for every recorded name, the weight of its value once more. |
| C34 | An inductive relation between expressions before and after, indexed by the set of collapsed functions and their group lengths; a value relation that feeds a curried function group by group and its counterpart all at once; the two walks and the loop over the definitions are shown to produce related programs. |
| C35 | Each pass theorem gives "fit again, same exports, same exported values"; these compose along the list of passes and the rounds, for an arbitrary hash function. |
| C36 | A step-indexed interpretation of types as sets of values (quantifiers range over all step-indexed sets); compatibility lemmas for every construct; the verifier's state is tied to a typing context by an invariant. |
| C37 | The typing rules are a separate relation (`HasTy`); every step of the checker keeps a unifier invariant (right number of arguments everywhere, no error type) and only narrows its set of solutions, so the solution at the end (unknown types := Int) makes every node's rule true. Termination from C19's termination of unification. `NoEscape` follows from an invariant on the symbols in the unifier when no local definition has type variables. |
| C38 | A logical relation (`interp`): to each type belongs a set of values, functions being those that give a value (or stop at a hole) with enough steps, declared types being least fixed points; a lemma per construct says that the code generated for a typed expression runs to a value of its type; folds go by induction over the value folded. Invariants of the generator (names, tables) carry this through items and imports. `OfTy` is the separate description of what is observed. |
| C39 | The source language gets a big-step semantics of its own (`Ev`, `Ap`, `Folds`, `Iter`, `Runs`): a fold applies itself to the `rec` fields first, numbers are 64-bit, a hole stops the program. It is deterministic (`means_unique`). A relation `Rel` says when a core value stands for a source value (closures: their code was generated from the body of the source closure in an environment of related values), and a forward simulation on the number of steps of core (`sim`) shows that every finished run of generated code is a derivation of the semantics. Runs finish by C38, so that the program means something and the run shows it. |
| C40 | An invariant `VScope` ties the state of the verifier to the state of the generator: the verifier knows a type for the name of every value in scope, and it is the generated type of its scheme with type variables that were given out earlier and whose scope is over; likewise for types and both kinds of constructors. Substituting the type arguments in it gives what the generator makes of the instantiated type (`Entry.inst`). By induction over expressions (`check_gen`) the verifier finds the generated type of the source type. As the verifier checks all types before all definitions, the step for an item (`VStep`) is stated for every later state of the verifier that has defined nothing the item will define. |
| C41 | Composition: C39 says what the generated program computes, C40 that it verifies; `GenShape` shows that generated recursive definitions are functions and match branches distinct, so the program is well-named; every pass followed by the verifier keeps the exports and their values (`PassFine`, from C35's lemmas); what comes out has been verified, and `VerifyShape` derives from that what the lambda and bytecode evaluators need (C07, C08). The panic of the optimizer is a disjunct because it is real: finding 36. |
| C42 | Simulation: a relation between tree values and heap values (`Rep`) that an allocation and a collection keep (from C01-C03), every operation of the machine preserves it; decoding reads back the tree because pointers go to higher addresses. Limits of the heap are an outcome of the model, excluded under bounds with the invariants of C04 and `live bytes <= unshared tree bytes`. |
| C43 | The builder's tree is flattened to a list of events (tokens, line breaks that count, indentation in and out) and shown to equal the events read off the calls directly, by induction on the calls with a path of open nodes as the state (`events_fold`; whether a large line break counts depends on later calls, so the path carries that lookahead); the raw builder's stack, flags and text are a function of the specification's state (`runEvs_expected`). |
| C44 | The printer is the list of calls it makes; by induction on types and expressions the tokens in it are the text of a plain recursive printer without layout (`writeExpr_text`), C43 gives the layout. |
| C45 | Every name node gets at most one reference or own definition (`occ`, by induction on the syntax); symbols of a unit correspond to name nodes one to one (C30), so searching by symbol is searching by target; the item around a position is compiled by `compile_up_to`; local definitions are referred to only in their own item (`unit_local`: the scope an item starts with holds non-local definitions only). |
| C46 | The sets of the lint are unfolded to membership; a type item has one type, to which all its constructors belong (`OneType`, by induction on the syntax). |
| C47 | `sitesItem` lists the places where a name is used, `renItem p x` types `x` at one of them. By induction on the syntax every callback of the resolver belongs to a site and its scope knows `x` exactly if the item with `x` typed there gets a reference there (`fit_item`, on top of the C30 correspondence of scopes and environments); the scopes inside an item have the modules of the unit (`SameMods`); the list is sorted and deduplicated, and membership is membership in one of the scopes. |
| C48 | `GrammarSpec` is the grammar as inductive predicates on trees without positions (`Item`, `Ex`, `Op p`, `App`, `Atom`, `Ty`, ...). `Forest` describes event lists with forward parents that stand for a list of trees; `reorder` puts them in tree order (`Forest.reorder`) and `events_to_node` builds that tree (`eventsToNode_erase`). Forward: by induction on the fuel, on tokens starting with the yield of a tree of the grammar (and followed by a token that cannot continue it) every parser function emits the events of that tree. Backward: errors are never taken back (`Mono`), and a run that ends with no error recorded read a tree of the grammar (`Snd`); for operators the invariant is that the tree so far is of the level of the operator that follows. The first error recorded is always reported (`eventsToNode_err`). Whole programs by an invariant of the driver. Unambiguity is a corollary: the parser is a function. |
| C49 | `LowerSpec`: programs (`SItem`, `SEx`, `STy`), how they are written (`.tree`, a grammar tree with texts) and when the accessors show one (`ShowsItem`). A parser tree labelled with its texts is determined by its shape (C48) and its words, so it is the written tree; `show_item` follows the accessors over it. Back: every grammar tree with texts is the tree of a program (`back_item`). |
| C50 | Invariant of the raw events: a node of one token is followed by its token and its end and is nobody's forward parent (`Single`), kept by every parser action (`keep_item`); reordering keeps the three together (`reorder_whole`), and building the tree makes them a node with one token (`tree_good`). |
| C51 | Longest match per pattern, then the maximum; what may follow a token without joining it, by cases over all patterns. |
| C52 | A reader for printed types and a round trip; printed types as pieces of text that lex and parse in any context. |
| C53 | The last node of a preorder by induction on trees that tile their extent; that the checker visits all expressions by induction on the written program (C49). |
| C54 | Counting: by induction on trees, what the accessors give from the children of a node has each name node at most once; tokens of different name nodes are different leaves; two adjacent identifiers would be one longer token (C51). |
| C55 | The scope rules keep an invariant "every entry is in scope under its spelling", for an arbitrary notion of spelling; by induction on trees every name the resolver reads is a name node with the text of its token; symbols of imports have one name because exported definitions are the unit's own. |
| C56 | Counting: names read from an item are different name nodes of its tree, and by the grammar of accepted items (C15, C49) there are as many of them as identifiers; so every identifier is read. By induction on the syntax, if nothing is reported every name read is recorded as a definition or as a use of something in scope, or belongs to a name `m.x`; what is in scope was brought in by a definition, so C45 finds it. |
| C57 | State machine over all histories. A compilation reads only files it records (`spec_reads`: the result of a lookup depends on the recorded files only), versions grow with every new text, so a unit whose recorded versions are current is what compiling from scratch gives. Termination: every nested lookup records a file that was not recorded. |
| C58 | A machine for the instructions the JIT emits: words are numbers or addresses of one memory, and an address carries the generation of the memory it points into, so that using one after the memory moved is a fault; volatile registers hold anything after a call. The stack buffer holds the values of an abstract machine; simulation, one operation (all its instructions) at a time. |
| C59 | The simulation of C08 holds of any machine whose operations satisfy `LP.OK`. The JIT's operations with trees for values are one (`jlp_ok`); the operations on the heap do what they do on trees or hit a limit (`jvStep_ok`, with the collector lemmas of C42); C58 does the rest. `JitFits`: programs that fit never hit the limit, by the live-data bound of C42. |
| C60 | The search is that of C45, so `use_found`, `brought_in` and `def_found` give the symbol and the definition; the text is a name, `: ` and a printed type (unambiguous by C52) or stars, which begin no printed type. Types of definitions after checking, and texts of spans, are parameters. |
| C61 | Every message is the concatenation of the texts of its segments (the cache stays consistent, C52). Reading back: names have no blanks and commas, numbers only digits, printed types no comma and no number after a blank; so splitting at the first blank or comma separates the parts, and kinds differ in a first letter or word. |
| C16 | Induction on the digits. |
| C17 | Invariant of the counting loop. |
| C18, C19, C32 | The unifier as a state machine over all histories of its operations; acyclicity by a rank; a denotation of unifier variables as trees. |
| C20-C22 | Parser as a state machine over an abstract lexer; event list invariants (balanced, forward links); conservation of tokens; driver loop by a decreasing measure. |
| C23-C25 | Invariant of the lazily built line table over all request histories; list induction for token deltas. |
| C26 | Abstract finite file graph; measure on the set of unfinished files. |
| C27 | Direct. |
| C28, C29 | Induction. |
| C30 | Simulation between nested scopes and a flat environment specification. |

## What is not modelled

* Of `ticc-eval/src/jit.rs` (C58): the encoding of instructions (`iced_x86`), the memory map, saving and restoring registers, the end of the stack buffer (its growth is modelled, not its bounds).
* The code `logos` generates: C51 models the patterns of its attributes and the documented way to choose among them; the
  length of error tokens is a parameter. The other parser and driver theorems hold for every lexer.
* Command-line arguments, LSP transport (notifications are events, messages sent are a log, C57), file I/O (an abstract file system stands for it), `hover`, `goto` and token requests' JSON.
* Time and memory use of the Rust process.

## Simplifications inside the modelled parts

* `Api`: node spans and item spans are functions given with the unit; `Laid` states what the queries assume about them, and
  C54 proves it of the unit made of the trees of any text.
* `Generate`: annotations of the tree stand for the maps of the checked module; debug names of generated names are dropped; an
  imported module is given by a key and its items (`complete_unit` and key comparison are the import model's, C18-C19).
* `Typeck`: only complete, resolved expressions; what the compiler keeps in maps from syntax nodes to types are annotations
  of the tree; spans of type errors are dropped. The unifier takes a step bound, `typecheck_total` removes it.
* Types inside core expressions are carried along but do not influence evaluation (they do not in the code either).
* Locations (`Span`s) of diagnostics are modelled where a property speaks of them (C17, C20-C25, C30), otherwise dropped.
* `Bytecode`: an operation applied to operands of the wrong kind is stuck in the model, where the interpreter would
  misinterpret the word (a tag for an address, a pointer for `true`); only ill-typed programs get there.
* Hypotheses on core programs: names are unique and in scope (`WellNamed`), recursive definitions are functions,
  intrinsics have their number of arguments. The verifier (`ticc-core/src/verify.rs`) checks the first and last between passes.

## Findings

Disagreements between the code and what one would expect, found while modelling.  "proved" means there is a theorem
exhibiting it.

1. Bytecode evaluates the arguments of a call before the function, the two other evaluators after it: `?a ?b` traps with
   another message, and the VM may run forever where the others trap (proved: `traps_may_differ`).
2. `Tagged::from_vec` panics for constructors with 10 or more fields (all evaluators; `maxFields`).
3. `raw_alloc` panics when one object does not fit after a collection (proved: `large_object_fails`).
4. The pointer bitmap `1 << i` of an object breaks for more than 64 fields.
5. The optimizer may remove traps (dce, inline_simple, move_match): stated in C11, C14, C31.
6. The pretty printer prints `%` as `*` (proved: `modulo_listed_as_times`: two valid programs with different values and one
   listing).
7. `Debug` of byte strings does not escape backslashes, so it is ambiguous (proved: `printedStringsUnambiguous_fails`).
8. With several exported `main`s, the earliest is run (proved).
9. LSP resolver: after a failed dependency, a second import of the same missing file is reported as an import cycle
   (proved), and a cycle through the opened file is never shown in it (proved).
10. CLI resolver: no normalisation of `..`, so mutual imports through different spellings diverge (proved:
    `cli_dotdot_diverges`).
11. LSP `to_ticc`: a column past the end of a line is not clamped if the next line has not been indexed yet (proved:
    `clampsToLineEnd_fails`).
12. The heap's forwarding table can be too short if the heap API is used directly (proved: `heap_api_table_too_short`); the
    interpreter's allocation policy avoids it.
13. `move_match` panics when a recursive value is wrapped in a type abstraction.
14. The core verifier checks neither exhaustiveness nor duplicates of match branches, nor that recursive values are functions.
15. `assert_fits` never pops its list of assumed pairs.
16. `merge_match`: with duplicate outer branches the last wins, in the evaluators the first; it panics when the outer match lacks a
    branch.
17. `dce` is conservative (keeps a definition used only by itself); C11 states exactly what is kept.
18. The unifier is not complete up to error types.
19. `kind_check` cleans constructor fields but not the constructor's function type, so `to_ir` can panic (proved).
20. Stepwise and at-once compilation can give different diagnostics, because kind checking changes a definition after later
    items have seen it (proved: `stepwise_may_differ`).
21. Top-level values without an annotation keep type `Infer`, which `gen_core` maps to `Int`.
22. Parser recovery: an error in a type eats a token; item-level recovery swallows `import`.
23. Namespaced type names are reported to `on_name` as values.
24. `type = A | B;` (name missing) records constructors whose type has no definition (proved); a later match on them panics.
25. The closure-compiling evaluator does not check arities (proved: `wrong_arity_differs`) and takes a local name equal to a
    definition's name for the definition (proved: `shadowed_global_differs`).
26. Bytecode closures of recursive functions capture also what only the continuation needs.
27. Self-calls through a type application (`f[t] x`) are not recognised as tail calls and grow the VM stack.
28. The verifier accepts incomplete matches and recursive definitions that are not functions; both panic at run time (`verify_accepts_incomplete_match`, `verify_accepts_letrec_value`).
29. The verifier does not check the type arguments of constructors and type applications and substitutes them without avoiding capture; a program built on an out-of-scope type variable is accepted and uses an `Int` as a `Bool` (`verify_accepts_capture`).
30. A top-level value without a declared type is checked against a fresh variable that is not the one recorded for it: `let x = true;
    let y : int = x + 1;` is accepted (proved: `unannotated_item_stays_unknown`, `unannotated_item_has_any_type`).
31. There is no escape check for the type variables of local definitions: a local `g : b -> b` may use an outer variable at type
    `Option b` (proved: `escaping_variable_is_accepted`).
    The generated program panics when it is run (`escaping_variable_panics`; the verifier, unless `--no-verify`, stops the compiler).
32. A fold over the parameter of a fold (`\fold y -> (\fold x -> 5) y`) is accepted, but the generated code matches the regular
    constructors against the fold's own: it panics (`nested_fold_panics`; the verifier stops the compiler).
33. Items without a declared type (finding 30) are generated as Int: the program panics when run (`unannotated_item_panics`).
34. A match without cases on a type without constructors is accepted by all passes after parsing and its code is fine, but the
    verifier cannot find a type for it and the compiler panics (`empty_match_stops_compiler`). The parser asks for at least one
    constructor (`type_item` calls `type_case` unconditionally), so only that stands between such a program and the panic.
35. A constructor with ten fields is accepted by all checks and the verifier, and the evaluator panics (`ten_fields_panic`).
36. The compiler panics on a valid program under the default options (`emit_core_may_panic`): `merge_match` looks through
    type abstractions and applications for the constructor of an inner branch and moves the outer branch under them, where
    the fields have the types before instantiation; the verifier that runs next rejects the result.  Only redexes created by
    the second inlining pass of a turn are left at that point, e.g. of a polymorphic value that has just become small
    enough (30 nodes) to inline: `type Box a = MkBox (a -> a) int; type Unit = U; box : Box a = let k = 1 + 1 + 1;
    MkBox (\x -> x) (k + 1); run : Unit -> int = \u -> match (match u with U -> box end) with MkBox f n -> f n end`.
    With verification off, or without optimization, the program is compiled correctly.
37. The bytecode evaluator panics on `string_concat` of two strings of 200 bytes (`concat_fails`): it makes room after an
    allocation (`maybe_gc`), never for one; any computed string or object larger than the free part of the heap is fatal,
    while memory is available. C42 is proved up to this limit, and without it for strings of at most 104 bytes.
38. In an import that names no module (`import (map) from "l";`) the hidden module definition has the span of the whole item:
    go to definition, find references and hover at an exposed name there answer for the import (`bare_import_hides_exposed_names`).
39. Go to definition and find references on `l.map` depend on what was compiled before, if only a later import exposes `map`
    (`later_exposure_depends_on_history`).
40. The unused lint credits uses of an exposed constructor to the first type the same import exposes
    (`exposed_ctor_credits_wrong_type`).
41. Completions after `m.`: in an expression the module's constructors are not offered although they resolve
    (`constructor_not_offered`), and in a type its values are offered and its types are not (`type_not_offered`).
42. A type that is called `_` is printed like an unknown type (`underscore_ambiguous`); all types of other modules are printed `???`.
43. Hovering over the body of a match case whose constructor is missing panics (`item.types[&id]`): the type checker skips such
    bodies (`hover_panics`).
44. Go-to-definition has no answer at the module `m` of a qualified name `m.x`, and at `x` only if an import also exposes it; at all
    other identifiers of an item without errors it has one (`answers_everywhere`, `EveryExample`).
45. `on_change` uses only `content_changes[0]`: of several full texts in one notification, which the protocol applies one after
    another, the first is used and the last is lost (`batched_change_uses_first`).
46. A file closed without saving keeps its unsaved text for files that import it, and changes on the disk of a file that was once
    read are never seen (`closed_file_keeps_unsaved_text`).
47. The JIT stores an integer literal below 2^32 with an instruction that sign-extends 32 bits: 3000000000 becomes 18446744072414584320
    (`pushInt_wrong`). Literals below 2^31 and from 2^32 on are right.
48. `stack_capacity` starts as `capacity() / 8` although `capacity()` already counts words: the first `grow_stack` gives
    `Vec::from_raw_parts` 32 for a buffer of 256 words (seen by reading; the end of the buffer is not modelled).
49. The code calls `extern "C"` functions without the 32 bytes of stack that the Windows x64 convention lets the callee use: above the
    return address are the saved registers of the caller of the code (seen by reading; the machine's own stack is not modelled).
50. In an import that names no module, hovering over an exposed name says nothing about it, though hovering over its uses does: the
    module definition without a name has the span of the whole import and hides the rest (`bare_import_hides_info`).
51. Constructors of a type whose module was imported under a name (`import m from "m"`), and any definition the file does not name, are
    called `WTF` in messages: "patterns WTF and WTF not covered" (`missing_has_no_name`).
