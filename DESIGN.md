# Design: a Lean 4 model of zeek/spicy's runtime and parts of its compiler

Spicy compiles grammars to C++ parsers running on top of two libraries, `hilti/runtime` and `spicy/runtime`. What a user relies on
is mostly the semantics of that runtime (streams, sinks, incremental parsing, bytes, integers, network types, containers, fibers)
plus some compiler passes whose correctness is semantic. The model follows the C++ function by function; every definition cites the
file and lines it models and says where it simplifies.

## Approach

* **Outcomes.** Whatever can throw or be undefined returns `Res a = ok a | throw e | ub` (`Verif/Base.lean`). `ub` is a separate
  outcome for undefined behaviour (use after free, null dereference, access out of bounds, bad shift, signed overflow, failed
  `assert` in a build without assertions). Nothing is made total silently.
* **Pointers** are modelled where correctness depends on them: chunk pointers held by stream iterators and the chain's chunk cache,
  control blocks of iterators and references, `std::list` iterators in the sink, nodes of `std::map`, buffers of `std::vector`,
  fibers and what they suspend. Elsewhere values are immutable.
* **Integers.** `Nat`/`Int` with explicit range checks where the code uses `integer::safe<T>` (throws `Overflow`), explicit
  reduction modulo 2^64 where it uses raw machine arithmetic, `BitVec` where it manipulates bits.
* **Specifications** are separate files (`*/Spec.lean`), in terms of plain lists, numbers, functions and small reference machines,
  with no reference to helpers of the model. Theorems relate the two by refinement or simulation, by induction over histories,
  programs, inputs or grammars, without bounds.
* **False properties.** Reading the code turned up properties that do not hold. For each there is a proved witness theorem
  (`..._fails_...`), and a theorem ending in `_partial`, or with an explicit hypothesis, covering everything else.
* **Wrong programs.** `seeded/LOG.jsonl` lists edits to the model such as a realistic bug would make, and which theorems then fail.
  Edits no theorem noticed led to stronger theorems (`theorems_tightened`).

## Trusted base

* Lean 4.33.0's kernel. Axioms used: at most `propext`, `Classical.choice`, `Quot.sound` (checked by `#print axioms` over all manifest
  theorems; no `native_decide`, no `bv_decide`, no axioms of our own). Mathlib is used for `Linarith`/`Ring` in `Ints/Pow` only.
* That the model is what the C++ text says. This is by reading only; nothing was compiled or run.
* Contracts of code that is not in the repository or not modelled: the C++ standard library (`std::vector`, `std::map`, `std::list`,
  `std::string`, `std::shared_ptr`/`weak_ptr`, `std::any`, `std::variant`), SafeInt (exact or throws), utfcpp and utf8proc, `inet_pton`,
  `mktime`/`timegm`, the stack switching library behind fibers, floating point.
* One thread; no allocation failure.

## What is modelled

| module | code | simplifications |
|---|---|---|
| `Stream/Model`, `View` | `hilti/runtime/include/types/stream.h`, `src/types/stream.cc`: chunks (data or gap) with identity, chain (list, head offset, tail, chunk cache, state, statistics), iterators, views and all their observers | intrusive pointers by names of chunks; freeing a chunk makes its name dangling |
| `Parse/*` | `spicy/runtime/src/parser.cc`, `include/parser.h` (waitForInput*, extractBytes, expectBytesLiteral, atEod, ...), and an interpreter of grammars following `spicy/toolchain/src/compiler/codegen/parser-builder.cc` for unpacked fields, bytes fields, literals, `skip`, `&size`, `&max-size`, `&until`, `&eod`, `&chunked`, sequences, switches, loops, `&try`/backtracking | hooks are pure functions of what was parsed; see `Grammar.lean` |
| `Regex/*` | `hilti/runtime/include/types/regexp.h`, `src/types/regexp.cc`: patterns, cache of compiled expressions, match states (`advance` on bytes and views, copies), `match`, `find`; the parser loop of `parsers/literals.cc` is in `Parse/*` | justrx (not in the repository) by contract: an automaton, see `Regex/Model.lean`; both possible behaviours of `jrx_current_accept` are covered; no capture groups; offsets do not overflow |
| `Sync/*` | error recovery of `parser-builder.cc` (`syncProduction`, `syncProductionNext`, `advanceToNextData`, `Counter` and `While` with `&synchronize`, units with one marked field: `startSynchronize`), `util.h` (`confirm`, `reject`), pending look-ahead literals of `literals.cc` | no gaps; one literal as synchronization token; no `%synchronize-at/-after`, `%sync_advance`; hooks by what they do to trial mode |
| `Filter/*` | `spicy/runtime/include/filter.h`, `waitForInputOrEod` (`parser.cc`) with filters, the part of `parser-builder.cc` that sets filters up and finishes them, `fiber.cc` (resuming, exceptions) as far as filters need it | a filter is a transition system of parsing steps (grammars of C13), chunked fields and hooks that forward; filters of filters, and filters on nested units, are not modelled. `Filter/Sink*`: the filter part of `sink.cc` (`_deliver`, `_close`) and `sink.h` (`connect_filter`) on top of `Sink/Model`; the state of the filters is given by the data they got |
| `Sink/*` | `spicy/runtime/src/sink.cc`, `include/sink.h`: reassembly, gaps, skip, trim, policies, delivery to connected units | units are arbitrary state machines; positions below 2^63 where stated |
| `Driver/Registry*` | `spicy/runtime/src/init.cc` (`init`), `parser.cc` (`registerParserAlias`, `lookupParser`), `parser.h` (`registerParser`), `include/mime.h`, `sink.cc` (`connect_mime_type`) | tables as functions; the textual form of ports is given; messages of errors as constants |
| `Driver/Feed*`, `Owning`, `Shape` | `spicy/runtime/include/driver.h`, `src/driver.cc`: `ParsingState` (`process`, `finish`, `setParser`, `skipRemaining`, `reset`, `isFinished`), `Driver::processInput` | a suspended parser is what the host has done to the stream so far; no unit contexts, gaps, profiling; units are grammars of `Parse/*` |
| `Driver/Batch*` | `spicy/runtime/src/driver.cc` `processPreBatchedInput`, `driver.h` `ConnectionState`; `spicy/toolchain/bin/spicy-batch-extract.cc` | parsers are an arbitrary machine with contexts (`Machine`), instantiated with `Driver/Feed` for single flows; flows have identities, so use after release is visible; no debug output, statistics |
| `Ints/*` | `hilti/runtime/include/types/integer.h`, `util.h`: pack/unpack, bits, pow, `atoi_n`, byte order | |
| `Bytes/*` | `hilti/runtime/src/types/bytes.cc`, `src/util.cc`, `include/util.h`: split, join, find, strip, sub, replace, escapes | ASCII part; character sets in `Text/*` |
| `Text/*` | `hilti/runtime/src/types/bytes.cc` (decode), `string.cc` (encode, size, upper, lower), `src/util.cc` (escapeUTF8); the literals of `scanner.ll`, `printer.cc`, `codegen/ctors.cc` | utfcpp and utf8proc by contract (their sources are not in the repository); little-endian machine; case mappings are a parameter; the C++ rules for string literals are a specification |
| `Net/*` | `address.h/.cc`, `network.h/.cc`, `port.h/.cc`, `time.h/.cc`, `interval.h/.cc` | text of addresses, floating point: not modelled |
| `Cont/*` | `vector.h`, `map.h`, `set.h`, `iterator.h`, `safe-int` control blocks: worlds of any number of containers and iterators | elements are numbers; keys in a strict total order |
| `Fiber/*` | `fiber.h`, `fiber.cc`: fibers, resumables, cache, counters | functions are arbitrary interaction trees; stacks are continuations |
| `Ref/*` | `hilti/runtime/include/types/reference.h`: value, strong and weak references with use counts | values are numbers (no references inside values); `StrongReferenceGeneric` not modelled |
| `Grammar/*` | `spicy/toolchain/src/compiler/codegen/grammar.cc`, `grammar-builder.cc` (look-ahead switches), `productions/*.h`, and the parsers `parser-builder.cc`/`literals.cc` generate from grammars: a stack machine with a pending look-ahead token | tokens are bytes literals or fixed-size values; user expressions (conditions, switch values, counts) are an oracle; input is complete; `Deferred`/`Reference` are followed |
| `Opt/*` | `hilti/toolchain/src/compiler/cfg.cc` (graph, data flow, unreachable statements), `optimizer/passes/dead-code-cfg.cc`, `value-propagation.cc`, `move-last-uses.cc` | a core language of function bodies (locals, `inout`, globals, assignment, calls, `if`/`while` with head declarations, `for`, `try`, `return`, `throw`, `break`, `continue`) over integers; what operators and callees do is a parameter; identity of AST nodes by labels; no aliases, struct fields, `switch`, `assert` |
| `Front/Preproc*` | `hilti/toolchain/src/base/preprocessor.cc`, `preprocessor.h`, and what `spicy/toolchain/src/compiler/parser/driver.cc`, `scanner.ll` do with directives | a file is a list of directives and pieces of text; how the scanner finds them is not modelled |
| `Front/Linker` | `hilti/toolchain/src/compiler/cxx/linker.cc` (joins), `unit.h` `Join`, `unit.cc`, `codegen.cc` (hooks) | names are numbers, what implementations do is a parameter; the generated function is the list of its calls; `std::ranges::sort` by contract |
| `Front/Fold` | `hilti/toolchain/src/compiler/constant-folder.cc` | expressions are the kinds the folder knows and binary operators with any meaning; values that are not booleans or integers are numbers; the constructors of the runtime library are a parameter; `Coerced` constants are their coerced constants |
| `Opt/Flatten` | `hilti/toolchain/src/compiler/optimizer/passes/flatten-blocks.cc`, scopes of blocks (`scope-builder.cc`) | declarations, references and blocks; the order of flattening and renaming is arbitrary; not the assignments of default values at the end of a block (lines 107-135), nor what statements compute |
| `Front/Types` | `type-unifier.cc`, `ast/type.h` (`Unification`, `same`), `ast/type.cc` (`follow`), constants of `ast/types/*.h` | unification strings, comparison, the pass that sets them; types as trees (no recursion), kinds of named types and operand lists left out |
| `Front/Names` | `cxx/elements.cc` (`normalizeID`), `base/util.cc` (`toIdentifier`), `base/uniquer.h`, `codegen/types.cc` (names of type information) | all of it, the counter of `Uniquer` unbounded |
| `Front/Coerce` | `compiler/coercer.cc`, `codegen/coercions.cc`, `rt/types/optional.h`, `rt/result.h`, `rt/types/enum.h` (`has_label`) | conversions of expressions, constants and types, and the generated code; without structs, units, bitfields, bytes, references, unions, functions, wildcards, constness; the rounding of `static_cast<double>` as a function on integers, the undefined cast as a parameter |
| `Front/Ctl` | `codegen/statements.cc`, `cxx/elements.cc` (blocks), `ast/statements/switch.cc`, `compiler/resolver.cc` (`break`) | the C++ for statements, with what both mean as functions of the number of rounds of loops; expressions are the same on both sides; without `yield`, assertions that expect exceptions, rethrowing, destructors |
| `Front/Enum` | `ast/types/enum.cc`, `ast/types/enum.h`, `validator.cc` (`type::Enum`), `codegen/types.cc`, `codegen/operators.cc` (`enum_`), `rt types/enum.h`, `parser.yy` | values of labels with the conversions between C++ integer types; truth, printing and conversions at run time |
| `Front/Scope` | `ast/scope.cc`, `ast/scope-lookup.{cc,h}`, `compiler/scope-builder.cc`, `validator.cc` (redefinitions), `types/unit.h` (`inheritScope`) | scopes as association lists, the chain of nodes above a name as a list; bodies with all statements that open scopes; not overloaded functions, IDs with `~`, `$$` |
| `Opt/Whole*`, `Opt/DeadStatic*` | `optimizer/passes/dead-code-static.cc`, `cfg.cc` (`mayHaveSideEffects`), `ast/visitor.{h,cc}`; parameters: `codegen/types.cc` | programs of functions, methods and hooks with locations for variables and references; the visitor's order, including nodes it does not see; not types, fields, features
| `Opt/Params*` | `optimizer/passes/optimize-parameters.cc`, `collector-callers.h`, `cfg.cc` (`DataflowVisitor`, `isConstOperand`), `ast/node.cc` (copies of nodes) | what the data flow notes as changed, promotion to `in` for prototypes and implementations, unused parameters, removal from calls in the order of declarations with stale copies of nested calls. Simplified: local names are declarations; overloads and aliases are a flag of the function; default values are not modelled |
| `Opt/Returns*` | `hilti/toolchain/src/compiler/optimizer/passes/propagate-function-returns.cc` (all of it but groupings with temporaries and coerced tuples) on a language with tuples, tuple assignments, fields, `in`/`inout`/`copy` parameters and shadowed IDs |
| `Front/Overload.lean`, `OverloadSpec.lean`, `OverloadLaws.lean`, `OverloadWitness.lean` | resolution of function calls: `matchOperators` for calls, `coerceOperands`, `isValidOverload`, the rounds of the resolver (`resolver.cc`, `coercer.cc`, `function.cc`, `validator.cc`), on top of the conversions of `Front/Coerce.lean` | hooks, methods, operators, references, `any`, `auto`, built-in functions left out |
| `Front/EmitSpec.lean`, `EmitCxx.lean`, `Emit.lean`, `EmitMain.lean`, `EmitWitness.lean` | the C++ text of expressions: formats of operators and coercions (`codegen/operators.cc`, `expressions.cc`, `coercions.cc`), the shapes the parser builds (`parser.yy`), the grammar of C++ expressions |
| `Opt/Fields.lean`, `FieldsSpec.lean`, `FieldsRel.lean`, `FieldsMain.lean`, `FieldsThm.lean`, `FieldsGone.lean`, `FieldsTwo.lean`, `FieldsWitness.lean` | removal of unused struct fields (`optimizer/passes/remove-unused-fields.cc`): collector, mutator; field accesses and struct constructors as generated (`codegen/operators.cc`, `codegen/types.cc`) |
| `Opt/Peep.lean`, `PeepSpec.lean`, `PeepExpr.lean`, `PeepMain.lean`, `PeepWitness.lean` | the peephole pass (`optimizer/passes/peephole.cc`) as a visitor that removes statements under its own index (`ast/visitor.h`, `ast/node.h`); `cfg::Cache::mayHaveSideEffects` for groupings |
| `Opt/Feat.lean`, `FeatSpec.lean`, `FeatMain.lean`, `FeatNeed.lean`, `FeatWitness.lean` | the pass that turns off features (`optimizer/passes/feature-requirements.cc`) and the shape of the code it works on (`codegen/parser-builder.cc`, `codegen/unit-builder.cc`) |
| `Ref/Intrusive.lean`, `IntrusiveSpec.lean`, `IntrusiveMain.lean`, `IntrusiveWitness.lean` | intrusive pointers (`intrusive-ptr.h`): counter, constructors, assignment, release, destruction | threads; objects with intrusive pointers as members |
| `Prof/Model.lean`, `Spec.lean`, `Main.lean`, `Thm.lean`, `Witness.lean` | the profiler (`profiler.cc`, `profiler.h`, `profiler-state.h`): starting and stopping blocks, recursion, volumes | the clock itself, the report, `hilti/total`, moved-from objects |
| `Boot/Model.lean`, `Spec.lean`, `Main.lean`, `Witness.lean` | registration and initialization of modules and access to their globals (`init.cc`, `context.cc`, `global-state.h`) | `done()`, globals that are C++ variables, initialization code that itself registers modules |

Not modelled: code generation as such, the type checker, the AST, scanners and parsers of the languages, the JIT, Zeek integration,
capture groups of regular expressions and the construction of their automata (justrx is not in the repository), real numbers, printing of most types, profiling, configuration.

## Per property: model and proof

| id | where | how |
|---|---|---|
| C01–C05, C10, C11 | `Stream/Model`, `Refine`, `Props` | refinement of the chain to an append log with a begin offset (`Rel`), by induction over operation lists; witnesses for backward trims, `end()` iterators, copies after trims |
| C02, C06–C09, C12, C41–C44 | `Stream/View*` | each observer of a view equals a list function of the abstract content; search by induction over blocks |
| C13–C15 | `Parse/*` | parsers as monotone resumable computations: a simulation between parsing with data arriving in any pieces and the reference parser reading a list; induction on grammars |
| C16–C22, C45 | `Sink/*` | invariants over histories; delivery refined to a function of positions; witnesses |
| C23, C24, C26–C28 | `Ints/*` | digit expansions base 256, bit lemmas; loop invariants |
| C25 | – | cannot be stated here: it is SafeInt's contract, whose source is not in the repository |
| C29–C32 | `Bytes/*` | induction over text; specifications as relations (`Parts`, `Words`) with uniqueness |
| C33–C36 | `Net/*` | arithmetic |
| C37, C38 | `Cont/*` | simulation of worlds of containers and iterators by lists / finite maps |
| C39, C40 | `Fiber/*` | a reference machine reads the log of an execution (`Spec`); simulation invariant; scripts are played as written (`Faithful`); counters by an invariant over the history |
| C46 | `Ref/*` | simulation of counted pointers by a specification without counts (alive = some handle owns it), with a ledger of temporaries; value semantics by an invariant on who refers to what |
| C47 | `Grammar/Tables`, `Build` | soundness of every table update as an invariant; at the fixed point completeness by induction on derivations; termination by counting table entries; depth-first search for what is kept |
| C48 | `Grammar/Parser`, `Complete`, `Exact`, `Longest` | soundness: every machine step is a derivation step; completeness: induction on the number of steps of the leftmost derivation, with the look-ahead decision determined by the exactness of the tables and the check |
| C49 | `Grammar/Exact`, `Switch`, `Findings` | from the exactness of the tables; induction on the chain of productions a switch is turned into |
| C50 | `Text/Utf8`, `Decode` | the code point decoder is shown to accept exactly the standard's encodings by cases on the bytes; induction on the data against an inductive reading |
| C51 | `Text/Utf16` | units and bytes are inverse; induction on the text and on the units |
| C52 | `Text/Case` | as C50 |
| C53 | `Text/Escape` | induction on the code points; expansion of one escaped code point |
| C54 | `Text/Escape` | the inside of a literal as an inductive language; it ends at one place only |
| C55 | `Text/Literal` | a reader of C++ literals; induction on the constant |
| C56 | `Opt/Flow` | invariant of the rounds (sound), fixed point (complete) against paths in the graph; termination by counting facts |
| C57 | `Opt/Sim`, `Dce`, `DceSound`, `Rounds` | big-step semantics; a simulation that is right node by node is right for every execution (induction on executions, with the construction of the graph); the relation: equal but for variables whose update is not used |
| C58 | `Opt/Prop*`, `New` | same simulation; the relation: what the maps say is true; premises survive a round |
| C59 | `Opt/Unreach`, `Rounds` | same simulation; nodes control gets to are reachable in the graph; the body shrinks |
| C60 | `Regex/Cache` | invariant of the cache: an entry's key is the key of its expression; keys are parsed back (uniqueness of the printed form where no value contains `\|/`) |
| C61 | `Regex/Match`, `View`, `Parse/SimRegex` | invariant: the match state has read `w` and holds the longest match in it; induction over blocks, calls, resumptions; specification by whole texts (`Regex/Spec`) |
| C62 | `Regex/Find` | same invariant; induction over positions |
| C63 | `Sync/*` | refinement: the machine simulates a specification on positions of the whole input (`Sync/Spec`, `whileS`); that one agrees with what a user expects (`idealS`), which knows no pending symbols; measure: every round comes forward |
| C64 | `Sync/*` | same refinement; induction over the count |
| C65 | `Sync/Unit*` | the generated loop of trial mode refines `trialS`, which looks for the literal in the whole input (three cases of where a search begins: at data, at the end of the data, one byte behind what has arrived); invariants of the log by induction over rounds |
| C66 | `Driver/Registry*` | the tables are characterised entry by entry (`GoesBy`, inductive); induction over parsers and aliases; counting for MIME types |
| C67 | `Driver/Feed*`, `Owning`, `Shape` | simulation between `ParsingState` and a session on data only (`FeedSpec`), on top of C13; for buffers and for the end of the input: what waiting and trimming keep up, all parsers keep up (`Shape.good_run`, induction over grammars) |
| C68 | `Driver/Batch`, `BatchRead`, `BatchLocal`, `BatchProps`, `BatchConn`, `BatchFeed` | reading inverts the documented format (`BatchSpec`); every command only depends on and changes the tables of its party (`Local`), so a batch simulates all of its parts at once; a connection is a function of two states and a shared context (`converse`); pointers stay valid by an invariant over open connections (`Tidy`) |
| C69 | `Driver/BatchExtract` | reading what was written gives `selected`; commands that are not selected do nothing in the extracted world; then C68 |
| C70 | `Filter/*` | each filter refines a function from whole inputs to whole outputs (`Filter/Spec`, `through`), by induction on its actions on top of C13; what it forwards is a schedule for the next stage (`cutAll`), so that chains compose (`Stage`, `chain_sim`); closed input is settled (C67), hence finished filters are not resumed |
| C71 | `Filter/Sink*` | the sink with filters is simulated by the sink without (`Rel`, `step_sim`, `run_sim`), the data delivered being what the filters make of it (C70's `chain_sim`); appended data by induction on the writes; what is false has witnesses |
| C72 | `Opt/Move`, `Liveness`, `MoveSound` | a move is a call that leaves anything behind; liveness is exact against paths in the graph (invariants of the worklist loop, termination by counting); same simulation as C57; the relation: equal on what is live |
| C73 | `Front/Preproc*` | the specification is a tree of text and conditionals; soundness by induction on the tree (skipped parts need no well-formed conditions), completeness by recovering the tree from the nesting of the directives; numbers as in C27 |
| C74 | `Front/Linker` | the joins of all modules are a permutation of the implementations (insertion into an ordered set loses nothing as names differ); any sorted permutation gives a schedule and conversely; unique if priorities differ |
| C75 | `Front/FoldProps`, `FoldWitness` | induction on expressions: folded values are evaluated values; only constant parts are replaced; the number of operators falls with every replacement |
| C76 | `Opt/FlattenProps`, `FlattenWitness` | induction on the steps of the pass; invariant: each variable has its original name or one recorded for it, recorded names are unique; references under new names |
| C77 | `Front/Types*` | the serialization of a type can be decoded (`dec_text`: round trip by structural induction with enough fuel), so it is injective on what it contains; unification keeps the types up to that |
| C78 | `Front/Names*` | case analysis of normalization for all identifiers; induction on the text; a pigeonhole argument for unique names; induction on the history of calls |
| C79 | `Front/Coerce*` | induction on the target type for types and generated code, on the depth of the recursion for expressions and constants (a bound that is shown not to matter); evaluation as a relation, shown total and single-valued on well-typed expressions |
| C80 | `Front/Ctl*` | mutual induction on statements, blocks, cases and handlers: running the C++ is running the statements, with `break` as `goto`; induction on rounds for loops; names of variables in scope as an invariant for the forms with another layout of scopes |
| C81 | `Front/Enum*` | induction on the labels: the loop is the numbering of the specification if the values are those of `int`; distinctness follows as numbers assigned are above those given |
| C82 | `Front/Scope*` | the chain of scopes at every place of a body is computed by induction on the body; lookup in it is the innermost visible declaration of the specification; redefinitions by induction on the body |
| C83 | `Opt/Whole*`, `Opt/DeadStatic*` | meaning by fuel on calls and loops, monotone; a visited body does what the body did if calls of hooks without implementation are skipped (mutual induction on syntax); both directions by induction on the fuel; termination by the size of programs |
| C84 | `Opt/Params*` | two simulations on the meaning of C83: promotion relates runs in which places of `copy` parameters differ and variables passed for promoted parameters are protected (not written in either run), removal relates runs that agree outside of removed slots; both by mutual induction on syntax inside an induction on the fuel. That the promoted program is well formed is derived from the optimized one compiling |
| C85 | `Opt/Returns*` | a placed parameter is always returned at its position and never assigned (`Placed`), so that what comes back is what the target holds already (frame theorem for slots of the caller, `comes_back`); then a simulation in which results of changed functions are what is left of the tuple, by mutual induction on syntax inside an induction on the fuel. Partial: programs that satisfy `Good`, each part with a witness of what happens without it |
| C86 | `Front/Overload*` | functions, parameters and arguments over the types of C79; the seven styles with what calls see of them, `coerceOperands`, the choice, the rounds, the validator's check of overloads. Specification: an inductive relation of arguments fitting parameters, with "the same type, or optionals and results of it" for direct fits; best choice stated as uniqueness. Proved by induction on parameters and types; order by permutation; values through C79. Witnesses for accepted overloads that cannot be told apart and for late overloads. |
| C87 | `Front/Emit*` | ASTs with the operators told apart by their C++ format, `emit` from ASTs to C++ tokens, the parser's table as a relation on ASTs (`Parsed`). Specification: the grammar of C++ expressions as in the standard (`Cxx`), and the tree an AST stands for (`means`). The grammar is unambiguous, by a recursive-descent parser that is complete for it; the text has the tree by induction on `Parsed`, comparing the two tables of precedences. |
| C88 | `Opt/Fields*` | Expressions over heap-allocated structs with reads, `.?`, `?.`, assignments, updates, unset, struct constructors, tuple assignments, calls, loops and printing, evaluated with fuel for calls and loops; the collector as two functions on expressions; the mutator as a function from programs to programs. Specification: what an observer sees of a run (`outcome`), occurrences of accesses as a relation (`Within`, `Accesses`). Behaviour by a simulation by induction on fuel and expressions: the heaps agree on fields that stay, and a field never written has its initial value in every struct. Partial: side conditions `Safe`, each shown necessary by a witness. |
| C89 | `Opt/Peep*` | Statements with nested conditions, loops, exception handlers, rethrowing, hooks and an error field; expressions with effects and exceptions; a big-step semantics with at most n tests per loop. The pass as a function on statement lists with a list of what the visitor does to the statements after a removed one. Specification: what an observer sees (`seen`), and where the error field may be looked at (`okL`). Proved by a simulation in which the error field may differ where it is not looked at; the condition is kept by the pass, hence any number of rounds. |
| C90 | `Opt/Feat*` | Statements with conditions, loops, calls and output over variables and fields; constants of features as an environment; the collector as a function from programs to lists of features, the mutator as a new environment. Specification: positions inside conditions as relations (`NeedS`, `Ment`), a static condition on what guarded code looks at and changes (`okS`), states equal but for what is for features turned off (`Same`). Proved by a simulation: code under a condition that is off changes nothing of interest in either run (`silent`), all other code runs in step (`sync`). |
| C91 | `Ref/Intrusive*` | A heap of objects with 64-bit counters or deleted, pointer variables, released references; every member function of `IntrusivePtr` as a step, undefined behaviour as no result. Specification: an object is there iff somebody points to it; where variables point after each operation. Proof: the counter is the number of holders, by induction over the history. |
| C92 | `Prof/*` | A clock, a table from names to measurements and numbers of instances, and all profiler objects; arithmetic modulo 2^64. Specification over the blocks that are open: number of stops, time with an open block, volumes of outermost blocks, nesting. Proof: instances are the open blocks, and recorded time plus the age of any open block is at most (of the first one: exactly) the time blocks were open. |
| C93 | `Boot/*` | The list of modules, the index variable of every module, arrays of globals per context, a log of what `init()` calls; access through a wrong index as no result. Specification: first registration of a name, value assigned last, number and order of calls. Proof: indices are positions in the list of modules, hence different; by induction over registrations and later steps. |

## Findings

Stream: trimming backwards brings data back; a copy after a trim inside a chunk differs from the original; an iterator from `end()`
may dangle after append and trim; iterators dangle after `reset()`. Views: backward search from the end reads past the data, misses a
needle filling the range, and finds matches outside of a bounded view; searching an inverted view is undefined.
Parsing: `bytes &size=N &eod` may read beyond its limit; a 64-bit `real` waits for 4 bytes only; `foreach` over nothing may not end.
Sink: with automatic trimming, a retransmission overlapping new data loses the new data or throws; a gap over the beginning of buffered
data is undefined; lengths of writes cut off by trimming are wrong; undelivered data is reported with a wrong prefix; skipping
backwards delivers twice.
Integers and text: packing a negative `int8` throws; parsing accepts 2^63 as a signed number (giving the smallest one), a lone
sign, and punctuation as digits, and rejects more than 255 characters; powers with negative exponents never end.
Bytes: splitting by a delimiter that overlaps itself adds a part; `bytes.join()` escapes; `sub()` with inverted bounds gives the rest.
Network types: `==` and `<` of addresses are inconsistent across families; networks from text do not validate the length (undefined
behaviour); ports without a protocol print text that is rejected; adding the smallest interval is undefined.
Containers: `v += v`, assigning index 2^64-1, for loops over growing vectors, iterators of copied or moved maps and sets, incrementing
constant map iterators at the end: all undefined.
Fibers: `abort()` before the start, and any use after `abort()`, is undefined; `run()` twice acts as `resume()`; assigning over a
suspended resumable does not unwind its function; `reset()` with fibers in use makes a counter wrap around.
References: a value reference made null by assignment cannot be bound any more, one made null by `reset()` can; moving from a value
reference empties it only if the target had a value; a `self` wrapper dangles, even after assigning it an owning reference.
Text: decoding with `IGNORE` or `REPLACE` throws for data that ends within a sequence (the common case of a cut-off string), and for
sequences of surrogates; `string::size` lets the library's exception through, which is no `RuntimeError`. UTF-16 data with a big-endian
byte order mark is read as little-endian. ASCII treats tab and line ends as illegal. A string constant with a NUL followed by an octal
digit (`"\x001"`) is compiled to other bytes, and one that is not UTF-8 (`"\xff"`) to the text `<illegal UTF8 sequence>`. Control
characters such as 0x01 are not escaped by `escapeUTF8`. `CodeFormatter::quoted` does not escape quotes.
Regular expressions: the set /a/, /b/ and the single pattern `a/|/b` share a cache entry, so the one constructed later gets the
other's patterns. If the end of the data is signalled on its own (empty final piece), a match that would need going back is lost or
gets a wrong end (`abc(123)?` on "abc12"), so a unit fails or not depending on when the end becomes known. `^` inside of an expression
matches at the beginning of every block of memory. Copies of completed match states can be advanced (no `MatchStateReuse`); copying a
default-constructed one is undefined. `match` and `find` do not try the empty string on empty data. Match IDs of 65535 and 65536 are
reported as "no match yet" and "no match".

Filters: if a filter fails, the unit gets the exception before it sees what the filter forwarded just before, so whether a unit
succeeds that does not need the rest depends on how the input is cut up. Chunked hooks can see the pieces the host made.
Sinks with units that have completed: data that cannot be delivered any more still moves the position of the reassembly, so that a gap behind it is
reported and the data is neither delivered nor reported (witness in `Sink/Complete`).

Sinks with filters: a write with a sequence number for which the filters forward nothing is not accounted for, so everything after it is
held back for ever; a write after a filter has finished (or failed) throws a C++ `logic_error`; closing a sink aborts the filters without
telling them about the end of the data, so what they hold back is lost; a filter connected late is accepted if nothing has been forwarded yet, and
then all writes throw (witnesses in `Filter/SinkWitness`).

Grammars (all of these compile, and valid input is then rejected): a list followed by a `switch (expr)` with two cases starting with
the same literal; a look-ahead alternative that can be empty but is not literally empty, at the end of input; a counted list of
length zero as look-ahead alternative; look-ahead alternatives in a sub-unit that can be empty, as what follows the sub-unit is not
known to it; a default case between other cases of a look-ahead switch (the last case is taken instead). The ambiguity check does not
know that counted lists can be empty, and takes `skip b"X"` and `b"X"` for different tokens.

Optimizer (all of these change the behaviour of valid programs; each is a theorem in `Opt/Witness`, `Opt/PropWitness` or `Opt/MoveWitness`): the control
flow graph has no edges for `break` and `continue`, and only the end of a `try` block leads to its handlers. So a store before a
`break`, or before a statement of a `try` block that throws, is removed if a later statement overwrites it; the handler of
`try { return f(); }` is removed; and values are propagated past them. A store to a global is removed although a callee reads it
before it is overwritten; a store to an `inout` parameter although an exception makes it visible; statements that divide by zero are
removed; a dead self-referencing assignment is turned into an expression that newly fails. Value propagation takes a missing value for
an agreeing one, so a local without initializer, a global, or a loop variable that is assigned on one way is replaced by the
constant on all; it does not see that callees change globals, neither for a global nor for a copy of it; a copy of a variable declared
in the head of an `if` is replaced by it where it is not in scope; `x = e; return x` loses the update of an `inout` or global `x`.
`p = p; y = p` sends the compiler into an endless recursion. For the same missing edges a variable used before a `break`, or before a
statement of a `try` block that throws, is moved although it is read after the loop or in the handler (`Opt/MoveWitness`). By reading
only: `f(inout x, x)` moves the second `x`; `*x = v` counts as a write but not as a read of `x`, so the last use before it leaves a null
reference; an iterator does not keep its container from being moved.

Error recovery: a pending look-ahead literal is not reset when the element it announced fails, so the next search ends at once:
`%synced` and `%confirmed` run for every skipped byte, and in counted lists every skipped byte uses up one element (witnesses in
`Sync/Witness`). An element that fails in a `&requires` or a hook when it has consumed everything received so far makes recovery fail
with `InvalidIterator`, depending on how the input is cut (witness); at the end of the data recovery fails with `InvalidIterator`
instead of `ParseError`, so that an outer `&synchronize` does not see it. Synchronizing a unit after a sub-unit that failed having
consumed input fails with `InvalidIterator` (the list code was corrected for that, the unit code was not; witness). In trial mode the search goes on one byte
behind the field that failed, or behind the field whose hook rejected, so a literal that is exactly there is missed; `reject` in `%synced` aborts the unit
instead of trying the next place (witnesses in `Sync/UnitWitness`). By reading only: `%synchronize-at/-after`
begin with the stale look-ahead symbol; a sub-unit with `&size` ending in a
look-ahead list hands its end-of-data symbol to the parent; the branch for an unchanged position in `syncProductionNext` is never taken.

Registry: with three public parsers (or any odd number) the last one silently becomes the default; a parser that declares a name twice
(e.g. a port that is also an alias, or an alias registered twice) can no longer be found by it; `linker_scope` never chooses between
parsers of the same name; connecting a sink to a wildcard MIME type connects the same parser two or three times.

Drivers: `processInput` with an increment above 4096 reads beyond its buffer on the stack; block mode with a unit that requires arguments
reports that for the first block and calls a null pointer for the second; `isFinished()` is true after a failed block although further
blocks are parsed (witnesses in `Driver/FeedProps`). By reading only: `setParser(nullptr)` in the middle of an input makes `process()` report `Done`.

Batches: `@end-flow` for a flow of a connection followed by `@end-conn`, and two connections that share a flow ID, use a flow that has been released;
a `@begin-conn` without known parsers erases flows with the IDs of its sides; `@begin-flow` with an unknown parser for an existing ID keeps feeding the old
parser; sizes are read with `std::stoul`, whose exceptions nobody handles and which accepts `12abc` and `-1`; `spicy-batch-extract` rejects `@gap`, and
asking it for one side of a connection gives data without a beginning (witnesses in `Driver/BatchRead`, `Driver/BatchFeed`).

Preprocessor: a missing `@endif` is not reported (`expectingDirective()` is called nowhere), nor is a second `@else`, which turns back to the branch the
first one ended; `@if !X` without a space tests an undefined identifier `!X` and is always false; 2147483648 is read as -2147483648, larger numbers end in
an exception, a sign without digits is zero; a comment behind `@endif` is an error (witnesses in `Front/PreprocWitness`).

Constant folding: widths of intermediate constants are not checked, only those of the constants that are left, so `uint16(int8(300))` is 300 and
`-(-int8(-128))` is -128 although evaluating them throws; `-(-9223372036854775808)` negates the smallest 64-bit integer in the compiler, which is
undefined (witnesses in `Front/FoldWitness`).

Flattening blocks: new names are only compared with the scope of the parent block, not with what is visible there from outside, so in
`f(x) { if ( c ) { { local x = 1; } print x; } }` the inner variable keeps its name and `print x` prints it (witness in `Opt/FlattenWitness`).

**Random access (C13).** `&parse-at` is covered by `Parse/Random` and `Parse/RandomProps`: a unit that uses random access does not trim,
so positions from its beginning on stay valid (`Kept`), and a parser that asks for data first behaves the same at a position that does
not exist yet (`AtX`, `RefinesX`). `View::limit()` subtracts offsets as raw `uint64_t`; a view moved behind its limit by `&parse-at` gets the
inner `&size` instead of the outer one, so that a size-limited field can read data behind its limit (`C13_parse_at_escapes_limit`). A name
that points to itself (DNS-style compression) is followed until the stack is exhausted (`C13_pointer_loop_runs_on`). Positions are given by
offset (`Chain::at`) instead of by iterator arithmetic.

**Type identity (C77).** The names of C++ types are inserted as they are, so a library type whose name contains a closing parenthesis can make
two different types the same. Beside what the documentation says does not count, the attributes of bit ranges (`&convert`, which changes the type
of a field) and the kinds of function parameters do not enter the comparison.

**Names (C78).** `while` and `while_` are the same name in the generated code, and so are `_Foo` and `_r_Foo`. `toIdentifier` takes the low digit
of a character as `c % 0x0f` (instead of `& 0x0f`), reads in front of its table for characters above 127 (`char` is signed), and is not injective: the
type information of `M::M__T` and of `M__M::T` have one name, and the second type gets the information of the first.

**Conversions (C79).** `int64` constants are converted to `real` by a round trip through `static_cast<int64_t>`, which is undefined for
9223372036854775807 (it rounds to 2^63): on x86 it is rejected, on machines with saturating casts it is accepted and becomes another number. The lower
bound is compared with `<`, so -9223372036854775808 is rejected though it is exact. A constant converted to a 64-bit type stays of its own width.
`result<T>` to `optional<result<T>>` goes through the code for `result<T>` to `optional<T>`, which turns an error into an unset value. Read, but
not modelled: the conversion of a reference to `bool` asks the target type `bool` for its dereferenced type; keys of map literals in
conditions are converted contextually; the range check for values of bitfields shifts `1U` by up to 64.

**Statements (C80).** A `break` in a `while` with an `else` becomes a `goto` to a label that is not emitted (the branch for `else` returns before the
label is added); `continue` in the `else` part is linked to the loop it belongs to and, in the generated `while ( true )`, repeats the `else` part
forever. A `case` whose constant has another type than the control expression after conversion is left out of the C++ `switch`, so that the default
runs, or an exception says the value is not handled; constants converted to 64 bits keep their type (C79), so `case` with a `uint8` constant for a
`uint64` is such a case. A `switch` for another type than integers or enums that has nothing but a default neither evaluates the control
expression nor declares its variable. `local x = x` reads the new variable. Without code for locations (an option of the context, on by default)
a block that consists of one declaration is printed without braces, so that the variable stays in scope behind it.

**Enums (C81).** The value of a label is read as `uint64_t` and passed as `int`: `A = 4294967296` is 0, `A = 4294967295` is taken for a label without a
value, `A = 2147483648` becomes -2147483647 and `A = 4294967294` clashes with `Undef`. The next value is the largest plus one in `int`, which is undefined
for 2147483647 even if no label needs it. The documentation says that an enum is true if it is not `Undef`; a value without a label is
false, too.

**Names and scopes (C82).** The documentation says that only public identifiers are accessible from other modules. The check in `lookupID` for `external` results
never fires, as nothing inserts an `ImportedModule` into a scope: private functions and globals of imported modules can be used, and imports are transitive
(`A::B::x` finds what `B`, imported by `A`, declares). `local x = x` and `for ( x in x )` find the new variable. In `scope-lookup.h` the branch for types in declarations
continues without advancing to the parent, which would loop for ever; it is dead, as the parent of a type is a `QualifiedType`.

Removal of statically dead code (C83). A hook without implementation that is called inside of an `if ( True )`, in the else block of an `if ( False )`, in a branch that
replaces a ternary operator, or in the statement after a removed `while ( False )`, loses its declaration while the call stays: the visitor does not see what replaces a node,
and `removeChild` moves the next statement to the place the iterator has passed. The next run does not know any more that it is a hook, so the call is never
replaced and the C++ compiler reports it. Arguments of calls that are replaced by a default value are not evaluated any more; expression statements that would
throw (`m["x"];`) are removed; `f(True ? g : 1)` passes `g` itself where it passed a temporary.

Parameters (C84). Five ways the pass changes programs or breaks their compilation, all as witnesses in `Opt/ParamsWitness.lean`: (1) `return p++`, `local y = p++` and `y = p++` are not
seen as modifying `p`: it becomes `in`, a `const` reference, and the C++ compiler reports the operator; (2) a hook with two implementations of which one modifies the parameter gets
two different signatures; (3) in `f(1, g(2) + 1)` with both first parameters unused and `f` declared before `g`, the arguments of `f` are copied before `g` is processed, so the call of
`g` keeps its argument; (4) a `copy` parameter turned into `in` is an alias: a callee that changes the global it was passed, or a call that passes the same variable
for an `inout` parameter, sees the new value; (5) arguments for removed parameters are removed with their effects unless they are, directly, a call of a function: calls of methods, calls
inside of operators, assignments, `x++` and exceptions disappear.

Function returns (C85). Nine programs the pass changes, all as witnesses in `Opt/ReturnsWitness.lean`: (1) `(self.a, x) = f(x)`: the mutator keeps only targets that are names, so the assignment
to the field disappears once `x` comes back; (2) `(x, x) = f(x)`, with `(x, y) = f(x)` elsewhere: both targets have the name of the parameter and both go; (3) `(x, r) = f(x, x)` with an `inout` and
a `copy` parameter: the map from names to parameters keeps the last one, and the change through the first is not undone; (4) `(G, r) = f(G)` with a global `G` that `f` changes; (5)
`(b, a) = f(a)` where `a` and `b` are `inout` parameters for the same variable; (6) `f(copy p) { self.m(p); return (p, 9); }` where the method changes `p`: arguments of methods do not count as uses;
(7) a variable of an inner block with the ID of a parameter is taken for the parameter; (8) `two(a, b) { return one(b, a); }` with `one(a, b) { return (a, b); }`: nothing is swapped any more;
(9) `two(a, b) { a = 5; return one(a, b); }`: the change of `a` is lost, because a function that tail-calls uses the placements of its callee whatever it does itself. From reading only: a grouping
written by the user, `(a, b) = ({local t = f(a, b)} (t[1], t[0]))`, is taken for one made by coercion, as if its elements were in order.

**C86 (function calls).** (1) `f(uint64)` and `f(optional<uint64>)` are accepted as overloads, but calling `f` with a `uint64` is ambiguous although
the first one has the very type: wrapping into an optional or a result is allowed at the level without conversions (`coercer.cc` 1150-1175 does not
look at `TryCoercion`) (`optional_no_worse`). (2) Overloads that differ only in `inout` against `in` are accepted, but no variable can be
passed to either (`kinds_no_help`). (3) The check for "differ only in defaulted parameters" compares only those without defaults, so
`f(uint64, string = "a", uint64 = 1)` and `f(uint64, string)` are accepted and the second one cannot be called (`defaults_overlap`). (4) `Null`
for an optional parameter with a default passes the default, not an unset optional (`null_is_default`). (5) A function whose types are
not yet resolved is not a candidate, and the call is resolved in that round all the same: it may go to a worse overload (`late_overload`).

**C87 (grouping of operators).** The code generator writes `a op b` without parentheses and relies on C++ grouping it in the same way. Where it does not: (1) `a & b == c` on bools, `(a & b) == c` by
Spicy's table, becomes `a & (b == c)`, the same for `|`, `^` and `!=`; with all three false the program yields false instead of true (`bool_bit_misgrouped`, `bool_bit_wrong`). The
operators on integers have parentheses. (2) `a -= b -= c` groups from the left in Spicy and from the right in C++: `b` is changed, too (`assign_misgrouped`, `assign_wrong`). (3) `|a + b|` on bytes or vectors
becomes `a + b.size()`, `x in a + b` becomes `a + b.find(x)` inside of a call: the C++ compiler reports it (`size_misgrouped`, `in_misgrouped`). (4) Operator resolution swaps the operands
of commutative operators of mixed types: `i - j + t` with intervals and a time becomes `t + i - j`, which may overflow where `i - j` does not; `r / 2.0 * i` becomes `i * r / 2.0`, which does not compile
(`swap_misgrouped`). (5) `a ? b : c ? d : e` is `(a ? b : c) ? d : e`, as documented, unlike in other languages (`ternary_left`).

C88 (removing unused fields): (1) Printing a struct is no read of its fields: with `s = [$f=1]; print s;` the output shows the field's default after one round and no field after two (`printing_changes`). (2) Replacing an access drops
the expression it is made on: `foo().f = 1` becomes `1`, `foo().f` the default, without the call of `foo` (`base_effect_lost`, `base_effect_lost_read`); a null reference is not noticed any more (`null_not_noticed`). (3) A
non-constant `&default` of a field never read is removed with its effects (`default_effect_lost`). (4) In `(x, s.f) = (g(), h())` the call of `h` moves before that of `g` (`tuple_order_changes`). (5) "No side effects" includes
expressions that throw: `[$f=1 / 0]` stops throwing (`init_exception_lost`). By reading only: two never-read fields in one tuple assignment, the first with an effectful element, reach
`op1()->type()->type()->as<type::Tuple>()` with a type reset to `auto`; a member anywhere below the left side of a tuple assignment (`(v[self.i], y) = t`) counts as a write of an element that `index()` does not find; and
`TryMember` on a field with a default compiles to `e.value_or(d)`, without the field.

C89 (peephole): (1) Removing an error push with the pop after it leaves the struct's error field as it was before: a hook that runs later without a push of its own sees that old error (`stale_error_differs`). (2) Statements are removed under the
visitor's index: the statement after a removed one, or the `default<void>` between a removed push and pop, is passed over with all that is in it, and so is the body of a replaced `try` and the argument of a removed move. The pass does not
iterate (`.iterate = false`) although the comment at its top says so, so these are left to later rounds (`exGood'`, `exGood''`). (3) The dataflow of the whole statement stands for that of each part, and it has the local of a grouping as
written; so in practice only locals with a constant or a name as value, in groupings of constants and names, are taken away.

C90 (feature requirements): `conditionalFeatures` takes any position below an `if` or a ternary on a feature as code for it. (1) That includes the branch taken if the feature is off: what is used there does not keep the feature on
(`else_branch_differs`). (2) With several features in one condition, a use counts as guarded by each: a field of the first is read in code that runs for the second, while the first is off (`either_feature_differs`). Generated code does this with
`position_update`, which is for random access only, under `uses_random_access || uses_offset`; it is harmless because the field is then never set (`idle` in `FeatSpec.lean`). (3) Other parts of the condition are ignored
(`mixed_condition_differs`).

**Profiling of connections side by side (C92).** `Profiler::record` adds the time of a block only if no other block of the name is running, with the start of the block that happens to end last. That is right for recursion, but parsers of different connections run in fibers of their own and their blocks (`spicy/unit/...`) overlap without being nested: of two such connections only the one that ends last is timed and its volume counted (`overlap_wrong`), and if there is always one connection open, nothing is ever recorded (`chain_wrong`).

**Contexts other than the master (C93).** `Context::Context` calls the `init_globals` function of every module with the new context, but the generated function ignores its argument and initializes the globals of the *current* context (`initModuleGlobals`). A second context would therefore have no globals, and creating it resets those of the first (`new_context_resets_all`). Nothing in the code base creates one yet.

**Wrong programs not caught.** The last round of edits (end of `seeded/LOG.jsonl`, entries with no failed theorem) left these without a theorem that fails: the exact set of white space characters (`isWs`; the theorems of C29 and C30 hold for whatever set it is), the second part of `rsplit1` at white space, searching for the empty string in C30, and the distinctness of names with the characters `%` and `@` or with hexadecimal digits in C78. These parts are modelled but not pinned down by a theorem.
