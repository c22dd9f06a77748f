# Formal model of rodkina — design

Source under study: `/repo` (Go, `steve-care-software/rodkina`). The code is read as text, never built or run.
The model is in Lean 4 under `lean/Verif/`. Properties are in `properties.jsonl`; which theorem settles which
property is in `MANIFEST.json`.

## Trusted base

* Lean's kernel. No axiom is added; no `sorry`, `native_decide` or `bv_decide`. Every property theorem depends at
  most on `propext`, `Classical.choice`, `Quot.sound` (Lean's three standard axioms).
* The reading of the Go code: every definition cites the file and lines it models.
* Go's language semantics as encoded in `Verif/Base.lean`:
  * three outcomes — value, error, panic (`Res`). Index/slice out of range, nil dereference, integer division by zero
    and explicit `panic` are the panic outcome;
  * a byte slice is its visible bytes plus the bytes between `len` and `cap` (`Slice`): `s[a:b]` is legal up to *cap*,
    so re-slicing can expose bytes beyond the visible end, as in Go;
  * `int(uint64)` is two's complement on a 64-bit platform.
* SHA-512 is an arbitrary function `sha : List UInt8 → List UInt8` whose results are 64 bytes long. Nothing else is
  assumed; collision freedom never is — theorems that need it conclude "or here is a collision".
* `encoding/binary` little-endian, `encoding/hex`, `strconv`, `math/big` magnitude bytes, `time.UnixNano`, `filepath.Join` are modelled by
  the obvious total functions (defined in the model, not axiomatised).
* Operating system: a file system is a finite map from paths to bytes, open files are handles to inodes, each call is
  one atomic step except writes, which can be cut at any byte. Caching and flushing are only modelled for C139 (PowerLoss.lean).

## What is modelled

| package | model |
|---|---|
| `libs/cryptography/domain/hash` | all of it |
| `libs/cryptography/domain/hashtrees` | all of it (builders, adapters, heights) |
| `libs/databases/domain/references` | all of it |
| `libs/databases/domain/contents` | all of it |
| `libs/databases/infrastructure/files` | application: all methods, on an explicit file system with inodes and locks |
| `libs/asts/applications` | all of it: Execute, Compose, Coverages, Covered, Uncovered |
| `libs/asts/domain/grammars/coverages` | data types, `ContainsError` |
| `libs/asts/domain/{grammars,trees}` | data types, builders' checks, `Bytes`, `IsSuccessful` |
| `libs/queries` | all of the application |
| `libs/interpreters` | Compile and Execute in full |
| `instances/grammars` | the token constructors and the part of the grammar the properties name |

Not modelled: error *messages* (only the fact of an error), memory limits, goroutine scheduling inside one call
(the code starts none), floating point numbers themselves (the number of leaves of a hash tree is computed exactly, or, for C140, by any arithmetic with a bounded
relative error),
`guis/` (JavaScript), reactjs, `vendor/` except the contract of `fslock`.

### Modules

| module | content |
|---|---|
| `Base`, `GoMap` | outcomes, slices, byte encodings, Go maps |
| `Hash`, `HashTree`, `References` | the model of those packages |
| `Rounding` | the builder of hash trees with arithmetic that rounds |
| `Database` | file system, faults, contexts, `New` … `Commit` of the file database |
| `Paths` | `filepath.Join` and `Clean` on slash systems, from Go's documentation; plain names |
| `Dirs` | Exists, New, Delete and Open on trees of files and directories, relative paths |
| `Descriptors` | the calls of the file database with the descriptors they open and close |
| `CoverageOrder` | the loop of `Uncovered` over maps, in any order |
| `AstBare` | the parser on grammars with all suites left out |
| `AstCost`, `AstCostLemmas`, `AstCostBound`, `AstCostLower`, `AstDepth`, `AstCostProps` | the parser with a count of steps, bounds on steps and depth |
| `AstCostShipped`, `AstCostMono`, `AstCostAny`, `AstCostProps2` | steps and depth: the shipped grammar, every grammar |
| `AstLeftLemmas`, `AstLeftRec`, `AstLeftProps` | left-recursive rules on every input |
| `AstLeftTerm`, `AstLeftProps2` | termination with left recursion in a first alternative |
| `AstLeftPeg`, `AstLeftProps3` | a left-recursive first alternative with any tail and base |
| `AstLeftTwo`, `AstLeftTwoRun`, `AstLeftProps4` | two left-recursive alternatives with any tails and base |
| `AstLeftMany`, `AstLeftProps5` | any number of left-recursive alternatives |
| `AstLeftMutual`, `AstLeftMutualRun`, `AstLeftProps6` | two rules that refer to each other at the left |
| `AstHollowProps` | exactly when a tree without success is returned (C83) |
| `AstNamed`, `AstNamedProps` | elements that share names (C161, C81 exactly) |
| `AstEquivar`, `AstEquivarRun`, `AstEquivarProps` | the parser under injective renaming (C162) |
| `AstRecode`, `AstRecodeProps` | the parser under injective replacement of bytes and names (C163) |
| `CoverageRecode`, `CoverageRecodeProps` | coverage reports under injective replacement of bytes and names (C164) |
| `QueryRecode`, `QueryRecodeProps` | queries under injective replacement of bytes and names (C165) |
| `InterpRename`, `InterpRenameProps` | programs under renaming (C166) |
| `InterpValues`, `InterpValuesProps` | programs on replaced values (C167) |
| `InterpUses`, `InterpUsesProps` | the modules and inputs a program uses (C168, C169) |
| `DatabaseHistory` | histories of calls (`Step`, `Reachable`), starting from no database or from files left by applications with other parameters (`Started`), and their invariant |
| `DatabaseSample` | concrete databases used in the examples and witnesses |
| `Concurrent`, `ConcurrentSpec` | the update of the file as a program of file operations, interleaved between processes; commits one after the other |
| `Snapshot` | several applications on the same files, one call at a time; which calls leave a context alone |
| `Builders` | every builder of libs/asts/domain/grammars, values and cardinalities: setters, `Create`, `Now` |
| `QueryBuilders` | every builder of libs/queries/domain/queries |
| `InterpBuilders` | every builder of libs/interpreters/domain (instructions, programs, modules) |
| `TreeBuilders` | every builder of libs/asts/domain/trees and libs/asts/domain/grammars/coverages |
| `TreeRead` | `Bytes` and `Fetch` of trees with the panics on nil lists |
| `DataBuilders` | every builder of libs/cryptography/domain/hashtrees, libs/databases/domain/{contents,references} |
| `BuilderReuse` | what `Now` assigns to the fields of a builder |
| `Sessions`, `SessionsSpec`, `SessionsTwin`, `SessionsJoin`, `SessionsAlone` | processes as programs of calls, each a sequence of file operations; the same program without other processes |
| `Goroutines`, `GoroutinesSpec`, `GoroutinesCalls`, `GoroutinesTurns` | the calls of one application as accesses to its memory and to files, interleaved, with or without a mutex around each call; the same calls one after the other |
| `Memory` | arrays and slices of Go: the two places that append to a list they were given |
| `Buffers`, `BuffersSpec` | the calls of a database application with slices in memory for data; programs that write to memory |
| `Handed`, `HandedSpec` | the same with slices in memory for the lists of commits |
| `GrammarTextSpec` | the texts of the parts of a grammar file as sets (concatenation, choice, repetition), apart from tokens |
| `Components` | the functions of instances/grammars/components on top of `Builders`, with their panics |
| `DecodeSpec` | byte strings in which a length or count field says more than there is |
| `Ast` | parser (`libs/asts`): grammars, trees, `token` … `Execute`, `Compose` |
| `AstSpec` | specifications for the parser: derivations, ordered-choice reference interpreter, channel skipping |
| `AstLang` | the language of a grammar, declaratively |
| `AstRename`, `AstRename2` | renamings of grammars and their channels, and what the reference interpreters see of them |
| `AstRefSpec`, `AstRef`, `AstRef2`, `AstRef3`, `AstRef4` | reference interpreter for all grammars without references by name (conditions, escapes, exceptions, externals) and agreement with it |
| `AstRecSpec`, `AstRec`, `AstRec2`, `AstRec3` | reference interpreter for grammars with references by name: a name stands for its token, without a map of started tokens; the class of grammars for which the parser agrees with it |
| `AstPartsSpec`, `AstParts` | what a grammar reads in terms of what its parts read on their own |
| `AstMono`, `AstTerm`, `AstJust`, `AstPeg`, `AstSkip`, `AstStrip` | fuel monotonicity, termination, derivations, agreement with the reference interpreter, channels |
| `TreeFetch` | `Fetch` on parse trees |
| `AstShipped` | the tokens and channels of `instances/grammars` |
| `AstShippedSpec`, `AstShipped*` | what they match, in terms of character classes, and the proofs |
| `Query`, `QuerySpec` | queries (`libs/queries`) and their reference semantics |
| `Interp`, `InterpSpec` | the interpreter (`libs/interpreters`); scoping, interpretation by name and direct interpretation of the text |
| `InterpScope`, `InterpSem`, `InterpPure`, `InterpCalls`, `InterpAttach` | proofs about it |
| `Coverage`, `CoverageSpec`, `CoveragePlain` | coverage reports; tokens and elements of a grammar, positions used by a tree |
| `*Lemmas*` | helper lemmas |
| `*Props*` | the property theorems, with an example meeting their hypotheses beside each |

Assumptions about use that the database theorems name (`Usage` in `DatabaseHistory`): names never collide with the temporary and
backup names of others (`Names`); `tidy`: no database is deleted while a context has it open; `lossless`: the copy condition of
C25 holds at each commit and no failure hits an operation whose error the code ignores; sizes and times fit in 63 bits
(`CommitFits`). Theorems that do not need one of them do not assume it. Faults: every file operation of a commit can fail or be
the last one before the process stops, after any number of bytes.

## Plan per property

* **C01, C02** hash: direct functions; hex encode/decode round trip by induction on the byte list.
* **C03, C04, C09–C11** hash trees: `build : List Block → Res Tree` as in the code (flat list paired level by level);
  specification: recursive Merkle root over halves of a list of length `2^k`. Induction on `k`. Negations by witness.
* **C05, C06, C12–C14, C16, C19, C22** codecs: encoders as list functions, decoders on `Slice`s; round trip stated for a slice
  with arbitrary bytes behind it. Induction on trees/lists.
* **C07, C08** ordering: association-list map; permutation argument.
* **C15, C20, C21** folds over lists.
* **C18** commit hash binding: length bookkeeping of the concatenation; negation by witness.
* **C23–C39** database: file-system state machine; commit as a list of steps; invariant
  `file = LE64(len ref) ++ ref ++ data` with pointers tiling `data`; refinement to an abstract log; every prefix of the step
  list for crash properties; negations by witness runs.
* **C93** concurrent commits: a commit as a tree of file operations, a system of processes and schedules, `flock` on inodes.
  Bridge: run alone it is the commit of `Database`. Invariant: idle, or one process in its critical section whose rest, done
  alone, gives the whole commit.
* **C94** snapshots: histories of calls by several applications; invariant: the file behind an open handle is no temporary file of
  any application, so that no call writes to it. Negation on the interleaved model of C93. For overlapping commits: every
  operation a commit does under the lock is one of a list (`Op.Fine`) which leaves settled files (not temporary, not backup) alone.
* **C95**, **C96**, **C97** grammar builders: one generic state machine; each field holds what was last given for it (induction on
  the calls); `Built` (inductive: every part comes from a builder) equals `WF` (inductive: well-formed) by mutual induction.
* **C98**, **C99** components: closed forms by unfolding the builders; matching through the reference interpreter (as C81, C49).
* **C100–C102** query builders, **C103–C105** builders of the interpreter: as C95–C97. Compiled programs: invariant of the compiler's state.
* **C106** programs built by hand: one mutual induction over programs, for each way of not ending well.
* **C107–C109** builders of trees and coverages: as C95–C97. **C110** invariant of the parser (Hoare triples `Ens`). **C111** mutual induction over well-formed trees. **C112** witness: a tree with the wrong byte.
* **C113, C114** builders of hash trees, contents and references: as C95. **C116** built equals well-formed, as C97; every reader's result is well-formed.
* **C115** a normal form of the fields that `Now` keeps and that decides its result.
* **C117–C119** an explicit memory of arrays; `append` writes in place when there is room; frame lemma: what is apart stays.
* **C120** buffers: `Database` with slices for the data of pending contents; simulation by the calls taken by value as long as no buffer of a
  pending content is written to; for all programs, refinement to the histories of C23 with the bytes at the time of the commit.
* **C121** parts of a grammar file: sets of texts; composition lemmas (a set that lacks the bytes the next one starts with ends there;
  prefix-free sets; maximal munch loses nothing, also for names in a row) from the reference interpreter of C73 to the longest text.
* **C122** lists of commits: `Database` with slices in memory for the lists of commits; invariant: each list shows the commits of its context and
  no two share an array; frame lemma of C117. Negations for every state whose list has room, and for a program from the start.
* **C123** channel conditions: the reference interpreter passes on the data read from before; its skipping is shown to be the relation
  `SkipAll`, stated with `Parses` of the channel token and the conditions alone; words by induction.
* **C124** escapes: the loop of an exception as `upTo`; induction on the text. Exact: an inductive relation on the text that
  says byte by byte what is taken (`ReadsText`), shown total and single-valued, and the parser shown to follow it.
* **C125** texts of hashes: induction on pairs of characters.
* **C44 with references, C126**: the reference interpreter gives every name the matcher of its token and ties the knot on the length of
  the input. Agreement: the map of started lines is aged (every line in it was started on more data, or by a token on the way), so that
  the check for started lines never fires and each deleted name is restored before it is used again; induction on the length of the
  input, then on the grammar. Class `RecGrammar`: references behind something that must occur, not repeated, one open reference per line,
  different names. Outside it C44 and C78 fail.
* **C127** parts: the relations `RepOn`, `SeqOn`, `ChoiceOn` on what the parts read as grammars; both sides through the reference
  interpreter, which is shown not to depend on what was read before nor on names that do not occur.
* **C128** bytes behind a slice: a relation between outcomes (`Kept`) that every step of every decoder preserves when bytes are added
  behind; for accepted values, every slice expression is shown to end inside the given bytes.
* **C129** opening during commits: `openAt` takes the files at the three moments `Open` looks at them; with C93's invariant the file
  it found is that after a whole number of commits. Negation: the general law about where a context opened across a commit
  reads, and a concrete history of it and of a commit from such a context.
* **C130** goroutines: each call of the application is a sequence of accesses to its map and its contexts; an access to the map while another
  goroutine assigns to it ends the process. Readers leave the memory unchanged, so that any interleaving of them is each alone. Goroutines
  that commit but leave the map alone: taking the accesses to the map and the contexts out of a program (`erase`) leaves its file operations, and
  the goroutines are processes as in C131. Negations: for every memory with open contexts, a schedule.
* **C133** goroutines with a mutex: while nobody is in a call the memory shows the state of the sequential model (`Shows`, contexts up to
  their order in the map); while a goroutine is in a call, running it until the mutex is free gives what the sequential call gives (`Held`).
  Every call alone does what the sequential model says (`head_alone`).
* **C134** outcomes of decoders: grammars of the accepted and of the crashing bytes, on byte strings with the bytes behind them
  (`CrashSpec`); every decoder is a chain of steps, and for each step the condition for a value and for a crash is found (`Res.Is`, which
  composes along the monad); loops by induction on the length of what is left.
* **C135** read and write back: the accepted bytes of C134 are the encodings of some value (trees, keys, contents), so that the round
  trip from values gives the one from bytes; for commits the proof and the parent are followed through decoding and encoding.
* **C136** executions: `Chain` and `Runs` (InterpTraceSpec) say what may happen to the state; executions that do only this are closed
  under sequencing, a compiled program contains only modules given to the compiler (`ProgramOf`), mutual induction over programs.
* **C137** commits account for contents: a field of the invariant of references (`storedBy`), preserved by every update; the tree of a
  group is described by C03.
* **C138** hashes pin histories: two chains with a hash in common are followed down to the first commit (`chains_agree`), each step by
  C18; that Commit never attaches a proof is part of the invariant; contents by C09.
* **C139** power losses: `PowerLoss` and `OrderedLoss` say what may be left of the moments of a schedule (`System.moments`); what is proved
  about every moment of overlapping commits (`settled_run`, `explained_file`, and `gone_run`
  while the name is missing) gives the positive part; the negation computes the third and
  the last moment of a commit (`oneCommit_run`).
* **C140** rounding: the logarithm of a number between two powers of two is at least 2^-40 away from every integer, more than two logarithms
  and a division can be off; real numbers from Mathlib.
* **C141** commits end: every operation of a commit but the copy ends by its definition; the copy reads whole chunks, so with a positive
  chunk it stops within the length of the file (`copyLoop_ends`); with an empty chunk it hangs (`updateDatabase_hangs`). The model says so
  whatever fails later, so the exact theorem and the negation are about calm files.
* **C142** other parameters: what a file holds (`Holds`) does not mention them (`Holds.other`), so another application reads the same; turns
  by induction on the episodes, each by C70. All histories may start from files that other applications left (`Started.found`), so every
  theorem about `Reachable` is about such databases too.
* **C143** Read: case split on whether `dataOffset + from` wraps; the bounds of the file from the invariant of histories.
* **C144** paths: `filepath.Join` and `filepath.Clean` are modelled from the documentation of Go's library (`Paths`, slash systems). Plain names
  by computing the join (`joinPath_plain`); it discharges `Names`, the assumption of the theorems about histories. The lost commit: the first
  commit leaves the inode of the second handle alone (`updateDatabase_any`), so the second one succeeds with the old reference.
* **C145**, **C146** directories: Exists, New, Delete and Open again, on trees of files and directories (`Dirs`); where a path leads is independent
  of cleaning it (`resolve_clean`), so names of one part lead into the directory (`resolve_plain`). Simplified: no links, permissions or
  other processes, `..` in the directory of the application resolved in its text.
* **C147**, **C148** open files: the calls again with the descriptors they open and close (`Descriptors`), with `defer` as the code has it; that
  the files and contexts are those of `Database` is proved (`C147_agrees`), and an invariant (`Good`: each context with an open file has a
  descriptor of its own) with an exact count per call (`Effect`) gives both by induction on the history. Simplified: descriptor numbers are
  not used again; finalizers do not run.
* **C149**, **C150** suites and map order: `bare` leaves the suites out of grammars and trees, and the parser on the bare grammar is simulated
  step by step (`execute_bare`), so suites cannot matter. Grammars whose suites are permuted (`Reordered`) give permuted executions; each
  report is then shown to be a function of the set of executions, except the names of `Covered`. The loop of `Uncovered` over a map is modelled
  with the order as a parameter (`uncoveredLoop`).
* **C151**, **C152** depth and steps: the depth is the fuel of the parser model. Steps are counted in a second copy of the parser's functions
  (`AstCost`), one per call of `token` and per turn of a loop; `erase_execute` shows that without the count it is the parser. The bounds come
  from one induction over the functions (`Cs`: fuel suffices, at most `k` steps, what is returned); the lower bounds from running lines with a
  reference by name step by step (`deep_run`, `twice_run`).
* **C153** the shipped grammar: a computed check of every line (`grammarAllB`) with its proof of soundness, then C151 and C152.
* **C154** steps against depth: the counted parser is monotone in the nesting bound (`AstCostMono`), and one induction without any condition
  on the grammar bounds the steps by `factor ^ depth` (`AstCostAny`).
* **C155** two left-recursive rules: the calls of the parser are run by equations, with the map of tokens under way as the state; the run
  without end is an induction on the nesting bound.  The claim is false; the exact outcome on every input is proved.
* **C156** left recursion first: the measure of C45 doubled, less one when the first line of the token is recorded on the same bytes; the
  map holds tokens under their own names.
* **C157** left recursion once: the inner call finds its first line recorded on the same bytes, so it runs the base lines (run lemmas of C44 from
  a map with that entry), and deletes the entry; the tail runs on an empty map, and so do the base lines when the tail fails.
* **C158** two left-recursive alternatives: the calls with either or both first lines recorded are run with the lemmas of C44; with only the
  second recorded, failing of the first line deletes the entry, so the second is entered again (induction over the depth).
* **C159** any number of left-recursive alternatives: the calls nest with one more line recorded each time (`down`); when all but the last two are
  recorded the last but one fails, which deletes the entry, and the last one is entered with nothing else recorded (strong induction over the
  depth).
* **C160** indirect left recursion: the call of the upper rule from the lower one finds its first line recorded, runs the base (lemmas of C44 with
  the other rule's entry in the map) and deletes the entry; the two outer calls then follow line by line.
* **C161** elements that share names: the reference interpreter of C44 with the rule "the last element of each name suffices" for a matched
  alternative; the proof of C44 again, with the success of a line computed from the shapes of its elements.  C81 follows exactly.
* **C162** injective renaming: a relation between computations (same kind of outcome, values that look alike, maps that differ by the renaming),
  preserved by every function of the parser; induction on the nesting depth.
* **C163** injective replacement of bytes, in grammar and input alike, and of all names, those inside external grammars too: every function of the parser commutes with it, recorded data of the
  loop guard included; induction on the nesting depth. Not injective: a refused text becomes accepted.
* **C164** the replacement of C163 through the coverage reports: every function commutes with it; structural induction over grammars and trees.
* **C165** the replacement of C163 through queries: corresponding queries (`Recoded`) keep corresponding maps and give equal answers; induction
  on the nesting depth of calls.
* **C166** renaming in programs of the interpreter: compiling commutes with replacing the keys of its maps; induction over (nested) instructions.
* **C167** values of the interpreter replaced: both programs come from one program with stand-ins for modules; induction over programs.
* **C168, C169** what a program uses: compiling asks for the indexes in the text only; executions with more inputs; induction over programs.
* **C131** processes apart: the files one process sees among the others and those it sees alone are related by a partial bijection of
  inodes (`Joined`); every operation preserves it (`twin_step`) for the process that acts and for the others (`Frame`). Alone, a program of
  calls is the sequential model of C25–C39 (`session_alone`).
* **C132** creating: the two operations of `New` with any operations of others in between.
* **C62, C89–C91** coverage reports: the traversal with its shared map of names to skip is a structural recursion; an invariant (names
  skipped are being visited or done) gives completeness; the nested maps are one map from positions. Specification: relations
  on grammars (`TokenOf`, `ElementAt`) and trees (`UsedAt`).
* **C40–C47** parser: the mutable "stack" map is threaded as state; recursion carries fuel, with a distinguished
  out-of-fuel outcome so that termination is a statement about fuel. Soundness: an inductive derivation relation.
* **C48** compose: fold.
* **C92** `Fetch`: structural recursion; specification: the list of nodes of a tree in document order. For every index: inductive
  relations that say which trees hold a name more than `i` times side by side (`Holds`) and what is then found (`Finds`).
* **C49–C51** shipped tokens: the parser model instantiated on the shipped grammar terms; statements over every input.
* **C52–C55, C85–C87** queries: fuel model; fuel bound by tree size. The map of previous queries is threaded as state and related
  to a reference semantics with lexical scoping (`eval` in `QuerySpec`). The user's functions are arbitrary deterministic, total functions.
* **C56–C61, C88** interpreter: compile and execute as in the code, modules are arbitrary functions on parameters and a state;
  specification: a declarative scoping judgement, an interpreter of the text by name (all modules, C88, from which the rest
  follows) and one with eager values (pure modules; modules with effects when attached variables hold inputs and constants, C58). Calls are observed by modules that log (C59); `runs`
  gives the calls of every program, with what is attached computed again at every execution.

Findings where the code disagrees with the property are recorded in the section below as they are proved.

## Disagreements between code and property (proved as negations)

Each line names the theorem with the witness; the theorem with suffix `_partial` states what holds instead.

Hashes and hash trees
* C04 `C04_empty_list_panics`: building a tree from an empty list panics.
* C08 `C08_negation`: ordering data with the tree fails as soon as the tree contains padding blocks.
* C10 `C10_*_collide*`: a 64-byte block and the block it is the digest of, a trailing empty block, inner nodes read as leaves give equal heads.
* C125 `C125_negation`: `FromString` accepts any even number of hexadecimal digits, the empty text too, and hashes what they stand for.
* C12 `C12_decode_panics`: decoding untrusted bytes as a tree panics (only if a length says more than there is:
  `C12_panic_only_on_overrun_partial`).
* C63 `C63_tampered_tree_accepted`: decoding does not check that heads match.
* C64 `C64_compact_reads_past_end`, C128 `C128_negation`: decoding compact trees, content keys and references depends on bytes behind
  the end of the slice: 400 bytes are read as references with different content keys.

References
* C139 `C139_negation`: files are never flushed (`Sync`), the old file is removed before the new one is safe; after a power loss the
  database can be empty, and `Open` does not report it.
* C135 `C135_negation`, `C135_same_commit`: a parent that is not 64 bytes long is hashed, the mark in front of it may be any byte but 0,
  leading zeros of a proof and bytes behind the last leaf, key or commit are dropped: different bytes are read as one commit.
* C17 `C17_negative_proof_loses_sign`. C18 `C18_*_ambiguous`: the commit hash concatenates fields without lengths.
* C65 `C65_*_decode_panics`: untrusted reference bytes make the decoders panic (only if a length or count says more than there
  is: `C65_panic_only_on_overrun_partial`).

File database (`libs/databases/infrastructure/files/application.go`)
* C25 `C25_copy_loses_data`: the copy drops the tail when the chunk is smaller than the data and does not divide it.
* C31, C66 `C31_ignored_failure_loses_database`, `C66_success_without_storing`: failures inside the copy and pending loops are
  swallowed, the commit reports success with data lost.
* C32 `C32_crash_leaves_no_database`: between the removal of the old file and the rename there is no file with the name.
* C33 `C33_second_commit_stores_again`: `Commit` does not clear the pending contents.
* C141 `C141_negation`: a database whose file ends with its reference (its first commit swallowed a failed write) makes the next commit
  loop for ever, holding the lock (application.go:605-633); so does a chunk size of zero.
* C143 `C143_negation`: a pointer at 2^64 minus the offset of the data is read and gives the first bytes of the file, which belong to the
  reference.
* C144 `C144_negation`, `C144_two_spellings`: `./n` and `n` are the same file to Open, which checks names only; both can be open at the same time
  and the commits of one are lost. `../n` is a file outside the directory.
* C145 `C145_negation`: New fails for every name when the application was given an empty path, and for names through missing directories.
* C146 `C146_negation`: Open of a directory succeeds and shows an empty database; `.` is one in every application.
* C147 `C147_retries_leak`, `C147_overwritten_leak`: the backup file is not closed when `io.Copy` fails, which it does at every commit after a
  first one that failed behind `pConn.Close()`; a context overwritten by `Open` keeps its file open.
* C150 `C150_negation`: the name `Covered` gives for a position may depend on the order of the suites, which `components` takes from a map; the
  index of an element is counted among the elements present, so an optional element that is absent shifts the others.
* C151 `C151_nesting_grows`, C152 `C152_steps_double`: nothing limits the nesting of calls, and nothing remembers what a token matched, so a
  nested text may overrun the stack, and alternatives with a common beginning that contains a reference take exponential time.
* C155 `C155_not_all_operands`: `E: E p x | x` reads two of three operands; `E: E p x | E m x | x` never ends on `x`, nor on `x m x`.
* C156 `C156_order_matters`: `E: o E c | E p x | x` never ends on `o x`; with the second alternative first it ends on every input.
* C113 `C113_factory_fails`: the factory of references never makes one: `Create` always returns an error.
* C157 `C157_never_twice`: `E: E tail | base` reads `base tail` at most, never `base tail tail`.
* C158 `C158_malformed`: with two left-recursive alternatives every malformed input recurses without end instead of being refused.
* C159 `C159_malformed`: the same for any number of left-recursive alternatives from two on.
* C160 `C160_not_all_pairs`: two rules that refer to each other at the left are followed for one round only.
* C161 `C161_passed_over`: an alternative that matches is passed over when a later element of the same name occurs less often than an earlier
  one asks for.
* C34 `C34_commit_with_nothing_pending_panics`.
* C35 `C35_open_reuses_an_identifier`: the identifier is the number of open contexts.
* C38 `C38_lost_update`: the lock is taken only during the file update, the second of two applications overwrites the first.
* C93 `C93_negation`: the lock is on the inode of the file that a commit replaces; a second process can lock in between, and
  the database file is gone although the first commit reported success.
* C94 `C94_negation`: two overlapping commits share the temporary file, which the first one makes the database while the second
  one still writes to it; a reader sees the database change.
* C129 `C129_wrong_places`, `C129_negation`, `C129_missing`: `Open` opens the database file once for the reference and again for the
  context (application.go:128-166, 176-232); with a commit of another process in between the offsets do not fit the file, contents
  are read at wrong places, and committing from such a context destroys the database; while the old file is removed and the
  new one not yet renamed, `Open` fails.
* C130 `C130_negation`, `C130_reader`, `C130_lost`, `C130_same_identifier`: nothing guards the map of contexts (application.go:36) and the
  contexts in it. Even goroutines that use different databases can end the process.
* C132 `C132_emptied`, `C132_negation`: `New` (application.go:90-111) looks for the file and creates it with truncation in two operations; a database
  that another process created, filled and committed in between is emptied, and `New` reports success. `C132_every_commit`: a commit removes
  the file before it renames the new one (application.go:551-575), so this can happen to any database during any commit that would succeed.
* C96 `C96_negation`: a container given an element and then a compose is the element; an element given a value and an instance is
  the value whatever the order.
* C97 `C97_negation`: a cardinality of at least two and at most one can be built.
* C98 `C98_all_characters_negation`, `C98_any_character_negation`: the token made from the text `é` matches the byte 0xE9 and not
  the text (bytes C3 A9), which is its own valid suite.
* C101 `C101_negation`, C104 `C104_negation`, C108 `C108_negation`: as C96, for the builders of queries, of the interpreter, and of trees and coverages.
* C112 `C112_negation`: a tree built by hand is marked successful by counting contents; its bytes are not compared with the grammar.
* C114 `C114_blocks_ignored`, `C114_head_unchecked`: with head and parent given, blocks are ignored and the head can be any hash.
* C115 `C115_hash_tree_changes`: `Now` of the builder of hash trees adds an empty block to the builder's own list: with an empty list the first `Now` panics and the second one gives a tree.
* C117 `C117_overwritten`: that block is appended to the caller's slice: given `data[:1]`, the builder overwrites `data[1]`.
* C118 `C118_receiver_changes`, `C118_others_change`: `Merge` appends to its receiver, so the length of a compact tree changes, and so do leaves over the same array.
* C120 `C120_negation_before_commit`, `C120_negation_after_commit`: `Write` keeps the caller's slice and the bytes are read by `Commit`; as
  contents stay pending, reusing the buffer after a commit changes what the next commit stores under the first hash.
* C122 `C122_negation_assign`, `C122_negation_append`, `C122_negation_program`: `Commits(id).List()` is the slice the context goes on with. Assigning to
  it, or appending to a list kept from before the fourth commit, changes the history that the next commit writes.
* C39 `C39_open_panics`: eight zero bytes make `Open` panic. C71 `C71_short_rest_opens_as_empty`.
* C67 `C67_failed_commit_leaves_context_unusable`: a failure after the old handle is closed leaves a context that can
  neither read nor close nor be reopened, and whose next commit panics.
* C68 `C68_commit_resurrects`: deleting an open database and committing brings it back.

Parser (`libs/asts/applications/application.go`)
* C41 `C41_negation`: an external grammar swallows the rest of the input; escape bytes are dropped.
* C45 `C45_negation`: `A: A | A` recurses without end on every non-empty input (a failed inner call deletes the guard of the outer).
* C46 `C46_negation`: text that ends right after an escaped exception indexes an empty slice.
* C47 `C47_negation`: a compose in a line never matches (its contents go to a shadowed variable).
* C78 `C78_negation`: after a reference by name has matched, its token is deleted from the map and cannot be referred to again:
  `S: '(' S* ')'` refuses `(()())`.
* C44 `C44_negation`: with references by name an alternative that matches is skipped in favour of a later one.
* C80, C81, C83 `C80_negation`, `C81_negation`, `C83_negation`: names are compared where identity is meant — a token named like an
  enclosing one is refused (`C127_negation` too), and a line counts the amount of an element by name, so `aab` is refused by "two a, one b" when both
  elements have one name. `T: 'x'?` gives a tree without success and no error.
* C82 `C82_negation`: "everything except" looks only at the first alternative of its exception. `C82_nested_exception_negation`: tokens
  inside an exception are themselves read as everything but their texts: everything except a token for `a` takes `a` and refuses `b`.
* C123 `C123_negation`: the condition on what is before a channel text is tested at the start of the item before, with the channel texts
  in front of it: blanks allowed behind `x` and `y` do not let `x y z` be read. Behind a token it is tested on what was before the token.
* C124 `C124_negation`, `C124_end_negation`: after an escaped exception the next byte is taken without looking for an escape, so of two
  escaped quotes the second one ends the text; with nothing behind the escaped quote, an empty slice is indexed.
* C84 `C84_negation`: the bytes of a content drop the channel prefix even when channels are asked for.

Parse trees (`libs/asts/domain/trees`)
* C92 `C92_negation`: the index of `Fetch` is counted again at every level; among four occurrences index 1 is the fourth.

Coverage reports (`libs/asts/applications/application.go`)
* C62 `C62_panics_without_suites`: `Uncovered` calls a method on a nil interface when no token has a suite;
  `C62_negation_escape`: the panic of C46.
* C89 `C89_negation`: the second of two tokens with one name, and the tokens of channel conditions, are not tested.
* C90 `C90_negation`: whether a suite is marked valid is never looked at, nor is remaining input.
* C91 `C91_negation_optional`: the position is counted among the elements present, so an absent optional element shifts the
  others; `C91_negation_external`: the elements of an external grammar are filed under the name of the external, not of its root.

Queries (`libs/queries/applications/application.go`)
* C54 `C54_negation`: the check before `contentList[0]` compares the length with 0 by `<`; an anonymous element that is not the
  requested one is asked for its nil grammar.
* C85 `C85_negation`: a nested query on the same token replaces the enclosing one in the shared map.
* C87 `C87_negation`: `Matches` returns true whatever the arguments.

Interpreter (`libs/interpreters/applications/application.go`)
* C58 `C58_negation_overwritten`: an assignment to an input parameter is ignored when the variable is read;
  `C58_negation_unused`: a missing input is only noticed when it is used.
* C59 `C59_negation`: a variable that holds the result of an execution runs it again when it is attached.

Shipped grammar (`instances/grammars`)
* C51, C75 `C51_negation`, `C75_negation`: the value of an assignment is "any bytes", so it takes the rest of the file.
* C77 `C77_negation`: "everything except" looks only at the first alternative of its exception.
