{"id": "C01", "title": "Hashing always yields 64 bytes and re-hashing a hash is the identity", "statement": "For every byte string, hashing it yields a 64-byte hash; a byte string that is already 64 bytes long is returned unchanged, every other one is replaced by its SHA-512 digest. Consequently hashing the bytes of a hash gives that same hash back.", "quantifier": "every byte string of every length", "why_tests_cant": "Input space is unbounded; the special case depends on the exact length boundary 64.", "anchors": ["libs/cryptography/domain/hash/adapter.go:FromBytes", "libs/cryptography/domain/hash/adapter.go:FromMultiBytes", "libs/cryptography/domain/hash/hash.go:Bytes"]}
{"id": "C02", "title": "The textual form of a hash identifies it and parses back to it", "statement": "For every hash, parsing its printed hexadecimal form returns the same hash, and two hashes print identically exactly when Compare says they are equal.", "quantifier": "every pair of 64-byte hashes", "why_tests_cant": "2^512 hashes; injectivity cannot be sampled.", "anchors": ["libs/cryptography/domain/hash/adapter.go:FromString", "libs/cryptography/domain/hash/hash.go:String", "libs/cryptography/domain/hash/hash.go:Compare"]}
{"id": "C03", "title": "Building a hash tree yields the Merkle tree of the padded block list", "statement": "For every list of at least one block, building a hash tree succeeds; its leaves are, in order, the hashes of the given blocks followed only by hashes of the empty block, their number is the smallest power of two that is at least max(2, number of blocks), and the head is the Merkle root of that leaf list (hash of the concatenation of the roots of the two halves).", "quantifier": "every non-empty list of byte blocks", "why_tests_cant": "All list lengths (padding arithmetic, pairing recursion) and all contents.", "anchors": ["libs/cryptography/domain/hashtrees/builder.go:Now", "libs/cryptography/domain/hashtrees/leaves_adapter.go:ToHashTree", "libs/cryptography/domain/hashtrees/leaves_adapter.go:createChildrenLeaves", "libs/cryptography/domain/hashtrees/leaf_adapter.go:ParentLeafToHashTree"]}
{"id": "C04", "title": "Building a hash tree never crashes", "statement": "For every list of blocks, including the empty one, building a hash tree returns a tree or an error, never a panic.", "quantifier": "every list of blocks", "why_tests_cant": "Crash freedom over all list lengths. (The model shows this is false for the empty list; the proved part is every non-empty list.)", "anchors": ["libs/cryptography/domain/hashtrees/builder.go:Now", "libs/cryptography/domain/hashtrees/leaves_adapter.go:createChildrenLeaves"]}
{"id": "C05", "title": "Serialised hash trees decode to the same tree", "statement": "For every hash tree that can be built from blocks, decoding its serialised content yields the same tree, and this still holds when the content is a sub-slice of a larger buffer followed by arbitrary bytes.", "quantifier": "every non-empty block list and every surrounding buffer", "why_tests_cant": "Unbounded nested length-prefixed structure; sub-slice reads past the end only show for particular neighbours.", "anchors": ["libs/cryptography/domain/hashtrees/adapter.go:ToContent", "libs/cryptography/domain/hashtrees/adapter.go:ToHashTree", "libs/cryptography/domain/hashtrees/leaf_adapter.go:ContentToLeaf", "libs/cryptography/domain/hashtrees/leaf_adapter.go:ContentToParentLeaf"]}
{"id": "C06", "title": "Compact hash trees keep the head, the leaves in order and their number, and round-trip", "statement": "For every built hash tree, the compact form has the tree's head and exactly its leaves in left-to-right order, its length is the tree's length, and decoding the serialised compact form yields the same compact form.", "quantifier": "every non-empty block list", "why_tests_cant": "All tree shapes and sizes.", "anchors": ["libs/cryptography/domain/hashtrees/adapter.go:ToCompact", "libs/cryptography/domain/hashtrees/adapter.go:ToLength", "libs/cryptography/domain/hashtrees/compact_adapter.go:ToContent", "libs/cryptography/domain/hashtrees/compact_adapter.go:ToCompact", "libs/cryptography/domain/hashtrees/leaves_adapter.go:ToContent", "libs/cryptography/domain/hashtrees/leaves_adapter.go:ToLeaves"]}
{"id": "C07", "title": "Ordering shuffled blocks against a hash tree restores the original order", "statement": "If blocks have pairwise different hashes, then for every permutation of the blocks, ordering the permuted list against the tree built from the original list returns the original list exactly (unless padding is present and one of the blocks hashes like the empty block).", "quantifier": "every list of distinct-hash blocks and every permutation of it", "why_tests_cant": "n! permutations for every n.", "anchors": ["libs/cryptography/domain/hashtrees/adapter.go:ToOrder"]}
{"id": "C08", "title": "Ordering works even when a block is empty", "statement": "Ordering a permutation of the original blocks restores the original order also when one of the blocks is the empty byte string.", "quantifier": "every distinct block list containing the empty block", "why_tests_cant": "The failure needs padding leaves and an empty block at once. (The model shows the property is false: ordering then returns an error.)", "anchors": ["libs/cryptography/domain/hashtrees/adapter.go:ToOrder", "libs/cryptography/domain/hashtrees/builder.go:Now"]}
{"id": "C09", "title": "Equal heads mean equal leaves unless SHA-512 collides", "statement": "If two hash trees with the same number of leaves have the same head, then either all their leaf hashes are equal in order or two different byte strings with the same SHA-512 digest exist (and can be read off the two trees).", "quantifier": "every two block lists with equal padded length", "why_tests_cant": "Universal over pairs of trees; a cryptographic reduction, not samplable.", "anchors": ["libs/cryptography/domain/hashtrees/builder.go:Now", "libs/cryptography/domain/hashtrees/hashtree.go:Head", "libs/cryptography/domain/hash/adapter.go:FromMultiBytes"]}
{"id": "C10", "title": "Different block lists have different heads unless SHA-512 collides", "statement": "Two different block lists of equal length never have the same head unless SHA-512 collides.", "quantifier": "every two block lists", "why_tests_cant": "Universal over pairs. (The model shows it is false: a 64-byte block is its own hash, so a block and its digest give the same head without any SHA-512 collision. Proved part: holds when no block is 64 bytes long.)", "anchors": ["libs/cryptography/domain/hashtrees/builder.go:Now", "libs/cryptography/domain/hash/adapter.go:FromBytes"]}
{"id": "C11", "title": "Hash tree height is the logarithm of the leaf count", "statement": "For every hash tree built from blocks, 2 to the power (height - 1) is the number of leaves, i.e. the height is determined by the padded block count.", "quantifier": "every non-empty block list", "why_tests_cant": "All sizes.", "anchors": ["libs/cryptography/domain/hashtrees/hashtree.go:Height", "libs/cryptography/domain/hashtrees/leaf.go:Height", "libs/cryptography/domain/hashtrees/builder.go:Now"]}
{"id": "C12", "title": "Decoding untrusted hash tree bytes never crashes", "statement": "Decoding arbitrary bytes as a hash tree returns a tree or an error, never a panic.", "quantifier": "every byte string", "why_tests_cant": "Adversarial length prefixes. (The model exhibits bytes that panic; the proved part is that no content shorter than the first length prefix region and no encoded tree panics.)", "anchors": ["libs/cryptography/domain/hashtrees/adapter.go:ToHashTree", "libs/cryptography/domain/hashtrees/leaf_adapter.go:ContentToParentLeaf"]}
{"id": "C13", "title": "Pointers and content keys round-trip", "statement": "For every pointer with positive length and every content key, decoding the serialised form returns the same value, the serialised form has exactly the documented fixed size (16 and 152 bytes), and content of any other size is rejected with an error.", "quantifier": "every pointer / content key; every byte string for the rejection", "why_tests_cant": "64-bit ranges and all lengths.", "anchors": ["libs/databases/domain/references/pointer_adapter.go", "libs/databases/domain/references/contentkey_adapter.go", "libs/databases/domain/references/pointer_builder.go:Now"]}
{"id": "C14", "title": "Content key lists round-trip and are looked up by hash", "statement": "For every non-empty list of content keys, decoding the serialised form returns the same list in order; looking up a hash returns the last key in the list with that hash and fails exactly when no key has it; filtering by kind returns exactly the keys of that kind in order.", "quantifier": "every non-empty list of content keys and every hash", "why_tests_cant": "Unbounded lists, duplicate hashes.", "anchors": ["libs/databases/domain/references/contentkeys_adapter.go", "libs/databases/domain/references/contentkeys.go:Fetch", "libs/databases/domain/references/contentkeys.go:ListByKind", "libs/databases/domain/references/contentkeys_builder.go:Now"]}
{"id": "C15", "title": "The next free offset is past every stored pointer", "statement": "For every list of content keys whose pointers end below 2^63 (the largest possible file offset), the offset reported for the next write is at least the end of every pointer in the list, and equals the end of one of them; so data written there overlaps nothing already stored.", "quantifier": "every list of content keys", "why_tests_cant": "Universal over lists.", "anchors": ["libs/databases/domain/references/contentkeys.go:Next"]}
{"id": "C16", "title": "Commits round-trip with the same identity", "statement": "For every commit (with or without a parent, with or without a mining proof that is a non-negative integer), decoding its serialised form returns a commit with the same hash, values, time, parent and proof.", "quantifier": "every commit", "why_tests_cant": "All combinations of optional fields, all trees, times and proofs.", "anchors": ["libs/databases/domain/references/commit_adapter.go:ToContent", "libs/databases/domain/references/commit_adapter.go:ToCommit", "libs/databases/domain/references/commit_builder.go:Now"]}
{"id": "C17", "title": "Commits with a negative proof keep their proof when saved", "statement": "A commit whose mining proof is a negative integer decodes to a commit with the same proof.", "quantifier": "every commit with a proof", "why_tests_cant": "Sign is lost only for negative integers. (The model shows the property is false: -p decodes as p.)", "anchors": ["libs/databases/domain/references/commit_adapter.go:ToContent", "libs/databases/domain/references/commit_adapter.go:ToCommit"]}
{"id": "C18", "title": "A commit hash determines the commit unless SHA-512 collides", "statement": "Two commits with the same hash have the same values head, creation time, parent and proof unless SHA-512 collides.", "quantifier": "every pair of commits", "why_tests_cant": "Universal over pairs. (The model shows it is false across optional-field combinations: a commit with parent P and one with a proof whose bytes are P share a hash. Proved part: commits that both have no proof and agree on having a parent.)", "anchors": ["libs/databases/domain/references/commit_builder.go:Now"]}
{"id": "C19", "title": "Commit lists and whole references round-trip", "statement": "For every non-empty list of commits and every reference (content keys plus commits), decoding the serialised form returns the same list / reference.", "quantifier": "every reference", "why_tests_cant": "Unbounded nested structure.", "anchors": ["libs/databases/domain/references/commits_adapter.go", "libs/databases/domain/references/adapter.go:ToContent", "libs/databases/domain/references/adapter.go:ToReference"]}
{"id": "C20", "title": "Latest commit and commit lookup are faithful", "statement": "For every non-empty list of commits the latest commit is the last one, and looking a commit up by hash returns a commit of the list with that hash, failing exactly when there is none.", "quantifier": "every list of commits, every hash", "why_tests_cant": "Unbounded lists with possible duplicates.", "anchors": ["libs/databases/domain/references/commits.go:Latest", "libs/databases/domain/references/commits.go:Fetch", "libs/databases/domain/references/commits_builder.go:Now"]}
{"id": "C21", "title": "The mining score counts exactly the leading mining bytes", "statement": "For every commit with a proof, the score is the length of the longest prefix of the mined hash consisting only of the mining byte.", "quantifier": "every commit with a proof", "why_tests_cant": "All hashes.", "anchors": ["libs/databases/domain/references/commit_builder.go:Now"]}
{"id": "C22", "title": "Stored contents round-trip", "statement": "For every content (hash, kind, non-empty data) and every non-empty list of contents, decoding the serialised form returns the same value.", "quantifier": "every content list", "why_tests_cant": "Unbounded data.", "anchors": ["libs/databases/domain/contents/content_adapter.go", "libs/databases/domain/contents/adapter.go"]}
{"id": "C23", "title": "A successful commit makes every pending content readable with its own bytes", "statement": "After a successful Commit on an open database whose data copy condition holds (the read chunk size is at least the size of the stored data or divides it, C25; no file operation fails whose error the code drops, C31), reading by hash any content that was pending returns exactly the bytes written (the last ones for a repeated hash).", "quantifier": "every state of the application reachable by any history, every list of pending contents", "why_tests_cant": "Histories and sizes are unbounded; offsets shift on each commit.", "anchors": ["libs/databases/infrastructure/files/application.go:Commit", "libs/databases/infrastructure/files/application.go:updateReference", "libs/databases/infrastructure/files/application.go:writeDataAndReferenceOnDestinationFile", "libs/databases/infrastructure/files/application.go:ReadByHash"]}
{"id": "C24", "title": "A commit never changes what was already stored", "statement": "After a successful Commit (same copy condition), every pointer (with an offset below 2^63) that was readable before still reads the same bytes, every earlier content key and commit is still listed in the same order, and exactly one commit was added.", "quantifier": "every history, every stored content", "why_tests_cant": "Universal over histories.", "anchors": ["libs/databases/infrastructure/files/application.go:Commit", "libs/databases/infrastructure/files/application.go:updateReference", "libs/databases/infrastructure/files/application.go:writeDataAndReferenceOnDestinationFile", "libs/databases/infrastructure/files/application.go:Read"]}
{"id": "C25", "title": "Copying existing data is loss-free for every size and every chunk size", "statement": "A successful Commit preserves previously stored data whatever the configured read chunk size.", "quantifier": "every data size, every chunk size", "why_tests_cant": "Depends on arithmetic between data size and chunk size. (The model shows it is false when the chunk size is smaller than the data size and does not divide it: the tail is dropped. The proved part is every size/chunk pair where it divides or exceeds, for which the copy is exact, and the exact description of what is copied otherwise.)", "anchors": ["libs/databases/infrastructure/files/application.go:writeDataAndReferenceOnDestinationFile"]}
{"id": "C26", "title": "Reopening a database recovers exactly the committed state", "statement": "Closing and reopening a database, or opening it in a new process, after any history of commits (the database not being deleted while it is open, the read chunk size being positive) gives a context with the same content keys, the same commits and the same readable data as before closing.", "quantifier": "every history", "why_tests_cant": "Universal over histories and chunk sizes of the reference read.", "anchors": ["libs/databases/infrastructure/files/application.go:Open", "libs/databases/infrastructure/files/application.go:retrieveReference", "libs/databases/infrastructure/files/application.go:Close"]}
{"id": "C27", "title": "Pending and cancelled writes are invisible", "statement": "Write and Cancel never change any file nor what any read or listing returns; contents cancelled before a Commit never appear in the database.", "quantifier": "every history, every pending list", "why_tests_cant": "Universal over histories.", "anchors": ["libs/databases/infrastructure/files/application.go:Write", "libs/databases/infrastructure/files/application.go:Cancel", "libs/databases/infrastructure/files/application.go:Commit"]}
{"id": "C28", "title": "Commits form a chain", "statement": "After any history of successful commits on a database, the first commit has no parent and every other commit's parent is the hash of the commit just before it in the list.", "quantifier": "every history", "why_tests_cant": "Induction over histories.", "anchors": ["libs/databases/infrastructure/files/application.go:updateReference", "libs/databases/domain/references/commits.go:Latest"]}
{"id": "C29", "title": "Stored regions tile the data area", "statement": "After any history of successful commits the stored pointers are contiguous, start at zero, do not overlap, and together cover exactly the data area of the file (copy condition).", "quantifier": "every history", "why_tests_cant": "Induction over histories.", "anchors": ["libs/databases/infrastructure/files/application.go:updateReference", "libs/databases/domain/references/contentkeys.go:Next"]}
{"id": "C30", "title": "Databases do not interfere", "statement": "An operation on one database never changes the bytes of a database with another name nor the state of its contexts (other than through the reuse of a context identifier, C35), provided the other name is not the first name plus the temporary or backup extension or the lock file.", "quantifier": "every operation, every state, every pair of names", "why_tests_cant": "Universal over names and states.", "anchors": ["libs/databases/infrastructure/files/application.go:Commit", "libs/databases/infrastructure/files/application.go:updateDatabaseOnFile", "libs/databases/infrastructure/files/application.go:New", "libs/databases/infrastructure/files/application.go:Delete"]}
{"id": "C31", "title": "A commit interrupted at any point leaves the old or the new database on disk", "statement": "At every point where a commit's sequence of file operations can stop (crash or error), including in the middle of a write, some file among the database file, its backup and its temporary file holds either the complete old or the complete new content.", "quantifier": "every crash point, every old and new content", "why_tests_cant": "Crash points and torn writes cannot be enumerated by unit tests.", "anchors": ["libs/databases/infrastructure/files/application.go:updateDatabaseOnFile", "libs/databases/infrastructure/files/application.go:writeDataAndReferenceOnDestinationFile"]}
{"id": "C32", "title": "A commit interrupted at any point leaves the database openable under its own name", "statement": "At every crash point of a commit the file with the database's name exists and is the complete old or the complete new content.", "quantifier": "every crash point", "why_tests_cant": "Crash points. (The model shows it is false: between removing the old file and renaming the new one no file has the database's name. Proved part: at every other crash point the name holds the complete old or new content, never a mixture.)", "anchors": ["libs/databases/infrastructure/files/application.go:updateDatabaseOnFile"]}
{"id": "C33", "title": "Committing twice stores nothing the second time", "statement": "A Commit with no Write since the previous successful Commit does not add content.", "quantifier": "every state", "why_tests_cant": "Needs histories of length two on each state. (The model shows it is false: the pending list is never cleared, so the second Commit stores every content again.)", "anchors": ["libs/databases/infrastructure/files/application.go:Commit"]}
{"id": "C34", "title": "Commit never crashes", "statement": "Commit on an open context returns nil or an error, never a panic, whatever the pending contents.", "quantifier": "every state and pending list", "why_tests_cant": "(The model shows it is false for an empty pending list; the proved part is every non-empty one.)", "anchors": ["libs/databases/infrastructure/files/application.go:Commit", "libs/databases/infrastructure/files/application.go:updateReference", "libs/cryptography/domain/hashtrees/builder.go:Now"]}
{"id": "C35", "title": "Every open context keeps its own identity", "statement": "Open returns an identifier different from that of every context still open.", "quantifier": "every history of Open and Close", "why_tests_cant": "Histories. (The model shows it is false after closing a context that is not the last opened; the proved part is histories where contexts are closed in reverse order of opening or not at all.)", "anchors": ["libs/databases/infrastructure/files/application.go:Open", "libs/databases/infrastructure/files/application.go:Close"]}
{"id": "C36", "title": "Creating a database never destroys data, deleting removes it", "statement": "New fails and changes nothing when the name exists, and otherwise creates a fresh empty database; Delete fails when the name does not exist and otherwise makes Exists false; Exists is true exactly for names with a file.", "quantifier": "every filesystem state and name", "why_tests_cant": "Universal over states.", "anchors": ["libs/databases/infrastructure/files/application.go:New", "libs/databases/infrastructure/files/application.go:Delete", "libs/databases/infrastructure/files/application.go:Exists"]}
{"id": "C37", "title": "A commit that fails leaves the stored database intact", "statement": "If a commit fails (or the process stops) in any file operation whose failure it notices, up to and including the removal of the old file, it does not report success and the database file is byte-for-byte the old one; if that happens before the old handle is closed, the context shows what it showed before and the next commit succeeds.", "quantifier": "every failure point", "why_tests_cant": "Fault injection at every step.", "anchors": ["libs/databases/infrastructure/files/application.go:updateDatabaseOnFile", "libs/databases/infrastructure/files/application.go:Commit"]}
{"id": "C38", "title": "Concurrent applications do not lose each other's commits", "statement": "If two applications have the same database open and each commits successfully, the resulting database contains both commits.", "quantifier": "every interleaving of two applications", "why_tests_cant": "Interleavings. (The model shows it is false: the lock is only held during the file update, so the second commit overwrites the first.)", "anchors": ["libs/databases/infrastructure/files/application.go:Commit", "libs/databases/infrastructure/files/application.go:updateDatabaseOnFile"]}
{"id": "C39", "title": "Opening arbitrary files never crashes", "statement": "Open on a file with arbitrary bytes returns a context or an error, never a panic.", "quantifier": "every file content", "why_tests_cant": "Adversarial content. (The model shows it is false, e.g. eight zero bytes; the proved part says exactly for which files it panics.)", "anchors": ["libs/databases/infrastructure/files/application.go:Open", "libs/databases/infrastructure/files/application.go:retrieveReference"]}
{"id": "C40", "title": "Parsing loses no input byte", "statement": "For every grammar without external grammars and without escape tokens, whenever parsing an input gives a tree with a successful block, the bytes of the tree including channel bytes followed by the reported remaining bytes are exactly the input.", "quantifier": "every such grammar and every input", "why_tests_cant": "Grammars and inputs are unbounded.", "anchors": ["libs/asts/applications/application.go:Execute", "libs/asts/applications/application.go:token", "libs/asts/applications/application.go:line", "libs/asts/applications/application.go:elementValue", "libs/asts/applications/application.go:channels", "libs/asts/domain/trees/tree.go:Bytes"]}
{"id": "C41", "title": "Parsing with external grammars or escapes loses no input byte", "statement": "The same byte-exactness holds for every grammar.", "quantifier": "every grammar and input", "why_tests_cant": "(The model shows it is false: after an external grammar matches, the unread rest of the input is dropped, and escape bytes are dropped.)", "anchors": ["libs/asts/applications/application.go:external", "libs/asts/applications/application.go:block"]}
{"id": "C42", "title": "Every parse tree is a derivation of its grammar", "statement": "Every tree with a successful block returned by parsing is justified by the grammar: the recorded line is one of the token's lines, each of its elements matched in order with a number of occurrences within its cardinality, and each value matched exactly its byte after optional channel bytes.", "quantifier": "every grammar and input", "why_tests_cant": "Unbounded; soundness with respect to a declarative relation.", "anchors": ["libs/asts/applications/application.go:token", "libs/asts/applications/application.go:block", "libs/asts/applications/application.go:line", "libs/asts/applications/application.go:element", "libs/asts/applications/application.go:elementContent", "libs/asts/applications/application.go:elementValue"]}
{"id": "C43", "title": "Occurrences respect cardinalities", "statement": "In every line matched by the parser each element occurs at least its minimum and at most its maximum number of times.", "quantifier": "every grammar and input", "why_tests_cant": "Unbounded.", "anchors": ["libs/asts/applications/application.go:line"]}
{"id": "C44", "title": "The first alternative that matches is chosen", "statement": "For a successfully parsed token the recorded alternative is the first one, in declaration order, that matches at that position; all earlier ones were tried and failed.", "quantifier": "every grammar and input", "why_tests_cant": "Unbounded; ordered choice.", "anchors": ["libs/asts/applications/application.go:block"]}
{"id": "C45", "title": "Parsing always terminates", "statement": "Parsing terminates for every grammar and input.", "quantifier": "every grammar and input", "why_tests_cant": "Termination cannot be tested. (The model shows it is false: a token with two left-recursive alternatives recurses forever. Proved part: grammars without recursive elements terminate on every input.)", "anchors": ["libs/asts/applications/application.go:Execute", "libs/asts/applications/application.go:block", "libs/asts/applications/application.go:token"]}
{"id": "C46", "title": "Parsing never crashes", "statement": "Parsing returns a tree or an error, never a panic.", "quantifier": "every grammar and input", "why_tests_cant": "(The model shows it is false: an input ending right after an escaped exception indexes past the end. Proved part: grammars without escape tokens never panic.)", "anchors": ["libs/asts/applications/application.go:block"]}
{"id": "C47", "title": "A compose inside a line matches its bytes", "statement": "A token line that contains a compose matches input starting with the composed bytes.", "quantifier": "every grammar and input", "why_tests_cant": "(The model shows it is false: a line that reaches a compose never matches any input.)", "anchors": ["libs/asts/applications/application.go:line"]}
{"id": "C48", "title": "Composing yields the concatenation of the repeated bytes", "statement": "For every grammar whose root has one line consisting only of composes, composing gives exactly each byte repeated its number of occurrences, in order; every other grammar is rejected with an error.", "quantifier": "every grammar", "why_tests_cant": "Unbounded.", "anchors": ["libs/asts/applications/application.go:Compose", "libs/asts/applications/application.go:composeCompose"]}
{"id": "C49", "title": "The shipped digit, letter, hex and any-byte tokens accept exactly their character classes", "statement": "For every input, parsing with the shipped anyNumber / lowerCaseLetter / uppercaseLetter / a-f tokens succeeds exactly when the first byte is in the class, and consumes exactly that byte.", "quantifier": "every input", "why_tests_cant": "All inputs.", "anchors": ["instances/grammars/tokens/token.go", "instances/grammars/components/tokens/token.go:AnyCharacter", "libs/asts/applications/application.go:Execute"]}
{"id": "C50", "title": "Shipped variable names are maximal letter runs", "statement": "For every input, parsing with the shipped variableName token succeeds exactly when the input starts with a lower-case letter, and consumes exactly the longest run of letters from the start.", "quantifier": "every input", "why_tests_cant": "All inputs.", "anchors": ["instances/grammars/tokens/token.go:VariableName", "libs/asts/applications/application.go:Execute"]}
{"id": "C51", "title": "Shipped value assignments stop at the end of the statement", "statement": "Parsing a value assignment in the shipped grammar consumes only up to its terminator.", "quantifier": "every input", "why_tests_cant": "(The model shows it is false: the any-byte repetition swallows the whole rest of the input, so later instructions are never parsed as such.)", "anchors": ["instances/grammars/grammars/grammar.go:valueAssignmentToken", "instances/grammars/tokens/token.go:AnyByte"]}
{"id": "C52", "title": "Query execution terminates", "statement": "Executing a query on a parse tree terminates for every query (including recursive fetchers) and every tree, provided the user callbacks do.", "quantifier": "every query and tree", "why_tests_cant": "Termination with recursion through names.", "anchors": ["libs/queries/applications/application.go:Execute", "libs/queries/applications/application.go:queryFetch", "libs/queries/applications/application.go:insideInstances"]}
{"id": "C53", "title": "A query selects the requested occurrence of the requested element", "statement": "For a query on element name N and index i, the contents handed to the query are those of the i-th element named N (counting from zero) of the successful line, refined to the requested content if any; if there are fewer such elements nothing is selected.", "quantifier": "every tree without anonymous elements, every query", "why_tests_cant": "Unbounded element lists.", "anchors": ["libs/queries/applications/application.go:queryContents", "libs/queries/applications/application.go:tokenRefine"]}
{"id": "C54", "title": "Query execution never crashes", "statement": "Executing a query never panics.", "quantifier": "every query and tree", "why_tests_cant": "(The model shows it is false: a single-content callback on an element that is absent indexes an empty list, and an anonymous element before the requested one dereferences nil. Proved part: queries whose callbacks take lists, on trees without anonymous elements.)", "anchors": ["libs/queries/applications/application.go:insideInstances", "libs/queries/applications/application.go:queryContents"]}
{"id": "C55", "title": "Query results report the tree's unread bytes", "statement": "Whenever a query execution succeeds the returned remaining bytes are those of the tree (empty when it has none), whatever the query.", "quantifier": "every query and tree", "why_tests_cant": "Unbounded.", "anchors": ["libs/queries/applications/application.go:Execute"]}
{"id": "C56", "title": "Compiled programs define every output they declare", "statement": "Executing a program obtained from the compiler never fails because an output value is missing, and returns exactly as many values as there are assignments to output parameters.", "quantifier": "every module set, instruction list and input", "why_tests_cant": "Induction over instruction lists.", "anchors": ["libs/interpreters/applications/application.go:Compile", "libs/interpreters/applications/application.go:compileInstruction", "libs/interpreters/applications/application.go:Execute"]}
{"id": "C57", "title": "Enough inputs are always enough", "statement": "Executing a compiled program with at least as many inputs as it (or any nested program) declares input parameters never fails because of a missing input.", "quantifier": "every instruction list and input list", "why_tests_cant": "Induction over instruction lists and nesting.", "anchors": ["libs/interpreters/applications/application.go:compileParameter", "libs/interpreters/applications/application.go:compileValue", "libs/interpreters/applications/application.go:executeValue"]}
{"id": "C58", "title": "Compile then execute equals direct interpretation", "statement": "For modules that are pure functions, compiling instructions and executing the program gives the same outputs (or failure) as interpreting the instructions directly one by one with an environment that stores the value of each variable at its assignment.", "quantifier": "every module set, instruction list and input list", "why_tests_cant": "Compiler correctness over all programs.", "anchors": ["libs/interpreters/applications/application.go:Compile", "libs/interpreters/applications/application.go:Execute", "libs/interpreters/applications/application.go:execute", "libs/interpreters/applications/application.go:executeValue"]}
{"id": "C59", "title": "Each execution in the source runs its module once", "statement": "During an execution each module invocation written in the source happens exactly once.", "quantifier": "every program", "why_tests_cant": "(The model shows it is false: a variable holding the result of an execution and attached to another application is executed again at each use.)", "anchors": ["libs/interpreters/applications/application.go:compileAttachmentValue", "libs/interpreters/applications/application.go:execute"]}
{"id": "C60", "title": "The compiler accepts exactly well-scoped programs", "statement": "Compilation never crashes, and it succeeds exactly when modules exist and are named once, applications refer to named modules and are declared once, parameters are declared once, modules, applications and variables are declared before use, only input parameters are read in assignments, only input parameters and assigned variables are attached (so an output is not read before it is assigned), and there is at least one assignment or execution (recursively for nested programs).", "quantifier": "every instruction list", "why_tests_cant": "Unbounded programs; equivalence with a declarative scoping judgement.", "anchors": ["libs/interpreters/applications/application.go:Compile", "libs/interpreters/applications/application.go:compileInstruction"]}
{"id": "C61", "title": "An execution only sees attachments made before it, the last one winning", "statement": "The parameters a module receives are exactly the targets attached before the execution instruction, each with the value of (the computation held by) the variable of the last attachment to that target; later text, attachments included, does not affect it.", "quantifier": "every instruction list", "why_tests_cant": "Unbounded histories of attachments.", "anchors": ["libs/interpreters/applications/application.go:compileAttachment", "libs/interpreters/applications/application.go:execute"]}
{"id": "C62", "title": "Coverage reports never crash", "statement": "Asking for the uncovered lines of a grammar returns a report or an error, never a panic.", "quantifier": "every grammar", "why_tests_cant": "(The model shows it is false for grammars in which no token has a test suite.)", "anchors": ["libs/asts/applications/application.go:Uncovered", "libs/asts/applications/application.go:Covered", "libs/asts/applications/application.go:Coverages"]}
{"id": "C63", "title": "Decoded hash trees are internally consistent", "statement": "Every hash tree that decoding accepts has a head that is the Merkle root of its leaf hashes, so a tampered serialised tree is rejected.", "quantifier": "every byte string accepted by decoding", "why_tests_cant": "tampering can happen at any byte of any tree; tests only decode trees the code itself wrote", "anchors": ["libs/cryptography/domain/hashtrees/adapter.go:49-70", "libs/cryptography/domain/hashtrees/leaf_adapter.go:68-92", "libs/cryptography/domain/hashtrees/leaf_adapter.go:150-172"]}
{"id": "C64", "title": "Decoding a compact hash tree depends only on the given bytes", "statement": "Decoding a compact hash tree from a slice of a larger buffer gives a result determined by the bytes of the slice alone.", "quantifier": "every slice and every surrounding buffer", "why_tests_cant": "depends on memory behind the slice, which unit tests never vary", "anchors": ["libs/cryptography/domain/hashtrees/compact_adapter.go:45-66", "libs/cryptography/domain/hashtrees/leaves_adapter.go:63-89"]}
{"id": "C65", "title": "Decoding untrusted reference bytes never crashes", "statement": "Decoding arbitrary bytes as content keys, commits or a whole reference returns a value or an error, never a panic.", "quantifier": "every byte string", "why_tests_cant": "length fields can take any 64-bit value; tests only decode well-formed content", "anchors": ["libs/databases/domain/references/adapter.go:55-92", "libs/databases/domain/references/contentkeys_adapter.go:48-69", "libs/databases/domain/references/commits_adapter.go:47-75"]}
{"id": "C66", "title": "A commit that reports success has stored everything", "statement": "When Commit returns nil, the database file holds the new reference followed by all previously stored bytes and all pending bytes, whatever file operations failed on the way.", "quantifier": "every pattern of failing file operations, every history", "why_tests_cant": "Needs a failure in each single read, seek and write. (The model shows it is false: errors inside the copy loop and the pending loop are swallowed; proved when none of those operations fails and the copy condition holds.)", "anchors": ["libs/databases/infrastructure/files/application.go:updateDatabaseOnFile", "libs/databases/infrastructure/files/application.go:Commit"]}
{"id": "C67", "title": "A failed commit leaves its context usable", "statement": "After Commit returned an error, the context still reads everything it read before, can be closed, and the name can be opened again.", "quantifier": "every failure point, every history", "why_tests_cant": "Fault injection at every step. (The model shows it is false when the failure is at or after the closing of the old handle; proved for every earlier failure.)", "anchors": ["libs/databases/infrastructure/files/application.go:updateDatabaseOnFile", "libs/databases/infrastructure/files/application.go:Commit", "libs/databases/infrastructure/files/application.go:Close", "libs/databases/infrastructure/files/application.go:Open"]}
{"id": "C68", "title": "A deleted database stays deleted until it is created again", "statement": "Once Delete succeeded, Exists is false through any sequence of calls (with any failures and restarts) until New is called with the name.", "quantifier": "every history", "why_tests_cant": "Histories with other contexts. (The model shows it is false when the database is open while it is deleted: the next commit brings it back; proved for databases no context has open.)", "anchors": ["libs/databases/infrastructure/files/application.go:Delete", "libs/databases/infrastructure/files/application.go:Exists", "libs/databases/infrastructure/files/application.go:Commit"]}
{"id": "C69", "title": "Everything listed can be read", "statement": "After any history of commits (copy condition of C23) every content key that the database lists can be read, and the number of bytes is the length its pointer says.", "quantifier": "every history, every listed key", "why_tests_cant": "Every history and key.", "anchors": ["libs/databases/infrastructure/files/application.go:Read", "libs/databases/infrastructure/files/application.go:ContentKeys"]}
{"id": "C70", "title": "No history loses anything that was committed", "statement": "Through any sequence of calls on any databases, commits that succeed, fail or are interrupted anywhere, closings, reopenings and restarts (copy condition of C23, a positive read chunk size, and no database deleted while it is open), as long as the file exists its list of content keys, its list of commits and its data only grow at the end.", "quantifier": "every history, every pattern of failures (but those whose error the code drops)", "why_tests_cant": "Unbounded histories with faults and restarts.", "anchors": ["libs/databases/infrastructure/files/application.go:Commit", "libs/databases/infrastructure/files/application.go:Open", "libs/databases/infrastructure/files/application.go:Close"]}
{"id": "C71", "title": "A cut file is noticed", "statement": "If a database file loses its end, Open fails or the database opens with all its keys and every read returns the original bytes or an error.", "quantifier": "every history, every length of the remaining file", "why_tests_cant": "Every possible cut. (The model shows it is false when fewer than eight bytes are left: the file then opens without error as an empty database; proved for every longer rest.)", "anchors": ["libs/databases/infrastructure/files/application.go:Open", "libs/databases/infrastructure/files/application.go:retrieveReference", "libs/databases/infrastructure/files/application.go:Read"]}
{"id": "C72", "title": "Listings and batch reads agree with the single calls", "statement": "ReadAll and ReadAllByHashes return exactly what the single reads return, in the order asked for, or fail; ContentKeysByKind returns exactly the stored keys of the kind in stored order and fails when there is none; CommitByHash returns the last listed commit with the hash and fails when there is none.", "quantifier": "every reachable state, every list of pointers or hashes, every kind and hash", "why_tests_cant": "Every list and state.", "anchors": ["libs/databases/infrastructure/files/application.go:ReadAll", "libs/databases/infrastructure/files/application.go:ReadAllByHashes", "libs/databases/infrastructure/files/application.go:ContentKeysByKind", "libs/databases/infrastructure/files/application.go:CommitByHash"]}
{"id": "C73", "title": "Channel bytes never change what is parsed", "statement": "For grammars made of bytes and tokens (names different along every nesting path, channels without conditions) two inputs that have the same significant bytes - the bytes that are left after skipping channels between the matched bytes - are both refused or both parsed to trees of the same shape.", "quantifier": "every such grammar and every pair of inputs", "why_tests_cant": "Relates two unbounded inputs.", "anchors": ["libs/asts/applications/application.go:channels", "libs/asts/applications/application.go:elementValue", "libs/asts/applications/application.go:token"]}
{"id": "C74", "title": "The shipped hash token is exactly 128 hexadecimal digits", "statement": "For every input, parsing with the shipped sha512 hex token succeeds exactly when the input starts with 128 hexadecimal digits, and consumes exactly those.", "quantifier": "every input", "why_tests_cant": "All inputs.", "anchors": ["instances/grammars/tokens/token.go:Sha512Hex"]}
{"id": "C75", "title": "A grammar file can hold several instructions of every kind", "statement": "Parsing a file with the shipped grammar of grammars finds each of its instructions, of whichever kind.", "quantifier": "every input", "why_tests_cant": "(The model shows it is false: a file is always parsed as exactly one instruction, a value assignment that takes the rest.)", "anchors": ["instances/grammars/grammars/grammar.go:grammar", "instances/grammars/tokens/token.go:AnyByte"]}
{"id": "C76", "title": "The shipped channels skip exactly white space and comments", "statement": "With the shipped channels, the bytes skipped before a byte are exactly blanks (space, tab, new line, carriage return) and comments.", "quantifier": "every input", "why_tests_cant": "All inputs.", "anchors": ["instances/grammars/grammars/grammar.go:channels", "libs/asts/applications/application.go:channels"]}
{"id": "C77", "title": "Comments end with their line", "statement": "With the shipped channels a comment started by // ends at the next new line or carriage return, and may be empty.", "quantifier": "every comment text", "why_tests_cant": "(The model shows it is false: an exception is compared with its first alternative only, so a carriage return does not end a comment; an empty comment is not skipped.)", "anchors": ["instances/grammars/grammars/grammar.go:singleLineComment", "libs/asts/applications/application.go:block"]}
{"id": "C78", "title": "A reference by name can be repeated as its cardinality says", "statement": "An element that refers to an enclosing token by name can occur as often as its cardinality allows; in particular a grammar of nested lists accepts every nested list.", "quantifier": "every grammar and input", "why_tests_cant": "(The model shows it is false: the first match removes the name from the map, so a second reference fails. Proved: in every tree such an element occurs exactly once.)", "anchors": ["libs/asts/applications/application.go:token", "libs/asts/applications/application.go:elementContent"]}
{"id": "C79", "title": "What is accepted is in the language of the grammar", "statement": "The bytes (without channel bytes) of every successful tree belong to the language of the grammar's root token, the language being defined by rules only: alternatives, sequences, repetitions within cardinality, references, exceptions; no tree, position or parser state.", "quantifier": "every grammar and input", "why_tests_cant": "Unbounded grammars and inputs.", "anchors": ["libs/asts/applications/application.go:token", "libs/asts/applications/application.go:block", "libs/asts/applications/application.go:line"]}
{"id": "C80", "title": "Names do not matter to what is matched", "statement": "Renaming the tokens and elements of a grammar consistently does not change which inputs are accepted nor which bytes are taken.", "quantifier": "every grammar, renaming and input", "why_tests_cant": "(False in general: a token with the name of an enclosing one is not tried, elements of one name are confused when counting. Proved for grammars whose renaming keeps these apart.)", "anchors": ["libs/asts/applications/application.go:block", "libs/asts/domain/trees/line.go:IsSuccessful"]}
{"id": "C81", "title": "A sequence of fixed bytes matches exactly the text it spells", "statement": "A token with one alternative made of bytes, each a fixed number of times, accepts an input exactly when it starts with that text, and takes exactly that text.", "quantifier": "every such sequence and every input", "why_tests_cant": "(False when two elements have the same name.)", "anchors": ["libs/asts/applications/application.go:line", "libs/asts/domain/trees/line.go:IsSuccessful"]}
{"id": "C82", "title": "Everything-except stops at the first place where the exception matches", "statement": "An element that stands for everything except a token takes a non-empty text up to the first place where one of the alternatives of that token matches, or up to the end of the input.", "quantifier": "every exception and input", "why_tests_cant": "(False: only the first alternative is considered. Proved exactly for exceptions whose first alternative is a word.)", "anchors": ["libs/asts/applications/application.go:block", "libs/asts/applications/application.go:elementContent"]}
{"id": "C83", "title": "Parsing returns an error or a successful tree", "statement": "When no error is returned the tree reports success.", "quantifier": "every grammar and input", "why_tests_cant": "(False: optional elements only, or two elements of one name.)", "anchors": ["libs/asts/applications/application.go:Execute", "libs/asts/domain/trees/line.go:IsSuccessful"]}
{"id": "C84", "title": "The bytes of an element are the bytes of its contents", "statement": "For every element of a tree, its bytes (with or without channel bytes) are the concatenation of the bytes of its contents.", "quantifier": "every tree", "why_tests_cant": "(False with channel bytes: the bytes of a content drop the prefix.)", "anchors": ["libs/asts/domain/trees/element.go:Bytes", "libs/asts/domain/trees/content.go:Bytes"]}
{"id": "C85", "title": "References by name in queries mean the enclosing query", "statement": "In a query, a fetcher that refers to a query by token name runs the enclosing query on that token; results are those of a semantics with lexical scoping, without shared state.", "quantifier": "every query, grammar and input", "why_tests_cant": "(The model shows it is false when a nested query is on a token with a referenced name: it replaces the enclosing query for the rest of the execution. Proved when queries with a referenced name are the same query.)", "anchors": ["libs/queries/applications/application.go:queryFetch", "libs/queries/applications/application.go:insideInstances"]}
{"id": "C86", "title": "Fetchers apply to every selected tree", "statement": "When a query with fetchers succeeds and selects a tree, each nested query is on the token of that tree; in particular a query whose fetchers are on two different tokens never succeeds once it selects a tree.", "quantifier": "every query and tree", "why_tests_cant": "Must hold for every tree and list of fetchers.", "anchors": ["libs/queries/applications/application.go:insideInstances", "libs/queries/applications/application.go:queryContents"]}
{"id": "C87", "title": "Matches tells whether a query can apply to a grammar", "statement": "Matches returns true only if the query succeeds on some tree that the parser makes for the grammar.", "quantifier": "every grammar and query", "why_tests_cant": "(The model shows it is false: Matches always returns true, while a query on another token than the root fails on every tree of the grammar, which is proved for every grammar and input.)", "anchors": ["libs/queries/applications/application.go:Matches", "libs/queries/applications/application.go:queryContents"]}
{"id": "C88", "title": "Execution is interpretation of the text by name", "statement": "For every set of modules, also with side effects, executing a compiled program does the same module calls in the same order and gives the same outputs or failure as interpreting the text instruction by instruction, where a variable stands for the computation assigned to it and is run again at each use.", "quantifier": "every module set, program, input and state", "why_tests_cant": "Compiler correctness over all programs and all effects.", "anchors": ["libs/interpreters/applications/application.go:Compile", "libs/interpreters/applications/application.go:Execute", "libs/interpreters/applications/application.go:execute"]}
{"id": "C89", "title": "Coverages run the suites of the grammar's tokens", "statement": "The coverages of a grammar are those of its tokens, of its channels' tokens and of the external grammars it uses: every such token with suites is recorded with its suites in order, each with what the parser gives for its content when started with that token.", "quantifier": "every grammar", "why_tests_cant": "A statement about a traversal of every grammar. (The model shows it is false for tokens sharing a name and for tokens of channel conditions.)", "anchors": ["libs/asts/applications/application.go:Coverages", "libs/asts/applications/application.go:coveragesToken", "libs/asts/applications/application.go:coverageTokenSuite"]}
{"id": "C90", "title": "Coverages contain an error exactly when a suite fails", "statement": "The coverages report an error exactly when some suite does not behave as marked (valid: accepted to the last byte; invalid: not).", "quantifier": "every grammar", "why_tests_cant": "Must hold for every grammar and suite. (The model shows it is false: the mark of a suite is never looked at.)", "anchors": ["libs/asts/domain/grammars/coverages/coverages.go:ContainsError", "libs/asts/domain/grammars/coverages/executions.go:ContainsError", "libs/asts/applications/application.go:coverageTokenSuite"]}
{"id": "C91", "title": "Uncovered elements are those no suite uses", "statement": "The report of uncovered elements lists exactly the elements (token, alternative, position) of the grammar that are matched in no tree obtained from a suite.", "quantifier": "every grammar", "why_tests_cant": "Must hold for every grammar and every tree. (The model shows it is false with optional elements and external grammars.)", "anchors": ["libs/asts/applications/application.go:Uncovered", "libs/asts/applications/application.go:Covered", "libs/asts/applications/application.go:findElements", "libs/asts/applications/application.go:findCoveraredElementsFromBlock"]}
{"id": "C92", "title": "Fetching from a tree returns the requested occurrence of a name", "statement": "Fetch(name, i) on a parse tree returns a node of that tree with that name; index 0 is the first in document order, index i the i-th, and there is an error exactly when there are too few.", "quantifier": "every tree, name and index", "why_tests_cant": "Must hold for every shape of tree and every index; the index is passed down and counted at every level. (The model shows that index i is wrong for names that occur deeper than the tree's own elements.)", "anchors": ["libs/asts/domain/trees/tree.go:Fetch", "libs/asts/domain/trees/element.go:Fetch"]}
{"id": "C93", "title": "Commits that overlap in time behave as if done one after the other", "statement": "When several applications (processes) commit to the same database at the same time, each commit either is refused because the database is locked and changes nothing, or its effect on the files and its outcome are those of a commit done alone, one after the other; in particular at most one of them is writing at any time, and a commit that reported success leaves an existing database file.", "quantifier": "for every number of processes, every sequence of commits by each of them, every database content and every interleaving of their file operations", "why_tests_cant": "A test exercises a handful of timings; the lock is taken on the very file that a commit replaces, so the window in which it fails to exclude another process is a few system calls wide and depends on the schedule.", "anchors": ["libs/databases/infrastructure/files/application.go:503-576", "libs/databases/infrastructure/files/application.go:578-656", "vendor/github.com/juju/fslock/fslock_nix.go:35-61"]}
{"id": "C94", "title": "An open context keeps showing what it showed when it was opened", "statement": "Once an application has opened a database, the content keys, commits and contents it sees through that context stay the same until the application itself commits or closes it, whatever other applications do meanwhile: writing, committing (also with failures and crashes in the middle), deleting and creating the database again, restarting.", "quantifier": "for every number of applications with their own parameters, every history of their calls, every fault, every context and every pointer read", "why_tests_cant": "A test fixes a handful of interleavings of readers and writers; the claim is about every history and every point at which another application's commit may be stopped. (The model shows it fails when two commits overlap, because they share one temporary file.)", "anchors": ["libs/databases/infrastructure/files/application.go:Open", "libs/databases/infrastructure/files/application.go:Read", "libs/databases/infrastructure/files/application.go:updateDatabaseOnFile", "libs/databases/infrastructure/files/application.go:writeDataAndReferenceOnDestinationFile"]}
{"id": "C95", "title": "What a grammar builder makes is what was last given to it", "statement": "Calling the setters of a builder of values, cardinalities, composes, lines, blocks, suites, tokens, \"everything except\", external grammars, channel conditions, channels or grammars in any order, any number of times, and then asking for the result gives exactly the parts last given since the builder was created, the optional ones absent if they were not given or given as nil; it is an error exactly when a mandatory part is missing (never given, nil, an empty name, an empty list, zero occurrences), and never a panic.", "quantifier": "for every builder, every sequence of calls on it and every argument", "why_tests_cant": "Tests call each setter once in one order; the claim is about every sequence, with repetitions, nil arguments and reuse after Create.", "anchors": ["libs/asts/domain/grammars/builder.go:Now", "libs/asts/domain/grammars/token_builder.go:Now", "libs/asts/domain/grammars/everything_builder.go:Now", "libs/asts/domain/grammars/channel_builder.go:Now", "libs/asts/domain/grammars/cardinalities/builder.go:Now", "libs/asts/domain/grammars/values/builder.go:Now"]}
{"id": "C96", "title": "A builder given two alternatives refuses them or takes the last", "statement": "A suite is valid or invalid, an instance is a token or an \"everything except\", a container is an element or a compose, an element is a value, an external grammar, an instance or a recursion. A builder that was given two alternatives answers an error or builds the one given last.", "quantifier": "for every sequence of calls on the builders with alternatives", "why_tests_cant": "Tests give one alternative at a time. (The model shows the claim fails: the first alternative in a fixed order wins silently, whatever the order of the calls.)", "anchors": ["libs/asts/domain/grammars/suite_builder.go:Now", "libs/asts/domain/grammars/instance_builder.go:Now", "libs/asts/domain/grammars/container_builder.go:Now", "libs/asts/domain/grammars/element_builder.go:Now"]}
{"id": "C97", "title": "The grammars that can be built are exactly the well-formed ones", "statement": "A grammar obtained from the builders alone has no empty name, block, line or compose, no compose part with zero occurrences and no element whose minimum is above its maximum, at any depth; and every such grammar can be obtained.", "quantifier": "for every grammar and every way of building it", "why_tests_cant": "The claim is about all grammars, of any depth; a test builds a few. (The model shows a grammar with a minimum above its maximum can be built; its alternative never matches any input.)", "anchors": ["libs/asts/domain/grammars/builder.go:Now", "libs/asts/domain/grammars/token_builder.go:Now", "libs/asts/domain/grammars/cardinalities/builder.go:Now", "libs/asts/domain/grammars/cardinalities/cardinality.go:createCardinality"]}
{"id": "C98", "title": "Tokens made from a text match that text", "statement": "The token the components make from a text (all its characters in order, or any one of its characters) matches exactly the inputs that start with the text (with one of its characters), takes exactly those bytes, and accepts the suites it is given from that text.", "quantifier": "for every name, every text and every input", "why_tests_cant": "The inputs are unbounded and the texts arbitrary; the tests only use ASCII texts. (The model shows the claim fails for other characters, which are cut to their low eight bits while the suites hold their UTF-8 bytes.)", "anchors": ["instances/grammars/components/tokens/token.go:AllCharacters", "instances/grammars/components/tokens/token.go:AnyCharacter", "instances/grammars/components/suites/suite.go:Suites"]}
{"id": "C99", "title": "Grammar components make what they are asked for", "statement": "Each component function (cardinality, compose, suites, element, everything, line, block, token, channel) returns exactly the part it is asked for, and panics exactly when a name, a list or a text it is given is empty.", "quantifier": "for every argument", "why_tests_cant": "The functions panic on builder errors; only a statement about all arguments says when that can happen.", "anchors": ["instances/grammars/components/composes/compose.go:Compose", "instances/grammars/components/suites/suite.go:Suites", "instances/grammars/components/lines/line.go:FromElements", "instances/grammars/components/blocks/block.go:FromLines", "instances/grammars/components/tokens/token.go:FromBlock", "instances/grammars/components/tokens/token.go:AnyElement", "instances/grammars/components/everythings/everything.go:Everything", "instances/grammars/components/channels/channels.go:channelFromValue"]}
{"id": "C100", "title": "What a query builder makes is what was last given to it", "statement": "Calling the setters of a builder of query elements, tokens, fetchers or queries in any order, any number of times, and then asking for the result gives exactly the parts last given since the builder was created, the content index absent if it was not given; it is an error exactly when a mandatory part is missing (never given, nil, an empty name, an empty list), and no builder of queries panics.", "quantifier": "for every builder of the query library, every sequence of calls on it and every argument", "why_tests_cant": "Tests call each setter once in one order; the claim is about every sequence, with repetitions, nil arguments and reuse after Create.", "anchors": ["libs/queries/domain/queries/builder.go:Now", "libs/queries/domain/queries/token_builder.go:Now", "libs/queries/domain/queries/element_builder.go:Now", "libs/queries/domain/queries/fetchers_builder.go:Now"]}
{"id": "C101", "title": "A query builder given two alternatives refuses them or takes the last", "statement": "A function on contents or on instances takes one or several, a fetcher is a query or a reference by name, an inside is a function or fetchers. A builder that was given two alternatives answers an error or builds the one given last.", "quantifier": "for every sequence of calls on the query builders with alternatives", "why_tests_cant": "Tests give one alternative at a time. (The model shows the claim fails: the first alternative in a fixed order wins silently.)", "anchors": ["libs/queries/domain/queries/contentfn_builder.go:Now", "libs/queries/domain/queries/selectorfn_builder.go:Now", "libs/queries/domain/queries/fetcher_builder.go:Now", "libs/queries/domain/queries/inside_builder.go:Now"]}
{"id": "C102", "title": "The queries that can be built are exactly the well-formed ones", "statement": "A query obtained from the builders alone has, at any depth, a token with a name, a reverse name and an element name, none of them empty, and either a function or at least one fetcher, each a query or a reference with a non-empty name; and every such query can be obtained.", "quantifier": "for every query and every way of building it", "why_tests_cant": "The claim is about all queries, of any depth; a test builds a few.", "anchors": ["libs/queries/domain/queries/builder.go:Now", "libs/queries/domain/queries/token_builder.go:Now", "libs/queries/domain/queries/fetcher_builder.go:Now", "libs/queries/domain/queries/fetchers_builder.go:Now", "libs/queries/domain/queries/inside_builder.go:Now"]}
{"id": "C103", "title": "What a builder of the interpreter makes is what was last given to it", "statement": "Calling the setters of a builder of modules, applications, parameters, variables, attachments, assignments, instruction lists or programs in any order, any number of times, and then asking for the result gives exactly the parts last given since the builder was created, the optional ones (attachments, outputs, remaining data) absent if not given, nil or, for outputs and remaining data, empty; it is an error exactly when a mandatory part is missing, and no builder of the interpreter panics.", "quantifier": "for every builder of the interpreter, every sequence of calls on it and every argument", "why_tests_cant": "Tests call each setter once in one order; the claim is about every sequence, with repetitions, nil arguments and reuse after Create.", "anchors": ["libs/interpreters/domain/instructions/builder.go:Now", "libs/interpreters/domain/instructions/assignment_builder.go:Now", "libs/interpreters/domain/instructions/parameters/builder.go:Now", "libs/interpreters/domain/programs/builder.go:Now", "libs/interpreters/domain/programs/application_builder.go:Now", "libs/interpreters/domain/programs/attachment_builder.go:Now", "libs/interpreters/domain/programs/modules/module_builder.go:Now"]}
{"id": "C104", "title": "A builder of the interpreter given two alternatives refuses them or takes the last", "statement": "A value of a source is a variable, a constant, instructions or an execution; an instruction is one of six kinds; a value of a program is an input, a constant, an execution or a program; an instruction of a program is a value or an execution. A builder that was given two alternatives answers an error or builds the one given last.", "quantifier": "for every sequence of calls on the interpreter's builders with alternatives", "why_tests_cant": "Tests give one alternative at a time. (The model shows the claim fails: the first alternative in a fixed order wins silently.)", "anchors": ["libs/interpreters/domain/instructions/value_builder.go:Now", "libs/interpreters/domain/instructions/instruction_builder.go:Now", "libs/interpreters/domain/programs/value_builder.go:Now", "libs/interpreters/domain/programs/instruction_builder.go:Now"]}
{"id": "C105", "title": "Compiled programs are programs that can be built by hand", "statement": "The sources and programs obtained from the builders alone are exactly those in which no list of instructions is empty, at any depth. Every program that Compile gives is one of them, none of the calls of builders in Compile fails but for an empty list of instructions, and every output of a compiled program is the number of an instruction that is a value, at any depth. (Not every program that can be built is compiled from a source.)", "quantifier": "for every source, every list of modules, every program and every way of building it", "why_tests_cant": "The claim is about all sources and programs, nested to any depth.", "anchors": ["libs/interpreters/applications/application.go:Compile", "libs/interpreters/domain/programs/builder.go:Now", "libs/interpreters/domain/programs/instructions_builder.go:Now", "libs/interpreters/domain/instructions/builder.go:Now"]}
{"id": "C106", "title": "What executing a program built by hand can do", "statement": "Executing any program built from the builders, compiled or not, panics only if a module panics; it does not fail for a missing input if only inputs that are given are used, nor for a missing output if the outputs are numbers of instructions that are values; with both and modules that always give a value it succeeds with one result per output. Each result is the one that the program with only that output gives, and an output that is not the number of a value makes the execution fail after all its effects.", "quantifier": "for every program, input, module behaviour and state", "why_tests_cant": "Tests execute a few compiled programs; the claim is about all programs, nested to any depth, with arbitrary modules.", "anchors": ["libs/interpreters/applications/application.go:Execute", "libs/interpreters/applications/application.go:executeValue", "libs/interpreters/applications/application.go:execute"]}
{"id": "C107", "title": "What a builder of trees or coverages makes is what was last given to it", "statement": "For every sequence of calls on a builder of values, elements, lines, blocks, trees, executions, coverages and of their lists, Now succeeds exactly when the mandatory parts given since the last Create are there, and the object has exactly the parts given last; the successful line of a block is the first of its lines that succeeds. No builder panics.", "quantifier": "for every sequence of calls", "why_tests_cant": "Tests call each builder once, with every part given once; they cannot cover repeated, missing, cleared and re-ordered calls on any parts.", "anchors": ["libs/asts/domain/trees/value_builder.go", "libs/asts/domain/trees/element_builder.go", "libs/asts/domain/trees/line_builder.go", "libs/asts/domain/trees/block_builder.go", "libs/asts/domain/trees/tree_builder.go", "libs/asts/domain/grammars/coverages/execution_builder.go", "libs/asts/domain/grammars/coverages/coverage_builder.go"]}
{"id": "C108", "title": "A builder of trees or coverages given two alternatives refuses them or takes the last", "statement": "A content given a byte and a tree, and a result given a tree and an error, is refused by Now, or is what was given last.", "quantifier": "for every sequence of calls", "why_tests_cant": "Tests give one alternative at a time.", "anchors": ["libs/asts/domain/trees/content_builder.go", "libs/asts/domain/grammars/coverages/result_builder.go"]}
{"id": "C109", "title": "The trees and coverages that can be built are exactly the well-formed ones", "statement": "A tree can be made from parts that were made with the builders exactly when every block in it has a line and marks the first that succeeds, and every element has a content. A coverage can be made exactly when it has an execution and its trees are such trees.", "quantifier": "for every tree and coverage, every nesting", "why_tests_cant": "Trees nest without bound; tests build a few shapes.", "anchors": ["libs/asts/domain/trees/block_builder.go", "libs/asts/domain/trees/elements_builder.go", "libs/asts/domain/trees/contents_builder.go", "libs/asts/domain/grammars/coverages/coverage_builder.go"]}
{"id": "C110", "title": "Everything the parser returns can be built by hand", "statement": "Every tree the parser returns, and every coverage it reports, can be made with the builders.", "quantifier": "for every grammar and input", "why_tests_cant": "The shape of a parse tree depends on the grammar and the input; tests see a few.", "anchors": ["libs/asts/applications/application.go", "libs/asts/domain/trees/tree_builder.go", "libs/asts/domain/grammars/coverages/coverage_builder.go"]}
{"id": "C111", "title": "Trees and coverages that can be built can be read without crashing", "statement": "For every tree made with the builders, reading its bytes with or without channels and fetching any name at any index never panics. The positions covered by any coverages made with the builders are computed without panic or error.", "quantifier": "for every tree and coverages that can be built, every name and index", "why_tests_cant": "A nil list deep in a tree panics only when it is reached; tests reach a few.", "anchors": ["libs/asts/domain/trees/tree.go", "libs/asts/domain/trees/element.go", "libs/asts/applications/application.go"]}
{"id": "C112", "title": "A tree marked successful is a derivation of its grammar, whoever built it", "statement": "For every tree made with the builders, if its block has a successful line then the tree is a derivation of its token: the line is one of the token's, its elements match the containers and the bytes are those the grammar asks for.", "quantifier": "for every tree that can be built", "why_tests_cant": "Tests check trees made by the parser.", "anchors": ["libs/asts/domain/trees/line.go", "libs/asts/domain/trees/block_builder.go", "libs/asts/domain/trees/tree_builder.go"]}
{"id": "C113", "title": "Hashes, contents and references are built from what was last given", "statement": "Whatever methods are called on the builders of leaves, compact trees, pointers, content keys, commits, references and contents, in whatever order, building fails exactly when a required part was not given (or was last given as nothing, or is an empty list, or a length of zero); otherwise the object holds for each part what was last given since the builder was created. The hash of a commit is that of its values' head, its time, its parent and its proof; the result of its mine is the hash of that hash and the proof, with the number of leading miner bytes as score. No builder panics.", "quantifier": "for every sequence of calls and every value given", "why_tests_cant": "Tests call each method once, in one order.", "anchors": ["libs/cryptography/domain/hashtrees/leaf_builder.go", "libs/cryptography/domain/hashtrees/parentleaf_builder.go", "libs/cryptography/domain/hashtrees/compact_builder.go", "libs/cryptography/domain/hashtrees/leaves_builder.go", "libs/databases/domain/references/pointer_builder.go", "libs/databases/domain/references/contentkey_builder.go", "libs/databases/domain/references/commit_builder.go", "libs/databases/domain/references/builder.go", "libs/databases/domain/contents/content_builder.go"]}
{"id": "C114", "title": "A hash tree is the hash tree of the blocks it was given", "statement": "Whatever methods are called on the builder of hash trees, a tree is built exactly when blocks were given, its leaves are the hashes of the blocks last given and its head is their Merkle root; the builder never panics.", "quantifier": "for every sequence of calls and every list of blocks", "why_tests_cant": "Tests give blocks only, or head and parent only, that fit together.", "anchors": ["libs/cryptography/domain/hashtrees/builder.go"]}
{"id": "C115", "title": "Calling Now on a builder has no influence on what it gives later", "statement": "For every builder, what Now returns depends only on the calls of the other methods: calling Now before, any number of times, changes nothing.", "quantifier": "for every builder and every sequence of calls", "why_tests_cant": "Tests call Now once on each builder.", "anchors": ["libs/cryptography/domain/hashtrees/builder.go", "libs/asts/domain/grammars/block_builder.go", "libs/interpreters/domain/instructions/builder.go", "libs/databases/domain/contents/content_builder.go"]}
{"id": "C116", "title": "What can be built can be saved and read back; what is read could have been built", "statement": "Every hash tree, compact tree, reference and list of contents made with the builders is read back, identical, from its bytes, whatever follows them. Everything these readers accept, from whatever bytes, could have been made with the builders.", "quantifier": "for every object that can be built and every byte string", "why_tests_cant": "Tests save and read a few objects.", "anchors": ["libs/cryptography/domain/hashtrees/adapter.go", "libs/cryptography/domain/hashtrees/compact_adapter.go", "libs/databases/domain/references/adapter.go", "libs/databases/domain/contents/adapter.go"]}
{"id": "C117", "title": "Building a hash tree leaves the caller's blocks alone", "statement": "Building a hash tree from a list of blocks gives the tree of these blocks and changes no list of blocks the caller holds, also if they share memory with the one given.", "quantifier": "for every memory, every list given and every other list", "why_tests_cant": "It depends on the room behind the list given, which tests do not vary.", "anchors": ["libs/cryptography/domain/hashtrees/builder.go"]}
{"id": "C118", "title": "Merging leaves changes nothing else", "statement": "Merging leaves with others gives the leaves of the first followed by those of the second, and neither of them, nor any other leaves or compact tree, changes.", "quantifier": "for every memory and every two objects", "why_tests_cant": "It depends on which objects share memory, which tests do not vary.", "anchors": ["libs/cryptography/domain/hashtrees/leaves.go", "libs/cryptography/domain/hashtrees/compact.go"]}
{"id": "C119", "title": "Compact trees do not share leaves", "statement": "Making the compact form of a hash tree gives its head and its leaves in order, and changes no list and no object there was. Merging into the leaves of one compact tree changes no other compact tree, not even one made of the same hash tree.", "quantifier": "for every hash tree, every memory and every merge", "why_tests_cant": "It depends on how memory is shared between objects, which results do not show.", "anchors": ["libs/cryptography/domain/hashtrees/adapter.go", "libs/cryptography/domain/hashtrees/leaf_adapter.go", "libs/cryptography/domain/hashtrees/leaves.go", "libs/cryptography/domain/hashtrees/compact.go"]}
{"id": "C120", "title": "What is committed is what was given to Write", "statement": "Once Write has returned, the program may do what it likes with the buffer it passed: a commit that succeeds stores, under each hash, the bytes that were given to Write with it.", "quantifier": "for every program of calls and writes to its own memory, every buffer, and every way buffers share memory", "why_tests_cant": "It depends on what the program does with its buffers between calls, and on earlier calls whose contents are still pending; tests pass fresh buffers.", "anchors": ["libs/databases/infrastructure/files/application.go", "libs/databases/domain/contents/content_builder.go", "libs/databases/domain/contents/content.go"]}
{"id": "C121", "title": "Every part of a grammar file is written in one way", "statement": "Each construct of a grammar file (root, channel, channel condition, the kinds of assignment, suite, cardinality, element, line, block, compose, everything, hash, the whole file) takes from the front of the input the longest text of its documented form, and is refused exactly when the input starts with no such text. With the shipped channels the same holds of the bytes that are neither white space nor comment; a text is parsed to its end as a grammar file exactly when those bytes are those of a file.", "quantifier": "for every construct of the shipped grammar and every input", "why_tests_cant": "There are infinitely many texts; the shipped suites give a few samples per construct, and whether ordered alternatives cut a match short depends on what follows.", "anchors": ["instances/grammars/grammars/grammar.go", "instances/grammars/tokens/token.go", "instances/grammars/components/tokens/token.go"]}
{"id": "C122", "title": "Lists of commits handed out are the program's own", "statement": "A list of commits obtained from an open database keeps its commits, in order, whatever calls follow: further commits, failures, closing. And whatever the program does with a list it was handed, assigning to it or appending to it, the history of the database stays as it is: the next commit's parent is the last commit that succeeded.", "quantifier": "for every program of calls and writes to lists, every fault, and every amount of room that append leaves", "why_tests_cant": "It depends on whether the list has room behind it, which depends on how many commits there were, and on what the program does with a list long after it was handed out; tests look at a list once.", "anchors": ["libs/databases/infrastructure/files/application.go", "libs/databases/domain/references/commits.go", "libs/databases/domain/references/commits_builder.go"]}
{"id": "C123", "title": "Channel conditions look at the text around the channel text", "statement": "Between the items of a token, the text of a channel is skipped exactly when the channel's previous condition holds for a text that ends directly in front of it and its next condition holds directly behind it.", "quantifier": "every channel with conditions, every word and input", "why_tests_cant": "(False for the previous condition: it is tested at the start of the item before, together with the channel texts skipped in front of that item, so `x y z` is refused although each blank is behind x or y. Proved exactly for channels with a next condition only, and exactly what happens with a previous condition.)", "anchors": ["libs/asts/applications/application.go:channel", "libs/asts/applications/application.go:channels", "libs/asts/applications/application.go:channelCondition"]}
{"id": "C124", "title": "Escaped exceptions belong to the text", "statement": "A text in which every exception is preceded by the escape token is read back as a whole, without the escapes, up to the exception that follows it.", "quantifier": "every escape byte, exception byte and text", "why_tests_cant": "Unbounded texts. (False: of two escaped exceptions next to each other the second one ends the text, and an escaped exception at the end of the input panics. Proved for all texts without two exceptions next to each other.)", "anchors": ["libs/asts/applications/application.go:block"]}
{"id": "C125", "title": "Only the printed forms of hashes are read as hashes", "statement": "A text is read as a hash only if it is the printed form of a hash in upper or lower case, and printing the result gives the text in lower case; any other text is an error.", "quantifier": "every text", "why_tests_cant": "All texts. (False: any even number of hexadecimal digits is accepted, and hashed when it is not 64 bytes. Proved: exactly these texts are accepted, nothing panics, and 128 digits give the hash they print.)", "anchors": ["libs/cryptography/domain/hash/adapter.go:FromString", "libs/cryptography/domain/hash/hash.go:String"]}
{"id": "C126", "title": "Nested text is read to any depth", "statement": "A grammar whose token is either a further one of itself between an opening and a closing byte, or a single inner byte, reads exactly the nested texts: any number of opening bytes, the inner byte and as many closing bytes are matched whole and what follows is left over; an input that starts with no such text is an error. It makes no difference whether the reference by name is in the token itself or in another token inside it.", "quantifier": "every three bytes with the opening one different from the inner one, every depth, every rest and every other input", "why_tests_cant": "Unbounded depth; the parser removes and restores the names of enclosing tokens and compares started lines by position and data, so each level must be shown not to disturb the ones around it.", "anchors": ["libs/asts/applications/application.go:token", "libs/asts/applications/application.go:elementContent", "libs/asts/applications/application.go:block", "libs/asts/applications/application.go:line"]}
{"id": "C127", "title": "The parts of a grammar can be understood one at a time", "statement": "What a grammar reads from a text, leaves over and refuses is determined by what its parts do on their own: the root reads what its first alternative that reads something reads; an alternative reads its elements in sequence, each as often as it can within its bounds; and a token used inside it reads and refuses exactly what it reads and refuses as the root of a grammar of its own. Replacing a token by another one that reads the same texts on its own changes nothing about the grammar.", "quantifier": "for all grammars without channels and external grammars, all tokens used in them, and all input texts", "why_tests_cant": "A test runs a token inside one grammar on one text; the claim relates every token in every context to the same token alone, for every text, and speaks about replacements by every equivalent token.", "anchors": ["libs/asts/applications/application.go:token", "libs/asts/applications/application.go:block", "libs/asts/applications/application.go:line", "libs/asts/applications/application.go:element"]}
{"id": "C128", "title": "Decoders look at nothing but the bytes they are given", "statement": "The decoders of hash trees, compact hash trees, content keys, commits, references and contents, given a slice of a larger buffer, give an outcome determined by the bytes of the slice: what follows the slice in the buffer changes neither what is accepted, nor the value, nor whether the decoder fails.", "quantifier": "for all bytes and all bytes behind them in their buffer", "why_tests_cant": "A slice expression may reach past the end of a slice into the rest of its buffer; tests decode freshly allocated bytes with nothing behind them, and there are infinitely many buffers for the same bytes.", "anchors": ["libs/cryptography/domain/hashtrees/adapter.go:ToHashTree", "libs/cryptography/domain/hashtrees/leaf_adapter.go:ContentToParentLeaf", "libs/databases/domain/references/adapter.go:ToReference", "libs/databases/domain/references/contentkeys_adapter.go:ToContentKeys", "libs/databases/domain/references/commits_adapter.go:ToCommits", "libs/databases/domain/contents/adapter.go:ToInstance"]}
{"id": "C129", "title": "Opening a database while others commit to it", "statement": "An application may open a database at any time while other applications commit to it. Opening succeeds, and the context shows the database as it is after a whole number of the commits: every content it lists can be read and has the bytes that were committed, never part of a commit and never a mixture of two states. Writing to the context and committing it does not damage what was stored.", "quantifier": "for every number of applications, all their commits, every interleaving of their file operations, and every moment at which the database is opened", "why_tests_cant": "The outcome depends on where the file operations of the committing applications fall between those of the opening one; tests run one application at a time.", "anchors": ["libs/databases/infrastructure/files/application.go:Open", "libs/databases/infrastructure/files/application.go:retrieveReference", "libs/databases/infrastructure/files/application.go:updateDatabaseOnFile"]}
{"id": "C130", "title": "One application used by several goroutines", "statement": "An application that has databases open can be used from several goroutines at the same time. Each call behaves as it does when it is the only one: opening gives every goroutine an identifier of its own, what was written successfully is pending, reading gives the stored bytes, and the process keeps running.", "quantifier": "for every number of goroutines, all their calls, and every interleaving of their accesses to memory", "why_tests_cant": "Whether two goroutines meet in the same map or list depends on the scheduler; a test that passes a thousand times has seen a thousand of the schedules.", "anchors": ["libs/databases/infrastructure/files/application.go:Open", "libs/databases/infrastructure/files/application.go:Write", "libs/databases/infrastructure/files/application.go:Cancel", "libs/databases/infrastructure/files/application.go:Read", "libs/databases/infrastructure/files/application.go:Close"]}
{"id": "C131", "title": "Processes that use different databases do not disturb each other", "statement": "Any number of processes use databases at the same time, each its own ones, creating, opening, reading, writing, committing, closing and deleting them as they like. Every process finishes, its calls return what they return when it is the only process, and the files of its databases become what they become then.", "quantifier": "for every number of processes, every program of calls of each, every starting state of the files, and every interleaving of their file operations", "why_tests_cant": "The programs and the interleavings are unbounded, and file names, handles and locks are shared by all processes; tests run one process.", "anchors": ["libs/databases/infrastructure/files/application.go:New", "libs/databases/infrastructure/files/application.go:Open", "libs/databases/infrastructure/files/application.go:Commit", "libs/databases/infrastructure/files/application.go:Delete"]}
{"id": "C132", "title": "Creating a database never empties one", "statement": "Creating a database succeeds only when there is none of that name, and never changes a database that is there, also while other processes create, fill, commit or delete databases at the same time.", "quantifier": "for every number of processes, all their calls, and every interleaving of their file operations", "why_tests_cant": "The outcome depends on what other processes do between two file operations of one call.", "anchors": ["libs/databases/infrastructure/files/application.go:New", "libs/databases/infrastructure/files/application.go:Exists"]}
{"id": "C133", "title": "Goroutines that take turns", "statement": "When every goroutine locks one mutex before each call of a shared application and unlocks it afterwards, the application can be shared: whatever the scheduler does, the calls have the effects and the results of the same calls made one after the other by one goroutine, in the order in which the mutex was released; every goroutine can always come to its end, unless a call panics or never returns.", "quantifier": "for every number of goroutines, all their calls, every interleaving of their accesses to memory and files, and every moment", "why_tests_cant": "A test sees some schedules; and that nothing done under the lock is used outside of it is a statement about all of them.", "anchors": ["libs/databases/applications/sdk.go:Application", "libs/databases/infrastructure/files/application.go:Open", "libs/databases/infrastructure/files/application.go:Write", "libs/databases/infrastructure/files/application.go:Commit", "libs/databases/infrastructure/files/application.go:Close"]}
{"id": "C134", "title": "Which bytes each decoder accepts, refuses and crashes on", "statement": "Each decoder (hash trees, compact hash trees, content keys, commits, references, contents) accepts exactly the byte strings of its format, crashes exactly when a length or count leads out of the bytes before anything else is found wrong, and returns an error in all other cases.", "quantifier": "every byte string and every buffer it lies in", "why_tests_cant": "The claim is an equivalence over all byte strings; tests decode a few well-formed ones, and the crashing inputs depend on nested length fields and on bytes behind the slice.", "anchors": ["libs/cryptography/domain/hashtrees/adapter.go:ToHashTree", "libs/cryptography/domain/hashtrees/compact_adapter.go:ToCompact", "libs/databases/domain/references/adapter.go:ToReference", "libs/databases/domain/references/contentkeys_adapter.go:ToContentKeys", "libs/databases/domain/references/commit_adapter.go:ToCommit", "libs/databases/domain/references/commits_adapter.go:ToCommits", "libs/databases/domain/contents/adapter.go:ToInstance"]}
{"id": "C135", "title": "What is read is written back byte for byte", "statement": "If a decoder accepts bytes, encoding the value it returns gives these bytes again; so different bytes never stand for the same value.", "quantifier": "every byte string that is accepted, in every buffer", "why_tests_cant": "Round-trip tests start from values; byte strings that were not produced by the encoder are accepted too, and there are infinitely many of them.", "anchors": ["libs/cryptography/domain/hashtrees/adapter.go:ToHashTree", "libs/cryptography/domain/hashtrees/compact_adapter.go:ToCompact", "libs/databases/domain/references/adapter.go:ToReference", "libs/databases/domain/references/contentkeys_adapter.go:ToContentKeys", "libs/databases/domain/references/commit_adapter.go:ToCommit", "libs/databases/domain/references/commits_adapter.go:ToCommits", "libs/databases/domain/contents/adapter.go:ToInstance"]}
{"id": "C136", "title": "Executing a program does nothing but call its modules, one after another", "statement": "Executing a compiled program calls modules that were given to the compiler, one after the other, each in the state the one before left; nothing else happens to the state. If the execution fails in a module or panics, that module was the last one called, and the effects of the calls before it and of this call stay.", "quantifier": "every program that compiles, every input and attachments, every module with side effects, every outcome", "why_tests_cant": "The effects of modules are arbitrary; tests observe a few modules and orders, not that nothing else happens and nothing is rolled back or repeated.", "anchors": ["libs/interpreters/applications/application.go:Execute"]}
{"id": "C137", "title": "The commits account for the contents", "statement": "The contents an open database lists are, in order, those its first commit stored, then those of its second, and so on. Every commit stored at least one content, every content names the commit that stored it, and the values of a commit are the hash tree of the hashes of exactly the contents it stored.", "quantifier": "every history of calls on any number of databases, with any faults and crashes, and after any reopening", "why_tests_cant": "Depends on the whole history of commits, failed commits and reopenings; a test follows one short history.", "anchors": ["libs/databases/infrastructure/files/application.go:Commit", "libs/databases/infrastructure/files/application.go:ContentKeysByKind", "libs/databases/infrastructure/files/application.go:Commits"]}
{"id": "C138", "title": "The hash of a commit pins the history up to it", "statement": "If a commit of one database has the hash of a commit of another, or of the same, database, then the two are at the same place and the histories up to there agree on all hashes, times, parents and heads of values (and on the hashes of the contents where equally many leaves are stored), unless SHA-512 collides. In one database no two commits have the same hash.", "quantifier": "every two histories of two databases, with any faults and crashes", "why_tests_cant": "Ranges over pairs of histories; a cryptographic reduction, not samplable.", "anchors": ["libs/databases/infrastructure/files/application.go:Commit", "libs/databases/domain/references/commit_builder.go:Now"]}
{"id": "C139", "title": "A database survives a power loss", "statement": "When the power is lost during a commit or after it, the database is afterwards as it was before some commit or after it: no power loss makes stored contents unreadable.", "quantifier": "every number of processes and commits, every interleaving, every moment of the loss, everything the disk may have kept of what was written since it was last flushed", "why_tests_cant": "The outcome depends on what the disk had written when the power went, which tests cannot produce; there are exponentially many possibilities per moment.", "anchors": ["libs/databases/infrastructure/files/application.go:Commit", "libs/databases/infrastructure/files/application.go:updateDatabaseOnFile"]}
{"id": "C140", "title": "Rounding does not change a hash tree", "statement": "The hash tree built from a list of blocks has as many leaves as the smallest power of two that is enough, although this number is computed with floating point numbers.", "quantifier": "every list of fewer than 2^40 blocks, every arithmetic whose logarithms and quotients are right up to a relative error of 2^-50", "why_tests_cant": "Whether rounding crosses an integer depends on the number of blocks; the critical numbers are next to large powers of two, for which tests would need billions of blocks, and on the platform's logarithm.", "anchors": ["libs/cryptography/domain/hashtrees/builder.go:Now"]}
{"id": "C141", "title": "Every commit ends", "statement": "Commit always returns, with or without an error, whatever happened to the database before and whichever operations on files fail.", "quantifier": "every history of calls and failures, every database, every pattern of failures of the commit, every time", "why_tests_cant": "a call that does not return shows only for the one history that leads to it; a test can only wait and give up", "anchors": ["libs/databases/infrastructure/files/application.go:392-414", "libs/databases/infrastructure/files/application.go:497-575", "libs/databases/infrastructure/files/application.go:577-656", "libs/databases/infrastructure/files/application.go:658-700"]}
{"id": "C142", "title": "A database does not depend on the parameters of the application that opens it", "statement": "A database written by an application with one chunk size, set of extensions, mining value and directory is opened by an application with any others (and a positive chunk size), from wherever its file was copied to, and shows the same contents, commits and bytes; and when applications with different parameters take turns committing to it (each under the conditions of C70), each turn only appends.", "quantifier": "every history of the first application, every parameters of the other (positive chunk size), every place the file is copied to, every number of turns", "why_tests_cant": "tests use one application with one set of parameters from beginning to end; the space of pairs of parameters and histories cannot be enumerated", "anchors": ["libs/databases/infrastructure/files/application.go:39-76", "libs/databases/infrastructure/files/application.go:113-174", "libs/databases/infrastructure/files/application.go:176-232", "libs/databases/infrastructure/files/application.go:392-414"]}
{"id": "C143", "title": "Read gives stored bytes or an error", "statement": "For every pointer, Read on an open database returns exactly the bytes the pointer names in the stored data, or an error when they are not all there.", "quantifier": "every reachable database, every open context, every pointer (64-bit position and length)", "why_tests_cant": "tests read a few pointers that exist; positions near the end of the 64-bit range cannot be enumerated and wrap around", "anchors": ["libs/databases/infrastructure/files/application.go:289-310", "libs/databases/infrastructure/files/application.go:329-346"]}
{"id": "C144", "title": "Each name stands for a database of its own in the application's directory", "statement": "Databases with different names are in different files, all in the directory the application was given, so that nothing done under one name shows under another.", "quantifier": "every directory, every pair of names and extensions, every history of the databases", "why_tests_cant": "tests use a single plain name; the spellings of paths are unbounded, and what two spellings of one file do to each other depends on the whole history", "anchors": ["libs/databases/infrastructure/files/application.go:78-87", "libs/databases/infrastructure/files/application.go:97-110", "libs/databases/infrastructure/files/application.go:113-140", "libs/databases/infrastructure/files/application.go:142-174", "libs/databases/infrastructure/files/application.go:176-232", "libs/databases/infrastructure/files/application.go:515-555", "libs/databases/infrastructure/files/application.go:557-600"]}
{"id": "C145", "title": "New makes an empty database where there is none, and nothing else", "statement": "If there is no database of the name, New succeeds, making the directory of the application if it is missing; afterwards there is an empty database of that name and everything else is as before. If New fails, everything is as before.", "quantifier": "every tree of files and directories, every directory given to the application (relative or absolute), every current directory, every name", "why_tests_cant": "tests create one database in one directory; trees, paths and names are unbounded", "anchors": ["libs/databases/infrastructure/files/application.go:89-111", "libs/databases/infrastructure/files/sdk.go:12"]}
{"id": "C146", "title": "Exists, New, Delete and Open agree on what there is", "statement": "A name either exists, opens, can be deleted and cannot be created, or does not exist, does not open and cannot be deleted.", "quantifier": "every tree of files and directories, every directory, every name", "why_tests_cant": "tests call each function on one file that is there; what a name can stand for is unbounded", "anchors": ["libs/databases/infrastructure/files/application.go:78-87", "libs/databases/infrastructure/files/application.go:89-111", "libs/databases/infrastructure/files/application.go:113-128", "libs/databases/infrastructure/files/application.go:130-167", "libs/databases/infrastructure/files/application.go:176-190"]}
{"id": "C147", "title": "Only the open contexts keep files open", "statement": "After any calls, with any failures of file operations, the files the process has open because of the application are those of its open contexts; when all contexts are closed there is none.", "quantifier": "every history of calls, every failure of a file operation in any commit", "why_tests_cant": "Files left open show only after many calls, as a failure to open one more; tests make a few calls without failures. (The model shows it is false: each Commit whose copy to the backup fails, and each Open that takes an identifier in use, leaves one open for ever; proved is the exact account.)", "anchors": ["libs/databases/infrastructure/files/application.go:Open", "libs/databases/infrastructure/files/application.go:retrieveReference", "libs/databases/infrastructure/files/application.go:updateDatabaseOnFile", "libs/databases/infrastructure/files/application.go:writeDataAndReferenceOnDestinationFile", "libs/databases/infrastructure/files/application.go:Close", "vendor/github.com/juju/fslock/fslock_nix.go:TryLock"]}
{"id": "C148", "title": "No call needs more than two further files", "statement": "While a call runs, at most two more files are open than when it began, whatever was called before and whatever fails.", "quantifier": "every history, every call that comes back, every failure of a file operation", "why_tests_cant": "The number of files open at once inside a call is not seen from outside; it must hold on every path through the call.", "anchors": ["libs/databases/infrastructure/files/application.go:New", "libs/databases/infrastructure/files/application.go:Open", "libs/databases/infrastructure/files/application.go:retrieveReference", "libs/databases/infrastructure/files/application.go:updateDatabaseOnFile", "libs/databases/infrastructure/files/application.go:writeDataAndReferenceOnDestinationFile"]}
{"id": "C149", "title": "Suites never influence parsing", "statement": "Two grammars that differ only in the test suites of their tokens, at any depth, treat every input alike: both give a tree, with the same bytes matched and left over, or both refuse it, or both crash, or neither comes back.", "quantifier": "every grammar, every choice of suites in it, every input", "why_tests_cant": "Suites are attached to tokens at every depth and are carried into the trees; a parser that consulted them anywhere would differ only for some grammar and some input.", "anchors": ["libs/asts/applications/application.go:Execute", "libs/asts/applications/application.go:token", "libs/asts/domain/grammars/token.go:Suites"]}
{"id": "C150", "title": "Reports do not depend on the order in which Go traverses maps", "statement": "Suites made from a map come in an order that differs from run to run, and the report of uncovered elements is computed by a loop over maps. Whatever the orders, the coverages have the same tests with the same results, ContainsError says the same, and Covered and Uncovered report the same.", "quantifier": "every grammar, every order of the suites of every token, every order of the loops over maps", "why_tests_cant": "The order changes from run to run; a test sees one of them. (The model shows the claim is false for the names Covered reports: with an optional first element they depend on which test comes first; proved is the rest.)", "anchors": ["libs/asts/applications/application.go:Coverages", "libs/asts/applications/application.go:Covered", "libs/asts/applications/application.go:Uncovered", "instances/grammars/components/suites/suite.go:Suites", "libs/asts/domain/grammars/coverages/coverages.go:ContainsError"]}
{"id": "C151", "title": "How deep the parser nests is settled by the grammar", "statement": "For every grammar there is a depth that the calls of the parser never exceed, whatever the input, so that no input overruns the goroutine's stack.", "quantifier": "every grammar, every input", "why_tests_cant": "A test parses a few texts of a few depths; the stack overruns only for some text deep enough. (The model shows the claim is false for grammars with references by name, where the depth grows with the text; proved is a bound linear in the length of the input for guarded references, and one from the grammar alone without references.)", "anchors": ["libs/asts/applications/application.go:Execute", "libs/asts/applications/application.go:token", "libs/asts/applications/application.go:elementContent"]}
{"id": "C152", "title": "Parsing takes polynomial time", "statement": "For every grammar the number of steps of Execute (calls of token and turns of loops) is at most a polynomial of the length of the input.", "quantifier": "every grammar, every input", "why_tests_cant": "The time on a few inputs says nothing about its growth. (The model shows the claim is false for grammars with references by name: two alternatives with a common beginning double the work at every level, 2^n steps on 2n+1 bytes; proved is the polynomial for grammars without references by name.)", "anchors": ["libs/asts/applications/application.go:Execute", "libs/asts/applications/application.go:token", "libs/asts/applications/application.go:block", "libs/asts/applications/application.go:line", "libs/asts/applications/application.go:channels"]}
{"id": "C153", "title": "Reading a grammar file takes bounded stack and polynomial time", "statement": "Execute with the grammar shipped in instances/grammars ends on every text, with at most twelve calls of token inside one another and at most a fixed polynomial of the length of the text of steps.", "quantifier": "every text", "why_tests_cant": "A test reads one file; a text that makes the parser nest deeper or that takes it exponential time is one among infinitely many.", "anchors": ["libs/asts/applications/application.go:Execute", "libs/asts/applications/application.go:token", "instances/grammars/grammars/grammar.go:Grammar"]}
{"id": "C154", "title": "Time against depth", "statement": "On a grammar and an input Execute takes one number of steps, or none if it recurses without end. That number is at most (c (length + 1)^3)^D, with c from the grammar alone and D any depth that the calls do not exceed; when every reference by name comes after something that must occur, D may be taken linear in the length.", "quantifier": "every grammar, every input", "why_tests_cant": "The time on a few inputs says nothing about its growth, nor about the grammars not tried.", "anchors": ["libs/asts/applications/application.go:Execute", "libs/asts/applications/application.go:token", "libs/asts/applications/application.go:block", "libs/asts/applications/application.go:line", "libs/asts/applications/application.go:channels", "libs/asts/applications/application.go:elementContent"]}
{"id": "C155", "title": "A left-recursive rule reads as many operands as there are", "statement": "With the rule E: E p x | x, and with E: E p x | E m x | x, Execute reads from the start of the input the longest operand-operator-operand chain there, and returns an error when the input does not start with an operand.", "quantifier": "every operand, every operators, every input", "why_tests_cant": "The chains have every length and the text after them is arbitrary; a run that never ends is not observed by a test. (The model shows it is false: the first rule never reads more than two operands, the second one recurses without end on all but two shapes of input.)", "anchors": ["libs/asts/applications/application.go:Execute", "libs/asts/applications/application.go:token", "libs/asts/applications/application.go:block", "libs/asts/applications/application.go:elementContent"]}
{"id": "C156", "title": "Left recursion in the first alternative ends", "statement": "If a grammar is made of tokens in which a name stands for one token, no escape is used, every reference by name comes after an element that must occur, except that the first alternative of a token may begin with a reference to that token itself, then Execute ends on every input. The same does not hold of a later alternative: E: o E c | E p x | x recurses without end on an opened bracket that is not closed.", "quantifier": "every such grammar, every input", "why_tests_cant": "Termination on every input of every such grammar; the run without end cannot be observed by a test.", "anchors": ["libs/asts/applications/application.go:Execute", "libs/asts/applications/application.go:token", "libs/asts/applications/application.go:block", "libs/asts/applications/application.go:line", "libs/asts/applications/application.go:elementContent"]}
{"id": "C157", "title": "A left-recursive first alternative reads one more, never two", "statement": "Let a token have a first alternative that begins with a reference to the token itself and goes on with further elements (the tail), and other alternatives (the base) without references by name. Then Execute succeeds exactly when an alternative of the base matches at the start of the input; it then reads the tail once if it matches there, and stops. The tree never has the first alternative below the first alternative, however often the tail is repeated in the input.", "quantifier": "every such token, all channels without conditions, every input", "why_tests_cant": "Exact result for every such grammar and every input; tests of one grammar with two operands pass although three are never read.", "anchors": ["libs/asts/applications/application.go:Execute", "libs/asts/applications/application.go:token", "libs/asts/applications/application.go:block", "libs/asts/applications/application.go:line", "libs/asts/applications/application.go:elementContent"]}
{"id": "C158", "title": "Two left-recursive alternatives end only when the first tail occurs", "statement": "Let a token have two first alternatives that begin with a reference to the token itself, E: E t1 | E t2 | base, where t1, t2 and base have no references by name. On an input that is not empty, Execute ends exactly when base matches at the start and t1 matches directly after it, or after it and one t2. On every other input, such as base alone, base t2, or one that does not begin with base at all, it recurses without end instead of returning a tree or an error. When it ends, the tree is of one of four forms: base t2 t1, base t1, base t1 t2, base.", "quantifier": "every such token, all channels without conditions, every input", "why_tests_cant": "Runs without end cannot be observed by a test; the exact set of inputs on which a call ends is infinite.", "anchors": ["libs/asts/applications/application.go:Execute", "libs/asts/applications/application.go:token", "libs/asts/applications/application.go:block", "libs/asts/applications/application.go:line", "libs/asts/applications/application.go:elementContent"]}
{"id": "C159", "title": "Any number of left-recursive alternatives: the last but one decides", "statement": "Let a token have two or more first alternatives that begin with a reference to the token itself, E: E t1 | ... | E a | E b | base. Whatever t1, ... are, Execute on an input that is not empty recurses without end unless a matches directly after base, or after base and one b. In particular an input that does not begin with base is never refused, and base alone is never read.", "quantifier": "every such token with two or more left-recursive alternatives, all channels without conditions, every input", "why_tests_cant": "Runs without end cannot be observed by a test, and the number of alternatives is unbounded.", "anchors": ["libs/asts/applications/application.go:Execute", "libs/asts/applications/application.go:token", "libs/asts/applications/application.go:block", "libs/asts/applications/application.go:line", "libs/asts/applications/application.go:elementContent"]}
{"id": "C160", "title": "Indirect left recursion ends and is followed once", "statement": "Let two tokens refer to each other in their first alternatives, A: B t | baseA and B: A u | baseB, where t, u, baseA and baseB have no references by name. Execute with A as root returns on every input, well-formed or not. It reads baseA u t when baseA and u match and t follows; baseB t when baseA u does not match; else baseA alone; and it refuses the input when none of these match. After one round u t nothing more is read, however many follow.", "quantifier": "every such pair of tokens, all channels without conditions, every input", "why_tests_cant": "A test runs one grammar on one input; that a pair of mutually referring rules returns on every input cannot be observed by finitely many runs.", "anchors": ["libs/asts/applications/application.go:Execute", "libs/asts/applications/application.go:token", "libs/asts/applications/application.go:block", "libs/asts/applications/application.go:line", "libs/asts/applications/application.go:elementContent"]}
{"id": "C161", "title": "An alternative is judged by the last element of each name", "statement": "In a grammar of bytes, tokens and exceptions whose elements are named in any way, also alike: Execute returns on every input. The successful tree stands for the first alternative whose elements match one after the other, at least one of them not empty, such that for every element asked for at least once the last matched element with the same name occurs at least as often as asked. When no alternative is like that, the input is refused.", "quantifier": "every such grammar, all channels without conditions, every input", "why_tests_cant": "A test tries some names; that the result is decided by the last element of each name and by nothing else must hold for every naming and every input.", "anchors": ["libs/asts/applications/application.go:Execute", "libs/asts/applications/application.go:line", "libs/asts/domain/trees/line.go:IsSuccessful", "libs/asts/domain/trees/elements.go:Fetch"]}
{"id": "C162", "title": "Names only matter where they are equal", "statement": "Replacing the names of the tokens and elements of any grammar (and, independently, those of its channels) in such a way that different names stay different changes nothing a caller sees of Execute: success, the bytes read with and without channels, what is left over, the chosen alternative, trees without success, errors, panics, and recursion without end.", "quantifier": "every grammar, left-recursive, with external grammars, exceptions, escapes and conditions included; every injective renaming; every input", "why_tests_cant": "There are infinitely many renamings and grammars; a test compares two particular ones.", "anchors": ["libs/asts/applications/application.go:Execute", "libs/asts/applications/application.go:token", "libs/asts/applications/application.go:block", "libs/asts/applications/application.go:elementContent", "libs/asts/domain/trees/line.go:IsSuccessful", "libs/asts/domain/trees/elements.go:Fetch"]}
{"id": "C163", "title": "Bytes and names only matter where they are equal", "statement": "Replacing the bytes in any grammar and in the input, and the names in the grammar, its channels and external grammars, in such a way that different bytes and different names stay different, replaces the bytes and names of the tree Execute returns in the same way and changes nothing else: success, what is read and left over, the structure of the tree, errors, panics and recursion without end. No byte (zero, blank, end of line, backslash) and no name is special to the parser; likewise to Compose.", "quantifier": "every grammar, left-recursive, with external grammars, exceptions, escapes, channels and conditions included; every injective replacement of bytes and of names; every input", "why_tests_cant": "There are 256! replacements for each of infinitely many grammars and inputs; a test compares two particular ones.", "anchors": ["libs/asts/applications/application.go:Execute", "libs/asts/applications/application.go:elementValue", "libs/asts/applications/application.go:block", "libs/asts/applications/application.go:channels", "libs/asts/applications/application.go:Compose"]}
{"id": "C164", "title": "Coverage reports only depend on which bytes and names are equal", "statement": "Replacing the bytes and names in any grammar and in its suites, in such a way that different bytes and different names stay different, replaces them in what Coverages, Covered and Uncovered return and changes nothing else: the same tokens are tested, every suite gives the same tree or error, the same positions are covered and uncovered, and errors, panics and recursion without end are the same.", "quantifier": "every grammar with suites, channels and external grammars; every injective replacement of bytes and of names", "why_tests_cant": "There are infinitely many grammars and replacements; a test compares two particular reports.", "anchors": ["libs/asts/applications/application.go:Coverages", "libs/asts/applications/application.go:Covered", "libs/asts/applications/application.go:Uncovered"]}
{"id": "C165", "title": "Queries only depend on which names are equal", "statement": "Renaming a grammar and a query alike (and replacing bytes), in such a way that different names and different bytes stay different, leaves every answer as it is: the same instance, validity, errors and panics, the bytes left over being the replaced ones; provided the user's functions on contents give for replaced contents what they gave before. The same holds of reading an input and then asking.", "quantifier": "every query, nested and by reference; every tree; every grammar and input; every injective replacement of names and bytes; all user functions that respect it", "why_tests_cant": "A test compares the answers of particular queries under particular names.", "anchors": ["libs/queries/applications/application.go:Execute", "libs/queries/applications/application.go:queryFetch", "libs/queries/applications/application.go:queryContents", "libs/queries/applications/application.go:insideInstances"]}
{"id": "C166", "title": "The names in a program do not matter", "statement": "Replacing the names of modules, of applications and of parameters and variables in a list of instructions, each kind on its own and each nested list on its own, in such a way that different names of a kind stay different, gives the same compiled program (or no program in both cases); so every execution has the same outputs, errors and effects. Modules, applications and variables may share names.", "quantifier": "every list of instructions at any nesting; every choice of injective replacements; every set of modules; every input and state", "why_tests_cant": "There are infinitely many programs and renamings; a test compares two particular programs.", "anchors": ["libs/interpreters/applications/application.go:Compile", "libs/interpreters/applications/application.go:compileInstruction", "libs/interpreters/applications/application.go:compileValue", "libs/interpreters/applications/application.go:Execute"]}
{"id": "C167", "title": "Values are handed on as they are", "statement": "If the values modules work on are replaced by others (two of them may become equal) and every module by one with the same index that does the same on the replaced values, then the same lists of instructions compile, and for replaced inputs every execution gives the replaced outputs, or the same error, and the same effects. So the interpreter never compares or inspects the values of modules. (Byte strings and lists stay what they are under the replacement; that every value reaches its target is C61 and C88.)", "quantifier": "every replacement of values; every list of modules and counterparts; every list of instructions at any nesting; every input and state", "why_tests_cant": "Tests run particular modules on particular values; here values, modules and programs are arbitrary.", "anchors": ["libs/interpreters/applications/application.go:Compile", "libs/interpreters/applications/application.go:Execute", "libs/interpreters/applications/application.go:executeValue", "libs/interpreters/applications/application.go:execute", "libs/interpreters/domain/programs/modules/sdk.go:ExecuteFn"]}
{"id": "C168", "title": "Only the modules a program mentions matter", "statement": "What Compile makes of a list of instructions depends only on the modules with the indexes the list mentions, at any depth: adding or removing others changes nothing. The order in which modules are given matters only between modules with the same index, of which the last is taken.", "quantifier": "every two lists of modules; every list of instructions at any nesting", "why_tests_cant": "Tests compile particular programs with particular modules.", "anchors": ["libs/interpreters/applications/application.go:Compile", "libs/interpreters/applications/application.go:compileModule", "libs/interpreters/domain/programs/modules/modules.go:Fetch", "libs/interpreters/domain/programs/modules/builder.go:Now"]}
{"id": "C169", "title": "More inputs change nothing", "statement": "An execution of any program that does not fail for a missing input gives the same outputs or the same failure, and has the same effects, when further inputs are given behind the others.", "quantifier": "every program, compiled or built by hand; every input, further inputs and state; every set of modules with any effects", "why_tests_cant": "Tests run a program with one list of inputs.", "anchors": ["libs/interpreters/applications/application.go:Execute", "libs/interpreters/applications/application.go:executeValue", "libs/interpreters/applications/application.go:execute"]}
