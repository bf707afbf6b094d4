# Formal model of project-poodle/poodle: design

Subject: the Go source in `/repo/src` (packages `collection`, `util`, `pdb`, command `pkeygen`) at the pinned commit.
Formalisation: Lean 4 (`/verif/lean`, modules `Verif.*`), theorems about a hand written model of the code.

## Trusted base

* The Lean 4.33 kernel. Every theorem depends at most on the three standard axioms `propext`,
  `Classical.choice`, `Quot.sound`; no axiom is added, and neither `sorry`, `native_decide` nor `bv_decide` is used.
* The correspondence between the Go text and the Lean model, which is by reading. Every definition of the model
  cites the file and lines it models; simplifications are stated at the definition and summarised below.
* The specifications in `Verif/Spec/*` and in the statements of the theorems in `Verif/Props/*`.

## Conventions of the model

* A Go byte is `UInt8`; a byte slice is `List UInt8`, or `Option (List UInt8)` where the code distinguishes a nil
  slice (`none`) from an empty one.
* Go functions are total Lean functions. An `error` result is a value (`Res.err`), a panic (explicit `panic`, index
  or slice bounds, nil dereference, failed type assertion, `make` with a bad length, integer division by zero) is a
  value (`Res.panic`). Error texts are not modelled.
* `int` is 64 bits. Conversions `int(uint64)` and additions that can overflow are modelled with wrap around; other
  `int` arithmetic is on lengths and is modelled with natural numbers (a Go slice has fewer than 2^63 elements).
* Objects with mutable state are structures, methods return the new state. Pointer aliasing is modelled where a property
  depends on it (`AvlHeap`: nodes of trees, `ValueHeap` and `ObjCopy`: values, `Sharing`: bytes); elsewhere trees and chains
  are trees and chains.
* Not modelled: logging, prompting, memory exhaustion, contents of error messages, goroutines except where a property is about
  them (C200, C205, C222; no code in the repository uses goroutines on these structures).
* Library code modelled bit-exactly, as documented by the standard library: `encoding/binary` varints and big endian
  integers, `math/big` byte conversions, `encoding/hex`, `hash/crc32` (IEEE), `math/big` modular square roots on P-256 (by
  their specification; primality of the P-256 prime is proved, not assumed), ECDSA on P-256 by its specification (FIPS 186-4), with
  the elliptic curve group of Mathlib (proved: the base point has prime order n and generates the group).
* Library code that is a parameter with stated laws: AES-GCM (`open (seal x) = x`), the random source, the outcome of file
  system calls (a write may fail or the process may stop at any point). `float32` resize decisions of the hash map are an
  arbitrary policy parameter for C28-C31, and the exact rounding (to nearest, ties to even) of the default load factor and
  multiplier for C99-C101. Map iteration order and the order in which `MPHBuild` sorts equal buckets are arbitrary
  permutations.

## Parts of the code that are modelled, and which are not

| code | model module | left out |
|------|--------------|----------|
| `util/misc_util.go` | `Codec` | `Ternary` |
| `util/key_util.go` | `Key`, `KeyMap`, `MappedObj`, `Sharing`, `Print`, `ParEncode` | printing of `MappedKey` before it is decoded |
| `collection/util.go`, `comparable.go` | `Slice`, `Comparable`, `GoVal` | the user's own implementations of `IComparable` |
| `collection/avl.go`, `sorted_map.go`, `sorted_set.go` | `Avl`, `AvlIter`, `AvlIterHalf`, `AvlHeap`, `AvlCost`, `Print`, `NilKey`, `NilBound` | nothing; `AvlHeap` has the nodes in memory, changed in place, and is proved to agree with `Avl` and `AvlIter` |
| `collection/hash.go`, `hash_map.go`, `hash_set.go` | `Hash`, `HashHeap`, `HashCost`, `HashFloat`, `HashCustom`, `HashPanic`, `NilHashKey`, `Print` | the rounding of `math.Pow` (any within a relative error of 2^-40); initial capacities that `make` refuses |
| `collection/hashable.go` | `Murmur`, `Hashable`, `HashObj` | |
| `util/mph_util.go` | `Mph`, `MphShare`, `MphSeed` | the seed search is a fuelled loop (all results hold for every fuel) |
| `util/value_util.go` | `Value`, `ValueHeap`, `ValueCost`, `ValueCopy`, `ValueObj`, `CopyConstruct`, `ObjCopy`, `MappedObj`, `ValueMem`, `Sharing`, `ParRead`, `ParEncode` | |
| `util/record_util.go` | `Value`, `Record`, `ValueCopy`, `ValueObj`, `CopyConstruct`, `ObjCopy`, `MappedObj`, `KeyShare`, `RecTime`, `Sharing`, `ParEncode`, `Magic` | |
| `util/scheme_util.go` | `Scheme`, `SchemeObj`, `EncObj`, `Sharing` | |
| `util/trie_util.go` | `Trie`, `TrieHeap`, `TrieCost`, `TrieWalk`, `TrieStart`, `EncObj`, `LoadedNodes`, `Print` | the part of `Trie.Encode` after the root panics; implementations of `ITrieNode` other than the two here |
| `util/consensus_util.go` | `Consensus`, `NilTime` | |
| `util/base58_util.go`, `ecdsa_util.go`, `rand_util.go` | `Base58`, `Conv`, `Ecdsa`, `EcdsaSign`, `Rand` | private numbers outside 1..n-1 and public keys off the curve in signing and verification (library versions differ); `SumSHA256`, `SumSHA256d`, `SumMD5` (calls of the Go library) |
| `util/lc_util.go`, `main/pkeygen.go` | `KeyFile`, `KeyExist`, `Crc`, `Pkeygen`, `PkeygenMain`, `NodePaths`, `Logger` | permissions, other processes, the terminal (prompts deliver any bytes), what is written before each message of the log |
| `pdb/sstable.go` | `SSTable`, `SSTableFile` | partial overlaps of mappings, finalizers. The package refers to `util.IData`, which was renamed to `IValue`; the model uses the latter |
| `pdb/db.go`, `journal.go`, `memtable.go`, `tablet.go`, `util/fsync.go`, `main/poodle.go` | none | interfaces without implementation, and test helpers |

In `Print` the indent is not negative and small enough for `fmt` to accept it; what `fmt` writes for the keys and values of a map or
trie, and for the two floats of a hash map, is a parameter.

## Mutation tests

`seeded/LOG.jsonl` is written by `tools/mutate.py`. It edits a definition in a scratch copy, elaborates the module and every module
importing it with their own imports, and reports the theorems that have an error or depend on one. This says that the existing proof
breaks, which an edit without observable effect can cause too; such edits are marked as equivalent in the claim. The tool first checks
the unedited module and refuses its mutants if that is not clean, and refuses edits that do not type-check.

Until 16 November 2026 the tool joined the modules into one file and had no such checks. In the joined file the unedited `Model/Pkeygen`
already had errors, so the 27 lines logged for it meant nothing; they were removed and the mutants run again. For the other modules the
logged lines were compared: except where a property is central to its module, no theorem fails in all lines of a module, so the unedited
file had no errors when they were logged.

## Where the code violates a property

The properties in `properties.jsonl` are what a user relies on. Reading showed that a number of them are false of the
code. For these the model follows the code, the negation is proved with a concrete witness (`..._refuted`),
and a `..._partial` theorem states exactly when the property does hold (where possible as an if-and-only-if). The
full statement stays in view as a `def ... : Prop` next to the refutation.

## Per property

"False" in the third column means: false of the code, refuted in the model, exact behaviour proved.

| id | model module | how |
|----|--------------|-----|
| C01, C02, C06 | `Codec` | round trips by induction on the number of 7-bit groups; acceptance as iff |
| C03-C05 | `Codec` | false: exact acceptance and panic conditions |
| C07-C09 | `Key` | round trip by induction on sub keys; limit as iff; injectivity from the round trip |
| C10, C11 | `Key` | false: value of `Buf()`, characterisation of histories |
| C12, C14, C16 | `Key`, `Slice` | equality and hashing by induction on sub keys |
| C13, C15, C82, C84 | `Key`, `Slice` | false: exact panic condition, parity characterisation of hash collisions |
| C17 | `Slice` | false (panics on a strict prefix): exact condition, lexicographic otherwise |
| C18, C19, C24, C27 | `Avl` | invariant and refinement to a sorted association list, by induction on the tree and on the history |
| C20, C21, C23 | `AvlIter` | simulation: remaining output of the iterator state |
| C22, C26 | `AvlIter` | false: exact output of range iterators, exact results after the end |
| C25 | `Avl`, `Slice` | false; holds for prefix free key sets, and with nil as a key unless the smallest other key is removed meanwhile (otherwise the code cannot be told from one where nil equals itself); for keys not in the map: a call panics iff a longer key in the map begins with it |
| C28, C29, C31 | `Hash` | refinement for any hash function and any resize policy |
| C30 | `Hash` | false: the iterator never yields |
| C99-C101 | `Hash`, `HashFloat` | bounds on the rounding error, invariants over histories, potential function for the cost |
| C32, C33 | `Murmur`, `Hashable` | equality with a separately written reference; C33 false: exact panic condition |
| C34-C36, C40 | `Mph` | invariant over the seed search; serialization by inversion of the loader |
| C37-C39, C41 | `Mph` | false: necessary and sufficient conditions for termination (exact up to seven keys, `Spec/MphFit`), for the Murmur family termination of two keys that differ in the last bytes of a sub key (lowest bit of the avalanche, differences of scrambled words), exact conditions in key mode, for C38 by the layout of C202 |
| C42, C44, C46, C47, C83 | `Value`, `ValueHeap` | structural induction on nested values; wire format as inductive predicate; histories of accesses for the caches; C47 refuted for lists of records, exact otherwise |
| C43, C45, C48 | `Value`, `ValueHeap` | false: exact conditions |
| C49, C52-C54 | `Record` | layout, exact set of byte strings that decode, signature pairing, last setting of each field over histories of setters |
| C102, C103 | `ValueCopy`, `ValueHeap` | false: exact condition for copying by structural induction; C103: a decoded record has lost its key |
| C104, C106 | `Value` | case analysis of the wire format |
| C105 | `ValueCopy` | false: exact exceptions |
| C107 | `ValueObj` | objects by number; induction on the depth of recursion; well-founded nesting for termination |
| C108 | `ValueObj` | false: past encoding as invariant over histories, frame property |
| C109 | `Scheme` | arithmetic of the varint lengths |
| C110 | `ValueObj` | false: exact error for primitives, bounds |
| C111 | `ValueHeap` | false: coherent heap as invariant over histories, exact results for malformed records |
| C112 | `Trie` | false: exact set of bytes that crash |
| C113 | `CopyConstruct`, `ValueHeap` | false: exact condition by structural induction; decoded parts through C120 |
| C114 | `ObjCopy`, `ValueObj` | copies only add objects (induction on the depth); frame property for sets of objects closed under references, over all later histories |
| C115 | `ObjCopy` | false: exact estimate by case analysis |
| C116, C117 | `ValueObj` | frame property of contents under a change of one object; C117 false: exact panic condition, counterexample built by induction |
| C118 | `ValueObj` | false: ledger of all calls as invariant over histories |
| C119 | `ValueObj` | invariant over histories |
| C120 | `ValueHeap` | specification reads bytes without caches; soundness by induction on the value read, completeness by induction on the depth bound |
| C121 | `ValueHeap`, `Value` | structural induction on what was read, lengths of fields against their shortest form |
| C122 | `Comparable` | structural induction on nested slices, against an inductive definition of the first difference |
| C123 | `Comparable` | false: exact outcomes by structural induction |
| C124 | `Sharing` | refinement of the models on byte strings by one with slices in memory; every slice of a copy is in a new array |
| C125-C127 | `Sharing` | false: exact set of shared bytes, each assignment as iff |
| C128, C129 | `AvlHeap` | pointer model refines the algebraic one: each call keeps the nodes of all maps linked as disjoint trees (frame conditions); invariant over programs |
| C130 | `AvlHeap` | false (two witnesses); simulation of programs by finite maps with lists of keys to come |
| C131 | `HashPanic` | false (witness: panic while the table grows); refinement of the table with panics at arbitrary points to histories of a finite map; invariant that no key with a panicking hash gets in |
| C50, C51 | `Record` | false: no encoded record ever decodes; exact panic condition |
| C55, C56, C90, C91 | `Scheme` | C55 false: holds iff all three parts are non nil; C90 false: exact panic condition (`KeyWire`) |
| C57, C60-C62 | `Consensus` | case analysis; parsing as iff |
| C58, C59, C85 | `Consensus` | false: exact truth value of each comparison, no raft time parses back, only panic |
| C63-C65 | `Base58` | positional notation by induction |
| C66-C68 | `Conv` | big endian digits by induction |
| C69, C70 | `Rand` | modular arithmetic; C70 false |
| C71-C74, C87 | `KeyFile`, `Crc` | file system as a map, all intermediate states of a save; CRC-32 by injectivity of its steps |
| C75, C86, C88, C89 | `KeyFile` | false: exact panic condition, path collisions (exact for all identifiers in `KeyPlace`), crash states, passphrase truncation |
| C76, C77 | `Ecdsa` | P-256 (prime proved by Lucas' test) and any prime p = 3 mod 4; C76 false (sign of Y is lost) |
| C132, C136 | `EcdsaSign` | multiples of the base point as an injective image of the integers modulo n; at most four points for each r |
| C133-C135, C137, C138 | `EcdsaSign`, `Ecdsa` | false (witnesses computed in the kernel): exact conditions, bounds on the number of exceptions; the group is cyclic (bound on the number of points, no point of order 2) |
| C139, C141 | `Pkeygen` | all states of a run of the key generator on a file system with directories and symbolic links, by phases; resolution of paths that do not mention the new identifier is unaffected; false for aliases with slashes, the exceptions in `PkeygenAlias`; links used by a path counted in `PkeygenLinks` |
| C140, C142-C145 | `Pkeygen` | false (witnesses computed in the kernel): exact conditions |
| C146-C148 | `HashCustom` | rounding errors of each `float32` operation bounded relatively; invariants and a potential function with the load factor and multiplier as parameters; C146 false for NaN |
| C149-C151 | `AvlHeap` | invariant with the dead nodes in order of death (links of a dead node lead to live nodes or later dead ones), hence ranks on nodes and a potential for iterators; C150 in part false (witness) |
| C152-C154 | `Murmur`, `HashCost` | the steps of the hash are bijections of the state; explicit differences that cancel for every state; C154 false (twins for every eight bytes), consequence for the number of comparisons |
| C155-C157 | `KeyMap` (with `Key`, `Hash`, `Avl`, `AvlIter`, `Murmur`) | composition of the refinements of C18, C20 and C28 with the laws of keys (C12-C14), specification on sequences of sub keys; C156 and C157 false (witnesses), exact conditions |
| C158-C160 | `SSTableFile` (with `SSTable`): process with open files, live mappings and tables; system behaviour as environment | invariant over all sequences of loads and closes (who owns which mapping), layout of C94 for the position of attributes; C159 and C160 false (witnesses), exact conditions |
| C161-C162 | `Memory`: the decoders of `Key`, `Scheme`, `Value`, `Record`, `Mph`, `SSTable` with every `make` counted | equality with the uncounted decoders, structural bounds (a count is followed by as many bytes, a key consumes as many bytes as it has sub keys); C162 false (witness), exact amount |
| C163-C164 | `AvlCost`: the functions of `Avl` and `AvlIter` with calls of `Equal` / `Compare` and links followed counted | equality with the uncounted functions, structural bounds by the height, height by C19; iterators: amortised with the stack as potential |
| C165-C168 | `TrieHeap`: all nodes made with `NewTrieNode` in one memory, nodes referring to each other by index, calls that panic recovered | refinement of histories to finite maps of children, by induction on the history; invariant that parents are older than their children; frame lemmas for copies; refutations by concrete histories |
| C169-C171 | `TrieHeap`: `Encode`, `Buf`, `EstBufSize` of nodes for any encoder of values | unique parsing of the bytes; frame lemma for `Buf`; exact size by `uvLen` |
| C172-C173 | `TrieHeap`: `NewMappedTrieNode` and the accessors of loaded nodes, decoding from `Trie` | case analysis of the decoder |
| C174-C176 | `TrieWalk`: tries as trees of nodes with key, full key, value and children in order; the two iterators as stacks of iterators over children | invariant on the nodes left in the stack, by induction on the calls; exact description of the nodes visited; refutations on a sample trie |
| C177 | `TrieWalk`: `checkEnd` with its flags | invariant relating the flags to the path of the stack and the end, for any trie with full keys that are paths and siblings in order; both directions of the condition |
| C178 | `TrieStart`: `checkStart` with the start that an iterator over children applies when it is first asked | induction on the path of the start for `checkStart`; the invariant of C177 for the iteration after it; below the first key of the start, all nodes are visited whatever the end; for any start and end, the nodes visited from the state after `checkStart` (`visited_run`) compared with the range |
| C179 | `ValueCost`: `ValueAt` and `RecordAt` with a count of rounds and decoded elements; shown to return what the functions of `ValueHeap` return | invariant over histories: exactly the elements up to the largest index read are cached; then arithmetic on the list of indexes |
| C180 | `ValueCost` | potential: the number of elements not cached yet goes down by one with each element decoded, unless decoding panics |
| C181 | `Print`: `Print` and `ToString` of sorted maps as lists of characters | induction over the tree; the number of lines from the invariant of `Avl` |
| C182 | `Print`: the same of hash maps | induction over chains and over the array; the number of lines from the invariant of `Hash` |
| C183 | `Print`: `ToString` of all kinds of keys | the decimal texts of bytes and lists of bytes are injective; induction over sub keys |
| C184 | `Print` | the lines of C181, C182; for keys by counting return characters |
| C185 | `Print`: `Print` and `ToString` of tries | mutual induction over nodes and lists of children |
| C186 | `SchemeObj`: a `MappedScheme` as an object, with all its calls | `Decode` is idempotent, so the object has two states; the answers by induction over the calls |
| C187 | `SchemeObj` | the state after any calls, as for C186; what a failed `Decode` leaves by cases over the part that fails |
| C188 | `HashObj`: hashable objects of all types, nested, with nil pointers | mutual induction over the first object and its elements; contents as the specification |
| C189 | `HashObj` as keys of the table of C131 | which keys panic by cases; C131 in its exact form for keys that always panic |
| C190 | `Logger`: the variable `log_file` and the output of the `log` package | the state as a function of the events before it; induction over the events |
| C191 | `MappedObj`: the fields of mapped keys, values and records, and `Decode` assigning them one by one | object-level `Decode` refines the decoding functions; decoding the cut buffer again by C02, C44, C52; induction over the calls |
| C192 | `KeyShare`: key and record objects by number, records refer to keys | one-step lemmas for keys (only `Add` changes sub keys) and records (only setters and `Encode`), induction over programs; injectivity of key encodings (C09) for the exact condition |
| C193 | `MphShare`: tables whose keys are numbers of the key objects of C192 | one-step lemmas and induction over programs; the invariant of built tables (C34) for the hashes at the build, `Equal` in the state of the lookup; C38's loading lemmas for saved tables |
| C194 | `EncObj`: `Trie` and `MappedTrie` as objects, with every call | one-step lemma per call and induction over histories; the shape of loaded tries from C81 |
| C195 | `EncObj`: `Scheme` as an object, with every call | the two states a scheme can be in; induction over histories; the bytes from C56 |
| C196 | `EncObj`: `MappedTrieNode.Copy` on the nodes of C173 | case analysis of the node decoder |
| C197 | `ValueMem`: the objects of `ValueHeap` with the slices of `Sharing`; programs that access and assign | false: counterexample; simulation of `ValueHeap` on the bytes of the moment, with the invariant that decoded elements tile the content |
| C198 | `RecTime`: records with pointers to numbers; programs that assign, set, encode, decode and copy | false: counterexample; invariant that pointers stay, numbers are only appended or assigned |
| C199 | `MphSeed`: the choice of the verification seed from the bytes of the random source | false: counterexample; counting of residues, and that the hash of a word is a bijection (C153) |
| C200 | `ParRead`: `ValueAt` and `RecordAt` as single reads and writes of the elements, interleaved (sequential consistency: the best case for programs with races, Go promises less) | false: counterexample; invariant over all interleavings, refinement of the single calls, exact condition for races |
| C201 | `Avl` over `Comparable`; a linear order of objects of all types that extends the one of `Compare` (`Spec.ObjOrder`) | false: counterexamples; invariant over histories (no two keys in the tree with slices of different types at the first difference, since there is no key between two such keys that can be compared with both), refinement of a finite map |
| C202 | `Key`, `Scheme`, `Codec`; layout of the bytes as inductive relations (`Spec.KeyWire`) | false: counterexamples; exact conditions for success and panic by induction on the number of strings |
| C203 | `GoVal`: values by kind, as `reflect` sees them | false: counterexamples; exact condition by cases |
| C204 | `GoVal` | from the order of the fixed width integers |
| C205 | `ParEncode`: `Encode`, `Buf` and `IsEncoded` as single reads and writes of `encoded` and `buf`, interleaved (sequential consistency, as for C200) | false: data races; otherwise by rely and guarantee: other calls store nothing but encodings, so that each call meets its specification among any others |
| C206 | `NilKey`: `Put`, `Get`, `Remove` of a sorted map with comparable slices as keys, nil in every way the code tests for | false: a nil pointer is accepted by an empty map and beside keys of other types; exactly what follows, by induction on the tree |
| C207 | `NilTime`: the comparisons with variables that hold nothing or a nil pointer | false: a nil pointer of the same kind is dereferenced; exact outcome by cases |
| C208 | `Base58` | comparison of powers of 58 and 256; maximum by induction on the length |
| C209 | `Conv`, `Slice`, `Avl` | byte strings of one length are ordered like their values; false for negative numbers, exact order given; maps of times from 1970 on by refinement |
| C210 | `Codec`, `Key`, `Value`, `Mph`; the reading program is a specification | induction on the items, from round trip with rest and rejection of strict prefixes; false for keys, exact |
| C211 | `Value`, `Key`, `Record` encoders | structural induction over values and records; false, exact for values without decoded keys: same bytes iff they show the same (`Spec/Distinct`) |
| C212 | `NilHashKey`: `HashPanic` with the objects of `HashObj` as keys | the run equals that of a lawful table whose bad keys cannot be hashed (congruence of all operations), then C131 |
| C213 | `AvlIterHalf`: `AvlIter` with the state at the moment of a panic | a node that cannot be compared stays the current one (`Jammed`), simulation with `AvlIter` |
| C214 | `AvlIter`, `Key` | false (two witnesses); entries to come by induction, the panic at the end as a parameter of the specification (`tailCall`), which is shown to be that of `Get` of the end: the nodes still on the stack that a search for the end would meet |
| C215 | `AvlIter`, byte slices as keys | false (witness); as C214, and between the end and a key that continues it there are only such keys |
| C216 | `NilBound`: `AvlIter` with the comparable slices of `Comparable` as bounds | false (witness); the outcome of every comparison with a nil bound, induction over the stack of the iterator |
| C217 | `Mph` | false (witness); the reader step by step on a prefix of the encoding, induction over the keys |
| C218 | `Key`, `Avl`, `AvlIter` | order false (witness), exact order from the prefix free code; maps by simulation along the encoding |
| C219 | `HashCost`, `Hash` | table invariant (every entry in the bucket of its hash, no equal keys), counting entries of a bucket |
| C220 | `Mph` | invariant of a table that was built, bound on the next power of two, lengths of encoded keys |
| C221 | `TrieCost`: the loop of `Trie.Get` over nodes in memory, with calls of `Compare` / `Equal` and links counted | induction over the sub keys, at each node the bound of C163 for its tree of children |
| C222 | `AvlHeap`: nodes and maps shared, iterators of each goroutine; calls are interleaved as a whole, which loses nothing here as none of them writes to what is shared | calls that read leave nodes and maps unchanged, induction over interleavings |
| C223, C224 | `Rand`: outcomes of the random source are counted, not drawn | counting residues; C224 false, exact counts |
| C225 | `PkeygenMain`: `main` after `flag.Parse`, on the file system of `Pkeygen` | case analysis of the runs, the places that change; false for aliases with '..', proved for simple ones; any alias changes at most one place more (`PkeygenAlias`) |
| C226 | `NodePaths`: the path functions of nodes | chains of names of each path, compared; false for names with '/' or '..', proved for proper names |
| C227 | `KeyExist`: the two tests, and saving a public key, on the files of `KeyFile` | states of a save; false for a save cut off, proved for successful ones and for the order of the files |
| C228 | `Magic`: the calls that return magic bytes | from the format (C52) and the layout (C49) of records; false for loaded records with reserved bits or cut off |
| C229 | `LoadedNodes`: loaded nodes as objects that share a table of known nodes, by their bytes | refinement of the specification `ATable` over all histories; from the exact conditions for numbers and strings (C02, C04) and the sorted map (C25); false as a node with content never counts as decoded |
| C230, C231 | `HashHeap`: nodes linked by pointers, several maps and iterators in one program | the pointer model refines the tables of `Hash`, for arbitrary key operations: every bucket is a list of nodes, owned by one bucket of one map (frame conditions), new nodes are only added at the end; finite maps by C28; invariant over programs |
| C232 | `HashHeap`, goroutines that take turns | calls that read change no node and no map; induction over the interleaving |
| C233 | `KeyFile`, `Crc` | a flipped bit changes the remainder by a power of x; x has order 2^32-1 (by powers for the prime factors), so two of them do not cancel |
| C234 | `KeyFile`, `Crc` | seven characters touch at most four bytes; the only pattern that escapes (C98) changes eight digits; odd lengths are no hex |
| C78-C80, C92, C93 | `Trie` | false: exact behaviour for all histories |
| C81 | `Trie` | exactly two zero marks load, and every lookup in the result finds nothing |
| C94, C97 | `SSTable` | loader inverted step by step into a layout predicate |
| C95, C96 | `SSTable`, `Crc` | false: exact panic condition; detection of bursts by linearity of CRC-32 |
| C98 | `KeyFile`, `Crc` | false for one difference at one position (exact): CRC-32 is linear, its inverse decides which bursts reach into the checksum |

No property is "not applicable": every one is expressed in the model.

The axioms used by each theorem of the manifest are listed in `AXIOMS.md` (generated by `tools/axioms.py` from
`#print axioms`).
