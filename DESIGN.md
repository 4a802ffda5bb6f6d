# Design of the formal model of go-common

## Trusted base

* The Lean 4.33.0 kernel. No `axiom`, `sorry`, `admit`, `native_decide`, `bv_decide` is used.  Theorems depend at
  most on `propext`, `Classical.choice`, `Quot.sound` (the standard axioms of Lean).
* The reading of the Go source as Lean definitions.  Every model definition carries a comment with the file and
  lines in `/repo` it stands for and the simplifications it makes.
* The semantics of the Go standard library and of the external packages that are not in `/repo`:
  `math/big` (integers), `sort`, `sync`, `encoding/binary`, `hex`, `goleveldb` (a map), `golang-lru` (a partial
  cache with arbitrary evictions), `go-rtl` (the codec).  They are replaced by their documented meaning, or
  kept abstract as a parameter with explicit hypotheses (never as an axiom).
* The hash function (Keccak-256) is a parameter `H : Bytes -> Bytes`.  Completeness theorems hold for every `H`;
  soundness theorems have the form "the claim holds or here are two different inputs with the same digest".

## Conventions

* `Bytes = List UInt8`.  A nil slice is an explicit case (`Option`) where the code distinguishes it from an empty
  one.  Errors are values.  Panics are an explicit outcome where the property speaks about them.
* Fixed-width Go integers are `UInt64`/`UInt32`/`UInt8` or naturals with an explicit bound.
* Goroutines, locks and channels are labelled transition systems; a property is an invariant of all reachable
  states, i.e. it holds for all schedules.
* One directory per area: `Model.lean` (the code), `Spec.lean` (independent specification), `Lemmas*.lean` and
  `Props.lean` (the property theorems with their examples).
* A property that the code does not satisfy is answered by (a) a theorem that refutes the full statement with a
  concrete witness, and (b) a theorem with suffix `_partial` for the largest part found to hold.

## Plan per property

| Id | What is modelled | How it is proved |
|----|------------------|------------------|
| C01 | trie `get/insert/delete` on an inductive node type, 16 children | refinement to `Key -> Option Val` by induction over the history; well-formedness invariant of nodes |
| C02 | same model, arbitrary keys | witness against the full statement; `_partial` is C01 |
| C03 | same | every well-formed node is the canonical node of its contents |
| C04 | node hash (header, children root, value hash) over abstract `H` | induction on canonical trees, collision otherwise |
| C05, C06 | returned flags and the value counter | invariants over histories |
| C07, C08, C98 | the node with its cached fields, dirty flag and generation (`Trie/Store.lean`); storage as two partial maps or nil; failing `Save`s as predicates; every function of the trie with expansion, collapse and save | one relation `Rep` between the stored tree and the plain tree of C01, preserved by every call; witness for ignored errors |
| C09-C11 | `NodeHasher.MakeProof`, proof evaluation, existence proofs | structural induction on the path; collision extraction |
| C12, C13 | stack machines of both iterators | machine invariant against the in-order listing; witness for the reverse one |
| C14, C15 | nibble codecs (strings of any parity as numbers in `Trie/PrefixKey.lean`), header serialisation | round trip by cases / induction |
| C16, C17 | `RevertableTrie` over the stored trie (`Trie/Revert.lean`), check points as root hashes | simulation by two tries in memory and copies of the live one; witness for RevertTo(0) |
| C18-C22, C97, C101 | the history tree (`HTree/Model.lean`): nodes with cached branch hashes, dirty flags, expansion, commit, collapse, reopening, proofs; storage as a partial map, failing `Save`s as a predicate; the codec of stored nodes as a parameter with its round-trip law (`HCodec.Lawful`) | `hspec`: the root of a list as a recursive function; one relation `Rep` between nodes and lists of values, preserved by every call (`step_holds`); soundness of proofs by induction on the 64 levels |
| C81, C103-C105 | the combined trie (`Trie/Combined.lean`); sub-tries are pointers whose hashes are given at each call, so they may change between calls | a finite map; invariant: the keys are the sorted domain |
| C82 | `SyncTrie` (`Trie/Sync.lean`) over goroutines that lock, unlock and access memory step by step (`Conc/Mutex.lean`); the wrapped trie is arbitrary | an order of calls on the wrapped trie, made one after another; invariant of the interleaved system |
| C100, C102 | `RestoreTreeFromProofs` (`HTree/Restore.lean`) | relation `Front`: the right edge is in memory, filled blocks are known by hash; preserved by `Append` and `HashValue` without any storage |
| C99 | `Has` and `Get` as sequences of lock actions | invariant of all executions |
| C23-C29 | merkle loops on arrays with aliasing, proofs with repeats | loop invariants against a recursive tree specification |
| C30 | `MoreTimes.IsValid` | witness; `_partial` |
| C31 | fixed layout buffer | injectivity |
| C132 | header claims, `NewHeaderPropertyProof`, `ToMerkles`, `ToItems`, `Equal`, `Find` (`Trie/Headers.lean`); the hash of a header, which is not in the repository, is `MerkleHashComplete` of pairs of index hash and property as the comment in proof.go describes; proof nodes are not nil | C23/C26 for the tree, C31 for the positions; a list of items is what a proof means |
| C83 | evaluation of arbitrary proofs against the tree | induction on depth, collision extracted |
| C32-C38, C92, C96 | every database implementation as a record of operations on its own state (`DB/Model.lean`); map, leveldb, key prefix, read-only, temporary, cached; batches as command lists | one simulation relation `Behaves` against a finite map, proved per implementation; arbitrary evictions for the cache; witnesses |
| C39-C46, C48, C49 | arithmetic on machine words / integers | exact arithmetic |
| C47, C82 | transition systems | inductive invariants over all schedules |
| C59-C61 | routine pools (`Pool/Model.lean`): any number of pools, channels with buffers and blocked senders, workers as program counters down to the lock, the read and the write of the key counts, `Start` and `Stop` as steps under the pool's lock; panics end the program | one invariant per pool and one of the key counts, inductive over all schedules; `Stop` can return: a decreasing measure |
| C41-C44, C87 | `*big.Int` values in a heap of cells, so that aliasing and in-place updates are visible | congruences, exact arithmetic |
| C50-C54, C85, C86 | byte and hex functions | arithmetic specification on naturals |
| C55-C58, C88 | sharding functions, bit strings | sorting uniqueness, bit arithmetic, witnesses |
| C62 | the three service methods as critical sections, results of the functions as inputs | invariant of the call trace under every schedule |
| C63-C67, C89-C91, C94, C95 | lists, sets with an index, map iteration order as an arbitrary permutation, sorting by its specification | induction over histories, uniqueness of sorted sets, witnesses |
| C93 | checksum loop over an abstract digest | digit by digit |
| C68-C73, C106, C107 | RLP (`Rlp/Model.lean`): the encoder buffer and its reader, the raw functions, the list iterator, the stream with its stack of list limits (64-bit, wrapping), decoding into an empty interface; the format itself is in `Rlp/Spec.lean` | `Cons s x s'`: a call consumed exactly `x`; `Sound`: what is accepted is canonical; `Complete`: encodings that fit are read; nested values by induction on the number of unread bytes |
| C110-C113 | RLP for Go types (`Rlp/Typed.lean`): a universe of types with recursive named structs, values, the writer and the decoder that are made for a type and the tags of a field; `Rlp/TypedSpec.lean` holds the values of a type, their encoding (`bytesOf`), what an input may stand for (`Enc`) and what is read back (`Reads`) | writers by mutual induction on typing; decoders: `SoundR` and `CompleteR` for a type given the decoders of the named types, these by induction on the number of unread bytes; witnesses |
| C114 | `ProcessFields`, `parseTag` (`Rlp/Tags.lean`), the value of the tag given | induction over words and fields against a declarative description |
| C117 | `RevertableHistoryTree` (`HTree/Revert.lean`): two trees over one storage, `Clone` by commit and reopening; without `Has` (C99); `MergeProof` of keys in use and `Rebase` in `HTree/RevertMore.lean` | refinement to a committed and a pending list; what one tree writes keeps what the other has stored (universe of blocks over all lists on the way) |
| C118 | `MergeProof`, `locateNode`, `_mergeHashItems`, `_newNodeByHashItems` (`HTree/Merge.lean`, chains of other lengths in `HTree/MergeLong.lean`, nodes that cannot be read in `HTree/MergeFail.lean`), over an empty storage | invariant over runs: the values of the keys at hand can be read without storage, and every node known by its hash only is beside the path of such a key; from it: the path of a key that is not blocked is open.  Forged chains: a list of siblings is determined by value, position and root, or two inputs collide |
| C119 | `Chop`, `_chop`, `copy` (`HTree/Chop.lean`, `HTree/ChopFail.lean`); the new tree has the storage as it is at the time of the call | the right edge of the cut list is in memory, what is beside it is known by its hash; a relation of trees that differ in the dirty flags carries over the runs of C97 |
| C120 | `isString`, `UnmarshalJSON`, `Uint.UnmarshalText`, `ParseBig256`, `ParseUint64` and the marshalling of `HexOrDecimal256`, `Decimal256`, `HexOrDecimal64` (`Hex/Text.lean`, signs in `Hex/Sign.lean`); `big.Int.SetString`, `strconv.ParseUint` and the formats `%#x`, `%d` by their documentation | both directions against grammars of signed numerals; round trips through the grammar |
| C128 | `BigStringForPrint`, `BigIntForPrint`, `BigForPrint`, `HexString` (`Hex/Print.lean`); `big.Int.String` by its documentation; readers of both forms (`readSci`, `readHex`) are the specification | the value of a digit string split at the point and padded with zeros |
| C129 | `RatToInt64`, `RatToInt64Floor`, `Int64MulRat`, `CompareBigRat` (`BigMath/Rat64.lean`, large numbers in `BigMath/RatLarge.lean`): rational numbers, `float64` as rounding to 53 bits with ties to even; what the conversion of `2^63` to `int64` gives is a parameter | rounding is exact for integers and cannot cross an integer below `2^53` |
| C133 | `CreateAddress`, `CreateAddress2`, texts, numbers and wire forms of addresses, the registers (`Hex/Address.lean`); the inputs go through the encoder buffer of C70 | injectivity of RLP (C68), lengths and first bytes of the inputs; induction over registrations |
| C134 | `startAndEnd` to `ForPrintSliceString` (`Hex/Shown.lean`); reflection as a type with pointers, arrays, slices and strings of bytes, and addressability | cases of the positions against a specification of the part (`askedPart`) |
| C135 | equalities of hashes, slices and pointers, `PointerSliceLess` (`Hex/Shown.lean`) | a normal form in which what is missing is `none` |
| C136 | the methods of `ABI` that pack and unpack by name, and `MethodString`, `ReturnsString` (`Abi/Wrappers.lean`); storing in the object (`Arguments.Copy`, C173) and `%v` of `fmt` are parameters | C74, C75 and the tables of C125; texts as `intercalate` |
| C137 | `Trie.Dump` with the walk of the node iterator over the nodes of a committed trie, in memory or opened again (`Trie/Dump.lean`); failing `Save` of the other database, value adapters that cannot be rebased | the sessions of C08 over the other database; the listing of C12 |
| C138 | `String`, `ToString`, `FromBig`, `Cmp`, `Equal`, `Less`, `Name`, `Clone` of the small types of `basic.go` and `chaininfo.go`, `NewNetInfo` (`Nodes/Small.lean`) | equality of the values, integers in range, strict total orders, the sorted list |
| C139 | `Commit`, `IsDirty`, `Keys`, `HashValue`, `InitTrie` of the combined trie over the stored tries of C07, with one node storage for all sub-tries (`Trie/CombinedStore.lean`) | named tries in memory, the Merkle root of their hashes, a map of maps |
| C140 | `get` with a trace, the loops of `GetProof` and `GetExistenceProof` over expanded nodes, the caches they fill (`Trie/StoreProof.lean`) | the proofs of the trie in memory (C09, C10), the contents as a map |
| C141 | the definitions of C139 and C140, `getProof` of combined tries (C103), `ProofChain.Proof` (`Trie/ProofWorld.lean`) | the contents as a map per name, the list of sub-trie hashes |
| C142 | the calls of `Stream` one after the other, `MoreDataInList`, `NewListStream`, the sized integers (`Rlp/Cursor.lean`) | a cursor: the values left in the list and in the lists around it |
| C143 | `cachedDB` under its readers-writer lock, every step of a call interleaved with other readers and with evictions, `Replace`, `Close` (`Conc/RW.lean`, `DB/CachedConc.lean`) | a relation: what a plain database may answer to a call |
| C144 | `LruMap` over the hashicorp cache as a list ordered by use; `Add` as two atomic steps (`Lru/Map.lean`) | statements about the history of calls and answers; all interleavings of two calls |
| C145 | hashes of several slices, `HashRipemd160`, `SlicesToHashs`, `HashObject`, `EncodeHash`, roots over slices and values (`Merkle/Objects.lean`) | digest of the concatenation; binding up to an explicit collision |
| C146 | `SmallCombinedTrie` under its readers-writer lock, every access and every `HashValue` of a sub-trie a step of its own, with sub-tries changed by others at any moment (`Trie/CombinedConc.lean`) | a relation: what a map may answer to a call |
| C147 | `MemDB` over a `sync.Map` whose operations are single steps, and `temporaryDB` under its readers-writer lock with every access to its two maps a step of its own (`DB/MemConc.lean`) | a relation: what a map over a base may answer to a call |
| C148 | the stored trie (`Trie/Store.lean`) under its mutex; change of the nodes and change of the counter are separate steps; `Count`, `IsEmpty` and `Collapse` without the lock (`Trie/Shared.lean`, `Conc/Peek.lean`) | a relation: what a map may answer to a call |
| C149 | the history tree (`HTree/Model.lean`) under its mutex; reading the expected key, making the root, putting the value and counting are separate steps of `Append`, storing and hashing of `CommitAndHash` (`HTree/Shared.lean`) | the list of the values appended so far |
| C150 | memory as a list of cells, slices as windows of arrays, pointers; the clones cell by cell in the order of the code (`Memory/Clone.lean`) | the deep value seen through a pointer, and writes to any cells |
| C151 | the set under its readers-writer lock, each access of memory a step; `Get` and `GetNodeIDs` without lock, sorting by insertion (`Nodes/SetConc.lean`) | a list of distinct ids that grows at the end |
| C152 | the methods of a revertable trie as steps under its lock; the two tries as objects behind pointers (`Trie/RevertConc.lean`) | two tries in memory (C16), two maps; order of whole calls |
| C153 | parsing of node ids, membership, paths (`Nodes/Texts.lean`) | pairs of digits (`Digit`, `byteDigits`), `cropPad`, list membership, concatenation |
| C154 | the methods of a revertable history tree as steps under its lock (`HTree/RevertConc.lean`) | two lists (C117); order of whole calls |
| C155 | `Serialization`, `Deserialization` of a node of the history tree (`HTree/NodeBytes.lean`) | the list of values and its answers (C18, C19, C20) |
| C156 | `Set`, `Get`, `CAS`, `CopyMap` of a `LastBlockMap` as steps under its lock (`Num/LastBlockCopy.lean`) | a function from chains to heights; order of whole calls |
| C157 | `InfoString`, `DoubleByteSlice` of `IndentLevel` (`Num/Printing.lean`) | lists of texts; equality of lists |
| C158 | `RestoreTreeFromProofs` on any chain (`HTree/Forged.lean`) | the fold of the chain in the order of the bits of the key; the Merkle tree of a list of values |
| C159 | `rtypeToStructType`, `typeToStructType`, `DefaultNilValue`, the choices of `makeWriter`, `makeDecoder` and `makeOp` (`Rlp/Descr.lean`), descriptions as objects in memory | unfolding of the graph of types to any depth |
| C160 | `genContext` of `rlpgen` (`Rlp/GenFile.lean`) | the set of packages asked for; order of bytes |
| C161 | `log.go`, `hooks.go`, `cashcheck.go` of package `log` (`Service/Logging.lean`); logrus is taken to give entries to the hooks and to `Out` | the list of entries made by the calls, filtered |
| C162 | errors of the typed decoder, `decode.go` (`Rlp/ErrCtx.lean`): the decoders of `Rlp/Typed.lean` again, with `decodeError`; proved equal to them otherwise. Fields are numbered among the encoded ones, their names are a parameter; the type that `Stream.Decode` puts before the context is not in the model | `Leads`, `Place`, `Enc`: types, items and which bytes stand for values, without streams |
| C163 | `String`, `PrintValues`, `ValueString` and `print` of a node on the trie with caches and storage (`Trie/Print.lean`); the text of a value is a parameter, the log is left out | `readText`: a reader of lines that knows only the form `path.{prefix=…, value=…,`; the map of the calls |
| C164 | `makeWriter` with `makeEncoderWriter`, `makePtrWriter`; `makeDecoder` with `decodeDecoder`, for types around types with own methods, which are arbitrary functions on buffer and stream (`Rlp/Own.lean`); fields have no tags here, own types are not of kind `uint8` | `OEnc`: the bytes of the methods put in place; `Lawful`: what is asked of the methods |
| C165 | `IsReserved`, `IsNil`, `IsMain`, `IsSub`, `IsUserDefined`, `UsefulEpoch`, `UsefulBlock`, `Hash` of heights, eras, seeds and addresses, `Seed.Equals`, `IsZero`, `TerminalString`, `PrintString`, `Bits.Byte`, `AddByName`, `ToStringSlice`, `BytesIntersectionMap`, `NetInfo.GetAddr`/`AddAddr` over a memory of maps (`Nodes/Identity.lean`), `UnmarshalFixedUnprefixedText` (`Hex/Model.lean`) | ranges of numbers, concatenation, set intersection, the last write; `Digit`, `Data` of C54 |
| C166 | the stored trie of `Trie/Store.lean`, with other `Save` calls failing in each commit (`Trie/Faulty.lean`); the stored history tree likewise (`HTree/Faulty.lean`) | the map of C01, the hash of the trie in memory; a weaker relation between nodes and trees, where a clean node is stored but its children need not be |
| C167 | the JSON of proofs by the rules of `encoding/json` (trees of values, reading into used values), the texts of types and headers (`Trie/Json.lean`) | equality of proofs; the shape of a node; the types that have a meaning |
| C168 | `AddBigInt`, `MustCreatedBigInt`, `SetInt`, `BigPow` and the like on the heap of C41 to C44, with callers that loop (`BigMath/Balances.lean`) | sums and minima of integers; cells that keep their values |
| C169 | nothing new: `openTrie`, `BTrie.get`, `BTrie.hash` of C07 over an arbitrary storage (`Trie/Damaged.lean`); the same for `openTree` and `Tree.hash` of history trees (`HTree/Damaged.lean`) | `Entry`: what an auditor reads from stored bytes, with its hash; `Audited`: every entry has the hash it is stored under; `entry`, `slotTree`, `HAudited` the same for nodes of history trees (`HTree/Audited.lean`) |
| C170 | nothing new: proofs of tries (C09, C10), headers (C132) and history trees (C20) put together (`Trie/LightClient.lean`) | `hobs`: the hashes of a list of headers given by their properties; `Accepts`: what a client checks, in calls of the code and lengths |
| C171 | `Merkle/Texts.lean`: `Summary`, `String`, `InfoString` of `MerkleProofs` as bytes, with the error of the iteration thrown away | `Line`, `Lines`: the lines with the orders of a group as one number, from the groups; `ItemText`, `Commas`: items with dashes |
| C172 | `DB/Slices.lean`: a memory of arrays to which allocations append; `MemDB` with slices in the map and in batches, `cachedDB` with slices in the cache, `Replace` | `Ideal`, `CIdeal`: contents only, every slice on its own; `Late`: batches that look when they are applied |
| C173 | `Abi/Copy.lean`: `Arguments.Copy`, `copyTuple`, `copyAtomic` on top of `mapArgNamesToStructFields` (C126) and `set` (C127) | `IsTarget` of C126, content of values (C127), take and drop of lists |
| C174 | `ByteOps/Memory.lean`: a memory of arrays to which allocations append, pointers and slices as numbers of arrays; `Clone`, `Copy`, `Slice`, `Bytes`, `ForRLP`, `FromRLP`, `SetBytes` | `ideal`: values in groups, without a memory |
| C175 | `Service/Copies.lean`: several services with `Copy`, `SetChanger` and the methods of C62, one call after the other | `past`: histories of attempts, inherited by copies; how many of them were in turn |
| C176 | `Trie/CombinedIter.lean`: `Next` and `Current` of the iterator where every call of `Get` sees its own state | sublists of the keys, membership, counting by key |
| C177 | `Trie/ProofText.lean`: `NodeProof.Summary`, `ProofChain.String`, from the texts of C167 and C171; `Trie/ProofInfo.lean`: `NodeProof.InfoString` | `Alike`: what is shown, part by part |
| C178 | `Trie/CommitConc.lean`: `Commit`, `saveRoot` and `computeHash` of `SmallCombinedTrie`, each call of a sub-trie at its own moment | `Tells`: hashes which sub-tries have had between two moments |
| C179 | `Conc/Order.lean`: the methods of /repo/trie and /repo/db that take locks, reduced to the locks they take and the types they call meanwhile | executions of goroutines with `sync.Mutex` and `sync.RWMutex` as in their documentation |
| C180 | `Trie/PrefixMem.lean`: `setPrefix`, `chopPrefixHead`, `chopPrefixTail`, the two appends of `mergeTheLastChild` and the decoding of headers over explicit arrays | a list per node |
| C181 | `Memory/Hashes.lean`: arrays by number, kept hashes of root nodes, `NilHashSlice` as array 0; the digests of contents are parameters that get the current bytes of the nil hash | `Ideal`: hashes as functions of the contents |
| C182 | `Memory/Opening.lean`: buffers of callers; root hashes that are such a buffer or a copy; contents read at the first look (tries) or at once (history trees) | `Ideal`: the bytes at the time of opening |
| C183 | `Memory/Values.lean`: values in memory by number, a kept encoding for each key that nodes may forget; the hash of a trie is a parameter | `Ideal`: a map of encodings at the time of `Put` |
| C184 | `Abi/UnpackMem.lean`: `toGoType` and its loops with values of type `bytes` as windows into the data; the values made of copies come from `Abi/Model.lean` | what is seen through the windows while the buffer has any contents, against `unpackValues` |
| C185 | `Abi/PackMem.lean`: the array of 32 bytes behind each `method.ID`, `append` with and without room, writes and appends by callers | a list of bytes for each packed call |
| C186 | `ByteOps/Mem.lean`: slices as windows of arrays, the byte helpers, element assignments; capacities and the bounds of `ForPrintSlice` are left out | a separate list of bytes for each variable |
| C187 | `Pool/Keys.lean`: callers that go through the result of `KeyCount`, beside the pools of `Pool/Model.lean` | no two goroutines use the map if one of them writes |
| C121 | `Marshal`, `MarshalAsMap`, `UnmarshalNewTrie`, `IterateAll` (`Trie/Copy.lean`) over the iterator of C12; the codec of go-rtl is a parameter | the pairs in ascending order can be put without ambiguity and give the same map, hence by canonicity the same tree; then as C07 |
| C122 | `BatchPutter`, `Rebase`, `IsEmptyTrieRoot` (`Trie/Copy.lean`, reports with failing storage in `Trie/PutterReports.lean`) | the invariant of C07 through puts, commits and collapses; what is stored stays stored in a larger storage |
| C123 | `makeOp` and what the code of `genWrite`, `genDecode` does, `nonZeroCheck`, `MoreDataInList` (`Rlp/Gen.lean`); which texts compile is modelled as far as `&&`, unused variables and `!=` go | the generated writer adds the encoding of C110; the generated decoder simulates the decoder of C111, step by step |
| C130 | `EncoderBuffer` handles, the pool of buffers, `Encode` (`Rlp/Buffers.lean`): a program is a list of operations on handles, the choice of the pool is part of an operation; destinations accept everything | simulation of a machine in which every encoder has a buffer of its own and a stale handle is an error |
| C131 | `ChainInfos` with its lists, hash and queries, `AddBootNode`, `Validation`, `GetReportTo` (`Nodes/Infos.lean`); sorting is any result in order (`SortOf`), the codec an injective function | sorted lists with the same members under a lawful comparison are equal |
| C115, C116 | the type cache (`Rlp/Cache.lean`): any graph of types, any number of goroutines, every memory access of `info` and `generate` a step; the functions themselves are not in it, only whether they are set | invariant of all schedules; depth-first search with dummies: an error not seen by a type in a cycle is on its way to the root; decreasing measure for termination; witnesses |
| C74-C76, C108 | ABI: types and Go values as inductive types (`Abi/Spec.lean` holds the encoding of the ABI specification, `Abi/Model.lean` the code); slicing out of range panics | packing equals the specification by mutual induction; `Holds c out i`: the encoding of a component is at a place; unpacking by mutual induction on the type |
| C77, C78, C109 | topics, filters, `EventString` and `UnpackEvent` (`Abi/Topics.lean`); reflection that stores values in structs is in C126 and C127, printing is not modelled | arithmetic; induction over arguments; witnesses |
| C79 | `ResolveNameConflict` with any predicate, its loop with fuel (`Abi/Names.lean`) | pigeonhole |
| C80 | the selector parser on byte strings, recursion bounded by fuel that provably suffices (`Abi/Selector.lean`); the reading of JSON is not modelled | mutual induction on the printed type |
| C124 | `NewType` on byte strings (`Abi/NewType.lean`): the regular expression as runs of letters and digits, the sizes that `reflect.StructOf` and `ArrayOf` check, field names with an oracle for characters beyond ASCII; `TupleRawName` and `internalType` are not modelled | induction on the declared type (`Sol`); types are taken apart at the last bracket; unique reading of canonical texts by mutual induction |
| C125 | the tables of a contract (`Abi/Contract.lean`): maps are lists of pairs, the order of iteration is a parameter, JSON objects are taken as read, `str` is left out; declarations (`Item`) are the specification; memory of slices as buffers with a capacity | induction over the declarations; unique reading of signatures (C124) and packing (C74) |
| C126 | the mapping of names to fields (`Abi/Fields.lean`): maps are lists of pairs, structs have no embedded structs, a stored value is an assignment | invariant of the two maps, induction over fields and arguments |
| C127 | `set` and its helpers on types and values of Go (`Abi/Set.lean`, equality of types in `Abi/Same.lean`): fields exported, interfaces empty, no nil `*big.Int`; recursion bounded by a number of steps, a run that does not end is one for which none is enough; the destination after an error is not modelled | induction over the steps; contents and forms of values are the specification |
| C81 | sorted association list | invariants |

## Where the code disagrees with a property

Each entry is a theorem with a concrete witness (`*_refuted`); the property is `partial` in the manifest.

* C02: a key that ends exactly where a child begins is treated as if it were the longer key.
* C05: `Put` of the value that is already stored reports a change.
* C07 holds for the contents and the root hash; the number of keys is not restored by a reload (`C07_count_refuted`).
* C08: `iterateSave` drops the errors of the children; `Commit` returns nil although a node was not saved.
* C12: `Put` of a key that ends where a child begins (see C02) may leave a value at an odd number of nibbles; `Current` of
  the value iterator then panics.
* C13: the reversed iterator skips the value of a node whose child 0 exists, so the key `12` is left out when `1201` is
  stored.
* C17: `RevertTo` of the first check point drops the live trie, and with it the changes made between the last commit and
  that check point.
* C98: without a value adapter the second commit drops every value that takes more than 4096 bytes.
* C11: the type byte of a child proof is not hashed and not compared with the position its Merkle path proves, so a
  proof for one child can be relabelled as a proof for its sibling; a missing value and the nil hash are hashed alike.
* C18: the append at the last key wraps the expected key to 0, so the next append overwrites the first value.
* C20, C21: values of other lengths than 32 bytes are accepted by `Append`; their boundaries are not bound by the root
  (`[12][3]` and `[1][23]` hash alike), and proofs pad them to 32 bytes.  A missing value and the nil hash are hashed
  alike, so sequences of different length may have the same root.
* C97: a value equal to a digest of the tree may make two nodes share a storage key; after reopening, values are lost.
* C99: `Has` holds the lock when it calls `Get`, which takes it again: it never returns and blocks every other call.
* C101: `HistoryProof` does not check the length of the chain, so the digest of an inner node is accepted as a value;
  the nil hash is accepted at heights that are not used yet.
* C100: a sibling value that equals the nil hash is dropped by `RestoreTreeFromProofs`; the restored tree has no root hash.
* C102: `Get` of an old key on a restored tree opens a node that is not stored; it becomes empty, and `HashValue` fails
  from then on.
* C104: an empty combined trie is saved as empty bytes, which `InitTrie` refuses; tries with different keys but the same
  sub-trie hashes are stored under the same root, the later one replacing the other.
* C69: `Stream.Raw` accepts non-canonical values such as `81 05` (`C69_raw_refuted`); all the other readers accept canonical
  encodings only.
* C73: `listIterator.Next` neither advances nor stops on a malformed element, so iterating never ends (`C73_terminates_refuted`).
* C106: `Stream.Kind` compares the size of a value with the limit of the list before taking off the header, and `List` subtracts
  without a check: on `C1 C1 05` the inner list is entered though it does not fit, and the byte behind both is given as its element
  (`C106_within_refuted`).
* C112: an optional field given as zero is accepted and left out when written: `C3 05 C0 80` and `C2 05 C0` are the same value
  (`C112_canonical_refuted`).
* C113: under a `nil` tag, a pointer to a struct whose optional fields are all zero is written as nil (`C113_stable_refuted`); a nil
  pointer to a struct with a mandatory field is written as `C0`, which is refused (`C113_nil_refuted`); so is the pointer to 0 in a
  field tagged `nilList` (`C113_nilKind_refuted`).
* C114: `tail` is admitted on `[]byte`, where it has no effect on the decoder; after an optional field, a nil one is left out by the
  writer and then missed by the decoder (`C114_tail_refuted`).
* C116: for `type T struct { X *T; Y chan int }`, asking for `T` first leaves a writer and a decoder without error for `*T`, which then
  call a nil function; asking for `*T` first gives the error (`C116_order_refuted`).  With types that have only one of `EncodeRLP` and
  `DecodeRLP`, this happens even for the first type asked for (`C116_oneSided_refuted`).
* C117: `Clone` drops the errors of `_commit` and `_newHistoryTree`.  If the write fails, the first `Append` after a commit
  succeeds, but `Origin` becomes nil: after `Rollback` all values are gone and `Get` and `Commit` panic.
* C117: `Rebase` to a database that does not have the nodes is an error: nothing is copied (`C117_rebase_refuted`).
* C119: the nodes that `Chop` makes are not dirty and keep the values beside the path by hash only.  Of a tree that has not been
  saved, the new tree cannot read older values, and a failed read destroys its root hash (`C119_unsaved_refuted`).  `Commit`
  right after `Chop` writes nothing and succeeds; the storage has no node for the root hash (`C119_commit_refuted`).
* C118: a merge that comes through a node known by its hash only replaces it by an empty node.  It reports success, but the value
  cannot be read (`C118_blocked_refuted`), and after the next `Append` the root hash is an error (`C118_blocked_root_refuted`).
  This happens exactly at keys whose block is the other of a pair with the block of a key at hand, such as key 0 in a tree restored from
  key 16.  The digest of nothing can be merged at a key that was never appended (`C118_nil_value_refuted`).
* C118: `MergeProof` asks for at least 64 elements, not for exactly 64, and uses the first 64.  Whoever knows two byte strings that are
  hashed to a value of the tree (if the value is itself a Merkle root, as header hashes are, everybody does) can put an element
  below the proof of that value: the chain of 65 elements leads to the root, and `Get` then answers one of the two strings, at a key
  where the tree has another value or none (`C118_long_refuted`; what such a chain does show is `C118_long_partial`).
* C120: `HexOrDecimal256` writes a negative number as `-0x1f`, which `ParseBig256` refuses (`C120_hex256_negative_refuted`); it accepts
  `0x-1f` instead.
* C121: `MarshalAsMap`, and `IterateAll` with `noNil`, leave out the value of the empty key (`C121_map_refuted`): the iterator returns
  a nil key for it.
* C122: a `BatchPutter` with modulus zero panics at the first `Put` (`C122_zero_refuted`).
* C123: in a field with a tag for nil, the generated decoder looks at the empty value for nil but leaves it in the stream, so the
  next field reads it again: it refuses what the generated encoder wrote (`C123_nil_refuted`) and accepts lists that are too
  short (`C123_short_refuted`).  An empty value of the other kind is decoded instead of refused (`C123_wrongKind_refuted`).  An
  optional slice that is empty but not nil is left out (`C123_optional_refuted`).  A missing field is reported as `EOL`, which the
  decoder of slices by reflection takes for the end of its own list: `[[1]]` is accepted as a slice of no structs
  (`C123_endOfList_refuted`).  Some accepted types give a text that does not compile (`C123_text_refuted`).
* C124: `NewType` also accepts texts that are no types: `?bool!`, `bool7`, `uint7`, `bytes0`, `uint8[-3]`, `uint8[]3`
  (`C124_loose_refuted`).  It refuses structs with fields such as `_1` or `$a` that Solidity permits (`C124_name_refuted`), and panics
  on a struct with a field of type `uint256[2305843009213693952]` (`C124_panic_refuted`).
* C125: with functions `f(uint8)`, `f(bool)` and `f0()` the name `f0` calls `f(bool)` (`C125_name_refuted`).  If an event has the name
  of a method in the tables, `Unpack` reads what the method returned with the types of the event (`C125_returns_refuted`).
  `UnpackIntoMap` loses values of parameters without names, or named like the name made for an unnamed one (`C125_map_refuted`).
  `UnmarshalJSON` into a contract that was read before keeps its constructor and refuses a `fallback` (`C125_reuse_refuted`).
  `Pack` for a function without arguments returns the memory of the selector in the table: writing to it changes the contract,
  and appending to it overwrites what other callers appended (`C125_memory_refuted`).
* C126: a value of the struct that `NewType` makes for a tuple with components `a_b` and `aB` cannot be packed (`C126_own_refuted`);
  components with the same name are all packed from the first field (`C126_twice_refuted`), and copying arguments with the same name
  loses all but the last (`C126_copy_refuted`).  With fields `Value` and ``Value1 `abi:"value"` `` the arguments `_value`, `value` are
  accepted, `value`, `_value` are not (`C126_order_refuted`).  The tag of an exported field whose name begins with a letter beyond
  ASCII is ignored (`C126_tag_refuted`).
* C127: storing a `*big.Int` in an array never ends; the stack overflows and the process dies (`C127_endless_refuted`).  Arrays are cut
  or padded without an error (`C127_length_refuted`), fields of nested structs go by position (`C127_position_refuted`).  Some unsuitable
  types panic (`C127_panic_refuted`).  A single tuple is stored in the first field of the struct it is given (`C127_single_refuted`).
* C129: `RatToInt64` of `1 + 2^-60` is 1, of `2^53 + 1` is `2^53` (`C129_up_refuted`), so `Int64MulRat(2^53 + 1, 1)` is `2^53`
  (`C129_product_refuted`).  `RatToInt64Floor` rounds negative fractions up: `-1/2` gives 0 (`C129_down_refuted`).  `2^63` is not
  reported as too large (`C129_limit_refuted`).
* C130: a copy of a handle that was flushed (`C130_copied_refuted`), a handle flushed again through a copy (`C130_twice_refuted`) and a
  handle derived from one that was flushed (`C130_derived_refuted`) write into the buffer of another encoder.  An encoder that is reset
  to itself keeps what was written and never delivers it (`C130_self_refuted`).
* C131: two boot nodes with the same chain and node id stay in the order they came in (`C131_canonical_refuted`); the hash of version 0
  does not cover the auditors (`C131_auditors_refuted`); a compressed administrator key is recognised by key and by no address
  (`C131_admin_refuted`); `Sort` orders boot nodes by chain first and `AddBootNode` searches by node id alone, so it adds a node twice
  (`C131_boot_refuted`); `Validation` accepts node ids that are not hexadecimal (`C131_server_refuted`).
* C132: `IsHeaderPropertyOf` compares with the hash of the position without the index and so rejects every proof that `IsHeaderOf`
  accepts (`C132_property_refuted`).  `C132_sound_partial` is for proofs as long as the tree is deep: the property itself may be the
  root of a tree, so a longer proof may lead to the header from below the property.
* C133: `StringsToAddresses` takes the characters of a text for the bytes of the address (`C133_strings_refuted`); a pointer to the zero
  address or hash becomes nil on the way through `ForRLP` and `FromRLP` (`C133_wire_refuted`).
* C134: `ForPrintSlice` panics for an empty slice that is not nil (`C134_empty_refuted`), so does `PrintBytesSlice` with such an entry
  (`C134_list_refuted`), and a negative start panics (`C134_negative_refuted`).  `ForPrint` panics for every string and for every array
  that is not passed by pointer (`C134_string_refuted`).
* C135: `InvalidHash` accepts every slice of more than 32 bytes (`C135_invalid_refuted`).
* C136: what is packed for a function without inputs is refused by `InputUnpack`, and what is packed for a function without results by
  `UnpackReturns` and `UnpackReturnsMap` (`C136_empty_refuted`).  `PackEventArgs` fails for events without data (`C136_event_refuted`).
  `MethodString` and `ReturnsString` of a function without inputs or results make a text of any data (`C136_rest_refuted`).
* C137: `Dump` calls the function twice for a value at the empty key, once with a nil key, since the first call is not followed by a `continue`
  (`C137_calls_refuted`).  A value whose encoding is empty is not saved to the other database; the dump reports success, and the copy does not have
  the value (`C137_empty_refuted`).
* C138: all block numbers outside an epoch have the text `<NA>` (`C138_block_refuted`); the text of a seed shows 5 of its 32 bytes
  (`C138_seed_refuted`); the name of the deprecated election types 2 and 3 is `VRF`, which is neither exclusive nor without rewards
  (`C138_election_refuted`).
* C139: `IsDirty` of a combined trie looks only at its sub-tries; after `Delete` of a sub-trie or `Put` of a committed one it says no, though
  the combined trie with its new hash is not stored (`C139_isDirty_refuted`).
- **C142** (`C142_end_refuted`): after `Kind` (or a failed call) has looked at the last value of a list, and that value is a single byte below 0x80, an empty string or an empty list, `ListEnd` succeeds and passes over the value, and `MoreDataInList` reports false. `C142_cursor` describes this exactly; `C142_end_partial` shows that lists end correctly when those two calls do not directly follow a look.
- **C143** (`C143_closed_refuted`): after `Close` a cached database still answers `Get` and `Has` for keys in its cache. (`Has` of a missing key that a `Get` has cached answers true, as in C35.) `C143_linearizable` holds with both allowed.
- **C144** (`C144_concurrent_refuted`): `LruMap.Add` asks `Contains` and then adds, without a lock: two goroutines adding the same key can both be told true, and the later value replaces the earlier. `C144_concurrent_partial` shows what remains: at least one is told true, and the value stored belongs to one that was.
- **C145**: `Hash256s` of several slices does not hash the borders between them (`C145_parts_refuted`; it binds slices of known lengths, `C145_parts_partial`). `HashRipemd160` writes nothing to its hasher and returns the data followed by the digest of nothing (`C145_ripemd_refuted`). `EncodeHash` is zero for every value the encoder refuses (`C145_error_refuted`).
- **C146** (`C146_moving_refuted`): `HashValue` and `GetProof` of a `SmallCombinedTrie` ask the sub-tries one after another without stopping their writers, so that the hash may be that of no state there has ever been. `C146_static`: it is that of the map at one moment when nobody changes the sub-tries; `C146_linearizable` says what is left otherwise.
- **C147** (`C147_mem_batch_refuted`): `MemDB.Batch` writes its commands one by one into the `sync.Map` and takes no lock, so that a reader may find the first key of a batch written and the second one not. `C147_mem`: a `MemDB` is linearizable when the commands of its batches are calls of their own; `C147_temporary`: a temporary database is linearizable with whole batches.
- **C148** (`C148_isEmpty_refuted`, `C148_collapse_refuted`): `Trie.IsEmpty` and `Trie.Collapse` do not lock the trie. `IsEmpty` can return true for a trie in which there is a key at every moment. `Collapse` checks that the root is clean and then drops its children; a `Put` in between is lost, and so are all values committed before, because the root keeps a hash that was never saved. `C148_linearizable`: the other calls, and `Count`, which does not lock either, are answered as by one map.
- **C150** (`C150_allIDs_refuted`): `AccountSharding.AllIDs` returns the list of the sharding itself; a caller that orders it differently makes `Pos` answer -1 for every chain. The clones and copies share nothing with their originals (`C150_slices`, `C150_byteSlices`, `C150_big`, `C150_proofs`, `C150_chain`, `C150_infos`, `C150_sharding`).
- **C151** (`C151_get_refuted`, `C151_nodeIDs_refuted`): `NodeIDSet.Get` reads the list twice without the lock and panics when an id is deleted in between. `GetNodeIDs` sorts the set in place and collects the ids without the lock: of two goroutines asking for the ids of a set of two, one can be given one id twice and the other not at all, and the set can be left out of order. The calls under the lock are right (`C151_linearizable`, `C151_grows`, `C151_once`, `C151_agree`), up to what `Delete` does to the indexes (C63).
- **C152** (`C152_live_refuted`): `RevertableTrie.LiveTrie` gives out a pointer to the live trie, and `Commit` makes that same object the committed one: what the holder of the pointer puts into it after a commit is seen by `Get` at once, without a commit, and `Rollback` does not take it back. The other calls are right under every schedule (`C152_linearizable`, `C152_maps`, `C152_isolated`).
- **C153** (`C153_length_refuted`, `C153_prefix_refuted`): `ParseNodeID` takes texts of any even length: the empty text is the id of zeros, and a text with one byte too many loses its first byte, so different texts are read as the same id; the text that `MarshalText` gives of an id (with `0x`) is refused. Texts of 128 digits are read right (`C153_full`).
* C155: the bytes of the root of a tree that was not committed are read without error and give the same root hash, but the values of its children are nowhere: `Get` answers nothing, and `Commit` of the tree read back succeeds and writes nothing, as no node read is marked as changed (`C155_uncommitted_refuted`).
* C157: an element text with a comma can look like two elements (`C157_commas_refuted`). A byte slice, a `Hash` or an `Address` given to `InfoString` itself is printed as a list of `UKN`, one per byte, so all of one length print alike (`C157_toplevel_refuted`): the kind of the value is asked before its type.
* C158: `RestoreTreeFromProofs` does not check that the key is the last one. Restored from the proof of an earlier key, the tree has the root hash of the full tree, but it refuses the next value and accepts another value at a key in use, which replaces the one there (`C158_overwrite_refuted`). Comparing root hashes does not notice it; comparing the right siblings with the digest of nothing does (`C158_last`).
* C159: `typeToStructType` remembers descriptions under the underlying type only and does not end for `type T []T` (`C159_recursive_refuted`), and it asks the underlying type for methods, so that a nil `*[]B` differs for a byte type `B` with `EncodeRLP` (`C159_byteMethods_refuted`). If both methods of a byte type are on the pointer, slices of it are written as bytes and read as a list (`C159_pointerMethods_refuted`): `isByte` asks `B`, `makeListDecoder` asks `*B`. The generator ignores the methods of fields that are no pointers, and calls them on nil pointers (`C159_methods_refuted`); it takes defined pointers to `uint256.Int` for `*uint256.Int`, for which nil is another byte (`C159_u256_refuted`).
* C160: types of two packages with the same name are written alike and both packages are imported under that name, which is no Go program (`C160_sameName_refuted`; the code has a TODO for it).
* C161: `WithField` makes fields of the first half of its pairs only: the index goes up by two, the loop ends at half the number of arguments (`C161_withField_refuted`, exactly what it does is `C161_withField_partial`). After `InitCheckLog` with an id of fewer than five bytes, or when the file cannot be made, the log of checks stays nil for good and every message panics (`C161_check_refuted`): the `sync.Once` is spent.
* C162: some errors carry no context: values of `bool` other than 0 and 1, integers of more than 256 bits, everything inside interfaces (`C162_silent_refuted`), and headers not in their shortest form where a byte array is expected, though not where a string is (`C162_kind_refuted`). For `big.Int` and `uint256.Int` the error has the type of a pointer to it (`C162_pointer_refuted`).
* C163: `PrintValues` leaves out values that `Commit` has dropped from memory because of their length (`C163_long_refuted`); nodes the storage has lost are left out without a sign (`C163_missing_refuted`); a value whose text contains a line is taken for two (`C163_forged_refuted`); `ValueString` leaves out the value under the empty key (`C163_empty_key_refuted`); the text shows caches, so that hashing a trie changes it (`C163_hashed_refuted`).
* C164: the documentation of `Encoder` says that a method of the pointer may be called for nil pointers; it is not, and for lawful methods that write a string for a struct type, the byte written for nil is refused by the decoder (`C164_nil_refuted`). Methods that write nothing are permitted, but slices with and without such values have the same encoding (`C164_nothing_refuted`). A method that returns the error of the stream from inside its own list makes the decoder of slices accept `[[]]` as an empty slice, as `[]` (`C164_endOfList_refuted`).
* C165: copies of a `NetInfo` share the map of addresses, so `AddAddr` on the one changes the other (`C165_copy_refuted`); `AddAddr` on a zero `NetInfo` panics (`C165_noMap`). `TerminalString` and `PrintString` show only six and five bytes, so different hashes have the same text (`C165_short_refuted`; exactly which: `C165_short`).
* C166: a commit throws away the errors of the children (`iterateSave` is called with `_ =`) and marks the parent clean. After more than `maxGenSize` (100) such commits, all of which return nil, the next one reduces the old clean parent to its hash, and the keys below are gone from the trie in memory as well (`C166_refuted`; the bound of `C166_sessions_partial`, 101 commits, is the largest). Up to then nothing is lost, and repeating the commit repairs the storage (`C166_retry_partial`). What a trie opened in between misses is `C08_refuted`.
* C167: reading a proof from JSON accepts objects with missing fields. Without `paths` the field stays nil, and `MerkleProofs.BigKey`, which `MergeProof` and `HistoryProof` call, panics (`C167_missing_refuted`); `Order` checks for nil.
* C168: a sum that starts with one of the numbers changes that number (`C168_sum_refuted`; `AddBigInt` adds in place). `BigPow` of a negative exponent is 1 (`C168_pow_refuted`).
* C169: the hash of what is loaded is never computed. Bytes of another tree put under a root make the trie opened at this root answer as the other tree, with the root as its hash (`C169_forged_refuted`, for every root and every other tree); if an entry is lost `Get` reports an absent key without an error (`C169_lost_refuted`) and `Delete` beside it panics (`C169_delete_refuted`). Over a storage whose entries have been checked values are right (`C169_audited_partial`). A history tree opened at a root is likewise what the bytes under the root say (`C169_history_forged_refuted`), and bytes that name the root as their hash make any values have it as their hash (`C169_history_hash_refuted`).
* C170: a client that only calls `VerifyProofChain` on the joined chain also accepts every end of the chain for the hash met on the way (`C170_verify_refuted`); it has to look at the types and lengths of the parts, as `Accepts` does.
* C171: `MerkleProofs.String` takes the orders of the first items for those of the stored hashes, so with a repeated hash it shows wrong orders and equals the text of another proof (`C171_string_refuted`); `InfoString` of a table that is out of order shows a proof that fails like one without hashes (`C171_info_refuted`); summaries do not tell proofs apart (`C171_summary_refuted`).
* C172: a batch of a `MemDB` keeps the caller's slices, so a caller that uses one slice for two values finds the second under both keys (`C172_batch_refuted`); goleveldb copies. `cachedDB.Get` hands out the slice in the cache: writing into it changes what later calls of `Get` return, though not the base (`C172_cached_refuted`).
* C173: `isTuple` counts indexed arguments, so the only value of a log with indexed arguments cannot be copied into a variable of its type (`C173_indexed_refuted`). A single value goes into the first field of a struct even if another field has its name or tag (`C173_first_refuted`). A `*big.Int` cannot receive a value, only a pointer to one (`C173_big_refuted`).
* C174: what `Slice` returns is the identifier itself, so writing into it changes the identifier (`C174_slice_refuted`); `Bytes` with a copied receiver returns a copy.
* C175: closing a copy of a started service succeeds, calls nothing and leaves the service started (`C175_close_refuted`): `Copy` takes over the status but not the functions.
* C176: what an iterator gives need not have been there at one moment (`C176_moment_refuted`), and `Current` gives nothing if the key is deleted after `Next` returned true (`C176_current_refuted`); `Marshal` then writes a nil key and a nil value.
* C177: chains that differ in a hash can have the same text (`C177_value_refuted`), and the text of a chain with a nil pointer panics (`C177_nil_refuted`).
* C178: `Commit` of a trie of tries asks each sub-trie twice for its hash and does not stop others from changing it. A change in between makes it save the old hashes under the new root (`C178_key_refuted`); a change after a sub-trie was found clean makes the record name a tree that was never stored (`C178_stored_refuted`).
* C179: `HistoryTree.Has` takes its lock twice and stops everything (`C179_has_refuted`, see C99); so does a `keyFunc` given to `UnmarshalNewTrie` that calls the trie, since it is called with the lock held (`C179_callback_refuted`).
* C181: `Trie.HashValue` returns the slice that the root node keeps, so a caller who writes into it decides what the trie reports next (`C181_trie_refuted`); `HashObject(nil)`, `EncodeAndHash(nil)` and an empty `SmallCombinedTrie` return the variable `NilHashSlice`, so writing into their result changes the hashes of the whole program (`C181_nil_refuted`). History trees return copies.
* C182: `NewTrie` keeps the caller's slice as the hash of the root. If the buffer is filled again before the first look, the trie has the contents stored under the new bytes; afterwards it still reports them as its hash (`C182_newTrie_refuted`). `Inherit` and history trees copy.
* C183: a trie shares its values with its callers. If a value is changed in place after `HashValue`, `Get` shows the new value while hash and clones keep the old one; if before, the hash has the new one though nothing was put (`C183_change_refuted`).
* C184: values of type `bytes` are windows into the data: they change when the buffer is used again, and appending to one overwrites the next (`C184_bytes_refuted`). Strings and all other values are copies.
* C185: `ABI.Pack` of a method without arguments returns `method.ID` itself, with room for 28 bytes behind it: what two callers append lands in the same place, and writing into the call changes the identifier of the method for all later calls (`C185_empty_refuted`).
* C186: `LeftPadBytes` and `RightPadBytes` return the argument itself if it is long enough, so that a write into the padded bytes is a write into the argument or not, depending on the length (`C186_pad_refuted`); `ForPrintSlice` returns a window and `ReverseBytes` reverses its argument (`C186_window_refuted`).
* C187: `KeyCount` returns the map itself, without the lock: whenever a worker is about to write into it, a caller can be going through it, which the Go runtime answers by ending the program (`C187_keyCount_refuted`).
* C74, C75, C76: `NewType` accepts `bytes33` and longer; they pack to more than a word, and reading them may slice beyond the input
  (`C76_bytes33_refuted`).  Arrays without elements and empty tuples do not survive packing (`C74_zeroSize_refuted`).
* C77: `MakeTopics` uses the absolute value of a negative `*big.Int` and panics for more than 256 bits (`C77_big_refuted`).
* C109: the topic of a function value has the value on the left, parsing expects it on the right (`C109_function_refuted`).
* C78: `EventString` and `UnpackEvent` take topic `1+i` for argument `i`, not for the `i`-th indexed argument, so an event with an
  indexed argument behind another one can never be printed (`C78_string_refuted`); `UnpackEvent` also stops at the first argument
  that is not indexed, and storing the values then panics (`C78_unpack_refuted`).  Indexed strings are read as offsets
  (`C78_string_arg_refuted`).
* C80: `ParseSelector` panics on an identifier that nothing follows (`C80_panic`), accepts any character as separator, accepts
  `f(a)[]`, and refuses arrays of tuples other than `[]` (`C80_separator_refuted`, `C80_suffix_refuted`, `C80_arrays_refuted`).
* C105: the root hash of a combined trie does not depend on its keys.
* C30: `MoreTimes.IsValid` rejects the table that `Append` builds when the first hash is repeated.
* C42: `Exp` squares its base in place, so the caller's base is overwritten (`Exp(2,1)` leaves 0 in it); a negative
  exponent is taken by its absolute value.
* C43: `BigInt.Compare` takes nil as zero against zero but below every other number, so nil < -1 < 0 = nil.
* C87: `AddInts` reads summands after the receiver was updated; `b.AddInts(b, b)` is 4b.
* C56: with 256 shards sixteen bits are taken instead of eight, so the second byte of the address selects the shard.
* C57: `Pos` searches ids as numbers although the nil id is sorted first; a listed nil id may not be found.
* C58: for an index that is a multiple of 8, bit `Index` is not compared; a shard whose value ends just before that bit
  passes `IsValid` but contains no address; a negative index contains every address.
* C61: a pool cannot be started again: `quit` stays closed, so the second `Stop` closes it again and panics, and a worker of the
  second `Start` brings the wait group below zero and panics (`C61_restart_refuted`, `C61_secondStop`, `C61_restartedWorker`).
  Events queued at `Stop` are not handled (`C59_stop_drops`).  `KeyCount` returns the map itself, without the lock (C187).
* C62: the status advances before the function runs, so a service whose Init failed can be started.
* C63: `NodeIDSet.Delete` does not renumber the ids behind the deleted one: `GetIndex` is wrong, the next `Delete`
  removes another id or panics; `GetNodeIDs` returns as many zero ids as there are members first.
* C65, C95: removing from an empty list returns true.
* C67: `NewChainStruct` builds the main chain with a parent, and a parentless chain in stand-alone mode; `Validate`
  rejects both.
* C88: `Bits.Bits(n)` returns n+1 bits.
* C35: `cachedDB.Has` asks the base only, and a batch that is applied to the base directly leaves stale cache entries;
  `Get` through the cache then differs from the base.
* C36: `NewBatch` of the read-only wrapper returns nil, so the documented batch sequence panics.
* C37: `BatchWrite` drops the accepted items that are still pending when the last item is rejected, and reports success.
* C38: a batch made for a prefixed database is refused (or panics) when it is applied to the underlying database.
* C92: `LDB.Batch` drops the error of `Write`; a failed batch is reported as success.
* C94: the fields are joined without separator, so servers with different ports can serialize alike.
* C95: the list is sorted by id string but searched by decoded id; with id strings in upper case a listed node is not
  found by `RemoveBootNode`, and the same node can be listed twice.

## Not modelled

* `log/`, `shared.go` (plugins), `endpoint.go`, printing functions (`String`, `InfoString`), random generation,
  JSON plumbing and reflection (`abi` field mapping, types with their own `EncodeRLP` or `DecodeRLP`,
  decoding into values that are not zero).
* In the stored trie: changing a trie over corrupted storage (reading one is C169),
  the locks, `Rebase`, dumping.
* In the revertable trie: a nil origin, `Copy`, `Rebase`, `SetTo`, the iterators (they are those of C12).
* In the history tree: the locks (but C99), `MergeProof` with a storage, dumping; over corrupted storage only what C169 says.  A missing stored
  node is read as an empty one, as the code does.
* In the databases: aliasing of slices but what C172 says, the metric counters, use after `Close` of a
  `KeyDatabase`; concurrent access but that of `cachedDB` (C143), where every call of goleveldb or of the cache is one step.
* Wall-clock, memory and performance behaviour.
