#!/usr/bin/env python3
"""Single source of /verif/properties.jsonl (run this file to regenerate it)."""
import json, os
PS = []
def P(id, title, statement, quantifier, why, anchors):
    PS.append(dict(id=id, title=title, statement=statement, quantifier=quantifier,
                   why_tests_cant=why, anchors=anchors))

# ---------------------------------------------------------------- trie
P("C01", "A trie behaves as a map when no key is a proper prefix of another",
  "After any sequence of Put and Delete calls on an empty trie, Get(k) returns the value of the last Put(k,v) not followed by a Delete(k), and reports absence otherwise, provided the set of keys used is prefix-free (in particular when all keys have one fixed length).",
  "every prefix-free key set, every finite history of Put/Delete, every queried key of the set",
  "The node shapes depend on every key ever used and on the order of operations; no finite set of histories covers all splits and merges.",
  ["trie/trie.go:Get,get,Put,insert,Delete,delete,removeValue", "trie/node.go:setValue,setPrefix,chopPrefixHead,mergeTheLastChild", "trie/utils.go:keyToPrefix,matchPrefix"])
P("C02", "A trie behaves as a map for arbitrary keys",
  "The map law of C01 holds for arbitrary byte-string keys, including the empty key and keys that are prefixes of other keys.",
  "every key, every history of Put/Delete",
  "Only a systematic analysis of the key-exhausted branches shows which key combinations alias each other.",
  ["trie/trie.go:get,insert,delete (the `offset >= len(prefixString)` branches)"])
P("C03", "The root hash depends on the contents only",
  "Two histories (any order, with any intermediate overwrites and deletes) over a prefix-free key set that leave the same key/value contents leave tries with the same root hash; in particular deleting a freshly added key restores the previous root hash.",
  "every pair of histories over a prefix-free key set",
  "Order independence quantifies over all permutations and all detours of a history.",
  ["trie/trie.go:insert,delete,HashValue", "trie/node.go:HashValue,computeHash,mergeTheLastChild"])
P("C04", "Equal root hashes mean equal contents, or a hash collision is exhibited",
  "If two tries over keys of one fixed length have the same root hash then they hold the same key/value-hash contents, or two different inputs of the hash function with equal digest are exhibited.",
  "every pair of reachable tries over fixed-length keys, every hash function with 32-byte output",
  "Binding quantifies over all pairs of tries.",
  ["trie/node.go:computeHash,headerHash,valueHash", "trie/proof.go:NodeHasher.MakeProof", "hash.go:MerkleHashComplete"])
P("C05", "Put and Delete report exactly whether they changed the trie",
  "On a prefix-free key set, Delete returns changed=true together with the stored value exactly when the key is present and (false,nil) otherwise; Put returns true exactly when the stored value differs from the new one.",
  "every reachable trie, every key and value",
  "The changed flag is threaded through every recursive level and every structural case.",
  ["trie/trie.go:putLocked,insert,deleteLocked,delete"])
P("C06", "Count is the number of stored keys",
  "On a trie started empty and used with a prefix-free key set and non-nil values, Count() always equals the number of keys for which Get succeeds.",
  "every history of Put/Delete",
  "The counter is maintained incrementally by deltas, so it is an invariant over whole histories.",
  ["trie/trie.go:Count,setNodePrefixAndValue,insert,removeValue", "trie/node.go:setValue"])
P("C07", "Commit, collapse and reload are transparent",
  "After Commit succeeds, a trie opened from the root hash over the same storage answers every Get exactly as the committed trie did and has the same root hash, whatever subset of nodes was collapsed to hashes in between, provided no two different inputs hashed along the history collide and no node header has 64 bytes.",
  "every reachable trie, every commit point, every subset of collapsed nodes",
  "Collapsing is driven by generation counters and sizes; all combinations of collapsed and expanded nodes must be covered.",
  ["trie/trie.go:Commit,iterateSave,saveOneNode,expandNode,expandNodeValue,NewTrie", "trie/node.go:collapse,Serialization,Deserialization"])
P("C08", "Commit reports failure if any node was not persisted",
  "If Commit returns nil then every node reachable from the root hash is loadable from the storage, even if individual Save calls fail.",
  "every reachable trie, every pattern of failing Save calls",
  "It quantifies over every fault pattern of the storage.",
  ["trie/trie.go:iterateSave,saveOneNode,commitLocked"])
P("C09", "Every stored key has a proof that verifies against the root hash",
  "For every key present in a trie, GetProof returns the stored value and a proof chain, and evaluating the chain on the hash of the value gives the trie's root hash.",
  "every reachable trie, every present key, every hash function",
  "Proof shape depends on the path, the number of children and on the presence of values at every level.",
  ["trie/trie.go:getProofLocked", "trie/node.go:GetProof,computeHash", "trie/proof.go:MakeProof,NodeProof.Proof,ProofChain.Proof,VerifyProofChain", "hash.go:MerkleProofs.Proof"])
P("C10", "Existence proofs are complete",
  "GetExistenceProof of any key of the key set yields a chain whose existence hash is the root hash and which decides the key: it yields the value hash for a present key and absence for an absent one.",
  "every reachable trie, every key",
  "Absent keys can fall off the trie at any position of any node.",
  ["trie/trie.go:getExistenceLocked", "trie/proof.go:ExistenceMatch,ExistenceHash,ProofChain.Exist,IsExist"])
P("C11", "Existence proofs are sound, or a hash collision is exhibited",
  "If a proof chain has the root hash of a trie as its existence hash and decides a key, then the decision agrees with the trie (same value hash, or absence), or two different hash inputs with equal digest are exhibited.",
  "every reachable trie over fixed-length keys, every (adversarial) proof chain, every key",
  "Soundness quantifies over all adversarial proofs.",
  ["trie/proof.go:ExistenceMatch,ExistenceHash,ProofChain.Exist"])
P("C12", "The value iterator yields exactly the contents in ascending key order",
  "Iterating with ValueIterator yields every stored key with its value exactly once, in strictly ascending lexicographic order, and nothing else.",
  "every reachable trie",
  "The iterator is a hand-written stack machine; its invariant ranges over all tree shapes.",
  ["trie/iterator.go:trieValueIterator.Next,Current,traceStack.depthFirstNextStep,tracenode.moveToNext"])
P("C13", "The reversed value iterator yields exactly the contents in descending key order",
  "Iterating with ReversedValueIterator yields every stored key with its value exactly once, in strictly descending order.",
  "every reachable trie",
  "As C12; in addition a node with a value and children has to be visited after its children.",
  ["trie/iterator.go:reversedValueIterator.Next,Current"])
P("C14", "Key, nibble and hex-string forms are converted without loss",
  "Converting a key to nibbles and back yields the key; packing a nibble string into a node's key part and unpacking it with the node type yields the nibble string; hex strings of nibbles convert back to the nibbles.",
  "every key and every nibble string (even or odd length)",
  "Parity and carry cases over unbounded length.",
  ["trie/utils.go:keyToPrefix,prefixToKey,prefixToKeystring,keystringToPrefix,prefixToHexstring,hexstringToPrefix"])
P("C15", "Node headers are serialised without loss",
  "Deserialising a serialised node header yields the same header and consumes exactly the bytes written, so two different headers never serialise to the same bytes.",
  "every well-formed header: every node type, key part and child set",
  "All combinations of optional sections.",
  ["trie/node.go:NodeHeader.Serialization,NodeHeader.Deserialization,newNodeHeader,ntype"])
P("C16", "RevertableTrie: Rollback discards and Commit publishes exactly the live changes",
  "Between commits Get observes the last committed contents, GetLive/Put/Delete act on a copy; Rollback makes the live view equal to the committed view again; Commit makes the committed view equal to the live view. The hash inputs along the history do not collide, and storage does not fail.",
  "every sequence of Put/Delete/Rollback/Commit/PreCommit/CheckPoint",
  "It is a simulation over whole histories.",
  ["trie/revertable.go:Get,GetLive,Put,Delete,Commit,Rollback,checkLiveLocked,preCommitLocked"])
P("C17", "RevertableTrie.RevertTo restores the contents at the check point",
  "After RevertTo(i, root) succeeds, the live contents are the contents at the time CheckPoint returned (i, root).",
  "every history of live operations, check points and reverts",
  "Interleavings of check points and reverts.",
  ["trie/revertable.go:CheckPoint,RevertTo"])
# ---------------------------------------------------------------- history tree
P("C18", "A history tree stores exactly the appended sequence",
  "After appending values v0..v(n-1) at keys 0..n-1, Get(i) returns vi for i<n and absence for i>=n; an Append at any other key than n fails and changes nothing.",
  "every finite sequence of appends (successful and rejected) that stores fewer than 2^64 values, every key below 2^64",
  "The radix tree grows a new path for every append; all carry patterns of the 64-bit key matter.",
  ["trie/historytree.go:Append,Get,appendDescendant,traceDescendant,putLeaf,putChild,heightToPrefix"])
P("C19", "A reopened history tree continues at the right height",
  "The next expected key recovered from the stored nodes of a tree with n values is n, provided the hash inputs of the tree do not collide and no value is the digest of one of them.",
  "every n >= 1 below 2^64",
  "All shapes of the rightmost path.",
  ["trie/historytree.go:findRightmost,_newHistoryTree,rightmostChild,rightmostLeaf,prefixToHeight"])
P("C20", "History proofs verify and bind the key",
  "For every key i below the length, GetProof(i) returns the value and a chain that evaluates to the root hash, and the position bits of that chain spell i.",
  "every tree, every key",
  "Proof shape depends on which siblings exist at each of 64 levels.",
  ["trie/historytree.go:GetProof,appendToProof,HashAtPrefix", "trie/proof.go:BigKey,HistoryProof"])
P("C21", "The history root determines the sequence, or a collision is exhibited",
  "Two history trees of the same length with equal root hashes hold the same value sequence, or two different hash inputs with equal digest are exhibited.",
  "every pair of trees of equal length",
  "Binding quantifies over all pairs.",
  ["trie/historytree.go:TreeNode.HashValue,HashAtPrefix,LeafHash"])
P("C22", "Height and prefix are in bijection",
  "Splitting a 64-bit height into its base-16 (radix) path and reassembling it yields the height, different heights have different paths, and path order is height order.",
  "every 64-bit height",
  "2^64 inputs.",
  ["trie/historytree.go:heightToPrefix,prefixToHeight,ToBinary,ToByte"])
# ---------------------------------------------------------------- merkle
P("C23", "Complete Merkle proofs verify for every position",
  "For every non-empty hash list and index below its length, the proof collected by MerkleHashComplete evaluates, from the hash at the index, to the returned root.",
  "every list length, every index, every hash function",
  "Padding and carry patterns over unbounded lengths.",
  ["hash.go:MerkleHashComplete,MerkleProofs.Append,MerkleProofs.Proof,HashPairOrder"])
P("C24", "The in-place and the padded Merkle algorithms agree",
  "MerkleHashComplete and MerkleHashCompleteOld return the same root and collect the same proof although one re-uses a single buffer in place.",
  "every hash list, every index (including negative), every hash function",
  "The in-place loop overwrites its own input; safety of the aliasing is a statement about all lengths.",
  ["hash.go:MerkleHashComplete,MerkleHashCompleteOld"])
P("C25", "Depth-limited Merkle proofs verify for every position",
  "For every non-empty hash list and index below its length, the proof collected by MerkleHash evaluates, from the hash at the index, to the returned root, although the list is overwritten in place.",
  "every list length, every index, every hash function",
  "As C23, with per-level padding.",
  ["hash.go:MerkleHash"])
P("C26", "Proof position bits spell the index",
  "The order bits of the proof collected for index i by MerkleHashComplete or MerkleHash spell i in binary, least significant first, and the proof length is the depth of the tree.",
  "every list length, every index",
  "Unbounded lengths.",
  ["hash.go:MerkleProofs.Append,MerkleProofs.Order,MerkleProofs.BigKey"])
P("C27", "Run-length compression of Merkle proofs is lossless",
  "After any sequence of Append(h,order) calls on a new proof, expanding it yields exactly that sequence, Len is its length and Get(i) is its i-th element (an error beyond the end).",
  "every sequence of appended hashes (with arbitrary repetitions)",
  "Index arithmetic over borders of arbitrary repetition patterns.",
  ["hash.go:MerkleProofs.Append,ToItems,Iterate,_hashsIterate,Get,Len,MoreTimes.GetHashsIndex,MoreTimes.Append,MoreTimes.Count"])
P("C28", "Merkle proofs are serialised without loss",
  "Deserialising a serialised Merkle proof yields an equal proof, for every proof whose hash count, path length and repeat entries fit into 16 bits.",
  "every such proof, followed by any trailing bytes",
  "Unbounded sizes up to the 16-bit limit.",
  ["hash.go:MerkleProofs.Serialization,Deserialization,writeArray,readArray"])
P("C29", "A complete Merkle root binds the list, or a collision is exhibited",
  "Two hash lists of the same length with equal MerkleHashComplete (or MerkleHash) roots are equal, or two different hash inputs with equal digest are exhibited.",
  "every pair of lists of 32-byte hashes of equal length",
  "Binding quantifies over all pairs.",
  ["hash.go:MerkleHashComplete,MerkleHash,HashPair"])
P("C30", "Validity of the repeat table",
  "The repeat table produced by Append calls is accepted by MoreTimes.IsValid.",
  "every sequence of appended hashes",
  "All repetition patterns.",
  ["hash.go:MoreTimes.IsValid,MoreTimes.Append"])
P("C31", "Header index hashes separate chain, height and index",
  "If two header index hashes are equal then chain id, height and index are equal, or a collision is exhibited.",
  "every chain id, height and index",
  "2^104 inputs.",
  ["hash.go:ToHeaderPosHashBuffer,HeaderIndexHash", "basic.go:Height.Bytes", "chaininfo.go:ChainID.Bytes"])
# ---------------------------------------------------------------- db
P("C32", "The in-memory database is a map",
  "After any history of Put, Delete and Batch calls, Get and Has of the in-memory database answer as the abstract map updated by the same history; a Put with nil key or value fails and changes nothing.",
  "every history, every key",
  "Whole histories.",
  ["db/memdb.go:MemDB.Put,Get,Has,Delete,Batch,memBatch"])
P("C33", "Prefixed views of one database are isolated",
  "Two key-prefixed adapters over the same database whose prefixes are incomparable never observe each other's writes, and each behaves as a map of its own.",
  "every pair of incomparable prefixes, every interleaved history",
  "All interleavings and keys.",
  ["db/adapters.go:keyPrefixedDataAdapter", "db/types.go:PrefixKey"])
P("C34", "A temporary database overlays its base without changing it",
  "Every history of operations on Temporary(base) leaves base unchanged, and reads answer as the map obtained by applying the history to the contents of base.",
  "every base contents, every history",
  "Whole histories with deletes and re-puts.",
  ["db/readonly.go:temporaryDB"])
P("C35", "The cached database is transparent",
  "For every history of Put/Get/Has/Delete/Batch and every eviction behaviour of the cache, reads through the cached database answer as reads of the underlying database.",
  "every history, every eviction schedule",
  "Eviction schedules and histories are unbounded.",
  ["db/cacheddb.go:cachedDB.Get,Has,Put,Delete,Batch,cachedBatch"])
P("C36", "A read-only database never changes its base",
  "No operation on ReadOnly(base) changes base, reads answer as base, and every write reports ErrReadOnly; wrapping twice is the same as wrapping once.",
  "every base, every operation sequence",
  "Whole histories.",
  ["db/readonly.go:readOnlyDB,ReadOnly"])
P("C37", "BatchWrite writes every accepted item",
  "If BatchWrite returns without error then all writes issued by accepted callbacks are in the database in order and the returned count is the number of accepted items.",
  "every length, threshold and callback behaviour",
  "All acceptance patterns against all thresholds.",
  ["db/types.go:BatchWrite"])
P("C38", "A batch applied at once equals its commands applied one by one",
  "Applying a batch equals applying its Put/Delete commands in order, and commands collected through a key-converting batch act on the converted keys.",
  "every list of commands",
  "Unbounded lists.",
  ["db/memdb.go:MemDB.Batch", "db/adapters.go:KeyBatch,KeyDatabase"])
# ---------------------------------------------------------------- numbers
P("C39", "The gas pool conserves gas and never wraps",
  "Over any sequence of AddGas/SubGas calls the pool equals initial + added - successfully subtracted; SubGas fails exactly when the amount exceeds the pool and then changes nothing; AddGas panics exactly on overflow.",
  "every sequence of calls with 64-bit amounts",
  "2^64 amounts and unbounded histories.",
  ["gaspool.go:AddGas,SubGas,Gas"])
P("C40", "Checked 64-bit arithmetic is exact",
  "SafeAdd/SafeSub/SafeMul return the exact result when the overflow flag is false, and the flag is true exactly when the exact result is not representable; the returned word is always the result modulo 2^64.",
  "every pair of 64-bit words",
  "2^128 inputs.",
  ["math/integer.go:SafeAdd,SafeSub,SafeMul"])
P("C41", "256-bit conversions are two's complement",
  "U256 is reduction modulo 2^256; S256 of a word is its two's complement value; U256(S256(x)) = x for words; U256Bytes is the 32-byte big-endian form; PaddedBigBytes pads on the left and decodes to the number; Byte(n,i) is the i-th byte of that form.",
  "every integer / every 256-bit word",
  "2^256 inputs.",
  ["math/big.go:U256,U256Bytes,S256,PaddedBigBytes,ReadBits,bigEndianByteAt,Byte"])
P("C42", "Exp is modular exponentiation and leaves its arguments alone",
  "Exp(base, e) equals base^e modulo 2^256 and neither argument is changed.",
  "every base and exponent",
  "2^512 inputs.",
  ["math/big.go:Exp"])
P("C43", "Nil-aware big integer comparison is a total preorder",
  "Compare on possibly nil big integers is reflexive, antisymmetric in sign and transitive.",
  "every triple of possibly nil integers",
  "All triples.",
  ["math/big.go:CompareBigInt,BigInt.Compare,BigInt.CompareInt"])
P("C44", "Clamped subtraction conserves the amount",
  "SubIntNotLessZero(s) returns (left, actual) with left + actual = original, left >= 0 and actual <= s for non-negative operands; nil operands count as zero.",
  "every pair of possibly nil integers",
  "All integers.",
  ["math/big.go:BigInt.SubIntNotLessZero"])
P("C45", "Heights split into epoch and block and back",
  "ToHeight(Split(h)) = h for every non-nil height; Split(ToHeight(e,b)) = (e,b) for every valid block number when the height fits; FirstHeight/LastHeight bound exactly the heights of an epoch. EraNum is the era whose heights enclose the height, which is the era of its epoch.",
  "every 64-bit height, epoch and block number",
  "2^64 inputs and the nil sentinels at the border.",
  ["basic.go:Height.Split,ToHeight,EpochNum.FirstHeight,EpochNum.LastHeight,Height.EpochNum,Height.BlockNum,RemoveRemainder"])
P("C46", "Comparison and difference of heights agree and nil is smallest",
  "Height.Compare is a total order with the nil height smallest; Diff returns the same sign and for non-nil heights the absolute distance; the same holds for epochs, eras and chain ids.",
  "every pair/triple of 64-bit values",
  "2^192 triples with sentinels.",
  ["basic.go:Height.Compare,Height.Diff,EpochNum.Compare,EpochNum.Diff,EraNum.Compare", "chaininfo.go:ChainID.Compare"])
P("C47", "LastBlockMap.CAS never moves a chain backwards",
  "Under any interleaving of CAS and Get calls from any number of goroutines the recorded height of every chain never decreases, and CAS returns true exactly when it raised (or first set) it.",
  "every interleaving, every number of goroutines",
  "Schedules are unbounded.",
  ["basic.go:LastBlockMap.CAS,Get,Set"])
P("C48", "Committee members share an epoch's blocks",
  "The ShouldPropose values of all members of a committee of size n sum to the blocks of an epoch, each member's value counts the block numbers congruent to its index, and a member outside the committee gets the documented value.",
  "every committee size and member index",
  "Unbounded committee sizes.",
  ["basic.go:CommID.ShouldPropose"])
P("C49", "Version numbers round-trip",
  "NewNodeVersion(a,b,c) succeeds exactly when all parts are in range, and then Major/Minor/Patch return a, b, c; versions are ordered lexicographically.",
  "every triple of 64-bit numbers",
  "2^192 inputs.",
  ["version.go:NewNodeVersion,Major,Minor,Patch"])
# ---------------------------------------------------------------- bytes
P("C50", "SubBytes extracts bits",
  "SubBytes(bs, from, size) is the big-endian form of (n >> from) mod 2^size where n is the number spelled by bs, clipped at the end of bs.",
  "every byte string, offset and size whose sum is in the range of int",
  "Bit alignment cases over unbounded lengths.",
  ["bytes.go:SubBytes,ShiftBits"])
P("C51", "Splitting and joining byte strings are inverse",
  "SplitBytes succeeds exactly when the size divides the length, its pieces have the requested size, and ConcatenateBytes of the pieces is the original; splitting the concatenation of equal-sized pieces gives them back.",
  "every byte string and size > 0",
  "Unbounded lengths.",
  ["bytes.go:SplitBytes,ConcatenateBytes", "basic.go:ParseBytesToNodeIds,PackNodeIdsToBytes"])
P("C52", "Fixed-size identifiers crop on the left and pad on the left",
  "BytesToHash/BytesToAddress/BytesToNodeID/BytesToSeed keep the last N bytes, pad short inputs on the left with zeros, and are the identity on N-byte inputs; LeftPadBytes/RightPadBytes/Hex2BytesFixed agree with the same specification.",
  "every input length",
  "Unbounded lengths.",
  ["basic.go:Hash.SetBytes,Address.SetBytes,NodeID.SetBytes,Seed.SetBytes", "bytes.go:LeftPadBytes,RightPadBytes,Hex2BytesFixed"])
P("C53", "Big-endian integers round-trip",
  "BytesToHeight(h.Bytes()) = h and BytesToChainID(id.Bytes()) = id; the encodings are order preserving under lexicographic comparison.",
  "every 64-bit height and 32-bit chain id",
  "2^64 inputs.",
  ["basic.go:Height.Bytes,BytesToHeight", "chaininfo.go:ChainID.Bytes,BytesToChainID"])
P("C54", "Hex strings round-trip and are canonical",
  "Decode(Encode(b)) = b; Decode accepts exactly 0x-prefixed even-length hex; DecodeUint64(EncodeUint64(x)) = x and DecodeUint64 accepts exactly canonical quantities: no leading zeros, at most 16 digits; likewise for DecodeBig up to 256 bits.",
  "every byte string, every string",
  "Acceptance is a statement about all strings.",
  ["hexutil/hexutil.go:Encode,Decode,EncodeUint64,DecodeUint64,EncodeBig,DecodeBig,checkNumber,decodeNibble", "bytes.go:FromHex"])
# ---------------------------------------------------------------- shards
P("C55", "Sharding is total, deterministic and independent of the listing order",
  "ShardTo maps every address to one of the shard chains (or to the parent if there are none), and the result does not depend on the order or multiplicity in which shard ids are given.",
  "every chain list, every permutation, every address",
  "All permutations and 2^160 addresses.",
  ["shardinfo.go:NewShardInfo,NewAccountShards,shardTo,index"])
P("C56", "With a power-of-two number of shards the leading address bits select the shard",
  "With 2^m shards (m <= 8) the shard of an address is the one at the position given by its m leading bits.",
  "every m <= 8 and every address",
  "2^160 addresses.",
  ["shardinfo.go:AccountShards.index,shardTo"])
P("C57", "Pos is the inverse of listing",
  "Pos(id) is the position of id in AllIDs() and -1 exactly for ids not listed.",
  "every list of chain ids, every id",
  "Unbounded lists with the nil id included.",
  ["shardinfo.go:AccountShards.pos", "chaininfo.go:ChainID.Compare,ChainIDs.Less"])
P("C58", "AddressShard.IsIn tests a bit prefix",
  "IsIn(addr) holds exactly when the bits 0..Index of the address equal those of the shard value.",
  "every shard index, value and address",
  "2^160 addresses and 160 indices.",
  ["shardinfo.go:AddressShard.IsIn,BitIndex.Mask,BitIndex.BytePos,BitIndex.BitPos"])
# ---------------------------------------------------------------- concurrency and collections
P("C59", "The routine pool handles every posted event at most once and loses none while running",
  "In every execution, every event taken from a queue is handled by exactly one worker; posted = handled + in progress + still queued; the queues never exceed their capacity; high priority events are handled in the order posted when there is one worker.",
  "every schedule, number of workers, queue size and event sequence",
  "Schedules are unbounded.",
  ["routinepool.go:work,event,PostLower,PostHigher,Start,Stop"])
P("C60", "Key counts of the routine pool equal the events in progress",
  "In every execution the recorded count of a key equals the number of workers currently handling an event with that key, and is absent when there is none.",
  "every schedule",
  "Schedules are unbounded.",
  ["routinepool.go:incKeyCount,decKeyCount,event"])
P("C61", "Start and Stop of a routine pool can be called in any order",
  "No sequence of Start and Stop calls panics, and after Stop returns no worker is running.",
  "every sequence of Start/Stop, every schedule",
  "Schedules and call sequences are unbounded.",
  ["routinepool.go:Start,Stop,work"])
P("C62", "A service follows its life cycle",
  "Init, Start and Close take effect only in the documented status order, each underlying function is called at most once per life-cycle step, and a service whose Init failed cannot be started.",
  "every sequence of calls and every result of the callbacks",
  "Call sequences are unbounded.",
  ["types.go:ServiceStatus.CheckInit,CheckStart,CheckStop,AbstractService.Init,Start,Close"])
P("C63", "NodeIDSet is an ordered set",
  "After any sequence of Put and Delete, the set contains exactly the ids put and not deleted since, in insertion order, GetIndex returns the position of an id, and GetNodeIDs lists exactly the members.",
  "every history",
  "Index bookkeeping over unbounded histories.",
  ["basic.go:NodeIDSet.Put,Delete,Get,GetIndex,GetNodeIDs"])
P("C64", "Union and removal of node id lists are set operations",
  "The members of Union are exactly the members of either list, without duplicates; Remove lists exactly the members of the first list not in the second, without duplicates; neither depends on the iteration order of maps except for the order of the result.",
  "every pair of lists",
  "Unbounded lists.",
  ["basic.go:NodeIDs.Union,Remove,Contains,ToMap"])
P("C65", "Data node lists of a chain stay sorted sets",
  "Over any sequence of AddDataNode/RemoveDataNode starting from a sorted duplicate-free list, the list stays sorted and duplicate free, HasDataNode answers membership, and the returned flags say whether the set changed.",
  "every history",
  "Binary search positions over unbounded histories.",
  ["chaininfo.go:AddDataNode,RemoveDataNode,HasDataNode"])
P("C66", "Chain attributes stay a sorted set",
  "After any sequence of Add calls the attribute list is sorted and duplicate free and contains exactly the valid attributes added.",
  "every history",
  "Unbounded histories.",
  ["chaininfo.go:ChainAttrs.Add,Contains,ToMap,FromMap"])
P("C67", "NewChainStruct builds only valid structures",
  "Whenever NewChainStruct(id,parent) succeeds the result passes Validate.",
  "every pair of 32-bit ids",
  "2^64 pairs with sentinels.",
  ["chaininfo.go:NewChainStruct,ChainStruct.Validate"])
# ---------------------------------------------------------------- rlp
P("C68", "RLP decoding inverts encoding",
  "Decoding the encoding of any nested list of byte strings yields the same value and leaves exactly the bytes that followed the encoding.",
  "every nested value, every trailing bytes",
  "Unbounded nesting and sizes.",
  ["rlp/encode.go:puthead,headsize,putint", "rlp/decode.go:Stream.Kind,readKind,Bytes,List,ListEnd", "rlp/raw.go:Split"])
P("C69", "RLP decoding accepts canonical encodings only",
  "If decoding a byte string succeeds with a value then re-encoding the value yields the same byte string; hence two different byte strings never decode to the same value.",
  "every byte string",
  "Acceptance is a statement about all byte strings.",
  ["rlp/decode.go:readKind,readUint,Bytes,Uint64,decodeBigInt", "rlp/raw.go:readKind,readSize,SplitUint64"])
P("C70", "The encoder buffer assembles list headers correctly",
  "For every balanced sequence of writes and list begin/end calls, the bytes produced by the encoder buffer are the recursive RLP encoding of the nested value, and size() is their length.",
  "every well-nested write sequence",
  "Unbounded nesting.",
  ["rlp/encbuffer.go:list,listEnd,size,makeBytes,copyTo,writeBytes,writeUint64,encodeStringHeader"])
P("C71", "RLP size functions agree with the encoder",
  "IntSize, BytesSize, StringSize and ListSize return the length of the corresponding encodings; AppendUint64 appends the encoding of the integer.",
  "every 64-bit integer, every byte string",
  "2^64 inputs, unbounded sizes.",
  ["rlp/raw.go:IntSize,BytesSize,StringSize,ListSize,AppendUint64"])
P("C72", "CountValues and the list iterator agree with the decoder",
  "On the content of an encoded list, CountValues returns the number of elements, and iterating yields the raw encodings of the elements in order and then stops.",
  "every list of values",
  "Unbounded sizes.",
  ["rlp/raw.go:CountValues,SplitList", "rlp/iterator.go:listIterator.Next,Value"])
P("C73", "List iteration terminates on every input",
  "Iterating with Next until it returns false takes finitely many steps on every input accepted by NewListIterator.",
  "every byte string",
  "All malformed inputs.",
  ["rlp/iterator.go:NewListIterator,Next"])
# ---------------------------------------------------------------- abi
P("C74", "ABI decoding inverts encoding",
  "For every list of argument types of the contract ABI (bytesN with N up to 32) without zero-sized types and every well-typed list of values, unpacking the packed values yields the values.",
  "every nesting of static and dynamic types, every well-typed value",
  "Unbounded nesting of dynamic arrays and tuples.",
  ["abi/type.go:pack,isDynamicType,getTypeSize", "abi/argument.go:Pack,UnpackValues", "abi/unpack.go:toGoType,forEachUnpack,forTupleUnpack,lengthPrefixPointsTo,tuplePointsTo", "abi/pack.go:packElement,packBytesSlice,packNum"])
P("C75", "Static type sizes are exact",
  "The packed form of a value of a static type has exactly the size given by the type, and every packed form has a length that is a multiple of 32.",
  "every type of the contract ABI (bytesN with N up to 32), every well-typed value",
  "Unbounded nesting.",
  ["abi/type.go:getTypeSize,pack"])
P("C76", "Decoding never reads outside its input",
  "Unpacking arbitrary bytes against any type list returns a value or an error; it never indexes outside the input.",
  "every byte string, every type list",
  "Adversarial inputs are unbounded.",
  ["abi/unpack.go:toGoType,lengthPrefixPointsTo,tuplePointsTo,forEachUnpack"])
P("C77", "Integer topics are two's complement words",
  "The topic generated for a signed or unsigned integer is the 32-byte two's complement form, and parsing it back with the same type gives the integer.",
  "every 64-bit integer",
  "2^64 inputs.",
  ["abi/topics.go:MakeTopics,genIntType,parseTopicWithSetter"])
P("C78", "Indexed event arguments are decoded from their own topics",
  "When printing or unpacking an event, the k-th indexed argument is decoded from the k-th topic after the signature whatever the positions of non-indexed arguments.",
  "every event signature",
  "All placements of indexed arguments.",
  ["abi/abi.go:EventString", "abi/thinkium.go:UnpackEvent"])
P("C79", "Name conflicts are resolved to a fresh name",
  "ResolveNameConflict returns a name that is not used, returns the raw name unchanged if it is free, and terminates for every finite set of used names.",
  "every raw name, every finite set of used names",
  "Termination over all finite sets.",
  ["abi/utils.go:ResolveNameConflict"])
P("C80", "Parsing a printed selector gives it back",
  "Parsing the textual form of a function name and nested argument types gives back the name and the types.",
  "every identifier and nested type list",
  "Unbounded nesting.",
  ["abi/selector_parser.go:ParseSelector,parseCompositeType,parseType,parseElementaryType"])
# ---------------------------------------------------------------- combined trie
P("C81", "The combined trie is a map with sorted keys",
  "After any sequence of Put and Delete, Get answers as the map, Keys is the strictly sorted list of its keys, and the combined hash depends on the contents only.",
  "every history",
  "Sorted insertion/removal over unbounded histories.",
  ["trie/combinedtrie.go:addKey,deleteKey,Get,Put,Delete,Keys,computeHash"])
P("C82", "Readers and writers of a SyncTrie are serialised",
  "In every execution of concurrent SyncTrie calls, the observed results equal those of executing the calls one after another in lock order.",
  "every schedule",
  "Schedules are unbounded.",
  ["trie/synctrie.go"])

P("C83", "Merkle proofs are sound, or a collision is exhibited",
  "If a proof with one item per tree level evaluates from a hash to the Merkle root of a list, that hash is the element of the list at the position spelled by the order flags of the proof, or two different hash inputs with equal digest are exhibited.",
  "every list of 32-byte hashes, every proof object (honest or forged), every hash function with 32-byte output",
  "Soundness quantifies over all forged proofs.",
  ["hash.go:MerkleHashComplete,MerkleHash,MerkleProofs.Proof,Iterate"])
P("C85", "BytesIntersection is set intersection",
  "BytesIntersection returns exactly the byte strings that occur in both lists, each once.",
  "every pair of lists of byte strings",
  "All lists.",
  ["bytes.go:BytesIntersection"])
P("C86", "ReverseBytes reverses",
  "ReverseBytes puts byte i at position len-1-i, and applying it twice gives the original.",
  "every byte string",
  "Unbounded lengths.",
  ["utils.go:ReverseBytes"])
P("C87", "In-place big integer arithmetic is exact and touches only the receiver",
  "Add/Sub/Mul/Div/MulRat/AddInts return the exact sum, difference, product, Euclidean quotient, floor of the product with the fraction, and sum of all summands, with nil as zero; no number other than the receiver changes; division panics exactly on zero; ToUint64 succeeds exactly on values that fit; FirstBitSet is the lowest set bit.",
  "every heap of integers, every (possibly equal) pointers",
  "Aliasing between receivers and arguments over unbounded integers.",
  ["math/big.go:BigInt.AddInt,AddInts,SubInt,MulInt,DivInt,MulRat,ToUint64,FirstBitSet,AddBigInt"])

P("C88", "Bit strings are read bit by bit",
  "Bits.Bit(i) is the i-th bit (most significant first, false past the end); Bits.Bits(n) lists the n leading bits.",
  "every byte string, every index and length",
  "All lengths and positions.",
  ["shardinfo.go:Bits.Bit,Bits"])
P("C89", "ByteSlicesToNodeIDs accepts exactly distinct 64-byte ids",
  "ByteSlicesToNodeIDs succeeds exactly on lists of pairwise different 64-byte strings and then returns them in order; it never panics.",
  "every list of byte strings",
  "Unbounded lists.",
  ["utils.go:ByteSlicesToNodeIDs"])
P("C90", "Comparisons of nullable things are total orders with nil first",
  "NodeID.Compare, any comparison completed by PointerCompare, and CompareSlices are total orders (zero exactly on equal arguments, antisymmetric, transitive) whenever the element comparison is one; nil is smallest; shorter slices precede longer ones and the first difference decides among slices of equal length.",
  "every element order, all arguments",
  "A statement about all element types and orders.",
  ["basic.go:NodeID.Compare", "utils.go:PointerCompare,CompareSlices"])
P("C91", "GetAuditorIds is the sorted union",
  "GetAuditorIds returns the union of genesis data nodes, data nodes and auditors, sorted and without duplicates, independent of map iteration order.",
  "all three lists, every iteration order of maps",
  "Iteration orders of Go maps are random.",
  ["chaininfo.go:ChainInfos.GetAuditorMap,GetAuditorIds"])
P("C93", "The checksummed text of an address determines it",
  "Address.Hex writes the digits of the address with a letter in upper case exactly where the digest of the lower-case text has a digit of 8 or more; HexToAddress and Decode read the address back; different addresses have different texts; no byte outside the digest is read.",
  "every address, every digest function with 32-byte output",
  "2^160 addresses.",
  ["basic.go:Address.Hex,HexToAddress", "bytes.go:FromHex", "hexutil/hexutil.go:Decode"])
P("C94", "The serialization hashed for a data server determines the server",
  "Two different data servers have different hash serializations.",
  "all pairs of data servers",
  "A search over pairs.",
  ["chaininfo.go:Dataserver.hashSerialize"])
P("C95", "Boot node lists stay sorted sets",
  "AddBootNode adds a node exactly if no node with its id is listed, RemoveBootNode removes exactly the node with that id, the list stays in order, and the returned flags say whether the list changed.",
  "every sorted list, every id string, every sorting algorithm",
  "The order of strings and of decoded ids differ only on some inputs.",
  ["chaininfo.go:ChainInfos.AddBootNode,RemoveBootNode"])

P("C92", "A failed batch write is reported",
  "A Batch call that returns nil has written every command of the batch; a Batch call that could not write reports an error.",
  "every database state, every batch",
  "a database failing in the middle of a batch (for example because it was closed) is not exercised by the tests, which only look at successful batches",
  ["db/ldb.go:LDB.Batch", "db/memdb.go:MemDB.Batch"])

P("C96", "GetNilError returns data or an error",
  "GetNilError returns the stored value exactly when the key holds at least one byte, and an error when the key is missing or holds an empty value; it changes nothing.",
  "every database that behaves as a map, every key",
  "the three cases missing, empty and present have to be right for every database implementation and wrapper",
  ["db/types.go:GetNilError"])

P("C98", "A trie without storage keeps its contents",
  "A trie built with nil adapters answers every Get as the map does, no matter how often Commit is called.",
  "every sequence of Get, Put, Delete, HashValue and Commit on a trie with nil node and value adapters",
  "whether something is dropped depends on value sizes and on the number of commits since a node was touched",
  ["trie/trie.go:iterateSave", "trie/trie.go:saveOneNode", "trie/node.go:collapseValue"])


P("C97", "Committing, collapsing and reopening a history tree change nothing that can be observed",
  "In every sequence of Append, Get, HashValue, GetProof, Commit, CollapseBefore and reopening at the root hash, the answers are those of the plain list of values, provided no two different hash inputs of the tree collide and no value is the digest of one of them.",
  "every sequence of calls, every set of storage failures, every digest that does not collide on the tree",
  "Nodes are written, dropped from memory and read back in every order relative to appends and reads.",
  ["trie/historytree.go:Commit,CollapseBefore,_newHistoryTree,saveFull,readFull,commitNode,collapse,expand"])
P("C99", "HistoryTree.Has returns",
  "A call of Has returns, and does not keep other calls from returning.",
  "every schedule of the calling goroutines",
  "Lock order defects are invisible in tests that do not call the method.",
  ["trie/historytree.go:Has,Get"])
P("C100", "A tree restored from the proof of its last value continues like the full tree",
  "The tree that RestoreTreeFromProofs builds from the proof of the last of n values, without any storage, has the root hash of the full tree, and keeps having it however many values are appended to both; any value it returns is the right one. No value is the digest of nothing, and no block of values hashes to it.",
  "every sequence of 32-byte values, every continuation",
  "A light client holds only the right edge of the tree; which siblings exist depends on all 64 bits of the length.",
  ["trie/historytree.go:RestoreTreeFromProofs,_newNodeByHashItems,_mergeHashItems,putValue,Append,HashValue"])
P("C101", "A history proof is accepted only for the value at that height",
  "If HistoryProof accepts a value at a height against the root hash of a tree, the tree holds that value at that height, or a hash collision is exhibited.",
  "every tree, every chain of proofs, every height and value",
  "Soundness quantifies over all forged proofs.",
  ["trie/proof.go:HistoryProof,BigKey,ToItems", "trie/historytree.go:GetProof"])
P("C102", "Reading a history tree does not change its root hash",
  "Get leaves the result of HashValue as it was.",
  "every tree, including restored ones, every key",
  "Reading expands collapsed nodes in place.",
  ["trie/historytree.go:Get,traceDescendant,expand,readFull"])

P("C103", "The proofs of a combined trie verify",
  "For every key that is present, GetProof returns its sub-trie and a chain of proofs that leads from the hash of the sub-trie to HashValue; for every other key it reports failure.",
  "every history of calls, every key",
  "The position of the key in the sorted list and the padding of the Merkle tree vary with the contents.",
  ["trie/combinedtrie.go:GetProof,computeHash", "trie/proof.go:NewMerkleOnlyProof"])
P("C104", "A committed combined trie can be reopened",
  "After a successful Commit, InitTrie of a new combined trie at the root hash yields the same keys, with sub-tries opened at the hashes they had, and the same root hash.",
  "every history of calls, every storage",
  "Tests reopen the trie that was committed last.",
  ["trie/combinedtrie.go:Commit,saveRoot,loadRoot,InitTrie"])
P("C105", "The root hash of a combined trie binds its contents",
  "Two combined tries with the same root hash have the same keys with sub-tries of the same hashes, or a hash collision is exhibited.",
  "every pair of histories of calls",
  "Binding quantifies over all pairs of contents.",
  ["trie/combinedtrie.go:computeHash"])

P("C106", "A value read from an RLP stream lies within the list around it",
  "When a value is read inside a list, its header and content fit into what is left of the innermost list; otherwise ErrElemTooLarge is returned.",
  "every input, every position inside nested lists",
  "Only inputs whose headers lie about sizes are affected.",
  ["rlp/decode.go:Kind,List,Bytes,uint,decodeBigInt,Raw,willRead"])
P("C107", "Reading an encoder's output in pieces gives the encoding",
  "Reading the reader returned by EncodeToReader with buffers of any sizes yields, concatenated, exactly the bytes of EncodeToBytes, each read filling its buffer until the end.",
  "every value, every sequence of buffer sizes",
  "Header pieces and buffer boundaries can fall together in unboundedly many ways.",
  ["rlp/encode.go:EncodeToReader", "rlp/encbuffer.go:encReader.Read,next"])

P("C108", "Packing follows the contract ABI",
  "The packed form of a list of arguments is the one of the ABI specification: all heads followed by all tails, where the head of a dynamic component is the offset of its tail; numbers are two's complement words, byte strings have their length in front and are padded to whole words.",
  "every nesting of static and dynamic types, every well-typed value",
  "Unbounded nesting; an encoder and a decoder that share a mistake pass round-trip tests.",
  ["abi/type.go:pack,getTypeSize,isDynamicType", "abi/argument.go:Pack", "abi/pack.go:packElement,packBytesSlice,packNum"])
P("C109", "Topics of indexed arguments can be read back",
  "The topic that MakeTopics builds for a value of a value type is the ABI word of the value and parsing it gives the value; strings and byte strings are represented by their digest; parsing fails unless there is one topic for each field and all fields are indexed.",
  "every list of values of value types (booleans, addresses, byte arrays, integers, functions)",
  "All values of all widths.",
  ["abi/topics.go:MakeTopics,parseTopicWithSetter"])

P("C110", "Typed RLP encoding can be decoded into the same type",
  "EncodeToBytes of a value gives the RLP of its parts (unsigned numbers without leading zeros, slices, arrays and structs as lists, trailing zero fields left out if optional); DecodeBytes of it into the same type gives the value back, nil slices and interfaces as empty ones; values with a negative big.Int are refused; different values without nil have different encodings.",
  "every type built from bool, unsigned integers, big.Int, uint256.Int, strings, byte slices and arrays, RawValue, interface{}, pointers, slices, arrays, structs with tags and recursive named structs; every value",
  "The types form an infinite family with recursion and tags; tests use a few hand-written structs.",
  ["rlp/encode.go:makeWriter,makeStructWriter,makePtrWriter,makeSliceWriter,makeByteArrayWriter", "rlp/decode.go:makeDecoder,decodeSliceElems,decodeListArray,makeStructDecoder,makePtrDecoder,makeNilPtrDecoder", "rlp/typecache.go:structFields,typeNilKind"])
P("C111", "Decoding into a type accepts exactly the inputs that stand for a value of the type",
  "DecodeBytes into a type succeeds with a value exactly when the input is the canonical RLP of that value as the type prescribes (numbers in range, arrays of the right length, as many fields as there are, optional ones possibly absent, empty values of the right kind for nil); from a stream, exactly these bytes are consumed.",
  "every type of the universe of C110, every input up to the address space",
  "Rejection concerns all malformed inputs.",
  ["rlp/decode.go:DecodeBytes,Stream.Decode,makeDecoder"])
P("C112", "A typed value has one accepted encoding",
  "If DecodeBytes accepts an input with a value, EncodeToBytes of the value gives the input; two inputs with the same value are equal.",
  "every type of the universe of C110, every input",
  "Malleability concerns all inputs of all types.",
  ["rlp/decode.go:makeStructDecoder", "rlp/encode.go:makeStructWriter"])
P("C113", "Decoding, encoding and decoding again changes nothing",
  "A decoded value, encoded and decoded again, is the same value, and a value that can be encoded can be decoded.",
  "every type of the universe of C110, every input and value",
  "Depends on how nil tags, optional fields and zero values interact.",
  ["rlp/decode.go:makeNilPtrDecoder", "rlp/encode.go:makePtrWriter,makeStructWriter"])
P("C114", "Struct tags are checked",
  "ProcessFields keeps the exported fields without '-', in order, with the tags their words mean, and refuses unknown words, nil tags on other types than pointers, tail on other than the last exported field or other types than slices or together with optional, and fields that cannot be absent after one that can; what it admits is what writer and decoder presuppose.",
  "every list of fields, every tag",
  "All combinations of words and fields.",
  ["rlp/internal/rlpstruct/rlpstruct.go:ProcessFields,parseTag,lastPublicField"])

P("C115", "The type cache publishes complete infos",
  "What a caller of info gets has decoder and writer (or their errors) set, and so have all types its functions come to, although they are filled in one by one and recursive types refer to themselves; no later step of any goroutine changes them; at most one goroutine generates; from every state a call can return.",
  "every type graph, every number of goroutines, every schedule",
  "Readers take no lock; a half-filled info is seen only under rare schedules.",
  ["rlp/typecache.go:typeCache.info,generate,infoWhileGenerating,typeinfo.generate"])
P("C116", "Whether a type is supported does not depend on the history",
  "A type gets an error exactly if it contains an unsupported type, and a function that was given out never comes to one that is not there.",
  "every type graph with cycles, every sequence of calls, every schedule",
  "The outcome depends on the order in which recursive types are asked for.",
  ["rlp/typecache.go:typeCache.generate,infoWhileGenerating", "rlp/decode.go:makePtrDecoder,makeListDecoder,makeStructDecoder", "rlp/encode.go:makePtrWriter,makeSliceWriter,makeStructWriter"])
P("C117", "A history tree that can be rolled back is a committed and a pending list",
  "In every sequence of calls of RevertableHistoryTree the answers are those of two lists: Append extends the pending list only, Get, HashValue, GetProof and Expecting answer from the committed one, Commit makes the pending list the committed one, Rollback drops what is pending; what was committed can be opened in the storage. MergeProof of a key in use accepts exactly the value at the key with a chain of that key that leads to the root hash, and changes nothing; Rebase gives a structure with the committed values.",
  "all sequences of calls, all values, all storage contents",
  "The two trees share the storage and nodes are loaded and stored on the way; which sequence exposes a mixture is not known.",
  ["trie/revertable.go:RevertableHistoryTree", "trie/historytree.go:HistoryTree.Clone"])
P("C119", "Chopping a history tree gives the tree of the values up to a key",
  "Chop(key) succeeds exactly for the keys in the tree; the tree itself answers later calls as if Chop had not been called; the new tree answers every sequence of calls, storage included, as a tree made by appending the values up to the key.",
  "all sequences of calls before and after, all keys, all values, all storage contents",
  "Cached hashes of blocks that the cut goes through must be dropped on every level; which are stale depends on the key and on what was hashed before.",
  ["trie/historytree.go:HistoryTree.Chop,TreeNode._chop,TreeNode.copy"])
P("C118", "Merging a proof makes its value readable and changes nothing else",
  "MergeProof(key, value, proof) on a tree restored from a proof accepts the proofs of the full tree and no others; afterwards Get(key) is the value, all values that could be read still can, and Append and HashValue go on answering as in the full tree.",
  "all lists of values, all sequences of appending, hashing, merging and reading, all keys, all forged chains",
  "A merge fills nodes that exist, that are missing and that are known by their hash; which case arises on which level depends on the keys merged before.",
  ["trie/historytree.go:HistoryTree.MergeProof,locateNode,_newNodeByHashItems,_mergeHashItems"])
P("C120", "JSON strings and numbers that are hexadecimal or decimal",
  "UnmarshalJSON of the hexutil types accepts exactly the quoted texts that UnmarshalText accepts, with the same result.  ParseBig256 and ParseUint64 accept exactly the empty text, hexadecimal digits after 0x and decimal digits without it, within 256 and 64 bits.  Every marshalled number is read back as itself.",
  "all texts, all numbers, all decoders of texts",
  "Texts that are nearly right - one quote, a sign, a prefix without digits, a leading zero, one bit too many - are accepted or refused by different code for each type.",
  ["hexutil/json.go:UnmarshalJSON,isString,Uint.UnmarshalText", "math/big.go:ParseBig256,HexOrDecimal256,Decimal256", "math/integer.go:ParseUint64,HexOrDecimal64"])
P("C121", "A trie can be copied through a stream",
  "Marshal writes the values in the order of the keys; if every value determines its key, UnmarshalNewTrie reads the stream to a trie that answers every further sequence of calls, root hashes included, as the original, over whatever storage.  MarshalAsMap and IterateAll give exactly the pairs of the trie in the order of the keys.",
  "all histories of calls with commits and reloads before, all further calls, all stream codecs that read back what they write, all callbacks",
  "The copy is built from other calls in another order than the original, and the original is committed and read back on the way.",
  ["trie/utils.go:Trie.Marshal,MarshalAsMap", "trie/trie.go:UnmarshalNewTrie,IterateAll"])
P("C122", "Batched writing and changing the database do not change a trie",
  "However large its batches, the trie of a BatchPutter answers as if the keys had been put without any commit, and after a whole number of batches everything can be opened from the root hash.  A trie rebased to a database that has the stored entries answers as the original.  IsEmptyTrieRoot recognises exactly the root hashes of tries without keys.",
  "all sequences of puts, all batch sizes, all further calls, all contents of both databases",
  "Commits and collapses happen at positions that depend on the batch size; a wrong one shows only for keys put after it.",
  ["trie/utils.go:BatchPutter,IsEmptyTrieRoot", "trie/trie.go:Rebase", "db/adapters.go:RebaseAdapter"])
P("C123", "Generated RLP methods do what reflection does",
  "For a struct type that rlpgen accepts, the generated EncodeRLP writes the bytes that EncodeToBytes would write by reflection and fails in the same cases, and the generated DecodeRLP accepts the inputs that DecodeBytes would accept by reflection and stores the same value (a slice without elements may be nil).",
  "all types rlpgen accepts, all values, all inputs",
  "rlpgen composes code from templates, and types nest without limit; its tests compare the text of a few examples.",
  ["rlp/rlpgen/gen.go:makeOp,genWrite,genDecode", "rlp/rlpgen/types.go:nonZeroCheck", "rlp/decode.go:MoreDataInList"])
P("C124", "Types are read from the description of a contract as they are declared",
  "NewType reads every Solidity type whose struct sizes fit in memory, with its canonical text and distinct exported camel-case field names; a signature in canonical text comes back from ParseSelector and NewType with the same types and texts.  Canonical texts of different types, and of different lists of types, are different.  Nothing that is not a Solidity type is accepted, and NewType does not panic.",
  "all types of any nesting, all names of fields, all texts of a word and digits",
  "Types nest without limit and the text is taken apart by a regular expression at the last bracket; a wrong canonical text only shows as a selector nobody answers to.",
  ["abi/type.go:NewType,isValidFieldName", "abi/argument.go:ToCamelCase", "abi/utils.go:ResolveNameConflict", "abi/selector_parser.go:ParseSelector"])
P("C125", "Calls, events and errors of a contract are recognised by their declarations",
  "From the description of a contract every function and event, and nothing else, gets an entry under a name of its own, with the canonical signature and the selector or hash of it; at most one fallback and one payable receive are accepted.  A call packed under its name is recognised, whatever the order of the table, as a call of that function and gives back its arguments, or two signatures have the same selector.  Returned values, errors, revert reasons and maps of values come back as they were packed; packed data share no memory with the contract.",
  "all lists of declarations, all values, all hashes, all orders of iteration over the maps",
  "Overloads are renamed depending on what came before; the search goes through a map in random order; sharing of memory shows only when a caller writes to what was returned.",
  ["abi/abi.go:UnmarshalJSON,Pack,MethodById,EventByID,getArguments,Unpack,PackReturns,UnpackRevert", "abi/method.go:NewMethod", "abi/event.go:NewEvent", "abi/error.go:NewError,Unpack", "abi/argument.go:UnpackIntoMap"])

P("C126", "Arguments and fields of structs belong together by tag or name",
  "If the names of arguments or tuple components can be mapped to the fields of a struct, each gets the exported field tagged with its name, else the field that has its name in camel case; no two names share a field, every tag is used, names without tags that are equal in camel case are refused.  A struct without tags is accepted whenever the names in camel case are different.  Copying values puts each in the field of its argument and leaves the other fields alone.  The struct made for a tuple type can be packed again, whatever the names; the order of the arguments does not matter.",
  "all lists of names, all structs, all values",
  "The outcome depends on tags, camel case and the order of two rounds over two maps; tests use a few names.",
  ["abi/reflect.go:mapArgNamesToStructFields", "abi/argument.go:copyTuple", "abi/type.go:pack"])

P("C127", "Unpacked values are stored in the caller's variables without change",
  "If an unpacked value is stored in a variable of another type and the result has the same form, it says the same.  Storing succeeds for every variable whose type differs only in the names of structs and fields, whatever was in it, and goes through pointers and interfaces.  Storing in a variable of an unsuitable type gives an error; arrays of another length are not silently cut or padded; fields of nested structs are matched by name.",
  "all types of Go built from atoms, slices, arrays, structs, pointers and interfaces, all values",
  "Types of destinations are arbitrary; the recursion has cases that never end.",
  ["abi/reflect.go:set,setSlice,setArray,setStruct,indirect", "abi/argument.go:copyAtomic"])

P("C128", "Printed big numbers can be read back",
  "The short form of a big number, a decimal text shortened with an exponent, reads back as the same number, for every decimal text with or without sign, so different numbers are printed differently, and differently from the nil pointer.  The long form shows both texts exactly when the short form differs.  The hexadecimal form reads back as the number.",
  "all integers of any size, all decimal texts with signs and leading zeros",
  "The shortening counts zeros, moves the point and has cases for signs and one digit; tests print a few numbers.",
  ["math/big.go:BigStringForPrint,BigIntForPrint,BigForPrint,HexString"])

P("C129", "Rational numbers are rounded to 64-bit integers as asked",
  "RatToInt64 gives the least integer that is not below the number, RatToInt64Floor the greatest that is not above it, Int64MulRat the product rounded up, and numbers without such a 64-bit integer are reported; nothing else is reported.  CompareBigRat is the order of the numbers with the nil pointer least.",
  "all rational numbers, all 64-bit integers",
  "The functions go through a floating-point number; where its 53 bits do not suffice depends on numerator and denominator.",
  ["math/big.go:RatToInt64,RatToInt64Floor,Int64MulRat,CompareBigRat"])

P("C130", "Encoders that share the pool of buffers do not disturb each other",
  "Whatever programs do with any number of encoder buffers, one after the other or interleaved, with copies, with encoders that write into other encoders and with calls of Encode in between: every destination receives, and every ToBytes returns, what it would if each encoder had a buffer of its own, whichever buffers the pool hands out.",
  "all programs over any number of handles, buffers and destinations, all choices of the pool",
  "Buffers are shared by the whole process and a handle is a struct that can be copied; a mix-up needs a certain order of operations and a certain choice of the pool.",
  ["rlp/encbuffer.go:NewEncoderBuffer,Reset,Flush,ToBytes,getEncBuffer", "rlp/encode.go:Encode,EncodeToBytes"])

P("C131", "Chain descriptions have one form, and answers about them do not depend on order",
  "Sort brings descriptions of a chain with the same content into the same form, so they have the same hash; the hash covers all of the content; sorting changes no answer about administrators, genesis nodes, data nodes, auditors and attributes, and each answer is right for the lists; an administrator is recognised by key and by address alike; AddBootNode adds a node exactly if it was not there; boot nodes pass Validation exactly if they have an address, all three ports and a node id; a chain with a valid structure reports to the main chain and the root to none.",
  "all descriptions, all orders of their lists, all results of unstable sorting, all keys, addresses and node ids",
  "The form must be the same for every order of six lists under an unstable sort; tests sort a few lists and compare with the expected order.",
  ["chaininfo.go:ChainInfos.Sort,HashValue,AddBootNode,IsGenesisNode,HasDataNode,AuditorIDs,AddressIsAdmin,PubIsAdmin,Dataserver.Validation,GetReportTo"])

P("C132", "Proofs say of which header and of which property they are",
  "A proof node is recognised for one chain, height and property only; the proof made for a property of a header leads from the property to the hash of the header and is recognised for it, and a proof that leads there starts from this property of this header; IsHeaderPropertyOf agrees with IsHeaderOf; a proof chain turned into a Merkle proof or into items gives the same hashes and fails for the same chains; Equal is equality of content; Find gives the repeats of an index.",
  "all chain ids, heights, properties, headers with any properties, proof chains and hashes, up to collisions of the hash",
  "The statements are about proofs that an attacker composes, and about all headers and positions.",
  ["trie/proof.go:IsHeaderOf,IsHeaderPropertyOf,IsHdsSummaryOf,NewHeaderPropertyProof,NodeProof.Equal,ProofChain.Equal,ToMerkles,ToItems", "hash.go:MerkleProofs.Equal,MoreTimes.Equal,MoreTimes.Find"])

P("C133", "Addresses of different contracts and keys differ; texts, numbers and wire forms of addresses give them back",
  "Contracts created by different accounts or with different nonces, or with different account, salt and code hash, have different addresses, and the addresses of the two kinds of contracts and of keys differ, all up to collisions of the last 20 bytes of the digest.  IsHexAddress accepts exactly the texts of addresses and HexToAddress gives the address; the number of an address gives it back; ForRLP and FromRLP give the pointer back; StringsToAddresses reads texts.  After any registrations an address is reserved, a system contract, unchecked or free of gas exactly if it was registered so.",
  "all addresses, nonces, salts, code hashes, keys, texts, and all sequences of registrations",
  "Distinctness of addresses is about all pairs of inputs of any two kinds.",
  ["basic.go:CreateAddress,CreateAddress2,IsHexAddress,HexToAddress,BigToAddress,Big,ForRLP,FromRLP,StringsToAddresses,RegisterReservedAddress,RegisterSystemContract,RegisterNoCheckAddress,IsReserved,NoCheck,IsSystemContract,IsNoGas", "bytes.go:HasHexPrefix,IsHex"])

P("C134", "Parts of byte strings are printed as asked",
  "ForPrintSlice and ForPrint give the part of the byte string between the positions, at least one byte, whether it is passed as a slice, a string, an array or a pointer to one; positions outside are moved inside; without positions it is the first five bytes; PrintBytesSlice gives the entries in hexadecimal between brackets; ForPrintSliceString the first elements.",
  "all byte strings, all positions, all ways to pass them",
  "The cases are combinations of two positions, the length and the kind of value, and the failing ones are empty strings and kinds nobody printed yet.",
  ["bytes.go:startAndEnd,ForPrintSlice,ForPrintValue,ForPrint,PrintBytesSlice,ForPrintSliceString"])

P("C135", "Equality and order of hashes and pointers that may be missing",
  "HashSliceEquals and HashEquals are the same equivalence: nothing and the hash of nothing are equal to each other and to nothing else, other hashes are equal to themselves; Equal of pointers, SliceEqual and HashsEquals are equality of content; InvalidHash agrees with Hash.Invalid and rejects what is not a hash; PointerSliceLess completed by an order of the objects is the order with nil least and a strict weak order.",
  "all hashes, slices, pointers, element orders, lists and positions",
  "An equivalence is a statement about all triples.",
  ["hash.go:IsNilHash,InvalidHash,HashSliceEquals,HashEquals", "basic.go:Hash.Equal,SliceEqual,HashsEquals,Hash.Invalid,Address.Equal,Seed.Equal,Height.Equal,EraNum.Equal", "utils.go:PointerSliceLess"])

P("C136", "Packing and unpacking by name fit together",
  "What PackInputWithoutID, Pack, PackReturns and PackEventArgs pack for a function or event of a contract description is unpacked to the same values by UnpackInput, InputUnpack, UnpackInputObject, UnpackReturns, UnpackReturnsMap, UnpackIntoMap, Unpack and UnpackIntoInterface; UnpackInputObject takes only calls with the selector of the function; MethodString and ReturnsString show the name and, in order, each argument, byte strings in hexadecimal without loss.",
  "all contract descriptions, functions, events and values; every order of the table of methods; any way to store values in the object",
  "Descriptions, types and values are unbounded, and the failing cases are the degenerate ones: no inputs, no results, no data.",
  ["abi/abi.go:PackEventArgs,UnpackIntoInterface,UnpackIntoMap,PackInputWithoutID,InputUnpack,UnpackInput,UnpackReturnsMap,UnpackReturns,_argString,_argsValuesString,MethodString,ReturnsString", "abi/argument.go:UnpackIntoInterface,UnpackIntoMap", "abi/thinkium.go:UnpackInputObject"])

P("C137", "Dump copies the whole trie",
  "Dump of a committed trie to another database, when it returns nil, has copied every node and value: the trie opened at the same root hash over that database alone has the same contents and root hash and answers all further calls alike; what that database held before is kept or becomes what the storage has. It returns nil whenever no Save fails. valueCallback is called exactly once for each key, in ascending order, with the stored bytes of the value.",
  "all sequences of operations before the commit, all collapsed and expanded states in memory, all contents of the other database, every set of failing Save calls, with and without callback",
  "Trees, paths and states of expansion are unbounded; a node or value that is left out shows only when the copy is read at that place; the empty key and empty encodings are rarely tried.",
  ["trie/trie.go:Dump,expandNode", "trie/iterator.go:depthFirstNextStep,moveToNext,CurrentPrefix", "hash.go:InvalidHash"])

P("C138", "Texts, numbers and order of small values",
  "The texts of era, epoch, block and height numbers, chain ids and lists of them, chain modes, node types, net types, election types, seeds and addresses tell different values apart, nil pointers and nil numbers included. FromBig of heights and chain ids accepts exactly the numbers in range and keeps their value. Cmp of pointers is a strict total order with nil first; ChainIDs.Equal is equality with nil and empty lists apart. Sorting data nodes by Less gives one result: genesis nodes first, each group by id. The name of an election type leads back to a type of the same kind. A valid election type excludes other elections exactly if its committee is managed and rewards exactly if it is a VRF election. A net has an address exactly if a non-empty one was given for it; the consensus net alternates with the epoch.",
  "all values, nil included, all lists and all orders in which sort may proceed",
  "The value spaces have 2^32 to 2^256 elements and lists are unbounded; a clash of two texts shows only for the pair that clashes.",
  ["basic.go:EraNum,EpochNum,BlockNum,Height,Address,Seed,ElectionType,NodeType", "chaininfo.go:ChainID,ChainIDs,ChainMode,NetType,DataNodes,NewNetInfo,ChooseConNetByEpoch"])

P("C139", "A combined trie can be committed and opened again with all its sub-tries",
  "Let a combined trie be filled with new tries under keys, let any calls be made on it and on the tries that Get returns, and let it be committed and initialised again at its hash over the same storage any number of times, with Commit visiting the sub-tries in any order. Then every call is answered as if each sub-trie was kept in memory; Keys gives the keys in ascending order; HashValue is the Merkle root of the root hashes in key order; commits succeed; reopening succeeds unless there is no sub-trie. After Commit, IsDirty is false. For prefix-free keys every name and key holds, after reopening, the value last put there. If IsDirty is false, the combined trie can be opened at its hash. Whatever Save calls fail, Commit returns nil only if Commit of every dirty sub-trie does, and an error only if Commit of one does; then no root is written.",
  "all sequences of calls on a combined trie and its sub-tries, all iteration orders of the map, all generation limits, all lawful codecs and hash functions without a collision among the trees passed through",
  "Sub-tries share one node storage, so whether a commit of one harms another depends on the whole history; map iteration order is random; loss shows only after the trie is opened again.",
  ["trie/combinedtrie.go:SmallCombinedTrie.Commit,IsDirty,Keys,HashValue,Put,Delete,Get,saveRoot,InitTrie", "trie/trie.go:Trie.IsDirty,Commit"])

P("C140", "A stored trie makes the same proofs as a trie in memory",
  "Whatever is put, deleted, committed, collapsed and reloaded before, GetProof and GetExistenceProof of a trie over its storage return exactly the value and the proof chain that a trie kept only in memory returns for the same contents, and making proofs changes no later answer. Hence for prefix-free keys every stored value has a proof that verifies against HashValue, absent keys have none, and for every non-empty key the existence proof leads to HashValue and says whether the key is there and with which value hash.",
  "all sequences of calls (put, delete, get, hash, commit, collapse, reload, proofs), all keys, all generation limits, all lawful codecs and hash functions without a collision among the trees passed through",
  "Which nodes are loaded, expanded or hashed when a proof is made depends on the history of commits and collapses; a header of a half expanded node gives a wrong proof only for that state.",
  ["trie/trie.go:Trie.GetProof,GetExistenceProof,getProofLocked,getExistenceLocked,get,expandNode", "trie/node.go:node.GetProof,computeHash"])

P("C141", "A value in a sub-trie is proved against the combined trie by joining two chains",
  "After any calls on a combined trie and its sub-tries, commits and reopenings, the proof chain of a value in a sub-trie followed by the proof chain of that sub-trie in the combined trie leads from the hash of the value to the hash of the combined trie. A name that is not attached and a key that is not in the sub-trie have no proof. Conversely, a chain that leads to the hash of the combined trie, whose last element has as many hashes as the tree over the sub-tries is deep, leads before that element to the hash of the sub-trie at the position the element spells, or to the nil hash at a position behind the sub-tries, or a collision is exhibited.",
  "all sequences of calls, all names, all prefix-free sets of keys, all chains presented, all lawful codecs and hash functions without a collision among the trees passed through",
  "The two chains are made by different code and meet only in the verifier of a light client; the number and order of sub-tries and the state of each sub-trie (loaded, collapsed, dirty) all enter.",
  ["trie/combinedtrie.go:CombinedTrie.GetProof,HashValue", "trie/trie.go:Trie.GetProof", "trie/proof.go:ProofChain.Proof,VerifyProofChain"])

P("C142", "An RLP stream is a cursor over nested values",
  "Any sequence of calls (Kind, Bytes, ReadBytes, Raw, Uint8 to Uint64, Bool, BigInt, ReadUint256, List, ListEnd, MoreDataInList, Decode into an interface) on a stream over the encodings of a sequence of values answers what a cursor in the nested values answers: the value itself, its kind and size, EOL at the end of a list, io.EOF at the end of the input, and the error of a call that does not fit the value. A list ends with ListEnd exactly when nothing is left in it. NewListStream with the length of its input stands before a list of the values.",
  "all sequences of nested values, all sequences of calls, streams with and without a known input length",
  "The state of a stream (header read or not, room left in each list, sticky end of input) depends on the whole history of calls, failed ones included.",
  ["rlp/decode.go:Stream.Kind,Bytes,ReadBytes,Raw,Uint,Uint8,Uint16,Uint32,Uint64,Bool,BigInt,ReadUint256,List,ListEnd,MoreDataInList,NewListStream,NewStream"])

P("C143", "A cached database behaves like one database under concurrent use",
  "Goroutines call Get, Has, Put, Delete, Batch, Close and Replace on one cached database, and its cache drops entries at arbitrary moments. The calls that have returned, in the order in which they returned, are answered as by one database without a cache on which the calls are made one after another; every goroutine's calls appear in its own order. In particular a Get that starts after a Put, Delete or Batch has returned never answers an older value. Whenever no write is running everything cached is in the database. No schedule gets stuck. After Close every call fails.",
  "all numbers of goroutines, all sequences of calls, all schedules, all moments of eviction",
  "Stale entries appear only when a reader that missed the cache adds its value between the write and the removal of another goroutine; such schedules are too rare to hit.",
  ["db/cacheddb.go:cachedDB.Put,Has,Get,Delete,Batch,Close,Replace", "db/ldb.go:LDB"])

P("C144", "An LruMap keeps the first value of its recently used keys",
  "NewLruMap succeeds exactly for positive sizes. After any calls the map has at most as many keys as its size. Add answers true exactly when the key is missing; it then stores the value, and otherwise changes nothing. What Get answers was stored by an accepted Add since which the key has not been removed and the map not cleared. A key that was accepted or read stays with its value until it is removed, the map is cleared, or as many other keys as the size of the map have been added or read; and when as many other keys have been accepted since it was last used, it is gone. Two goroutines that add the same missing key: exactly one is told true.",
  "all sizes, all sequences of calls, all interleavings of two Adds of one key",
  "Which key is dropped depends on the whole history of uses; the race of two Adds needs a particular interleaving of two calls of the cache.",
  ["types.go:NewLruMap,LruMap.Add,LruMap.Get,LruMap.Contains,LruMap.Remove,LruMap.Clear"])

P("C145", "Hashes of slices, objects and lists of them",
  "Hash256s of several slices is the 32 byte digest of their concatenation, and binds the slices. The Merkle roots over slices bind the slices when their number is known, and a proof collected for an index leads from the digest of that slice to the root. HashObject of a value without its own hash is the digest of its encoding and fails exactly when the encoder does; the Merkle roots over values are those over their encodings. EncodeHash distinguishes values. HashRipemd160 is the RIPEMD-160 digest of the data. The hash of a node of a binary tree binds both sides.",
  "all slices, all lists of slices and values, all digests of 32 bytes, all encoders",
  "Binding is a statement about all pairs of inputs; the missing borders between slices and the appended data are invisible to tests that compare a hash with itself.",
  ["hash.go:Hash256,Hash256s,CipherHash256,HashRipemd160,SlicesToHashs,SlicesMerkleHash,SlicesMerkleHashComplete,ValuesToHashs,ValuesMerkleHash,ValuesMerkleTreeHash", "hasher.go:HashObject,EncodeAndHash,EncodeHash", "trie/binarytree.go:HashValue"])

P("C146", "A trie of tries behaves like one map under concurrent use",
  "Goroutines call Get, Put, Delete, Keys, HashValue and GetProof on one SmallCombinedTrie while others change its sub-tries. The calls that have returned, in the order in which they returned, are answered as by one map from keys to sub-tries on which the calls are made one after another; Keys is the sorted list of its keys; every goroutine's calls appear in its own order; no schedule gets stuck. A hash or proof is that of the map and its sub-tries at one moment.",
  "all numbers of goroutines, all sequences of calls, all schedules, all changes of the sub-tries",
  "The map and the sorted key list are updated in separate steps, and the sub-tries have locks of their own; a hash that mixes two moments needs a particular schedule.",
  ["trie/combinedtrie.go:SmallCombinedTrie.Get,Put,Delete,Keys,HashValue,GetProof,computeHash,addKey,deleteKey"])

P("C147", "The databases in memory can be used by several goroutines at once",
  "Goroutines call Put, Get, Has, Delete and Batch on one MemDB or on one temporary database over a base. The calls that have returned are answered as by one map on which whole calls are made one after another, every goroutine's calls in its own order, and no schedule gets stuck. For a temporary database the order is that of returning, and a batch is seen whole or not at all.",
  "all numbers of goroutines, all sequences of calls, all batches, all schedules, all bases of a temporary database",
  "Half of a batch is visible only to a reader that comes between two of its commands; tests run one goroutine or cannot steer the schedule.",
  ["db/memdb.go:MemDB.Put,Has,Get,Delete,Batch", "db/readonly.go:temporaryDB.Put,Has,Get,Delete,Batch,_put,_delete"])

P("C148", "A trie can be used by several goroutines at once",
  "Goroutines call Get, Put, Delete, HashValue, Commit, GetProof, GetExistenceProof, Count, IsEmpty and Collapse on one Trie with prefix-free keys over a storage. In every execution there is an order of whole calls, agreeing with the order in which calls return and begin, in which one map gives every goroutine the results it got: values, number of keys, root hashes, and proofs that verify. No execution gets stuck.",
  "all numbers of goroutines, all sequences of calls, all schedules, all values, all prefix-free sets of keys, unless a hash collision is met",
  "Count, IsEmpty and Collapse take no lock; what goes wrong needs another call between two of their memory accesses.",
  ["trie/trie.go:Trie.Get,Put,Delete,HashValue,Commit,GetProof,GetExistenceProof,Count,IsEmpty,Collapse", "trie/node.go:isEmpty,canCollapse,collapse"])

P("C149", "A history tree can be used by several goroutines at once",
  "Goroutines call Append, Get, Expecting, HashValue, GetProof, CollapseBefore, Commit and CommitAndHash on one HistoryTree. In every execution there is an order of whole calls, agreeing with the order in which calls return and begin, in which each answer is that of the list of the values appended before: the append at the length is accepted and no other, Get gives the value at the position, Expecting the length, the root hash is that of the list and so is what proofs prove. Of all appends at one key at most one is accepted, and all goroutines that get a value for a key get that one. No execution gets stuck.",
  "all numbers of goroutines, all sequences of calls, all schedules, all values, up to 2^64-1 values; with stores, unless a hash collision is met",
  "Races need interleavings inside the critical sections that the scheduler rarely produces.",
  ["trie/historytree.go:HistoryTree.Append,Get,Expecting,HashValue,GetProof,CollapseBefore,Commit,CommitAndHash"])

P("C150", "A clone shares no memory with its original",
  "Clone of MerkleProofs, NodeProof (with its header), ProofChain, ChainInfos and AccountSharding, and the copying functions for byte slices, lists of byte slices, hashes, node ids, chain ids, attributes, repeats and big integers give a value equal to the original (nil for nil) in memory of its own: no write to memory that existed before changes what the clone shows, no write to memory the clone is made of changes what the original shows. What a sharding gives out does not let its holder change the sharding.",
  "all contents of memory, all windows of slices, all sequences of writes",
  "A shared array shows only when one side is written to afterwards, through a field a test does not look at.",
  ["hash.go:MerkleProofs.Clone,MoreTimes.Clone", "trie/proof.go:NodeProof.Clone,ProofChain.Clone", "trie/node.go:KeyPart.Clone,NodeHeader.Clone", "chaininfo.go:ChainInfos.Clone,ChainIDs.Clone,ChainAttrs.Clone", "basic.go:NodeIDs.Clone,CopyHashs,Hash.Clone", "bytes.go:CopyBytes,CopyBytesSlice", "math/big.go:CopyBigInt", "shardinfo.go:AccountSharding.Clone,AllIDs,Pos"])

P("C151", "A set of node ids can be shared by goroutines",
  "Goroutines may call Put, Delete, Len, Less, GetIndex, Get and GetNodeIDs of one NodeIDSet at any time: the answers are those of the calls made one after another in some order. If nobody deletes, at most one Put of an id reports that it added it, and goroutines that find an id find it at the same index, different ids at different indexes.",
  "all numbers of goroutines, all sequences of calls, all schedules of the memory accesses",
  "The wrong schedules need a deletion or a swap to fall between two particular reads.",
  ["basic.go:NodeIDSet.Put,Delete,Len,Less,Swap,Get,GetIndex,GetNodeIDs"])

P("C152", "A revertable trie can be shared by goroutines, and uncommitted changes stay isolated",
  "Goroutines may make any calls of one RevertableTrie at any time: there is one order of the calls, in keeping with what happens before what, in which they are answered as two separate tries in memory (committed and live) answer them one after another. As long as nobody commits, Get answers as at the start whoever puts, deletes, checks or rolls back. What is put into a trie that LiveTrie gave out is not seen by Get before a commit, and is gone after a rollback.",
  "all tries, all numbers of goroutines, all sequences of calls, all schedules",
  "Interleavings of the steps inside the methods, and pointers kept across a commit, are rarely tried by tests.",
  ["trie/revertable.go:RevertableTrie (all methods), LiveTrie, checkLiveLocked, _prepareCommit"])

P("C153", "Node ids are read from texts and bytes faithfully; paths of databases are distinct",
  "StringsToNodeIDs answers exactly when every text consists of pairs of hexadecimal digits, with the ids in order; the full texts of ids are read back; a text of 128 digits is read as exactly these digits. AppendByHex leaves the list alone when it fails and otherwise appends the same id. ParseBytesToNodeIdBytes cuts into pieces of 64 bytes or fails. IsIn and IsNodeIDIn answer membership (the latter up to collisions). IdentifiersToNodeIDs drops exactly the nil ones. DatabasePath differs for different base paths or chains; FormalizeBasePath ends with a slash and is idempotent.",
  "all texts, byte strings, lists, hash functions, paths and chain ids",
  "Odd lengths, short and long texts, and lists that fail in the middle are tried by tests with a few samples only.",
  ["basic.go:ParseNodeIDBytes, ParseNodeID, ParseBytesToNodeIdBytes, StringsToNodeIDs, NodeIDs.AppendByHex, NodeIDs.IsIn", "types.go:IdentifiersToNodeIDs", "utils.go:FormalizeBasePath, DatabasePath, IsNodeIDIn"])

P("C154", "A revertable history tree can be shared by goroutines; committed values stay",
  "Goroutines may make any calls of one RevertableHistoryTree at any time: there is one order of the calls, in keeping with what happens before what, in which they are answered from two lists: Append extends the pending list only, Commit makes it the committed one, Rollback drops it, and reading, hashing and proving go by the committed list. Once Get has answered a value for a key, every later Get of the key answers it; between two commits all Gets of a key answer alike.",
  "all numbers of goroutines, all sequences of calls, all schedules",
  "Interleavings of the assignments to Live and Origin with the calls of the two trees are rarely tried by tests.",
  ["trie/revertable.go:RevertableHistoryTree (_checkLive, Append, Expecting, HashValue, CommitAndHash, PreHashValue, PreCommit, PreCollapseBefore, CollapseBefore, _prepareCommit, Commit, Get, GetProof, Rollback)"])

P("C155", "A node of a history tree survives Serialization and Deserialization",
  "The root node of a history tree, written by Serialization after any calls that end with a successful Commit and read by Deserialization, stands for the same values over the same storage: a tree with the node read back gives the same answers to all further calls (appends, reads, proofs, root hashes, collapses, commits, reopening), also if other bytes follow the node. A nil node is written as one byte that is told from every other node; other first bytes are refused.",
  "all values, all earlier and later calls, all bytes that follow",
  "The bytes hold only the hashes of the children, so the answers depend on the node and on everything stored below it.",
  ["trie/historytree.go:TreeNode.Serialization, TreeNode.encodeDescendants, TreeNode.Deserialization, TreeNode.decodeDescendants"])

P("C156", "The map of last blocks can be shared by goroutines; copies are of one moment",
  "Goroutines may call Set, Get, CAS and CopyMap of one LastBlockMap at any time: there is one order of the calls, in keeping with what happens before what, in which they are answered as by a map from chains to heights; CopyMap gives the whole map as it is at its place in the order. Of two copies without a Set between them the later one has every chain of the earlier one at the same or a greater height.",
  "all numbers of goroutines, all sequences of calls, all schedules, all contents",
  "A copy mixed from two moments needs a write between two entries of the loop.",
  ["basic.go:LastBlockMap.Set, Get, CAS, CopyMap, WatchHeight"])

P("C157", "Printed lists can be read back",
  "Two lists printed alike by InfoString at one level have the same element texts in the same order, if these texts have no comma; two lists of byte slices printed alike by InfoString or by DoubleByteSlice are equal. A nil slice prints unlike every list. The text is one line per element, indented by one tab more than the closing bracket.",
  "all levels, all lists, all texts of the elements without a comma",
  "That no two lists share a text is a statement about pairs of lists of any lengths.",
  ["types.go:IndentLevel.IndentString, IndentLevel._valueInfo, IndentLevel.InfoString, IndentLevel.DoubleByteSlice"])

P("C158", "What a history tree restored from a chain nobody vouches for stands for",
  "A history tree restored by RestoreTreeFromProofs from any chain has as root hash what the value and the first 64 elements of the chain lead to in the order of the bits of the key, or an error. So if its root hash is that of a tree of some values, its value is the value at that key (or the digest of nothing at an unused key), or a collision is exhibited. If besides every element on the right of the path is the digest of nothing, the key is the last one and the restored tree expects the right next key.",
  "all chains, keys and values; all lists of fewer than 2^64 values; all hash functions with 32 byte digests",
  "The chain comes from whoever sends it, so all chains have to be considered, not the ones GetProof makes.",
  ["trie/historytree.go:RestoreTreeFromProofs, _newNodeByHashItems, HistoryTree.HashValue, HistoryTree.Append"])

P("C159", "Descriptions of types, and types with their own methods",
  "By reflection a description is made of every type of every program, recursive or not, and it shows the forms and methods of the type, its element, and so on, however far it is followed; the empty value for a nil pointer is the empty string exactly for types whose values are strings. The generator describes the same forms, and ends exactly for the types whose elements end or come back to a type that is not a defined type. Values are read the way they are written if a type has both methods or none (and byte types have EncodeRLP on the type itself); without methods the generator chooses what reflection chooses.",
  "all graphs of types, finite or not where nothing else is said; all sequences of types the generator has described before",
  "Types are recursive, so descriptions are cyclic; the claim is about all programs and all depths.",
  ["rlp/typecache.go:rtypeToStructType, typeNilKind", "rlp/internal/rlpstruct/rlpstruct.go:Type.DefaultNilValue, isByte, isByteArray", "rlp/rlpgen/gen.go:buildContext.typeToStructType, buildContext.makeOp", "rlp/rlpgen/types.go:typeReflectKind, resolveUnderlying", "rlp/encode.go:makeWriter", "rlp/decode.go:makeDecoder, makeListDecoder"])

P("C160", "Imports and variables of a generated file",
  "The imports of a file generated by rlpgen are sorted without repetition, and they are the packages asked for except the own one, whatever the order of calls and of the map. What is written before a type name is nothing for types of the own package, and otherwise the name of a package that the file imports. All temporary variables of a function are different.",
  "all sequences of calls while a file is generated, all packages",
  "The order of calls depends on the type, the order of the map on the run.",
  ["rlp/rlpgen/gen.go:genContext.temp, genContext.resetTemp, genContext.addImport, genContext.importsList, genContext.qualify"])

P("C161", "Messages reach the log they belong to, with their fields",
  "After any calls, the file of each logger has exactly the entries made by it, in order; an entry of the package functions carries the fields set since the last InitLog, the last of each name, and an entry of another logger the fields of that logger; the console shows in order all entries before the first InitLog, and later those from info to error. For all writers and formatters the hook writes to the console only what its levels allow and what the file has, and returns an error exactly if something it used failed. Files have the same name exactly if the first five bytes of the node ids are the same. The log of checks accepts messages exactly if its first initialisation succeeded. WithField makes fields of all pairs it is given.",
  "all sequences of calls, levels, fields and messages; all writers, formatters and ids",
  "The fields of an entry depend on the whole history of calls.",
  ["log/log.go:InitLog, InitLogWithSuffix, Debug, Info, Warn, Error, MustDebugf, WithField, WithFields, SetFields", "log/hooks.go:NewFileAndConsoleHook, FileAndConsoleHook.Fire", "log/cashcheck.go:InitCheckLog, CCDebug, CCInfo, CCWarn, CCError"])

P("C162", "A decoding error says which part of the input it is about",
  "The error of decoding bytes into a value carries a type and a context, a way through fields and elements. For every input the way leads from the type decoded into to the type in the error. If the input is an encoded item, the way leads to an item inside it that is no encoding of a value of its type, and in every list on the way the items before are encodings of values. The text of the context determines the way. Every error carries a context, and the type in it is that of the value it leads to.",
  "all types with recursion, pointers, tags; all inputs; all encoded items; all names of fields without dots and brackets",
  "The context is put together on the way back through the decoders of nested types.",
  ["rlp/decode.go:decodeError, wrapStreamError, addErrorContext, DecodeBytes, Stream.Decode, makeDecoder, decodeListSlice, decodeSliceElems, decodeListArray, decodeByteArray, makeStructDecoder, makeNilPtrDecoder, decodeInterface"])

P("C163", "A printed trie says what it holds",
  "String has a readable line for every node of the trie, in which a value stands behind its key, whatever is committed, collapsed or reopened; what is read from the text, keys and texts of values in ascending order, are exactly the contents. Tries that are printed alike hold the same. PrintValues prints the same lines for the nodes with values, ValueString the texts of the values in the order of the keys. Printing changes no later answer of the trie.",
  "all sequences of calls, commits, collapsed nodes, reopened tries; all values and texts of values, with and without commas and line breaks; storages with and without all nodes",
  "What is printed depends on which nodes and values happen to be in memory.",
  ["trie/trie.go:Trie.String, Trie.PrintValues, Trie.ValueString, Trie.iteratePrint, Trie.IterateAll", "trie/node.go:node.print", "trie/utils.go:prefixToHexstring"])

P("C164", "Types with their own RLP methods inside other types",
  "If the methods EncodeRLP and DecodeRLP of a type are lawful (the one adds the bytes of the value, at least one; the other accepts exactly these wherever they stand, and reports the end of a list only if it is called there), then in any type built around it - pointers, slices, arrays, structs, in any nesting - an input is accepted exactly when it stands for the value, what was encoded is decoded to the value, and different inputs have different values. Methods that call Encode and Decode for another type are lawful. The encoder refuses a value exactly if a method of the pointer is needed for a part that is neither behind a pointer nor in a slice; a pointer to the value is never refused. The method is not called for a nil pointer.",
  "all methods, all types around them, all values, all inputs shorter than 2^63-3",
  "The methods are written by users of the package; tests try a few types of their own.",
  ["rlp/encode.go:Encoder, makeWriter, makePtrWriter, makeEncoderWriter, makeSliceWriter", "rlp/decode.go:Decoder, makeDecoder, decodeDecoder, decodeSliceElems, decodeListArray, makeStructDecoder"])

P("C165", "Classes of chain ids, digests of numbers, names of attributes and addresses of a node",
  "Every chain id is main, a reserved sub-chain, nil or defined by a user, and IsMain, IsReserved, IsNil, IsSub and IsUserDefined answer accordingly. UsefulEpoch and UsefulBlock give back the height. Heights, era numbers and seeds with the same Hash are the same, nil included, or two inputs with the same digest are at hand; the Hash of an address is the address with zeros in front. Seed.Equals and IsZero are equality. AddByName accepts exactly the names that are attributes in upper case. BytesIntersectionMap has each common element once. GetAddr gives the address added last, and copies of a NetInfo are independent. UnmarshalFixedUnprefixedText accepts exactly the texts with the right number of digits, with or without prefix. Short texts tell hashes apart.",
  "all ids, heights, epoch lengths, seeds, hashes, lists of names, orders of map iteration, sequences of AddAddr calls, and texts",
  "2^32 ids and 2^64 heights; maps are shared between copies, which shows only when both are used.",
  ["chaininfo.go:ChainID.IsReserved,IsNil,IsMain,IsSub,IsUserDefined,AddByName,ToStringSlice,NetInfo.GetAddr,AddAddr", "basic.go:UsefulEpoch,UsefulBlock,Hash,Seed.Equals,IsZero,TerminalString,PrintString", "bytes.go:BytesIntersectionMap", "hexutil/json.go:UnmarshalFixedUnprefixedText", "shardinfo.go:Bits.Byte"])

P("C166", "Writes that fail in commits of a trie, and commits that are repeated",
  "Whatever Save calls fail in the commits of a trie, it goes on answering every Get, Put, Delete and HashValue as a map does; a commit either returns nil or reports an error; and after a commit in which no Save fails, a trie opened at the hash over the same storage holds everything that was put. The same holds of a history tree, where moreover a commit that returns nil has stored everything.",
  "all sequences of calls, all sets of Save calls that fail in each commit, all initial storages, all limits of generations and value lengths, all key lengths",
  "Failing writes have to be injected at every subset of the nodes of every commit; errors of children are thrown away in silence, and the consequence shows a hundred commits later.",
  ["trie/trie.go:Commit,commitLocked,flushToDB,iterateSave,saveOneNode", "trie/node.go:shouldCollapse,collapse,collapseValue,expandNode", "trie/historytree.go:Commit,commitNode,saveFull,saveEntireNode"])

P("C167", "Proofs as JSON, and the texts of proof types and node headers",
  "A chain of proofs written as JSON is read back the same, also into a variable that held another chain, and with its fields in another order or among other fields; the text of a proof type tells the type, and the text of the header of a node tells its prefix, its children and whether it has a value. What is read can be used: no method of it panics.",
  "all proof chains with nil chains, nil nodes and nil fields, all earlier contents, all orders of fields, all proof types, all headers, all shapes of nodes",
  "Reading into used variables keeps old elements and fields in ways that fresh test values do not show, and texts collide only for rare pairs.",
  ["trie/node.go:KeyPart,ChildFlag,NodeType.String,NodeHeader.String", "trie/proof.go:NodeProof,ProofChain,ProofType.String", "hash.go:MerkleProofs,MoreTime,BigKey"])

P("C168", "Sums and payments made by many calls on big integers, and which results are copies",
  "Adding numbers one by one to a sum that starts as nil gives their sum and changes none of them; paying a list of amounts out of a balance takes together the smaller of the balance and their sum, never more than is asked for, and changes no earlier number; results that are copies are never the argument; the larger, the smaller and the power are those of the integers.",
  "all heaps of numbers, all lists of pointers with nil and repeated ones, all integers",
  "The methods change their receivers in place and return their arguments in some cases; whether a number is shared shows only after later calls.",
  ["math/big.go:AddBigInt,MustBigInt,MustPositiveInt,MustCreatedBigInt,BigMax,BigMin,BigPow,SubIntNotLessZero,SetInt,Int,MustInt,MustPositive"])

P("C169", "A trie opened at a root over a storage that is not trusted",
  "A trie opened at a root hash gives, over any contents of the storage, only values that the tree with this root has under the key, and a key whose node is lost is not reported as absent.",
  "all storage contents, all trees, all sequences of Get, all keys; the digest is arbitrary",
  "A forged or lost entry can be any bytes under any hash; tests read back what they saved.",
  ["trie/trie.go:expandNode,expandNodeValue,Get,get,NewTrie,HashValue", "trie/node.go:expandValue,Deserialization", "trie/historytree.go:_newHistoryTree,readFull"])

P("C170", "What a client that knows only the root of a history can be shown",
  "A client that knows the root of the history tree of a chain accepts, as property i of the header at height h, exactly the hash the header has there; if the property is the root of a trie, it learns from an existence proof exactly what the trie has under a key.",
  "all chains of headers, all heights, properties, tries over prefix-free keys and keys, all proofs of the right lengths; the digest is arbitrary",
  "Forged proofs are searched for among all chains of nodes; tests check proofs that the code has made.",
  ["trie/proof.go:VerifyProofChain,HistoryProof,IsHeaderOf,NewHeaderPropertyProof,Exist,ExistenceHash", "trie/historytree.go:GetProof", "trie/trie.go:GetProof,GetExistenceProof", "hash.go:HeaderIndexHash"])

P("C171", "Texts of Merkle proofs",
  "The texts of a Merkle proof tell what it proves: equal texts mean equal items, the orders shown are the orders of the items.",
  "all proofs with a path that is not negative, all repeat tables, all indents",
  "That two different proofs never have the same text is a statement about all pairs of proofs.",
  ["hash.go:MerkleProofs.Summary,MerkleProofs.String,MerkleProofs.InfoString,_hashsIterate", "bytes.go:SubBytes", "math/big.go:HexString"])

P("C172", "Databases and the memory of their callers",
  "A database keeps the values it was given: what a caller writes afterwards into its own slices changes nothing that is stored, and what it writes into a slice that Get returned changes nothing either. Replace hands back the old database with all writes and serves only the new one.",
  "all sequences of making and writing slices and of calls, with any dropping of cached entries",
  "Aliasing shows only when a caller reuses a slice at the wrong moment, which tests with fresh slices never do.",
  ["db/memdb.go:Put,Get,Has,Delete,NewBatch,Batch", "db/cacheddb.go:Put,Get,Delete,Replace"])

P("C173", "Copying unpacked values into an object",
  "Arguments.Copy stores the value of every argument that is not indexed in the field of the caller's struct that belongs to it, by tag or by name, or in the element of the slice or array at its position, and leaves the other fields and elements as they are. A single value is stored in the caller's variable, or in the first field of a struct. If the types are those of the values and there is room, it succeeds.",
  "all arguments, all structs with any names and tags, all slices and arrays, all values of the types that reflect-based copying handles",
  "The cases are combinations of names, tags, orders of fields, indexed arguments and kinds of destination.",
  ["abi/argument.go:Copy,copyTuple,copyAtomic"])

P("C174", "Identifiers and memory",
  "Clone, Copy, ForRLP, FromRLP and the Bytes of a copied receiver give values of their own: nothing that is written later into the one is seen through the other. Slice gives a view: it always shows the identifier, whichever of the two is written into. Only Bytes and SetBytes refuse a nil pointer.",
  "all sequences of making, copying, slicing and overwriting identifiers, of any length",
  "Aliasing shows only when something is written after a copy or a slice was taken, in some order.",
  ["basic.go:Clone,Copy,Slice,Bytes,ForRLP,FromRLP,SetBytes"])

P("C175", "Copies of services",
  "A copy of a service stands where the original stood when it was copied, and from then on each goes through Init, Start and Close on its own. Functions of a changer are called exactly when it is their turn, for the service they were given to; a copy calls none before it is given a changer.",
  "all sequences of making and copying services, giving them changers and calling their methods",
  "Copies of copies, at any point of the cycle, with or without changers.",
  ["types.go:Copy,SetChanger,Init,Start,Close"])

P("C176", "Iterating over a trie of tries while others change it",
  "An iterator of a SmallCombinedTrie gives keys that were there when it was made, in ascending order and each at most once, and every pair it gives was in the trie at some moment. A key that keeps its sub-trie all the time is given exactly once with it, a key that is not there while the iterator runs is not given, and the loop ends after at most as many rounds as there were keys.",
  "all contents and all changes by others between any two calls of Get that the iterator makes",
  "Changes would have to fall between two particular calls inside Next or between Next and Current.",
  ["trie/combinedtrie.go:Next,Current,ValueIterator,Marshal"])

P("C177", "Texts of the proofs of a trie",
  "The text of a chain of proofs tells how many proofs there are, and shows of each, in order, its type, its header, the first five bytes of the hash of a value if there is one, the path of its Merkle proof and the number of hashes, and nothing else; a nil chain is told from an empty one. The long text of a proof shows the whole hash and all the items of the Merkle proof, if that was made by Append.",
  "all chains of proofs, all types, headers, hashes and Merkle proofs",
  "Whether texts put together of parts with commas and braces can be confused is not seen in examples.",
  ["trie/proof.go:Summary,String,InfoString"])

P("C178", "Committing a trie of tries while its sub-tries change",
  "Commit of a trie of tries saves, under the Merkle root of the hashes of its sub-tries, a record of these same hashes, and the tree of every hash in the record has been stored, also if other goroutines change sub-tries meanwhile.",
  "all combined tries, all orders of visiting the map, all changes by others between any two calls",
  "The changes have to fall between two particular calls inside Commit; no test can place them there.",
  ["trie/combinedtrie.go:Commit,saveRoot,computeHash"])

P("C179", "No mix of calls of tries, history trees and databases gets stuck",
  "Any number of goroutines make any sequences of calls of tries, revertable tries, tries of tries, synchronized tries, history trees, iterators and databases, shared in any way: as long as a call has not returned, some goroutine can go on, and when all calls have returned no lock is held.",
  "all numbers of goroutines, all sequences of calls, all ways of sharing objects, all schedules",
  "A deadlock needs two goroutines to be at particular places at once, and the number of pairs of places is large.",
  ["trie/*.go and db/*.go:methods with locks"])

P("C180", "Prefixes of trie nodes never share memory",
  "Prefixes are slices that setPrefix, chopPrefixHead, chopPrefixTail, the merging of the last child and the decoding of a header change, partly in place: after any sequence of these on any nodes the bytes of each prefix are those that the same operations on separate lists give, so that no node changes the prefix of another.",
  "all numbers of nodes, all sequences of operations, all amounts of room that append leaves",
  "Sharing shows only when two windows lie in one array and one of them is extended or overwritten, which depends on capacities that tests do not control.",
  ["trie/node.go:setPrefix,chopPrefixHead,chopPrefixTail,mergeTheLastChild", "trie/utils.go:keystringToPrefix"])

P("C181", "Writing into a hash that was returned changes no later hash",
  "Hashes of tries, history trees, tries of tries and objects are returned as slices. Whatever callers write into such slices, every hash told later is that of the contents.",
  "all numbers of tries and trees, all sequences of changes, hashes and writes by callers, all digests",
  "Tests compare the returned bytes and do not write into them, least of all into the hash of nothing, which the whole program shares.",
  ["trie/trie.go:HashValue", "trie/node.go:HashValue", "trie/combinedtrie.go:HashValue", "trie/historytree.go:HashValue", "hasher.go:HashObject,EncodeAndHash"])

P("C182", "A trie stays at the hash it was opened at",
  "Tries and history trees are opened with hashes in buffers of the caller, who fills the buffers again later: every trie shows the contents stored under the hash it was opened at and reports that hash, until it is changed.",
  "all numbers of tries and buffers, all sequences of fillings, openings and readings, all storages",
  "Tests open a trie with a hash and leave the slice alone; a loop that reads root hashes into one buffer does not.",
  ["trie/trie.go:NewTrie,NewTrieWithValueFuncs,Inherit,expandNode", "trie/node.go:NewNodeWithFuncs,HashValue", "trie/historytree.go:NewHistoryTree,putValue"])

P("C183", "A trie keeps values as they were put",
  "Whatever callers do with values after Put, or with values returned by Get: Get, HashValue and clones tell the values as they were when they were put, and putting a changed value again makes them agree on the new one.",
  "all sequences of changes of values, puts, deletions, gets, hashes and clones, all values shared between keys, all moments at which kept encodings are forgotten",
  "The value seen, the kept encoding and the kept hash differ only after a change in place between two particular calls.",
  ["trie/node.go:setValue,valueHash,HashValue", "trie/trie.go:Put,Get,HashValue,Clone"])

P("C184", "Unpacked values do not depend on the data buffer",
  "After Unpack, UnpackValues and their kin the buffer with the data may be used again: the values that were unpacked stay as they were, and appending to one of them does not change another.",
  "all lists of types, all data, all later contents of the buffer",
  "Tests compare values right after unpacking; sharing shows only when the buffer is used again.",
  ["abi/unpack.go:toGoType,forEachUnpack,forTupleUnpack", "abi/argument.go:UnpackValues"])

P("C185", "Packed calls belong to the caller",
  "ABI.Pack returns the identifier of the method and the packed arguments. Whatever callers write into packed calls or append to them, every other packed call and the identifiers of the methods stay as they are.",
  "all contracts, all sequences of packing, writing and appending, all arguments",
  "It takes two packed calls of the same method without arguments, or one that is written into and a later call, to see the sharing.",
  ["abi/abi.go:Pack,MethodById", "abi/method.go:NewMethod"])

P("C186", "Byte helpers return memory of their own",
  "Whatever sequence of CopyBytes, LeftPadBytes, RightPadBytes, SplitBytes, ConcatenateBytes, ForPrintSlice and ReverseBytes is called, with assignments to elements of arguments and results in between, every byte string has the value it would have if arguments and results were separate values.",
  "all programs of these calls and of element assignments, all byte strings",
  "Whether memory is shared depends on the length of the argument, and it shows only after a later write into the other slice.",
  ["bytes.go:CopyBytes,RightPadBytes,LeftPadBytes,SplitBytes,ConcatenateBytes,ForPrintSlice", "utils.go:ReverseBytes"])

P("C187", "One goroutine at a time uses the map of key counts",
  "In every execution of any number of routine pools, no goroutine looks into the map of key counts or writes into it while another one writes, whether they are workers or callers of KeyCount.",
  "all pools, all events and keys, all interleavings of workers, posters and callers of KeyCount",
  "The Go runtime notices concurrent use of a map only if the two uses really overlap, which takes a rare interleaving.",
  ["routinepool.go:incKeyCount,decKeyCount,KeyCount,event"])

if __name__ == "__main__":
    out = os.path.join(os.path.dirname(os.path.abspath(__file__)), "..", "properties.jsonl")
    ids = [p["id"] for p in PS]
    assert len(ids) == len(set(ids))
    with open(out, "w") as f:
        for p in PS:
            f.write(json.dumps(p, ensure_ascii=False) + "\n")
    print(len(PS))
