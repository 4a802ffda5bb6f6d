{
 "C01": {
  "note": "Every history over a prefix-free key set (fixed-length keys as a corollary), by a simulation between trees and maps."
 },
 "C02": {
  "note": "False as stated (C02_refuted*: keys exhausted at a child boundary alias a longer key). Proved when every call addresses a key that is stored or has no stored proper extension; for all other calls C02_one_key_partial says which single key they act on.",
  "status": "partial"
 },
 "C03": {
  "note": "Two histories with the same contents have the same root hash; put/delete of a fresh key restores it; order of commuting updates is irrelevant. Every digest function."
 },
 "C04": {
  "note": "Collision between inputs actually hashed for the two roots otherwise. Side condition: no serialized header is 64 bytes long (automatic for fixed-length keys whose rtl encoding has at most 60 bytes, C04_root_binding_fixed)."
 },
 "C05": {
  "note": "Delete exact. Put reports a change even when the same value is stored again (C05_put_refuted).",
  "status": "partial"
 },
 "C06": {
  "note": "Count equals the number of stored keys after every history."
 },
 "C07": {
  "note": "For all histories (C07_transparent_all: as the trie in memory; C07_transparent, _clear: as the map, for unambiguous keys); hash computations along the history must be free of collisions and of 64-byte headers (automatic for keys of one fixed length up to 60 encoded bytes). The key counter is not restored by a reload (C07_count_refuted)."
 },
 "C08": {
  "note": "Refuted as stated: iterateSave drops the errors of the children. Proved: if no Save of a node or value of the tree fails everything is stored and Commit returns nil; a commit that returns nil has stored a changed root node.",
  "status": "partial"
 },
 "C09": {
  "note": "Every history over a prefix-free key set, every stored key, every digest with 32-byte output; the verified value hash is the hash of the stored value."
 },
 "C10": {
  "note": "Non-empty keys; presence and absence chains both evaluate to the root hash and decide correctly."
 },
 "C100": {
  "note": "For values none of which is the nil hash and whose blocks do not hash to it (NoNil; necessary: C100_nil_value_refuted), any storage, any sequence of Append and HashValue (C100_run, C100_same_root). C100_get: the first Get over an empty storage returns the right value or nothing; C102 shows what it does to the tree."
 },
 "C101": {
  "note": "Proved for chains of 64 elements and 32-byte values, up to collision and up to the nil hash at unused heights. HistoryProof does not check the length of the chain (C101_inner_node_refuted) and accepts the nil hash at unused heights (C101_unused_refuted).",
  "status": "partial"
 },
 "C102": {
  "note": "Proved for trees made by any calls other than restoring (C102_get_partial); false for restored trees (C102_restored_refuted): HashValue fails after Get of an old key.",
  "status": "partial"
 },
 "C103": {
  "note": "Hash function, go-rtl and the hashes of the sub-tries are parameters."
 },
 "C104": {
  "note": "Proved for a non-empty trie as long as nothing else is saved under its root. Refuted for the empty trie, and when another trie with the same sub-trie hashes is committed later. Committing the sub-tries along with it is C139.",
  "status": "partial"
 },
 "C105": {
  "note": "The sequence of sub-trie hashes is bound for equal numbers of keys; the keys are not bound (refuted).",
  "status": "partial"
 },
 "C106": {
  "note": "False for List (C106_within_refuted, input C1 C1 05); proved for Bytes, Uint, BigInt and Raw (C106_within_partial).",
  "status": "partial"
 },
 "C107": {
  "note": "Every well-nested write sequence, every sequence of buffer sizes."
 },
 "C108": {
  "note": "Types with bytesN for N up to 32."
 },
 "C109": {
  "note": "Booleans, addresses, byte arrays and integers except negative *big.Int; false for functions (C109_function_refuted), which are read from the right end of the topic (C109_function_partial).",
  "status": "partial"
 },
 "C11": {
  "note": "False as stated (C11_relabel_refuted: the label of a child proof is neither hashed nor compared with its Merkle position; C11_missing_value_refuted: a missing value and the nil hash are hashed alike). Proved for chains whose Merkle paths are the paths of the children they are labelled with, up to the nil hash.",
  "status": "partial"
 },
 "C110": {
  "note": "Inputs and encodings shorter than 2^63-3 bytes. C110_plain: values without nil, exactly; C110_roundtrip: with nil, as the relation Reads says."
 },
 "C111": {
  "note": "C111_accepts is an equivalence with the declarative relation Enc of Rlp/TypedSpec.lean."
 },
 "C112": {
  "note": "False for optional fields given as zero (C112_canonical_refuted); proved for types without optional fields.",
  "status": "partial"
 },
 "C113": {
  "note": "False with nil tags together with optional fields (C113_stable_refuted), for nil pointers to structs with mandatory fields (C113_nil_refuted) and for nil tags of the other kind (C113_nilKind_refuted); proved for types without nil tags, and for types without optional fields.",
  "status": "partial"
 },
 "C114": {
  "note": "Admission and meaning of tags are proved as equivalences; what writer and decoder presuppose follows unless tail is on a byte slice, where it fails (C114_tail_refuted).",
  "status": "partial"
 },
 "C115": {
  "note": "C115_returns needs that finitely many types can be found from a type."
 },
 "C116": {
  "note": "Errors always have a reason and supported types always work (C116_error, C116_usable); the converse depends on the order of calls (C116_order_refuted) and is proved up to and including the first type asked for that gets an error (C116_exact_partial), for graphs in which types have both methods or none (else C116_oneSided_refuted).",
  "status": "partial"
 },
 "C117": {
  "note": "Proved for storage that accepts all writes, a lawful codec and a digest without collisions on what is hashed on the way (C117_run_partial, C117_durable_partial). Refuted for a failing write: Clone drops the error, and Rollback leaves a nil tree (C117_failedWrite_refuted). With calls of MergeProof for keys in use and of Rebase in between: C117_merge_partial; what Rebase gives on a storage that has the nodes: C117_rebase_partial, and an error on one that has not: C117_rebase_refuted. Has is not among the calls (C99), nor is MergeProof for keys not in use (C118).",
  "status": "partial"
 },
 "C118": {
  "note": "C118_run_partial: for keys that are not blocked (Blocked: at some level the block of the key is the other of a pair with the block of a key at hand and contains none of them), over an empty storage, for values and blocks that do not hash to the nil hash. C118_sound_partial: any chain of 64 elements is refused, or is the proof of the full tree, or proves the nil hash at an unused key, or a collision is exhibited. Refuted for blocked keys (C118_blocked_refuted, C118_blocked_root_refuted) and for the nil hash (C118_nil_value_refuted). C118_short: shorter chains are accepted only for what is in the tree. C118_long_partial: what a longer chain shows. Refuted for longer chains (C118_long_refuted): the value merged need not be in the tree. Missing: trees with a storage. C118_put: a value is reported as put exactly if the node is there and can be read, and then it is in the node.",
  "status": "partial"
 },
 "C119": {
  "note": "Keys, the original tree, and Append/HashValue on the new tree hold in every state (C119_keys, C119_original, C119_run). If the tree has just been saved, Get and GetProof hold too (C119_saved), and after an accepted Append every call, Commit and reopening included (C119_continued_partial). Refuted for trees that were not saved (C119_unsaved_refuted) and for Commit right after Chop (C119_commit_refuted). C119_copies: children are copied without an error exactly if those that are there have a hash.",
  "status": "partial"
 },
 "C12": {
  "note": "False for arbitrary keys (C12_refuted: after Put of a key that ends where a child begins, a value sits at an odd number of nibbles and Current panics). Proved for every history in which each key addressed is stored or has no stored proper extension (in particular prefix-free keys), including commits, collapsed and reloaded nodes. Hypotheses: no digest collision among the nodes of the trees passed through, storage present and not failing.",
  "status": "partial"
 },
 "C120": {
  "note": "JSON forms, accepted texts and results, decimal and 64-bit round trips in full; the hexadecimal 256-bit round trip holds for numbers that are not negative and is refuted for negative ones. C120_sign: exactly negative numbers have a minus.",
  "status": "partial"
 },
 "C121": {
  "note": "Copies in full (for values that determine their keys); MarshalAsMap and IterateAll with noNil hold except for the empty key, for which the claim is refuted.",
  "status": "partial"
 },
 "C122": {
  "note": "In full except for the batch size zero, which panics (C122_zero_refuted). C122_reports: what Put tells, counts and when it returns an error, for any failures of storage.",
  "status": "partial"
 },
 "C123": {
  "note": "Encoding agrees for all accepted types and all values without an optional slice that is empty but not nil; decoding agrees for all accepted types without tags for nil, up to nil for empty slices. Outside of that the property fails: C123_nil_refuted, C123_short_refuted, C123_wrongKind_refuted, C123_optional_refuted, C123_optional_raw_refuted, C123_endOfList_refuted, C123_text_refuted. Types that implement Encoder or Decoder are not in the universe.",
  "status": "partial"
 },
 "C124": {
  "note": "Every valid type is read as declared (C124_read_partial: field names must have a letter before other characters; struct sizes must fit), selectors come back with the same canonical text (C124_selector_partial: the parser refuses arrays of tuples), canonical texts are unique (C124_text, C124_texts), words with digits are characterised (C124_word). False in the code: texts that are no types are accepted (C124_loose_refuted), some field names are refused (C124_name_refuted), a huge array in a struct panics (C124_panic_refuted).",
  "status": "partial"
 },
 "C125": {
  "note": "Tables, acceptance, calls, lookups, errors and revert reasons proved for all declarations (C125_methods, C125_events, C125_errors, C125_accept, C125_call, C125_unknown, C125_eventById, C125_error, C125_revert). Returns only if no event has the name (C125_returns_partial, C125_returns_refuted); maps only for distinct names (C125_map_partial, C125_map_refuted); own memory only with arguments (C125_memory_partial, C125_memory_refuted); names of overloads may shadow (C125_name_refuted); reuse of a contract (C125_reuse_refuted).",
  "status": "partial"
 },
 "C126": {
  "note": "Proved: what a successful mapping gives, acceptance without tags, copying for different names, packing from structs with different names in camel case. Refuted: packing the struct made for a tuple whose names are equal in camel case, components or arguments with the same name, independence of the order, tags of exported fields beginning beyond ASCII.",
  "status": "partial"
 },
 "C127": {
  "note": "Proved: success and form kept imply content kept; success for types alike but for names; passing through pointers and interfaces. Refuted: arrays of other lengths, nested structs by name, errors instead of panics or endless runs, a single tuple. C127_types: the model takes types for the same exactly if they are equal.",
  "status": "partial"
 },
 "C129": {
  "note": "Proved for numbers with a numerator below 2^53 in absolute value and a denominator up to 2^1000 (floor: not negative); refuted beyond 53 bits, for negative numbers rounded down and for 2^63. Numbers of magnitude 2^64 and more are reported (C129_large).",
  "status": "partial"
 },
 "C13": {
  "note": "False (C13_refuted: the own value of a node is skipped when its child 0 exists). Proved exact for prefix-free keys; for unambiguous histories proved sound and strictly descending.",
  "status": "partial"
 },
 "C130": {
  "note": "Proved for all programs that use no handle whose buffer went back to the pool; refuted for copies and derived handles used after the flush of the owner and for an encoder reset to itself.",
  "status": "partial"
 },
 "C131": {
  "note": "Canonical form, hash, queries and reports proved; refuted for equal boot nodes, auditors in version 0, compressed administrator keys, boot nodes of several chains and Validation of node ids.",
  "status": "partial"
 },
 "C132": {
  "note": "Recognition, completeness, Merkle form, equality and Find proved; soundness for proofs of the length of the tree; IsHeaderPropertyOf refuted.",
  "status": "partial"
 },
 "C133": {
  "note": "Contracts, keys, texts, numbers and registers proved; StringsToAddresses is characterised (C133_strings) and refuted as a reader of addresses, refuted and for the wire form of zero.",
  "status": "partial"
 },
 "C134": {
  "note": "Proved for byte strings that are not empty, starts that are not negative, and slices and arrays by pointer; refuted for the others.",
  "status": "partial"
 },
 "C135": {
  "note": "Equivalences and orders proved; InvalidHash refuted for slices that are too long.",
  "status": "partial"
 },
 "C136": {
  "note": "Refuted for functions without inputs (InputUnpack), without results (UnpackReturns, UnpackReturnsMap), events without data (PackEventArgs) and for texts of data after a call without arguments; C136_inputs_partial, C136_returns_partial, C136_map_partial and C136_event_partial hold outside these cases. The texts, the selector check and the losslessness of hexadecimal are proved in full.",
  "status": "partial"
 },
 "C137": {
  "note": "C137_success is full. C137_copy_partial needs values with non-empty encodings (C137_empty_refuted). C137_calls_partial is exact for all tries and shows the extra call for the empty key; that each key is called once is refuted (C137_calls_refuted). Hypotheses: those of the sessions (C08), and no node hash is zero or the hash of nothing.",
  "status": "partial"
 },
 "C138": {
  "note": "Full for era, epoch and height numbers, chain ids and lists, modes, node, net and election types, addresses, FromBig, Cmp, Equal, data nodes, nets, clones. Texts of block numbers need a number of the epoch or nil (C138_block_refuted); texts of seeds tell the first five bytes only (C138_seed_text, C138_seed_refuted), and names of deprecated election types (C138_election_refuted) are refuted.",
  "status": "partial"
 },
 "C139": {
  "note": "Full for sessions of calls, commits and reopenings (C139_sessions), contents (C139_contents) and clean state after Commit (C139_committed). That a combined trie which is not dirty can be opened at its hash is refuted (C139_isDirty_refuted). What Commit reports when Save calls of the sub-tries fail: C139_reports. Not covered: one *Trie put under two keys; a failing Save of the root.",
  "status": "partial"
 },
 "C14": {
  "note": "All lengths and parities; single-byte facts checked on all 256 bytes by the kernel. C14_bytes: the bytes of a nibble string of either parity stand for the same number."
 },
 "C140": {
  "note": "C140_sessions gives equality of all answers, C140_verifies and C140_existence what it means for contents and root hash. Save calls succeed.",
  "status": "proved"
 },
 "C141": {
  "note": "C141_append: chains compose. C141_verifies: completeness after any session. C141_sound: soundness of the level of the combined trie, for proofs of the right length.",
  "status": "proved"
 },
 "C142": {
  "note": "C142_cursor and C142_list give every answer of every sequence of calls. Refuted: ListEnd skips a value without content that has been looked at (C142_end_refuted); holds when ListEnd and MoreDataInList do not follow such a look (C142_end_partial). Inputs of fewer than 2^62 bytes.",
  "status": "partial"
 },
 "C143": {
  "note": "Linearizability, coherence and progress for all schedules and evictions (C143_linearizable, C143_quiet, C143_progress). Refuted: reads after Close (C143_closed_refuted), Has of a cached miss (C35). The counters and I/O errors of goleveldb are not modelled; each call of goleveldb or of the cache is one atomic step; sync.RWMutex is trusted.",
  "status": "partial"
 },
 "C144": {
  "note": "Proved for all sequences of calls (C144_new, C144_size, C144_add, C144_value, C144_keeps, C144_evicts). Refuted: Add is not atomic (C144_concurrent_refuted; C144_concurrent_partial). The hashicorp cache is trusted to be an LRU list whose calls are atomic.",
  "status": "partial"
 },
 "C145": {
  "note": "Proved: digests of concatenations and of encodings, binding of and proofs for roots over slices and values. Refuted: borders between slices (C145_parts_refuted), HashRipemd160 (C145_ripemd_refuted), EncodeHash of refused values (C145_error_refuted), nodes of binary trees with sides of other lengths (C145_binary_refuted; C145_binary for hashes). The digest and the go-rtl encoder are parameters.",
  "status": "partial"
 },
 "C146": {
  "note": "Linearizability and progress for all schedules (C146_linearizable, C146_progress), exact hashes and proofs for sub-tries that do not change (C146_static). Refuted: hashes of one moment while sub-tries change (C146_moving_refuted). sync.RWMutex is trusted; InitTrie, Commit and Marshal are not among the calls (Commit while sub-tries change: C178; iterating: C176).",
  "status": "partial"
 },
 "C147": {
  "note": "Linearizability and progress for all schedules of a temporary database (C147_temporary, C147_temporary_progress) and of a MemDB apart from batches as single calls (C147_mem, C147_mem_progress). Refuted: batches of a MemDB are not seen whole (C147_mem_batch_refuted). sync.Map and sync.RWMutex are trusted; Close is not among the calls.",
  "status": "partial"
 },
 "C148": {
  "note": "Linearizability for all schedules of Get, Put, Delete, HashValue, Commit, GetProof, GetExistenceProof and Count (C148_linearizable), and progress (C148_progress). Refuted: IsEmpty and Collapse (C148_isEmpty_refuted, C148_collapse_refuted). Reads and writes of the counter are taken to be atomic; sync.Mutex is trusted; the storage does not fail.",
  "status": "partial"
 },
 "C149": {
  "note": "Linearizability to a list for all schedules (C149_linearizable), progress (C149_progress), at most one accepted append for each key (C149_once) and agreement of readers (C149_agree), the last two for goroutines that do not store. Has is excluded: it never returns (C99). Rebase, Clone, Chop, MergeProof and String under concurrent use are not modelled; sync.Mutex is trusted."
 },
 "C15": {
  "note": "go-rtl's byte-string codec is a parameter assumed to read back what it wrote; toyRtl shows the assumption is satisfiable."
 },
 "C150": {
  "note": "Equality and independence for all contents of memory and all later writes: C150_slices, C150_byteSlices, C150_big, C150_proofs, C150_chain, C150_infos, C150_sharding. Refuted for AllIDs of a sharding, which hands out its own list (C150_allIDs_refuted). Capacities of slices beyond their arrays' lengths are left out; pointers are assumed not to dangle (Go guarantees it); clones of tries are C117 and C121.",
  "status": "partial"
 },
 "C151": {
  "note": "Proved for the calls that hold the lock, all schedules: C151_linearizable, C151_progress, and without deletions C151_grows, C151_once, C151_agree. Refuted for Get (C151_get_refuted) and GetNodeIDs (C151_nodeIDs_refuted), which do not hold it. The readers-writer lock is trusted; calls with a nil id return before the lock and are left out; slices are read and written in one step.",
  "status": "partial"
 },
 "C152": {
  "note": "Proved for all schedules of the calls of C16 and C17 (with the limits of C17 on reverts): C152_linearizable, C152_progress, C152_maps, C152_isolated. Refuted for the trie given out by LiveTrie (C152_live_refuted); the model with pointers is tied to the one without by ptrs_rev. Copy, Rebase, SetTo, proofs and iterators are left out here.",
  "status": "partial"
 },
 "C153": {
  "note": "Proved: C153_texts, C153_roundtrip, C153_full, C153_append, C153_bytes, C153_isIn, C153_isNodeIDIn, C153_identifiers, C153_base, C153_paths. Refuted: texts of other lengths (C153_length_refuted) and the texts of MarshalText (C153_prefix_refuted).",
  "status": "partial"
 },
 "C154": {
  "note": "For all schedules: C154_linearizable, C154_progress, C154_stable, C154_isolated. As in C117, no write fails, the digest has no collision on what is hashed and the lists are shorter than 2^64. C154_lock_needed shows that the claim fails for the same steps without the lock. Has (C99), MergeProof, Rebase and String are left out.",
  "status": "proved"
 },
 "C155": {
  "note": "C155_roundtrip, for a committed tree; C155_nil, C155_flags, C155_clean. Assumes that the external codec gives back a map of branches and an array of byte slices that are not empty and reads exactly what was written. The node read into is new. C155_uncommitted_refuted: without Commit the values below the root are lost silently.",
  "status": "proved"
 },
 "C156": {
  "note": "For all schedules: C156_linearizable, C156_progress, C156_copies. The Go map is the list of its entries, gone through in some order; sync.Mutex is trusted. The highest value under CAS alone is C47.",
  "status": "proved"
 },
 "C157": {
  "note": "C157_elements, C157_bytes, C157_double, C157_nil, C157_lines. Reflection is replaced by what the switches see; methods of elements are arbitrary functions. C157_commas_refuted, C157_toplevel_refuted: limits of the claim.",
  "status": "proved"
 },
 "C158": {
  "note": "C158_hash, C158_value, C158_last. C158_overwrite_refuted: without the condition on the right siblings the restored tree can overwrite earlier values.",
  "status": "proved"
 },
 "C159": {
  "note": "Proved: C159_reflect, C159_reflect_exact, C159_nil (reflection, all programs), C159_gen_exact, C159_gen_ends, C159_gen_nil (generator), C159_routes, C159_agree. Refuted beyond: C159_recursive_refuted, C159_byteMethods_refuted, C159_pointerMethods_refuted, C159_methods_refuted, C159_u256_refuted. Which interfaces types implement is part of the graph; fields of structs are covered by C114 and C123.",
  "status": "partial"
 },
 "C16": {
  "note": "For every sequence of calls other than RevertTo, over any trie (also one with uncommitted changes): C16_two_tries for arbitrary keys against two tries in memory, C16_maps against two maps for prefix-free keys. Hash computations along the history must be free of collisions and 64-byte headers; storage present and not failing."
 },
 "C160": {
  "note": "C160_imports, C160_qualify, C160_temps. C160_sameName_refuted: limit of the claim (packages with the same name).",
  "status": "proved"
 },
 "C161": {
  "note": "Proved: C161_delivery, C161_hook, C161_suffix, C161_check, C161_checkLog. WithField is refuted (C161_withField_refuted) and characterised (C161_withField_partial); C161_check_refuted: a failed initialisation is final. logrus and the rotation of files are trusted; each call is one step.",
  "status": "partial"
 },
 "C162": {
  "note": "Proved: C162_same, C162_path, C162_place, C162_text. That every error has a context, and the type of the value, is refuted (C162_silent_refuted, C162_kind_refuted, C162_pointer_refuted). C162_place is for inputs that are encodings of items; for all others C162_path. Types with their own DecodeRLP: C164.",
  "status": "partial"
 },
 "C163": {
  "note": "Proved: C163_string, C163_reopened, C163_unchanged, C163_apart, and the parts of PrintValues and ValueString that hold (C163_values_partial, C163_valueString_partial). Refuted: PrintValues with long values (C163_long_refuted), lost nodes (C163_missing_refuted), texts with commas and line breaks (C163_forged_refuted), the empty key (C163_empty_key_refuted), independence of caches (C163_hashed_refuted).",
  "status": "partial"
 },
 "C164": {
  "note": "Proved for lawful methods. Refuted for nil pointers (C164_nil_refuted), methods that write nothing (C164_nothing_refuted) and methods that return the end of their own list (C164_endOfList_refuted), all of which the documentation of the package permits or does not rule out.",
  "status": "proved"
 },
 "C165": {
  "note": "Proved: C165_classes, C165_useful, C165_digests, C165_addressHash, C165_seeds, C165_bits, C165_byName, C165_intersection, C165_addresses, C165_noMap, C165_unprefixed, C165_short (what short texts tell). Refuted: copies of a NetInfo (C165_copy_refuted) and short texts (C165_short_refuted). strings.ToUpper is a parameter, the usual one on ASCII.",
  "status": "partial"
 },
 "C166": {
  "note": "Proved for up to maxGenSize + 1 commits: C166_sessions_partial (answers of all calls), C166_retry_partial (a commit without failures stores everything). Refuted beyond that: C166_refuted. For history trees without a bound, and with honest reports: C166_history, C166_history_reported. Limits are arbitrary, collapsing of values is included; reopening between failing commits is not (see C08_refuted).",
  "status": "partial"
 },
 "C167": {
  "note": "Round trips in full (C167_texts, C167_node, C167_chain, C167_injective, C167_order), texts of types and headers in full (C167_types, C167_headers, C167_nodes). That everything read can be used is refuted (C167_missing_refuted). JSON is modelled as a tree of values; the text of the tree is the part of encoding/json that is trusted, and names of fields are matched exactly.",
  "status": "partial"
 },
 "C168": {
  "note": "Sums from nil, payments, copies, signs, SetInt, maximum and minimum in full (C168_sum, C168_payments, C168_created, C168_signs, C168_set, C168_max_min). Sums that start with a given number change it (C168_sum_refuted); powers are exact for exponents that are not negative (C168_pow_partial, C168_pow_refuted). The loops are callers written for the claim; the calls in them are the code.",
  "status": "partial"
 },
 "C169": {
  "note": "Refuted for every root and every other tree (C169_forged_refuted) and for lost entries (C169_lost_refuted). Proved for a storage in which every entry has the hash it is stored under, up to named collisions (C169_audited_partial); storages written by the code are such (C169_honest). Put and Delete over a lost root answer false (C169_lost_writes); Delete may panic beside a lost child (C169_delete_refuted). For history trees the refutations are C169_history_forged_refuted and C169_history_hash_refuted; over a checked storage Get gives nothing, the value, or the digest of nothing at an unused height, up to named collisions (C169_history_audited_partial), and without digests of nothing the length is right (C169_history_length_partial); C169_history_honest says what passes the check. HashValue and GetProof over such a storage are not covered: they use the hashes of branches in an entry as they are.",
  "status": "partial"
 },
 "C17": {
  "note": "False for check point 0 (C17_refuted: changes made between the last commit and the first check point are dropped). Proved for every check point that has another one before it, and for the first one when nothing was changed before it; also that all calls answer as two tries with copies (C17_two_tries_partial).",
  "status": "partial"
 },
 "C170": {
  "note": "Full for the client Accepts, which checks the lengths of the proofs: C170_complete, C170_accepts, C170_sound, C170_state_complete; C170_state_sound has the conditions of C11 on the chain of the trie. C170_joined_exist: Exist gives an error on a joined chain. Refuted for a client that calls VerifyProofChain only (C170_verify_refuted).",
  "status": "partial"
 },
 "C171": {
  "note": "Full for InfoString of proofs with a table in order (C171_info, C171_info_iff, C171_orders) and of all proofs made by Append (C171_info_items); String shows the path and the stored hashes and no more (C171_string), and the items if there are no repeats (C171_string_items). Refuted: C171_string_refuted, C171_info_refuted, C171_summary_refuted. Not modelled: nil or negative Paths. Texts of NodeProof and ProofChain are C177.",
  "status": "partial"
 },
 "C172": {
  "note": "Full for MemDB without batches (C172_calls), for all programs against batches that are read when applied (C172_memory), and Replace (C172_replace). C172_batch_partial needs that slices in a batch are not written into; C172_cached_partial that the caller does not write into slices that Get returned. Refuted: C172_batch_refuted, C172_cached_refuted. Not modelled: slices that are windows into a larger array; goleveldb is trusted to copy; Has and batches of cachedDB with slices (their values are C35).",
  "status": "partial"
 },
 "C173": {
  "note": "C173_struct_partial: if copying into a struct succeeds, every argument's value is what set stored in its field and the other fields are unchanged; C173_struct_total: it does succeed if the fields have the types of the values; C173_list, C173_single: slices, arrays, variables, first fields, no values. Refuted: C173_indexed_refuted, C173_first_refuted, C173_big_refuted. Not modelled: embedded structs whose fields FieldByName would find, structs with unexported fields that a tag names.",
  "status": "partial"
 },
 "C174": {
  "note": "C174_memory for all programs of these calls, C174_clone what it means for a copy and a slice. Refuted: C174_slice_refuted. Writes into a part of a slice are not modelled; NodeID.Bytes and Seed.Byte are slices that panic for nil.",
  "status": "proved"
 },
 "C175": {
  "note": "C175_copies for all programs. Refuted: C175_close_refuted. Calls one after the other (concurrent calls on one service are C62); copying a service while a method of it runs, which copies the status without its lock, is not modelled.",
  "status": "proved"
 },
 "C176": {
  "note": "C176_sound and C176_complete for all environments. Refuted: C176_moment_refuted, C176_current_refuted. The bytes that Marshal writes depend on go-rtl and are not modelled.",
  "status": "proved"
 },
 "C177": {
  "note": "C177_node and C177_chain, both directions. Refuted: C177_value_refuted, C177_nil_refuted. The long text in full for proofs whose Merkle proofs were made by Append (C177_info, C177_info_nil). NodeProof.String, which shows as much of the Merkle proof as its String (C171), is not modelled.",
  "status": "proved"
 },
 "C178": {
  "note": "C178_moments for all changes by others; C178_still_partial: the claim when no sub-trie changes during Commit. Refuted otherwise: C178_key_refuted, C178_stored_refuted. Each call of a sub-trie is one step; the encoding of the record is C104.",
  "status": "partial"
 },
 "C179": {
  "note": "C179_progress_partial, C179_shorter and C179_released_partial for all methods in the table. Refuted: C179_has_refuted, C179_callback_refuted. Not in the table: Has of history trees, a SyncTrie around a SyncTrie, a cachedDB over a temporaryDB or over itself (Replace); functions of values (encode, hash, String) are taken to use no locks. The table was read off the code.",
  "status": "partial"
 },
 "C18": {
  "note": "For all interleavings of Append, Get, HashValue, GetProof (C18_run) and for the plain appended tree, below 2^64 values. The append at key 2^64-1 wraps the expected key to 0 (C18_wraps_refuted)."
 },
 "C180": {
  "note": "C180_prefixes: the lists of the other models are right about prefixes. The caller's slice in setPrefix is given by its bytes, since the code only reads it.",
  "status": "proved"
 },
 "C181": {
  "note": "C181_hashes_partial: holds for all slices but those of tries and of nothing. Refuted for these: C181_trie_refuted, C181_nil_refuted (both for every digest). Contents are given as a whole; hashes of inner nodes are not given out by the code. Hashers of values, which may return slices of their own, are not modelled.",
  "status": "partial"
 },
 "C182": {
  "note": "C182_opening_partial: if no buffer is filled after it was given to NewTrie; Inherit and history trees need no condition. Refuted otherwise: C182_newTrie_refuted (for all hashes and storages). Changes of the opened tries and reopening after Collapse are not modelled here.",
  "status": "partial"
 },
 "C183": {
  "note": "C183_values_partial: if no value is changed after it was put. C183_again: putting a changed value again makes everything agree on this key, in every state. Refuted otherwise: C183_change_refuted (for all values and hashes). The trie is a map from keys to values here; that tries are such maps is C02 and C03. Values read back after a collapse are not modelled.",
  "status": "partial"
 },
 "C184": {
  "note": "C184_values: what is seen while the data are unchanged is what C76 and others speak of. C184_kept_partial: for types without bytes, whatever is written into the buffer. Refuted for bytes: C184_bytes_refuted.",
  "status": "partial"
 },
 "C185": {
  "note": "C185_calls_partial: if callers do not write into, or append to, calls without arguments. Refuted for those: C185_empty_refuted (for every digest). Trusted: the digest is an array of exactly 32 bytes (Sum(nil)), packed arguments take a multiple of 32 bytes, and append makes a new array if there is no room. C185_bounds: a write behind the end of a call changes nothing.",
  "status": "partial"
 },
 "C186": {
  "note": "C186_values_partial: if no variable is written after it was padded to no more than its length or looked at through a window, or is the result of that, and reversed bytes are put back where they were. Refuted without: C186_pad_refuted (for all bytes and lengths, both sides), C186_window_refuted.",
  "status": "partial"
 },
 "C187": {
  "note": "C187_workers: workers exclude each other. C187_alone_partial: nothing uses the map while it is written, if nobody is going through the result of KeyCount, or if no event has a key. Refuted for callers of KeyCount: C187_keyCount_refuted. Not modelled: callers that write into the map.",
  "status": "partial"
 },
 "C19": {
  "note": "Given the round-trip law of the codec, no failing Save, and Fair values (32 bytes, no collision among the inputs hashed along the history, no value equal to one of those digests); with and without the check for preceding gaps."
 },
 "C20": {
  "note": "Proved for 32-byte values (C20_proof, C20_historyProof, C20_no_proof). Values of other lengths are accepted by Append but their proofs do not verify (C20_short_value_refuted).",
  "status": "partial"
 },
 "C21": {
  "note": "Proved for 32-byte values (C21_root_binding, C21_hspec_binding). Values of other lengths are not bound by the root (C21_short_values_refuted); trees of different length may share a root if a value is the nil hash (C21_other_length_refuted).",
  "status": "partial"
 },
 "C22": {
  "note": ""
 },
 "C23": {
  "note": "Verification for every index of every list of 32-byte hashes, also when appended to an existing proof; negative index appends the root; root independent of proof collection."
 },
 "C24": {
  "note": "Equality of both results for all lists, indexes (negative and out of range included) and proofs; both equal the root of the complete binary tree specification."
 },
 "C25": {
  "note": "As C23 for the in-place MerkleHash; a negative index collects nothing."
 },
 "C26": {
  "note": "Order flags = binary digits of the index, one per level; BigKey writes exactly the flags."
 },
 "C27": {
  "note": "By an invariant over every sequence of appends."
 },
 "C28": {
  "note": "Round trip with trailing bytes under exact 16-bit field conditions, which hold for every proof of fewer than 2^16 appended hashes."
 },
 "C29": {
  "note": "The exhibited collision is between inputs actually hashed for the two roots. The equal-length hypothesis is necessary (C29_length_not_bound)."
 },
 "C30": {
  "note": "False as stated (C30_valid_refuted: a repeated first hash gives index 0, which IsValid rejects); proved when the first two hashes differ. C30_valid_accepts says exactly which tables are accepted; C30_first: the first hash stays first for every table.",
  "status": "partial"
 },
 "C31": {
  "note": "Collision between the two 13-byte inputs otherwise."
 },
 "C32": {
  "note": "In-memory database and LevelDB-backed database (goleveldb taken as a map)."
 },
 "C33": {
  "note": "Any base database that behaves as a map for single calls; the batch path of prefixed views is C38. Comparable prefixes are shown to overlap."
 },
 "C34": {
  "note": "Any base whose reads behave as a map."
 },
 "C35": {
  "note": "Get, Put, Delete and batches are transparent for every history and eviction schedule. Has is refuted (a Get of a missing key caches nil), as are batches not made by the cached database; exact transparency is proved for histories without a Get of a missing key.",
  "status": "partial"
 },
 "C36": {
  "note": "Base unchanged, reads equal, Put/Delete/Batch/Close report an error, wrapping is idempotent. Refuted for batches obtained from the read-only database: NewBatch returns nil and collecting a command panics.",
  "status": "partial"
 },
 "C37": {
  "note": "Refuted: accepted items pending when the last item is rejected are lost. Proved: exactly the first count accepted items are written, in order; all of them when the last item is accepted; rejected items are assumed to issue no writes.",
  "status": "partial"
 },
 "C38": {
  "note": "Batch equals its commands one by one; a key-converting batch converts every key in order. Refuted: applying such a batch panics (MemDB) or is refused (LDB).",
  "status": "partial"
 },
 "C39": {
  "note": "AddGas/SubGas exact, and conservation by induction over every history of calls."
 },
 "C40": {
  "note": "Flag iff overflow/underflow, word = result modulo 2^64, for all 64-bit arguments."
 },
 "C41": {
  "note": "All integers, including negative ones; the byte loops over 64-bit words are modelled."
 },
 "C42": {
  "note": "Value and frame condition proved; the base is overwritten (refuted with witness, and its new value is characterised); exponents enter by absolute value.",
  "status": "partial"
 },
 "C43": {
  "note": "CompareBigInt is a total order; BigInt.Compare is reflexive and antisymmetric everywhere, and correct on nil and non-negative numbers; transitivity fails with negative numbers (refuted).",
  "status": "partial"
 },
 "C44": {
  "note": "Amounts, clamping and absence of side effects in the heap model; negative operands take nothing."
 },
 "C45": {
  "note": "Both directions of split/ToHeight, exact nil condition, epoch bounds, first/last flags, RemoveRemainder, eras (C45_eras, for an era length that fits in 64 bits). BlocksInEpoch is a parameter with 0 < BlocksInEpoch (< 2^32 where the 32-bit block number has to hold the remainder)."
 },
 "C46": {
  "note": "Compare = sign of difference of ranks (nil smallest); Diff = distance of ranks with the sign of Compare."
 },
 "C47": {
  "note": "All schedules of any number of goroutines, memory steps inside the critical section interleaved with the others; sync.Mutex trusted for mutual exclusion."
 },
 "C48": {
  "note": "ShouldPropose equals the round-robin share; shares of all members sum to BlocksInEpoch."
 },
 "C49": {
  "note": "Round trip, range check and lexicographic order."
 },
 "C50": {
  "note": "Bit-level specification; beyond the range of int the call panics (C50_overflow_panics)."
 },
 "C51": {
  "note": "Split/concatenate both ways, failure exactly on non-dividing sizes, panics exactly on sizes that are no lengths (C51_split_sizes), node id lists."
 },
 "C52": {
  "note": "SetBytes and the padding functions against one crop-and-pad specification."
 },
 "C53": {
  "note": "Round trips, value of arbitrary-length inputs, order preservation."
 },
 "C54": {
  "note": "Acceptance is characterised exactly for Decode, DecodeUint64, DecodeBig and the text forms; round trips follow. encoding/hex and strconv are given by their documentation."
 },
 "C55": {
  "note": "NewShardInfo/AllIDs/ShardTo: group membership, strict order, totality, independence of order, multiplicity and of listing the current chain; panics exactly for a nil current chain or more than 256 chains. rtl.Numeric.BytesToInt is read as big endian."
 },
 "C56": {
  "note": "Proved for up to 128 shards, including sizes that are not powers of two (leading bits modulo n). Refuted for 256 shards (C56_refuted); C56_large states what happens above 128.",
  "status": "partial"
 },
 "C57": {
  "note": "Soundness for all lists; full inverse when the nil id is not listed; refuted otherwise (C57_refuted).",
  "status": "partial"
 },
 "C58": {
  "note": "Exact for indexes that are not multiples of 8; refuted for multiples of 8 (C58_refuted), whose exact behaviour is C58_isIn_multiple_of_8; indexes outside the address in C58_isIn_outside.",
  "status": "partial"
 },
 "C59": {
  "note": "Every execution of any number of pools: conservation, FIFO, capacity, order with one worker, at most one call per event, at most n events of low priority taken while one of high priority waits. What is queued at Stop stays queued (C59_stop_drops)."
 },
 "C60": {
  "note": "The count covers the workers of all pools, from the end of incKeyCount to the end of decKeyCount; exactly the workers inside workFunc when none is in between."
 },
 "C61": {
  "note": "No panic provided no pool is started after it was stopped; after Stop no worker runs; Stop can always return. Start after Stop panics (C61_restart_refuted, for every number of workers).",
  "status": "partial"
 },
 "C62": {
  "note": "Order and once-per-step proved under every schedule of concurrent callers (quiescent states) and all results of the functions; the last clause is refuted (C62_failed_init_refuted).",
  "status": "partial"
 },
 "C63": {
  "note": "Put, construction, sorting (swap by swap) and the exact condition under which Delete keeps the index right; histories deleting only the last id refine the ordered set; refuted in general by four witnesses.",
  "status": "partial"
 },
 "C64": {
  "note": "Union, Remove, Contains, Equal; map iteration order is an arbitrary permutation."
 },
 "C65": {
  "note": "List, membership and Add flag over all histories; the flag of RemoveDataNode on an empty list is refuted.",
  "status": "partial"
 },
 "C66": {
  "note": "All histories of Add calls from an empty list, error condition, and ToMap/FromMap round trip."
 },
 "C67": {
  "note": "Exact set of built structures that are valid; every valid structure is built; refuted for the main chain with a parent and for stand-alone mode.",
  "status": "partial"
 },
 "C68": {
  "note": "Every nested value whose encoding has fewer than 2^63-2 bytes (a Go slice); with any bytes behind it, at the top level or in a list with enough room (C68_decode, C68_decodeBytes); also for the single readers Bytes, ReadBytes, Uint, Bool, BigInt. Typed values (structs, slices of integers) are not covered by C68_decode."
 },
 "C69": {
  "note": "Proved for decoding nested values and for Bytes, ReadBytes, Uint, Bool, BigInt, Split and SplitUint64; false for Raw, which accepts 81 05 (C69_raw_refuted).",
  "status": "partial"
 },
 "C70": {
  "note": "Every well-nested write sequence, of fewer than 2^64 bytes; big integers and 256-bit integers included."
 },
 "C71": {
  "note": "Every 64-bit integer, every byte string of fewer than 2^64 bytes."
 },
 "C72": {
  "note": "Also: what CountValues accepts is a sequence of values with canonical headers (C72_count_sound)."
 },
 "C73": {
  "note": "False on malformed elements (C73_terminates_refuted, input C1 81); C73_terminates_partial: a loop that also looks at Err stops after at most as many steps as there are bytes, plus one.",
  "status": "partial"
 },
 "C74": {
  "note": "All types of the contract ABI, any nesting; zero-sized types excluded (C74_zeroSize_refuted shows that this is needed). Inputs shorter than 2^63 bytes."
 },
 "C75": {
  "note": "bytesN with N > 32, which NewType accepts, is excluded (C75_bytes33_refuted)."
 },
 "C76": {
  "note": "Proved for every input and every type list without bytesN for N > 32; those panic (C76_bytes33_refuted).",
  "status": "partial"
 },
 "C77": {
  "note": "All integers up to 64 bits and all non-negative *big.Int; false for negative *big.Int (C77_big_refuted).",
  "status": "partial"
 },
 "C78": {
  "note": "Proved when the indexed arguments come first; false otherwise (C78_string_refuted, C78_unpack_refuted) and for indexed strings (C78_string_arg_refuted).",
  "status": "partial"
 },
 "C79": {
  "note": "Also: names given one after the other are distinct."
 },
 "C80": {
  "note": "Round trip for names with dimensions and tuples with or without []; arrays of tuples are refused, see the refutations. Termination and the exact condition for a panic are proved for every input.",
  "status": "partial"
 },
 "C81": {
  "note": "Refinement to a map over every history of Put and Delete, including nil keys and values of other types; the contents determine the whole state, hence keys, hash, proofs and stored bytes. PutValue is Put of a value that is not a trie. IsDirty: C139."
 },
 "C82": {
  "note": "Locking is explicit in the model: each method is code with lock, memory steps and unlock, interleaved arbitrarily. The wrapped trie is arbitrary. The iterator returned by ValueIterator is used outside the lock and is not covered."
 },
 "C83": {
  "note": "For arbitrary (forged) proofs of the right length; the collision is between inputs evaluated in the verification and in the tree."
 },
 "C85": {
  "note": "Membership, no duplicates."
 },
 "C86": {
  "note": "Position-wise and involution."
 },
 "C87": {
  "note": "Everything holds except AddInts with the receiver among the summands (refuted).",
  "status": "partial"
 },
 "C88": {
  "note": "Bit is exact; Bits(n) is characterised as the n+1 leading bits and the claim refuted.",
  "status": "partial"
 },
 "C92": {
  "note": "Refuted for LDB.Batch, which drops the error of goleveldb's Write; single writes report errors; MemDB batches without nil keys or values are applied completely.",
  "status": "partial"
 },
 "C94": {
  "note": "Refuted; servers that differ in exactly one field do serialize differently.",
  "status": "partial"
 },
 "C95": {
  "note": "Proved for lists with lower-case id strings, for every sorting algorithm; refuted for mixed case.",
  "status": "partial"
 },
 "C96": {
  "note": "Stated for every database that behaves as a map."
 },
 "C97": {
  "note": "For every sequence of Append, Get, HashValue, GetProof, Commit, CollapseBefore, reopening; any set of failing Saves; given the codec law and Fair values. C97_clash_refuted shows that the assumption on values is needed."
 },
 "C98": {
  "note": "Refuted as stated: the second commit drops values of more than 4096 encoded bytes when there is no value adapter. Proved for every sequence of calls without Commit.",
  "status": "partial"
 },
 "C99": {
  "note": "Refuted: Has takes the mutex and calls Get, which takes it again; C99_has_never_returns (in no execution) and C99_others_blocked (every other call is stuck from then on). Get alone returns.",
  "status": "partial"
 }
}