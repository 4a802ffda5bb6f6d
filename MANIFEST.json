{
 "claims": [
  {
   "property": "C01",
   "status": "proved",
   "theorems": [
    "Verif.Trie.C01_get",
    "Verif.Trie.C01_get_fixed",
    "Verif.Trie.C01_last_put",
    "Verif.Trie.C01_absent"
   ],
   "note": "Every history over a prefix-free key set (fixed-length keys as a corollary), by a simulation between trees and maps."
  },
  {
   "property": "C02",
   "status": "partial",
   "theorems": [
    "Verif.Trie.C02_refuted",
    "Verif.Trie.C02_refuted_put",
    "Verif.Trie.C02_refuted_del",
    "Verif.Trie.C02_refuted_empty_key",
    "Verif.Trie.C02_get_partial",
    "Verif.Trie.C02_one_key_partial"
   ],
   "note": "False as stated (C02_refuted*: keys exhausted at a child boundary alias a longer key). Proved when every call addresses a key that is stored or has no stored proper extension; for all other calls C02_one_key_partial says which single key they act on."
  },
  {
   "property": "C03",
   "status": "proved",
   "theorems": [
    "Verif.Trie.C03_root_depends_on_contents",
    "Verif.Trie.C03_put_delete_restores",
    "Verif.Trie.C03_order_irrelevant"
   ],
   "note": "Two histories with the same contents have the same root hash; put/delete of a fresh key restores it; order of commuting updates is irrelevant. Every digest function."
  },
  {
   "property": "C04",
   "status": "proved",
   "theorems": [
    "Verif.Trie.C04_root_binding",
    "Verif.Trie.C04_root_binding_fixed"
   ],
   "note": "Collision between inputs actually hashed for the two roots otherwise. Side condition: no serialized header is 64 bytes long (automatic for fixed-length keys whose rtl encoding has at most 60 bytes, C04_root_binding_fixed)."
  },
  {
   "property": "C05",
   "status": "partial",
   "theorems": [
    "Verif.Trie.C05_delete",
    "Verif.Trie.C05_put_refuted",
    "Verif.Trie.C05_put_partial"
   ],
   "note": "Delete exact. Put reports a change even when the same value is stored again (C05_put_refuted)."
  },
  {
   "property": "C06",
   "status": "proved",
   "theorems": [
    "Verif.Trie.C06_count",
    "Verif.Trie.C06_count_get"
   ],
   "note": "Count equals the number of stored keys after every history."
  },
  {
   "property": "C07",
   "status": "proved",
   "theorems": [
    "Verif.Trie.Store.C07_transparent_all",
    "Verif.Trie.Store.C07_transparent_clear",
    "Verif.Trie.Store.C07_transparent",
    "Verif.Trie.Store.C07_transparent_fixed",
    "Verif.Trie.Store.C07_reload",
    "Verif.Trie.Store.C07_count_refuted"
   ],
   "note": "For all histories (C07_transparent_all: as the trie in memory; C07_transparent, _clear: as the map, for unambiguous keys); hash computations along the history must be free of collisions and of 64-byte headers (automatic for keys of one fixed length up to 60 encoded bytes). The key counter is not restored by a reload (C07_count_refuted)."
  },
  {
   "property": "C08",
   "status": "partial",
   "theorems": [
    "Verif.Trie.Store.C08_no_failure_partial",
    "Verif.Trie.Store.C08_stored_partial",
    "Verif.Trie.Store.C08_root_partial",
    "Verif.Trie.Store.C08_refuted"
   ],
   "note": "Refuted as stated: iterateSave drops the errors of the children. Proved: if no Save of a node or value of the tree fails everything is stored and Commit returns nil; a commit that returns nil has stored a changed root node."
  },
  {
   "property": "C09",
   "status": "proved",
   "theorems": [
    "Verif.Trie.C09_proof_verifies",
    "Verif.Trie.C09_stored_keys"
   ],
   "note": "Every history over a prefix-free key set, every stored key, every digest with 32-byte output; the verified value hash is the hash of the stored value."
  },
  {
   "property": "C10",
   "status": "proved",
   "theorems": [
    "Verif.Trie.C10_existence_complete"
   ],
   "note": "Non-empty keys; presence and absence chains both evaluate to the root hash and decide correctly."
  },
  {
   "property": "C11",
   "status": "partial",
   "theorems": [
    "Verif.Trie.C11_existence_sound_partial",
    "Verif.Trie.C11_relabel_refuted",
    "Verif.Trie.C11_missing_value_refuted"
   ],
   "note": "False as stated (C11_relabel_refuted: the label of a child proof is neither hashed nor compared with its Merkle position; C11_missing_value_refuted: a missing value and the nil hash are hashed alike). Proved for chains whose Merkle paths are the paths of the children they are labelled with, up to the nil hash."
  },
  {
   "property": "C12",
   "status": "partial",
   "theorems": [
    "Verif.Trie.Store.C12_forward_partial",
    "Verif.Trie.Store.C12_fixed_partial",
    "Verif.Trie.Store.C12_once_partial",
    "Verif.Trie.Store.C12_refuted"
   ],
   "note": "False for arbitrary keys (C12_refuted: after Put of a key that ends where a child begins, a value sits at an odd number of nibbles and Current panics). Proved for every history in which each key addressed is stored or has no stored proper extension (in particular prefix-free keys), including commits, collapsed and reloaded nodes. Hypotheses: no digest collision among the nodes of the trees passed through, storage present and not failing."
  },
  {
   "property": "C13",
   "status": "partial",
   "theorems": [
    "Verif.Trie.Store.C13_backward_partial",
    "Verif.Trie.Store.C13_sound_partial",
    "Verif.Trie.Store.C13_refuted"
   ],
   "note": "False (C13_refuted: the own value of a node is skipped when its child 0 exists). Proved exact for prefix-free keys; for unambiguous histories proved sound and strictly descending."
  },
  {
   "property": "C14",
   "status": "proved",
   "theorems": [
    "Verif.Trie.C14_key_roundtrip",
    "Verif.Trie.C14_key_nibbles",
    "Verif.Trie.C14_keystring_roundtrip",
    "Verif.Trie.C14_hex_roundtrip",
    "Verif.Trie.C14_hex_digits",
    "Verif.Trie.PrefixKey.C14_bytes"
   ],
   "note": "All lengths and parities; single-byte facts checked on all 256 bytes by the kernel. C14_bytes: the bytes of a nibble string of either parity stand for the same number."
  },
  {
   "property": "C15",
   "status": "proved",
   "theorems": [
    "Verif.Trie.C15_roundtrip",
    "Verif.Trie.C15_injective",
    "Verif.Trie.C15_header_describes_node"
   ],
   "note": "go-rtl's byte-string codec is a parameter assumed to read back what it wrote; toyRtl shows the assumption is satisfiable."
  },
  {
   "property": "C16",
   "status": "proved",
   "theorems": [
    "Verif.Trie.Store.C16_two_tries",
    "Verif.Trie.Store.C16_maps"
   ],
   "note": "For every sequence of calls other than RevertTo, over any trie (also one with uncommitted changes): C16_two_tries for arbitrary keys against two tries in memory, C16_maps against two maps for prefix-free keys. Hash computations along the history must be free of collisions and 64-byte headers; storage present and not failing."
  },
  {
   "property": "C17",
   "status": "partial",
   "theorems": [
    "Verif.Trie.Store.C17_reverts_partial",
    "Verif.Trie.Store.C17_two_tries_partial",
    "Verif.Trie.Store.C17_refuted"
   ],
   "note": "False for check point 0 (C17_refuted: changes made between the last commit and the first check point are dropped). Proved for every check point that has another one before it, and for the first one when nothing was changed before it; also that all calls answer as two tries with copies (C17_two_tries_partial)."
  },
  {
   "property": "C18",
   "status": "proved",
   "theorems": [
    "Verif.HTree.C18_run",
    "Verif.HTree.C18_append_get",
    "Verif.HTree.C18_rejected",
    "Verif.HTree.C18_accepted",
    "Verif.HTree.C18_wraps_refuted"
   ],
   "note": "For all interleavings of Append, Get, HashValue, GetProof (C18_run) and for the plain appended tree, below 2^64 values. The append at key 2^64-1 wraps the expected key to 0 (C18_wraps_refuted)."
  },
  {
   "property": "C19",
   "status": "proved",
   "theorems": [
    "Verif.HTree.C19_reopened_expecting"
   ],
   "note": "Given the round-trip law of the codec, no failing Save, and Fair values (32 bytes, no collision among the inputs hashed along the history, no value equal to one of those digests); with and without the check for preceding gaps."
  },
  {
   "property": "C20",
   "status": "partial",
   "theorems": [
    "Verif.HTree.C20_proof",
    "Verif.HTree.C20_no_proof",
    "Verif.HTree.C20_historyProof",
    "Verif.HTree.C20_short_value_refuted"
   ],
   "note": "Proved for 32-byte values (C20_proof, C20_historyProof, C20_no_proof). Values of other lengths are accepted by Append but their proofs do not verify (C20_short_value_refuted)."
  },
  {
   "property": "C21",
   "status": "partial",
   "theorems": [
    "Verif.HTree.C21_root_binding",
    "Verif.HTree.C21_short_values_refuted",
    "Verif.HTree.C21_other_length_refuted",
    "Verif.HTree.C21_hspec_binding"
   ],
   "note": "Proved for 32-byte values (C21_root_binding, C21_hspec_binding). Values of other lengths are not bound by the root (C21_short_values_refuted); trees of different length may share a root if a value is the nil hash (C21_other_length_refuted)."
  },
  {
   "property": "C22",
   "status": "proved",
   "theorems": [
    "Verif.HTree.C22_roundtrip",
    "Verif.HTree.C22_positional",
    "Verif.HTree.C22_injective",
    "Verif.HTree.C22_surjective",
    "Verif.HTree.C22_order",
    "Verif.HTree.C22_bits"
   ],
   "note": ""
  },
  {
   "property": "C23",
   "status": "proved",
   "theorems": [
    "Verif.Merkle.C23_complete_proof_verifies",
    "Verif.Merkle.C23_complete_proof_extends",
    "Verif.Merkle.C23_negative_index_appends_root",
    "Verif.Merkle.C23_root_independent_of_proof"
   ],
   "note": "Verification for every index of every list of 32-byte hashes, also when appended to an existing proof; negative index appends the root; root independent of proof collection."
  },
  {
   "property": "C24",
   "status": "proved",
   "theorems": [
    "Verif.Merkle.C24_inplace_agrees_with_padded",
    "Verif.Merkle.C24_is_complete_tree_root"
   ],
   "note": "Equality of both results for all lists, indexes (negative and out of range included) and proofs; both equal the root of the complete binary tree specification."
  },
  {
   "property": "C25",
   "status": "proved",
   "theorems": [
    "Verif.Merkle.C25_merkle_proof_verifies",
    "Verif.Merkle.C25_new_proof_verifies",
    "Verif.Merkle.C25_negative_index"
   ],
   "note": "As C23 for the in-place MerkleHash; a negative index collects nothing."
  },
  {
   "property": "C26",
   "status": "proved",
   "theorems": [
    "Verif.Merkle.C26_complete_bits",
    "Verif.Merkle.C26_merkle_bits",
    "Verif.Merkle.C26_bigKey_writes_flags"
   ],
   "note": "Order flags = binary digits of the index, one per level; BigKey writes exactly the flags."
  },
  {
   "property": "C27",
   "status": "proved",
   "theorems": [
    "Verif.Merkle.C27_runlength_lossless",
    "Verif.Merkle.C27_proof_folds"
   ],
   "note": "By an invariant over every sequence of appends."
  },
  {
   "property": "C28",
   "status": "proved",
   "theorems": [
    "Verif.Merkle.C28_serialization_roundtrip",
    "Verif.Merkle.C28_nil_roundtrip",
    "Verif.Merkle.C28_appended_fits"
   ],
   "note": "Round trip with trailing bytes under exact 16-bit field conditions, which hold for every proof of fewer than 2^16 appended hashes."
  },
  {
   "property": "C29",
   "status": "proved",
   "theorems": [
    "Verif.Merkle.C29_complete_binding",
    "Verif.Merkle.C29_merkle_binding",
    "Verif.Merkle.C29_length_not_bound"
   ],
   "note": "The exhibited collision is between inputs actually hashed for the two roots. The equal-length hypothesis is necessary (C29_length_not_bound)."
  },
  {
   "property": "C30",
   "status": "partial",
   "theorems": [
    "Verif.Merkle.C30_valid_refuted",
    "Verif.Merkle.C30_valid_partial",
    "Verif.Merkle.C30_valid_accepts",
    "Verif.Merkle.Texts.C30_first"
   ],
   "note": "False as stated (C30_valid_refuted: a repeated first hash gives index 0, which IsValid rejects); proved when the first two hashes differ. C30_valid_accepts says exactly which tables are accepted; C30_first: the first hash stays first for every table."
  },
  {
   "property": "C31",
   "status": "proved",
   "theorems": [
    "Verif.Merkle.C31_header_index_separates"
   ],
   "note": "Collision between the two 13-byte inputs otherwise."
  },
  {
   "property": "C32",
   "status": "proved",
   "theorems": [
    "Verif.DB.C32_memdb_map",
    "Verif.DB.C32_nil_refused",
    "Verif.DB.C32_ldb_map"
   ],
   "note": "In-memory database and LevelDB-backed database (goleveldb taken as a map)."
  },
  {
   "property": "C33",
   "status": "proved",
   "theorems": [
    "Verif.DB.C33_prefixKey2",
    "Verif.DB.C33_view_is_map",
    "Verif.DB.C33_prefix_isolation",
    "Verif.DB.C33_comparable_overlap"
   ],
   "note": "Any base database that behaves as a map for single calls; the batch path of prefixed views is C38. Comparable prefixes are shown to overlap."
  },
  {
   "property": "C34",
   "status": "proved",
   "theorems": [
    "Verif.DB.C34_overlay",
    "Verif.DB.C34_base_only_read",
    "Verif.DB.C34_mem_base_unchanged"
   ],
   "note": "Any base whose reads behave as a map."
  },
  {
   "property": "C35",
   "status": "partial",
   "theorems": [
    "Verif.DB.C35_transparent_partial",
    "Verif.DB.C35_exact_partial",
    "Verif.DB.C35_has_refuted",
    "Verif.DB.C35_foreign_batch_refuted"
   ],
   "note": "Get, Put, Delete and batches are transparent for every history and eviction schedule. Has is refuted (a Get of a missing key caches nil), as are batches not made by the cached database; exact transparency is proved for histories without a Get of a missing key."
  },
  {
   "property": "C36",
   "status": "partial",
   "theorems": [
    "Verif.DB.C36_readonly",
    "Verif.DB.C36_idempotent",
    "Verif.DB.C36_newBatch_refuted"
   ],
   "note": "Base unchanged, reads equal, Put/Delete/Batch/Close report an error, wrapping is idempotent. Refuted for batches obtained from the read-only database: NewBatch returns nil and collecting a command panics."
  },
  {
   "property": "C37",
   "status": "partial",
   "theorems": [
    "Verif.DB.C37_batchWrite_partial",
    "Verif.DB.C37_lost_tail_refuted"
   ],
   "note": "Refuted: accepted items pending when the last item is rejected are lost. Proved: exactly the first count accepted items are written, in order; all of them when the last item is accepted; rejected items are assumed to issue no writes."
  },
  {
   "property": "C38",
   "status": "partial",
   "theorems": [
    "Verif.DB.C38_batch_sequential",
    "Verif.DB.C38_batch_content",
    "Verif.DB.C38_keybatch_converts",
    "Verif.DB.C38_size",
    "Verif.DB.C38_keybatch_apply_refuted",
    "Verif.DB.C38_keybatch_apply_partial"
   ],
   "note": "Batch equals its commands one by one; a key-converting batch converts every key in order. Refuted: applying such a batch panics (MemDB) or is refused (LDB)."
  },
  {
   "property": "C39",
   "status": "proved",
   "theorems": [
    "Verif.Num.C39_addGas",
    "Verif.Num.C39_subGas",
    "Verif.Num.C39_conservation"
   ],
   "note": "AddGas/SubGas exact, and conservation by induction over every history of calls."
  },
  {
   "property": "C40",
   "status": "proved",
   "theorems": [
    "Verif.Num.C40_safeAdd",
    "Verif.Num.C40_safeMul",
    "Verif.Num.C40_safeSub"
   ],
   "note": "Flag iff overflow/underflow, word = result modulo 2^64, for all 64-bit arguments."
  },
  {
   "property": "C41",
   "status": "proved",
   "theorems": [
    "Verif.BigMath.C41_u256",
    "Verif.BigMath.C41_u256_inplace",
    "Verif.BigMath.C41_s256",
    "Verif.BigMath.C41_padded",
    "Verif.BigMath.C41_u256Bytes",
    "Verif.BigMath.C41_byte"
   ],
   "note": "All integers, including negative ones; the byte loops over 64-bit words are modelled."
  },
  {
   "property": "C42",
   "status": "partial",
   "theorems": [
    "Verif.BigMath.C42_exp_partial",
    "Verif.BigMath.C42_base_after",
    "Verif.BigMath.C42_base_changed_refuted"
   ],
   "note": "Value and frame condition proved; the base is overwritten (refuted with witness, and its new value is characterised); exponents enter by absolute value."
  },
  {
   "property": "C43",
   "status": "partial",
   "theorems": [
    "Verif.BigMath.C43_compareBigInt",
    "Verif.BigMath.C43_order",
    "Verif.BigMath.C43_compare_partial",
    "Verif.BigMath.C43_transitivity_refuted"
   ],
   "note": "CompareBigInt is a total order; BigInt.Compare is reflexive and antisymmetric everywhere, and correct on nil and non-negative numbers; transitivity fails with negative numbers (refuted)."
  },
  {
   "property": "C44",
   "status": "proved",
   "theorems": [
    "Verif.BigMath.C44_clamped_sub",
    "Verif.BigMath.C44_negative"
   ],
   "note": "Amounts, clamping and absence of side effects in the heap model; negative operands take nothing."
  },
  {
   "property": "C45",
   "status": "proved",
   "theorems": [
    "Verif.Num.C45_toHeight_split",
    "Verif.Num.C45_split_toHeight",
    "Verif.Num.C45_toHeight_nil_iff",
    "Verif.Num.C45_epoch_bounds",
    "Verif.Num.C45_removeRemainder",
    "Verif.Num.C45_first_last_flags",
    "Verif.Num.C45_block_flags",
    "Verif.Num.C45_nil",
    "Verif.Num.C45_eras"
   ],
   "note": "Both directions of split/ToHeight, exact nil condition, epoch bounds, first/last flags, RemoveRemainder, eras (C45_eras, for an era length that fits in 64 bits). BlocksInEpoch is a parameter with 0 < BlocksInEpoch (< 2^32 where the 32-bit block number has to hold the remainder)."
  },
  {
   "property": "C46",
   "status": "proved",
   "theorems": [
    "Verif.Num.C46_compare_rank",
    "Verif.Num.C46_chain_compare_rank",
    "Verif.Num.C46_compare_eq_zero",
    "Verif.Num.C46_compare_order",
    "Verif.Num.C46_diff"
   ],
   "note": "Compare = sign of difference of ranks (nil smallest); Diff = distance of ranks with the sign of Compare."
  },
  {
   "property": "C47",
   "status": "proved",
   "theorems": [
    "Verif.Num.C47_records_max",
    "Verif.Num.C47_results",
    "Verif.Num.C47_monotone"
   ],
   "note": "All schedules of any number of goroutines, memory steps inside the critical section interleaved with the others; sync.Mutex trusted for mutual exclusion."
  },
  {
   "property": "C48",
   "status": "proved",
   "theorems": [
    "Verif.Num.C48_share",
    "Verif.Num.C48_shares_sum",
    "Verif.Num.C48_outside"
   ],
   "note": "ShouldPropose equals the round-robin share; shares of all members sum to BlocksInEpoch."
  },
  {
   "property": "C49",
   "status": "proved",
   "theorems": [
    "Verif.Num.C49_version",
    "Verif.Num.C49_version_order"
   ],
   "note": "Round trip, range check and lexicographic order."
  },
  {
   "property": "C50",
   "status": "proved",
   "theorems": [
    "Verif.ByteOps.C50_subBytes",
    "Verif.ByteOps.C50_overflow_panics"
   ],
   "note": "Bit-level specification; beyond the range of int the call panics (C50_overflow_panics)."
  },
  {
   "property": "C51",
   "status": "proved",
   "theorems": [
    "Verif.ByteOps.C51_concat",
    "Verif.ByteOps.C51_split",
    "Verif.ByteOps.C51_split_sizes",
    "Verif.ByteOps.C51_split_concat",
    "Verif.ByteOps.C51_node_ids"
   ],
   "note": "Split/concatenate both ways, failure exactly on non-dividing sizes, panics exactly on sizes that are no lengths (C51_split_sizes), node id lists."
  },
  {
   "property": "C52",
   "status": "proved",
   "theorems": [
    "Verif.ByteOps.C52_setBytes",
    "Verif.ByteOps.C52_fixed_size",
    "Verif.ByteOps.C52_padding"
   ],
   "note": "SetBytes and the padding functions against one crop-and-pad specification."
  },
  {
   "property": "C53",
   "status": "proved",
   "theorems": [
    "Verif.Num.C53_height_roundtrip",
    "Verif.Num.C53_height_value",
    "Verif.Num.C53_chain_roundtrip",
    "Verif.Num.C53_order"
   ],
   "note": "Round trips, value of arbitrary-length inputs, order preservation."
  },
  {
   "property": "C54",
   "status": "proved",
   "theorems": [
    "Verif.Hex.C54_decode",
    "Verif.Hex.C54_decode_encode",
    "Verif.Hex.C54_decodeUint64",
    "Verif.Hex.C54_decodeBig",
    "Verif.Hex.C54_uint64_roundtrip",
    "Verif.Hex.C54_big_roundtrip",
    "Verif.Hex.C54_negative_rejected",
    "Verif.Hex.C54_unmarshalBytes",
    "Verif.Hex.C54_unmarshalUint64",
    "Verif.Hex.C54_unmarshalBig",
    "Verif.Hex.C54_unmarshalFixed",
    "Verif.Hex.C54_fixed_roundtrip",
    "Verif.Hex.C54_fromHex"
   ],
   "note": "Acceptance is characterised exactly for Decode, DecodeUint64, DecodeBig and the text forms; round trips follow. encoding/hex and strconv are given by their documentation."
  },
  {
   "property": "C55",
   "status": "proved",
   "theorems": [
    "Verif.Shard.C55_total",
    "Verif.Shard.C55_order_independent",
    "Verif.Shard.C55_current_optional",
    "Verif.Shard.C55_panics",
    "Verif.Shard.C55_single"
   ],
   "note": "NewShardInfo/AllIDs/ShardTo: group membership, strict order, totality, independence of order, multiplicity and of listing the current chain; panics exactly for a nil current chain or more than 256 chains. rtl.Numeric.BytesToInt is read as big endian."
  },
  {
   "property": "C56",
   "status": "partial",
   "theorems": [
    "Verif.Shard.C56_leading_mod_partial",
    "Verif.Shard.C56_leading_partial",
    "Verif.Shard.C56_large",
    "Verif.Shard.C56_refuted"
   ],
   "note": "Proved for up to 128 shards, including sizes that are not powers of two (leading bits modulo n). Refuted for 256 shards (C56_refuted); C56_large states what happens above 128."
  },
  {
   "property": "C57",
   "status": "partial",
   "theorems": [
    "Verif.Shard.C57_pos_sound",
    "Verif.Shard.C57_pos_inverse_partial",
    "Verif.Shard.C57_refuted"
   ],
   "note": "Soundness for all lists; full inverse when the nil id is not listed; refuted otherwise (C57_refuted)."
  },
  {
   "property": "C58",
   "status": "partial",
   "theorems": [
    "Verif.Shard.C58_isIn_partial",
    "Verif.Shard.C58_isIn_multiple_of_8",
    "Verif.Shard.C58_isIn_outside",
    "Verif.Shard.C58_isValid",
    "Verif.Shard.C58_divides",
    "Verif.Shard.C58_valid_but_short",
    "Verif.Shard.C58_refuted"
   ],
   "note": "Exact for indexes that are not multiples of 8; refuted for multiples of 8 (C58_refuted), whose exact behaviour is C58_isIn_multiple_of_8; indexes outside the address in C58_isIn_outside."
  },
  {
   "property": "C59",
   "status": "proved",
   "theorems": [
    "Verif.Pool.C59_conservation",
    "Verif.Pool.C59_fifo",
    "Verif.Pool.C59_capacity",
    "Verif.Pool.C59_order",
    "Verif.Pool.C59_calls",
    "Verif.Pool.C59_once",
    "Verif.Pool.C59_priority",
    "Verif.Pool.C59_stop_drops",
    "Verif.Pool.C59_priority_tight"
   ],
   "note": "Every execution of any number of pools: conservation, FIFO, capacity, order with one worker, at most one call per event, at most n events of low priority taken while one of high priority waits. What is queued at Stop stays queued (C59_stop_drops)."
  },
  {
   "property": "C60",
   "status": "proved",
   "theorems": [
    "Verif.Pool.C60_count",
    "Verif.Pool.C60_running",
    "Verif.Pool.C60_atLeast",
    "Verif.Pool.C60_noKey"
   ],
   "note": "The count covers the workers of all pools, from the end of incKeyCount to the end of decKeyCount; exactly the workers inside workFunc when none is in between."
  },
  {
   "property": "C61",
   "status": "partial",
   "theorems": [
    "Verif.Pool.C61_noPanic_partial",
    "Verif.Pool.C61_stopped",
    "Verif.Pool.C61_secondStop",
    "Verif.Pool.C61_restartedWorker",
    "Verif.Pool.C61_canReturn",
    "Verif.Pool.C61_restart_refuted"
   ],
   "note": "No panic provided no pool is started after it was stopped; after Stop no worker runs; Stop can always return. Start after Stop panics (C61_restart_refuted, for every number of workers)."
  },
  {
   "property": "C62",
   "status": "partial",
   "theorems": [
    "Verif.Service.C62_effect",
    "Verif.Service.C62_order",
    "Verif.Service.C62_status",
    "Verif.Service.C62_failed_init_refuted",
    "Verif.Service.C62_start_needs_init_partial"
   ],
   "note": "Order and once-per-step proved under every schedule of concurrent callers (quiescent states) and all results of the functions; the last clause is refuted (C62_failed_init_refuted)."
  },
  {
   "property": "C63",
   "status": "partial",
   "theorems": [
    "Verif.Nodes.C63_put",
    "Verif.Nodes.C63_delete_list",
    "Verif.Nodes.C63_delete_index",
    "Verif.Nodes.C63_history_partial",
    "Verif.Nodes.C63_one_deletion_partial",
    "Verif.Nodes.C63_index_refuted",
    "Verif.Nodes.C63_refuted",
    "Verif.Nodes.C63_panic_refuted",
    "Verif.Nodes.C63_new",
    "Verif.Nodes.C63_getNodeIDs_partial",
    "Verif.Nodes.C63_getNodeIDs_refuted"
   ],
   "note": "Put, construction, sorting (swap by swap) and the exact condition under which Delete keeps the index right; histories deleting only the last id refine the ordered set; refuted in general by four witnesses."
  },
  {
   "property": "C64",
   "status": "proved",
   "theorems": [
    "Verif.Nodes.C64_union",
    "Verif.Nodes.C64_remove",
    "Verif.Nodes.C64_contains",
    "Verif.Nodes.C64_equal"
   ],
   "note": "Union, Remove, Contains, Equal; map iteration order is an arbitrary permutation."
  },
  {
   "property": "C65",
   "status": "partial",
   "theorems": [
    "Verif.Nodes.C65_history",
    "Verif.Nodes.C65_flags_partial",
    "Verif.Nodes.C65_flag_refuted",
    "Verif.Nodes.C65_index"
   ],
   "note": "List, membership and Add flag over all histories; the flag of RemoveDataNode on an empty list is refuted."
  },
  {
   "property": "C66",
   "status": "proved",
   "theorems": [
    "Verif.Nodes.C66_error_iff",
    "Verif.Nodes.C66_history",
    "Verif.Nodes.C66_map_roundtrip"
   ],
   "note": "All histories of Add calls from an empty list, error condition, and ToMap/FromMap round trip."
  },
  {
   "property": "C67",
   "status": "partial",
   "theorems": [
    "Verif.Nodes.C67_valid_partial",
    "Verif.Nodes.C67_normal_mode",
    "Verif.Nodes.C67_complete",
    "Verif.Nodes.C67_refuted"
   ],
   "note": "Exact set of built structures that are valid; every valid structure is built; refuted for the main chain with a parent and for stand-alone mode."
  },
  {
   "property": "C68",
   "status": "proved",
   "theorems": [
    "Verif.Rlp.C68_decode",
    "Verif.Rlp.C68_decodeBytes",
    "Verif.Rlp.C68_injective",
    "Verif.Rlp.C68_bytes",
    "Verif.Rlp.C68_readBytes",
    "Verif.Rlp.C68_uint",
    "Verif.Rlp.C68_bool",
    "Verif.Rlp.C68_bigInt"
   ],
   "note": "Every nested value whose encoding has fewer than 2^63-2 bytes (a Go slice); with any bytes behind it, at the top level or in a list with enough room (C68_decode, C68_decodeBytes); also for the single readers Bytes, ReadBytes, Uint, Bool, BigInt. Typed values (structs, slices of integers) are not covered by C68_decode."
  },
  {
   "property": "C69",
   "status": "partial",
   "theorems": [
    "Verif.Rlp.C69_decode",
    "Verif.Rlp.C69_decodeBytes",
    "Verif.Rlp.C69_injective",
    "Verif.Rlp.C69_split",
    "Verif.Rlp.C69_splitString",
    "Verif.Rlp.C69_splitList",
    "Verif.Rlp.C69_splitUint64",
    "Verif.Rlp.C69_bytes",
    "Verif.Rlp.C69_readBytes",
    "Verif.Rlp.C69_uint",
    "Verif.Rlp.C69_bool",
    "Verif.Rlp.C69_bigInt",
    "Verif.Rlp.C69_raw",
    "Verif.Rlp.C69_raw_refuted"
   ],
   "note": "Proved for decoding nested values and for Bytes, ReadBytes, Uint, Bool, BigInt, Split and SplitUint64; false for Raw, which accepts 81 05 (C69_raw_refuted)."
  },
  {
   "property": "C70",
   "status": "proved",
   "theorems": [
    "Verif.Rlp.C70_buffer",
    "Verif.Rlp.C70_encode"
   ],
   "note": "Every well-nested write sequence, of fewer than 2^64 bytes; big integers and 256-bit integers included."
  },
  {
   "property": "C71",
   "status": "proved",
   "theorems": [
    "Verif.Rlp.C71_bytes",
    "Verif.Rlp.C71_list",
    "Verif.Rlp.C71_int",
    "Verif.Rlp.C71_append"
   ],
   "note": "Every 64-bit integer, every byte string of fewer than 2^64 bytes."
  },
  {
   "property": "C72",
   "status": "proved",
   "theorems": [
    "Verif.Rlp.C72_count",
    "Verif.Rlp.C72_count_sound",
    "Verif.Rlp.C72_iterate",
    "Verif.Rlp.C72_iterator"
   ],
   "note": "Also: what CountValues accepts is a sequence of values with canonical headers (C72_count_sound)."
  },
  {
   "property": "C73",
   "status": "partial",
   "theorems": [
    "Verif.Rlp.C73_terminates_refuted",
    "Verif.Rlp.C73_terminates_partial"
   ],
   "note": "False on malformed elements (C73_terminates_refuted, input C1 81); C73_terminates_partial: a loop that also looks at Err stops after at most as many steps as there are bytes, plus one."
  },
  {
   "property": "C74",
   "status": "proved",
   "theorems": [
    "Verif.Abi.C74_roundtrip",
    "Verif.Abi.C74_injective",
    "Verif.Abi.C74_zeroSize_refuted",
    "Verif.Abi.C74_bool"
   ],
   "note": "All types of the contract ABI, any nesting; zero-sized types excluded (C74_zeroSize_refuted shows that this is needed). Inputs shorter than 2^63 bytes."
  },
  {
   "property": "C75",
   "status": "proved",
   "theorems": [
    "Verif.Abi.C75_size",
    "Verif.Abi.C75_args",
    "Verif.Abi.C75_bytes33_refuted"
   ],
   "note": "bytesN with N > 32, which NewType accepts, is excluded (C75_bytes33_refuted)."
  },
  {
   "property": "C76",
   "status": "partial",
   "theorems": [
    "Verif.Abi.C76_noPanic_partial",
    "Verif.Abi.C76_bytes33_refuted"
   ],
   "note": "Proved for every input and every type list without bytesN for N > 32; those panic (C76_bytes33_refuted)."
  },
  {
   "property": "C77",
   "status": "partial",
   "theorems": [
    "Verif.Abi.C77_genInt",
    "Verif.Abi.C77_topic_partial",
    "Verif.Abi.C77_parse",
    "Verif.Abi.C77_big_refuted"
   ],
   "note": "All integers up to 64 bits and all non-negative *big.Int; false for negative *big.Int (C77_big_refuted)."
  },
  {
   "property": "C78",
   "status": "partial",
   "theorems": [
    "Verif.Abi.C78_indexedFirst_partial",
    "Verif.Abi.C78_string_refuted",
    "Verif.Abi.C78_unpack_refuted",
    "Verif.Abi.C78_string_arg_refuted"
   ],
   "note": "Proved when the indexed arguments come first; false otherwise (C78_string_refuted, C78_unpack_refuted) and for indexed strings (C78_string_arg_refuted)."
  },
  {
   "property": "C79",
   "status": "proved",
   "theorems": [
    "Verif.Abi.C79_fresh",
    "Verif.Abi.C79_distinct",
    "Verif.Abi.C79_finite_needed"
   ],
   "note": "Also: names given one after the other are distinct."
  },
  {
   "property": "C80",
   "status": "partial",
   "theorems": [
    "Verif.Abi.Selector.C80_classes",
    "Verif.Abi.Selector.C80_roundtrip_partial",
    "Verif.Abi.Selector.C80_terminates",
    "Verif.Abi.Selector.C80_panic",
    "Verif.Abi.Selector.C80_separator_refuted",
    "Verif.Abi.Selector.C80_suffix_refuted",
    "Verif.Abi.Selector.C80_arrays_refuted"
   ],
   "note": "Round trip for names with dimensions and tuples with or without []; arrays of tuples are refused, see the refutations. Termination and the exact condition for a panic are proved for every input."
  },
  {
   "property": "C81",
   "status": "proved",
   "theorems": [
    "Verif.Combined.C81_map",
    "Verif.Combined.C81_contents",
    "Verif.Combined.C81_hash",
    "Verif.Combined.C81_iterator"
   ],
   "note": "Refinement to a map over every history of Put and Delete, including nil keys and values of other types; the contents determine the whole state, hence keys, hash, proofs and stored bytes. PutValue is Put of a value that is not a trie. IsDirty: C139."
  },
  {
   "property": "C82",
   "status": "proved",
   "theorems": [
    "Verif.SyncTrie.C82_serialised",
    "Verif.SyncTrie.C82_progress"
   ],
   "note": "Locking is explicit in the model: each method is code with lock, memory steps and unlock, interleaved arbitrarily. The wrapped trie is arbitrary. The iterator returned by ValueIterator is used outside the lock and is not covered."
  },
  {
   "property": "C83",
   "status": "proved",
   "theorems": [
    "Verif.Merkle.C83_complete_proof_sound",
    "Verif.Merkle.C83_merkle_proof_sound"
   ],
   "note": "For arbitrary (forged) proofs of the right length; the collision is between inputs evaluated in the verification and in the tree."
  },
  {
   "property": "C85",
   "status": "proved",
   "theorems": [
    "Verif.ByteOps.C85_intersection"
   ],
   "note": "Membership, no duplicates."
  },
  {
   "property": "C86",
   "status": "proved",
   "theorems": [
    "Verif.ByteOps.C86_reverse"
   ],
   "note": "Position-wise and involution."
  },
  {
   "property": "C87",
   "status": "partial",
   "theorems": [
    "Verif.BigMath.C87_add_sub",
    "Verif.BigMath.C87_mul",
    "Verif.BigMath.C87_div",
    "Verif.BigMath.C87_mulRat",
    "Verif.BigMath.C87_addInts_partial",
    "Verif.BigMath.C87_addInts_alias_refuted",
    "Verif.BigMath.C87_toUint64",
    "Verif.BigMath.C87_firstBitSet"
   ],
   "note": "Everything holds except AddInts with the receiver among the summands (refuted)."
  },
  {
   "property": "C88",
   "status": "partial",
   "theorems": [
    "Verif.Shard.C88_bit",
    "Verif.Shard.C88_bits_partial",
    "Verif.Shard.C88_bits_nonpositive",
    "Verif.Shard.C88_bits_refuted"
   ],
   "note": "Bit is exact; Bits(n) is characterised as the n+1 leading bits and the claim refuted."
  },
  {
   "property": "C89",
   "status": "proved",
   "theorems": [
    "Verif.Nodes.C89_toNodeIDs",
    "Verif.Nodes.C89_no_panic"
   ],
   "note": ""
  },
  {
   "property": "C90",
   "status": "proved",
   "theorems": [
    "Verif.Nodes.C90_nodeId",
    "Verif.Nodes.C90_pointer",
    "Verif.Nodes.C90_slices"
   ],
   "note": ""
  },
  {
   "property": "C91",
   "status": "proved",
   "theorems": [
    "Verif.Nodes.C91_auditors",
    "Verif.Nodes.C91_deterministic"
   ],
   "note": ""
  },
  {
   "property": "C93",
   "status": "proved",
   "theorems": [
    "Verif.Hex.C93_text",
    "Verif.Hex.C93_in_bounds",
    "Verif.Hex.C93_decode",
    "Verif.Hex.C93_roundtrip",
    "Verif.Hex.C93_injective"
   ],
   "note": ""
  },
  {
   "property": "C94",
   "status": "partial",
   "theorems": [
    "Verif.Nodes.C94_one_field_partial",
    "Verif.Nodes.C94_refuted"
   ],
   "note": "Refuted; servers that differ in exactly one field do serialize differently."
  },
  {
   "property": "C95",
   "status": "partial",
   "theorems": [
    "Verif.Nodes.C95_add_partial",
    "Verif.Nodes.C95_remove_partial",
    "Verif.Nodes.C95_refuted",
    "Verif.Nodes.C95_duplicate_refuted"
   ],
   "note": "Proved for lists with lower-case id strings, for every sorting algorithm; refuted for mixed case."
  },
  {
   "property": "C92",
   "status": "partial",
   "theorems": [
    "Verif.DB.C92_ldb_batch_refuted",
    "Verif.DB.C92_ldb_reports_partial",
    "Verif.DB.C92_mem_reports_partial"
   ],
   "note": "Refuted for LDB.Batch, which drops the error of goleveldb's Write; single writes report errors; MemDB batches without nil keys or values are applied completely."
  },
  {
   "property": "C96",
   "status": "proved",
   "theorems": [
    "Verif.DB.C96_getNilError"
   ],
   "note": "Stated for every database that behaves as a map."
  },
  {
   "property": "C98",
   "status": "partial",
   "theorems": [
    "Verif.Trie.Store.C98_refuted",
    "Verif.Trie.Store.C98_uncommitted_partial"
   ],
   "note": "Refuted as stated: the second commit drops values of more than 4096 encoded bytes when there is no value adapter. Proved for every sequence of calls without Commit."
  },
  {
   "property": "C97",
   "status": "proved",
   "theorems": [
    "Verif.HTree.C97_run",
    "Verif.HTree.C97_clash_refuted",
    "Verif.HTree.C97_commitAndHash"
   ],
   "note": "For every sequence of Append, Get, HashValue, GetProof, Commit, CollapseBefore, reopening; any set of failing Saves; given the codec law and Fair values. C97_clash_refuted shows that the assumption on values is needed."
  },
  {
   "property": "C99",
   "status": "partial",
   "theorems": [
    "Verif.HTree.Has.C99_has_never_returns",
    "Verif.HTree.Has.C99_others_blocked"
   ],
   "note": "Refuted: Has takes the mutex and calls Get, which takes it again; C99_has_never_returns (in no execution) and C99_others_blocked (every other call is stuck from then on). Get alone returns."
  },
  {
   "property": "C100",
   "status": "proved",
   "theorems": [
    "Verif.HTree.C100_run",
    "Verif.HTree.C100_same_root",
    "Verif.HTree.C100_get",
    "Verif.HTree.C100_nil_value_refuted"
   ],
   "note": "For values none of which is the nil hash and whose blocks do not hash to it (NoNil; necessary: C100_nil_value_refuted), any storage, any sequence of Append and HashValue (C100_run, C100_same_root). C100_get: the first Get over an empty storage returns the right value or nothing; C102 shows what it does to the tree."
  },
  {
   "property": "C101",
   "status": "partial",
   "theorems": [
    "Verif.HTree.C101_sound_partial",
    "Verif.HTree.C101_inner_node_refuted",
    "Verif.HTree.C101_unused_refuted"
   ],
   "note": "Proved for chains of 64 elements and 32-byte values, up to collision and up to the nil hash at unused heights. HistoryProof does not check the length of the chain (C101_inner_node_refuted) and accepts the nil hash at unused heights (C101_unused_refuted)."
  },
  {
   "property": "C102",
   "status": "partial",
   "theorems": [
    "Verif.HTree.C102_get_partial",
    "Verif.HTree.C102_restored_refuted"
   ],
   "note": "Proved for trees made by any calls other than restoring (C102_get_partial); false for restored trees (C102_restored_refuted): HashValue fails after Get of an old key."
  },
  {
   "property": "C103",
   "status": "proved",
   "theorems": [
    "Verif.Combined.C103_proof"
   ],
   "note": "Hash function, go-rtl and the hashes of the sub-tries are parameters."
  },
  {
   "property": "C104",
   "status": "partial",
   "theorems": [
    "Verif.Combined.C104_reopen_partial",
    "Verif.Combined.C104_empty_refuted",
    "Verif.Combined.C104_overwritten_refuted"
   ],
   "note": "Proved for a non-empty trie as long as nothing else is saved under its root. Refuted for the empty trie, and when another trie with the same sub-trie hashes is committed later. Committing the sub-tries along with it is C139."
  },
  {
   "property": "C105",
   "status": "partial",
   "theorems": [
    "Verif.Combined.C105_binding_partial",
    "Verif.Combined.C105_keys_refuted"
   ],
   "note": "The sequence of sub-trie hashes is bound for equal numbers of keys; the keys are not bound (refuted)."
  },
  {
   "property": "C106",
   "status": "partial",
   "theorems": [
    "Verif.Rlp.C106_within_refuted",
    "Verif.Rlp.C106_within_partial"
   ],
   "note": "False for List (C106_within_refuted, input C1 C1 05); proved for Bytes, Uint, BigInt and Raw (C106_within_partial)."
  },
  {
   "property": "C107",
   "status": "proved",
   "theorems": [
    "Verif.Rlp.C107_reader"
   ],
   "note": "Every well-nested write sequence, every sequence of buffer sizes."
  },
  {
   "property": "C108",
   "status": "proved",
   "theorems": [
    "Verif.Abi.C108_pack",
    "Verif.Abi.C108_packArgs"
   ],
   "note": "Types with bytesN for N up to 32."
  },
  {
   "property": "C109",
   "status": "partial",
   "theorems": [
    "Verif.Abi.C109_roundtrip_partial",
    "Verif.Abi.C109_digest",
    "Verif.Abi.C109_mismatch",
    "Verif.Abi.C109_function_refuted",
    "Verif.Abi.C109_function_partial"
   ],
   "note": "Booleans, addresses, byte arrays and integers except negative *big.Int; false for functions (C109_function_refuted), which are read from the right end of the topic (C109_function_partial)."
  },
  {
   "property": "C110",
   "status": "proved",
   "theorems": [
    "Verif.Rlp.C110_encode",
    "Verif.Rlp.C110_negative",
    "Verif.Rlp.C110_stream",
    "Verif.Rlp.C110_roundtrip",
    "Verif.Rlp.C110_plain",
    "Verif.Rlp.C110_injective",
    "Verif.Rlp.C110_nilPointer",
    "Verif.Rlp.C110_nilByte"
   ],
   "note": "Inputs and encodings shorter than 2^63-3 bytes. C110_plain: values without nil, exactly; C110_roundtrip: with nil, as the relation Reads says."
  },
  {
   "property": "C111",
   "status": "proved",
   "theorems": [
    "Verif.Rlp.C111_stream",
    "Verif.Rlp.C111_accepts",
    "Verif.Rlp.C111_typed"
   ],
   "note": "C111_accepts is an equivalence with the declarative relation Enc of Rlp/TypedSpec.lean."
  },
  {
   "property": "C112",
   "status": "partial",
   "theorems": [
    "Verif.Rlp.C112_canonical_partial",
    "Verif.Rlp.C112_injective_partial",
    "Verif.Rlp.C112_canonical_refuted"
   ],
   "note": "False for optional fields given as zero (C112_canonical_refuted); proved for types without optional fields."
  },
  {
   "property": "C113",
   "status": "partial",
   "theorems": [
    "Verif.Rlp.C113_stable_partial",
    "Verif.Rlp.C113_stable_noOptional_partial",
    "Verif.Rlp.C113_stable_refuted",
    "Verif.Rlp.C113_nil_refuted",
    "Verif.Rlp.C113_nilKind_refuted"
   ],
   "note": "False with nil tags together with optional fields (C113_stable_refuted), for nil pointers to structs with mandatory fields (C113_nil_refuted) and for nil tags of the other kind (C113_nilKind_refuted); proved for types without nil tags, and for types without optional fields."
  },
  {
   "property": "C114",
   "status": "partial",
   "theorems": [
    "Verif.Rlp.C114_words",
    "Verif.Rlp.C114_tagWords",
    "Verif.Rlp.C114_nilMeans",
    "Verif.Rlp.C114_parse",
    "Verif.Rlp.C114_means",
    "Verif.Rlp.C114_fields",
    "Verif.Rlp.C114_refused",
    "Verif.Rlp.C114_wellformed_partial",
    "Verif.Rlp.C114_tail_refuted"
   ],
   "note": "Admission and meaning of tags are proved as equivalences; what writer and decoder presuppose follows unless tail is on a byte slice, where it fails (C114_tail_refuted)."
  },
  {
   "property": "C115",
   "status": "proved",
   "theorems": [
    "Verif.Rlp.Cache.C115_complete",
    "Verif.Rlp.Cache.C115_stable",
    "Verif.Rlp.Cache.C115_exclusive",
    "Verif.Rlp.Cache.C115_returns"
   ],
   "note": "C115_returns needs that finitely many types can be found from a type."
  },
  {
   "property": "C116",
   "status": "partial",
   "theorems": [
    "Verif.Rlp.Cache.C116_error",
    "Verif.Rlp.Cache.C116_usable",
    "Verif.Rlp.Cache.C116_exact_partial",
    "Verif.Rlp.Cache.C116_clean_partial",
    "Verif.Rlp.Cache.C116_order_refuted",
    "Verif.Rlp.Cache.C116_oneSided_refuted"
   ],
   "note": "Errors always have a reason and supported types always work (C116_error, C116_usable); the converse depends on the order of calls (C116_order_refuted) and is proved up to and including the first type asked for that gets an error (C116_exact_partial), for graphs in which types have both methods or none (else C116_oneSided_refuted)."
  },
  {
   "property": "C117",
   "status": "partial",
   "theorems": [
    "Verif.HTree.C117_run_partial",
    "Verif.HTree.C117_durable_partial",
    "Verif.HTree.C117_failedWrite_refuted",
    "Verif.HTree.C117_merge_partial",
    "Verif.HTree.C117_rebase_partial",
    "Verif.HTree.C117_rebase_refuted"
   ],
   "note": "Proved for storage that accepts all writes, a lawful codec and a digest without collisions on what is hashed on the way (C117_run_partial, C117_durable_partial). Refuted for a failing write: Clone drops the error, and Rollback leaves a nil tree (C117_failedWrite_refuted). With calls of MergeProof for keys in use and of Rebase in between: C117_merge_partial; what Rebase gives on a storage that has the nodes: C117_rebase_partial, and an error on one that has not: C117_rebase_refuted. Has is not among the calls (C99), nor is MergeProof for keys not in use (C118)."
  },
  {
   "property": "C119",
   "status": "partial",
   "theorems": [
    "Verif.HTree.C119_keys",
    "Verif.HTree.C119_original",
    "Verif.HTree.C119_run",
    "Verif.HTree.C119_saved",
    "Verif.HTree.C119_continued_partial",
    "Verif.HTree.C119_unsaved_refuted",
    "Verif.HTree.C119_commit_refuted",
    "Verif.HTree.C119_copies"
   ],
   "note": "Keys, the original tree, and Append/HashValue on the new tree hold in every state (C119_keys, C119_original, C119_run). If the tree has just been saved, Get and GetProof hold too (C119_saved), and after an accepted Append every call, Commit and reopening included (C119_continued_partial). Refuted for trees that were not saved (C119_unsaved_refuted) and for Commit right after Chop (C119_commit_refuted). C119_copies: children are copied without an error exactly if those that are there have a hash."
  },
  {
   "property": "C118",
   "status": "partial",
   "theorems": [
    "Verif.HTree.C118_run_partial",
    "Verif.HTree.C118_sound_partial",
    "Verif.HTree.C118_blocked_refuted",
    "Verif.HTree.C118_blocked_root_refuted",
    "Verif.HTree.C118_nil_value_refuted",
    "Verif.HTree.C118_put",
    "Verif.HTree.C118_short",
    "Verif.HTree.C118_long_partial",
    "Verif.HTree.C118_long_refuted"
   ],
   "note": "C118_run_partial: for keys that are not blocked (Blocked: at some level the block of the key is the other of a pair with the block of a key at hand and contains none of them), over an empty storage, for values and blocks that do not hash to the nil hash. C118_sound_partial: any chain of 64 elements is refused, or is the proof of the full tree, or proves the nil hash at an unused key, or a collision is exhibited. Refuted for blocked keys (C118_blocked_refuted, C118_blocked_root_refuted) and for the nil hash (C118_nil_value_refuted). C118_short: shorter chains are accepted only for what is in the tree. C118_long_partial: what a longer chain shows. Refuted for longer chains (C118_long_refuted): the value merged need not be in the tree. Missing: trees with a storage. C118_put: a value is reported as put exactly if the node is there and can be read, and then it is in the node."
  },
  {
   "property": "C120",
   "status": "partial",
   "theorems": [
    "Verif.Hex.C120_sign",
    "Verif.Hex.C120_json",
    "Verif.Hex.C120_json_roundtrip",
    "Verif.Hex.C120_parseBig256",
    "Verif.Hex.C120_parseUint64",
    "Verif.Hex.C120_dec256_roundtrip",
    "Verif.Hex.C120_hex256_roundtrip_partial",
    "Verif.Hex.C120_hex256_negative_refuted",
    "Verif.Hex.C120_nil",
    "Verif.Hex.C120_hex64_roundtrip"
   ],
   "note": "JSON forms, accepted texts and results, decimal and 64-bit round trips in full; the hexadecimal 256-bit round trip holds for numbers that are not negative and is refuted for negative ones. C120_sign: exactly negative numbers have a minus."
  },
  {
   "property": "C121",
   "status": "partial",
   "theorems": [
    "Verif.Trie.Store.C121_copy",
    "Verif.Trie.Store.C121_origin",
    "Verif.Trie.Store.C121_map_partial",
    "Verif.Trie.Store.C121_iterateAll_partial",
    "Verif.Trie.Store.C121_map_refuted"
   ],
   "note": "Copies in full (for values that determine their keys); MarshalAsMap and IterateAll with noNil hold except for the empty key, for which the claim is refuted."
  },
  {
   "property": "C122",
   "status": "partial",
   "theorems": [
    "Verif.Trie.Store.C122_batch",
    "Verif.Trie.Store.C122_saved",
    "Verif.Trie.Store.C122_zero_refuted",
    "Verif.Trie.Store.C122_rebase",
    "Verif.Trie.Store.C122_emptyRoot",
    "Verif.Trie.Store.C122_reports"
   ],
   "note": "In full except for the batch size zero, which panics (C122_zero_refuted). C122_reports: what Put tells, counts and when it returns an error, for any failures of storage."
  },
  {
   "property": "C123",
   "status": "partial",
   "theorems": [
    "Verif.Rlp.C123_more",
    "Verif.Rlp.C123_encode_partial",
    "Verif.Rlp.C123_decode_partial",
    "Verif.Rlp.C123_roundtrip_partial",
    "Verif.Rlp.C123_nil_refuted",
    "Verif.Rlp.C123_short_refuted",
    "Verif.Rlp.C123_wrongKind_refuted",
    "Verif.Rlp.C123_optional_refuted",
    "Verif.Rlp.C123_optional_raw_refuted",
    "Verif.Rlp.C123_endOfList_refuted",
    "Verif.Rlp.C123_text_refuted"
   ],
   "note": "Encoding agrees for all accepted types and all values without an optional slice that is empty but not nil; decoding agrees for all accepted types without tags for nil, up to nil for empty slices. Outside of that the property fails: C123_nil_refuted, C123_short_refuted, C123_wrongKind_refuted, C123_optional_refuted, C123_optional_raw_refuted, C123_endOfList_refuted, C123_text_refuted. Types that implement Encoder or Decoder are not in the universe."
  },
  {
   "property": "C124",
   "status": "partial",
   "theorems": [
    "Verif.Abi.C124_read_partial",
    "Verif.Abi.C124_brackets",
    "Verif.Abi.C124_word",
    "Verif.Abi.C124_loose_refuted",
    "Verif.Abi.C124_name_refuted",
    "Verif.Abi.C124_panic_refuted",
    "Verif.Abi.C124_text",
    "Verif.Abi.C124_texts",
    "Verif.Abi.C124_selector_partial"
   ],
   "note": "Every valid type is read as declared (C124_read_partial: field names must have a letter before other characters; struct sizes must fit), selectors come back with the same canonical text (C124_selector_partial: the parser refuses arrays of tuples), canonical texts are unique (C124_text, C124_texts), words with digits are characterised (C124_word). False in the code: texts that are no types are accepted (C124_loose_refuted), some field names are refused (C124_name_refuted), a huge array in a struct panics (C124_panic_refuted)."
  },
  {
   "property": "C125",
   "status": "partial",
   "theorems": [
    "Verif.Abi.C125_methods",
    "Verif.Abi.C125_events",
    "Verif.Abi.C125_errors",
    "Verif.Abi.C125_accept",
    "Verif.Abi.C125_call",
    "Verif.Abi.C125_unknown",
    "Verif.Abi.C125_eventById",
    "Verif.Abi.C125_returns_partial",
    "Verif.Abi.C125_map_partial",
    "Verif.Abi.C125_error",
    "Verif.Abi.C125_revert",
    "Verif.Abi.C125_name_refuted",
    "Verif.Abi.C125_returns_refuted",
    "Verif.Abi.C125_map_refuted",
    "Verif.Abi.C125_reuse_refuted",
    "Verif.Abi.C125_memory_partial",
    "Verif.Abi.C125_memory_refuted"
   ],
   "note": "Tables, acceptance, calls, lookups, errors and revert reasons proved for all declarations (C125_methods, C125_events, C125_errors, C125_accept, C125_call, C125_unknown, C125_eventById, C125_error, C125_revert). Returns only if no event has the name (C125_returns_partial, C125_returns_refuted); maps only for distinct names (C125_map_partial, C125_map_refuted); own memory only with arguments (C125_memory_partial, C125_memory_refuted); names of overloads may shadow (C125_name_refuted); reuse of a contract (C125_reuse_refuted)."
  },
  {
   "property": "C126",
   "status": "partial",
   "theorems": [
    "Verif.Abi.C126_map",
    "Verif.Abi.C126_plain",
    "Verif.Abi.C126_copy_partial",
    "Verif.Abi.C126_tuple_partial",
    "Verif.Abi.C126_own_partial",
    "Verif.Abi.C126_own_refuted",
    "Verif.Abi.C126_twice_refuted",
    "Verif.Abi.C126_order_refuted",
    "Verif.Abi.C126_tag_refuted",
    "Verif.Abi.C126_copy_refuted"
   ],
   "note": "Proved: what a successful mapping gives, acceptance without tags, copying for different names, packing from structs with different names in camel case. Refuted: packing the struct made for a tuple whose names are equal in camel case, components or arguments with the same name, independence of the order, tags of exported fields beginning beyond ASCII."
  },
  {
   "property": "C127",
   "status": "partial",
   "theorems": [
    "Verif.Abi.Set.C127_types",
    "Verif.Abi.Set.C127_faithful_partial",
    "Verif.Abi.Set.C127_alike",
    "Verif.Abi.Set.C127_through",
    "Verif.Abi.Set.C127_length_refuted",
    "Verif.Abi.Set.C127_position_refuted",
    "Verif.Abi.Set.C127_endless_refuted",
    "Verif.Abi.Set.C127_panic_refuted",
    "Verif.Abi.Set.C127_single_refuted"
   ],
   "note": "Proved: success and form kept imply content kept; success for types alike but for names; passing through pointers and interfaces. Refuted: arrays of other lengths, nested structs by name, errors instead of panics or endless runs, a single tuple. C127_types: the model takes types for the same exactly if they are equal."
  },
  {
   "property": "C128",
   "status": "proved",
   "theorems": [
    "Verif.Print.C128_text",
    "Verif.Print.C128_number",
    "Verif.Print.C128_injective",
    "Verif.Print.C128_both",
    "Verif.Print.C128_hex",
    "Verif.Print.C128_nil"
   ],
   "note": ""
  },
  {
   "property": "C129",
   "status": "partial",
   "theorems": [
    "Verif.Rat64.C129_up_partial",
    "Verif.Rat64.C129_down_partial",
    "Verif.Rat64.C129_product_partial",
    "Verif.Rat64.C129_up_refuted",
    "Verif.Rat64.C129_product_refuted",
    "Verif.Rat64.C129_down_refuted",
    "Verif.Rat64.C129_limit_refuted",
    "Verif.Rat64.C129_meaningless",
    "Verif.Rat64.C129_compare",
    "Verif.Rat64.C129_large"
   ],
   "note": "Proved for numbers with a numerator below 2^53 in absolute value and a denominator up to 2^1000 (floor: not negative); refuted beyond 53 bits, for negative numbers rounded down and for 2^63. Numbers of magnitude 2^64 and more are reported (C129_large)."
  },
  {
   "property": "C130",
   "status": "partial",
   "theorems": [
    "Verif.Rlp.Buffers.C130_independent_partial",
    "Verif.Rlp.Buffers.C130_pool_partial",
    "Verif.Rlp.Buffers.C130_copied_refuted",
    "Verif.Rlp.Buffers.C130_twice_refuted",
    "Verif.Rlp.Buffers.C130_derived_refuted",
    "Verif.Rlp.Buffers.C130_self_refuted"
   ],
   "note": "Proved for all programs that use no handle whose buffer went back to the pool; refuted for copies and derived handles used after the flush of the owner and for an encoder reset to itself."
  },
  {
   "property": "C131",
   "status": "partial",
   "theorems": [
    "Verif.Nodes.C131_sorted",
    "Verif.Nodes.C131_canonical_partial",
    "Verif.Nodes.C131_canonical_refuted",
    "Verif.Nodes.C131_hash",
    "Verif.Nodes.C131_hash_partial",
    "Verif.Nodes.C131_auditors_refuted",
    "Verif.Nodes.C131_admin_partial",
    "Verif.Nodes.C131_admin_refuted",
    "Verif.Nodes.C131_answers",
    "Verif.Nodes.C131_boot_partial",
    "Verif.Nodes.C131_boot_refuted",
    "Verif.Nodes.C131_server_partial",
    "Verif.Nodes.C131_server_ports",
    "Verif.Nodes.C131_server_refuted",
    "Verif.Nodes.C131_report"
   ],
   "note": "Canonical form, hash, queries and reports proved; refuted for equal boot nodes, auditors in version 0, compressed administrator keys, boot nodes of several chains and Validation of node ids."
  },
  {
   "property": "C132",
   "status": "partial",
   "theorems": [
    "Verif.Trie.C132_header",
    "Verif.Trie.C132_summary",
    "Verif.Trie.C132_property_refuted",
    "Verif.Trie.C132_property",
    "Verif.Trie.C132_complete",
    "Verif.Trie.C132_sound_partial",
    "Verif.Trie.C132_merkles",
    "Verif.Trie.C132_equal",
    "Verif.Trie.C132_find"
   ],
   "note": "Recognition, completeness, Merkle form, equality and Find proved; soundness for proofs of the length of the tree; IsHeaderPropertyOf refuted."
  },
  {
   "property": "C133",
   "status": "partial",
   "theorems": [
    "Verif.Hex.C133_create",
    "Verif.Hex.C133_create2",
    "Verif.Hex.C133_kinds",
    "Verif.Hex.C133_text",
    "Verif.Hex.C133_hex",
    "Verif.Hex.C133_strings",
    "Verif.Hex.C133_strings_refuted",
    "Verif.Hex.C133_big",
    "Verif.Hex.C133_wire_partial",
    "Verif.Hex.C133_wire_refuted",
    "Verif.Hex.C133_registers"
   ],
   "note": "Contracts, keys, texts, numbers and registers proved; StringsToAddresses is characterised (C133_strings) and refuted as a reader of addresses, refuted and for the wire form of zero."
  },
  {
   "property": "C134",
   "status": "partial",
   "theorems": [
    "Verif.Hex.C134_part_partial",
    "Verif.Hex.C134_default_partial",
    "Verif.Hex.C134_empty_refuted",
    "Verif.Hex.C134_negative_refuted",
    "Verif.Hex.C134_string_refuted",
    "Verif.Hex.C134_list_partial",
    "Verif.Hex.C134_list_refuted",
    "Verif.Hex.C134_elements"
   ],
   "note": "Proved for byte strings that are not empty, starts that are not negative, and slices and arrays by pointer; refuted for the others."
  },
  {
   "property": "C135",
   "status": "partial",
   "theorems": [
    "Verif.Hex.C135_slices",
    "Verif.Hex.C135_pointers",
    "Verif.Hex.C135_exact",
    "Verif.Hex.C135_invalid_partial",
    "Verif.Hex.C135_invalid_refuted",
    "Verif.Hex.C135_less",
    "Verif.Hex.C135_weak"
   ],
   "note": "Equivalences and orders proved; InvalidHash refuted for slices that are too long."
  },
  {
   "property": "C136",
   "status": "partial",
   "theorems": [
    "Verif.Abi.C136_inputs_partial",
    "Verif.Abi.C136_returns_partial",
    "Verif.Abi.C136_map_partial",
    "Verif.Abi.C136_empty_refuted",
    "Verif.Abi.C136_object",
    "Verif.Abi.C136_event_partial",
    "Verif.Abi.C136_event_refuted",
    "Verif.Abi.C136_text",
    "Verif.Abi.C136_shown",
    "Verif.Abi.C136_rest_refuted",
    "Verif.Abi.C136_unknown"
   ],
   "note": "Refuted for functions without inputs (InputUnpack), without results (UnpackReturns, UnpackReturnsMap), events without data (PackEventArgs) and for texts of data after a call without arguments; C136_inputs_partial, C136_returns_partial, C136_map_partial and C136_event_partial hold outside these cases. The texts, the selector check and the losslessness of hexadecimal are proved in full."
  },
  {
   "property": "C137",
   "status": "partial",
   "theorems": [
    "Verif.Trie.Store.C137_copy_partial",
    "Verif.Trie.Store.C137_success",
    "Verif.Trie.Store.C137_calls_partial",
    "Verif.Trie.Store.C137_calls_refuted",
    "Verif.Trie.Store.C137_empty_refuted",
    "Verif.Trie.Store.C137_uncommitted"
   ],
   "note": "C137_success is full. C137_copy_partial needs values with non-empty encodings (C137_empty_refuted). C137_calls_partial is exact for all tries and shows the extra call for the empty key; that each key is called once is refuted (C137_calls_refuted). Hypotheses: those of the sessions (C08), and no node hash is zero or the hash of nothing."
  },
  {
   "property": "C138",
   "status": "partial",
   "theorems": [
    "Verif.Small.C138_number_text",
    "Verif.Small.C138_chain_text",
    "Verif.Small.C138_chain_form",
    "Verif.Small.C138_chains_equal",
    "Verif.Small.C138_name_text",
    "Verif.Small.C138_names",
    "Verif.Small.C138_block_text_partial",
    "Verif.Small.C138_block_refuted",
    "Verif.Small.C138_seed_refuted",
    "Verif.Small.C138_seed_text",
    "Verif.Small.C138_address_text",
    "Verif.Small.C138_big",
    "Verif.Small.C138_election",
    "Verif.Small.C138_election_duties",
    "Verif.Small.C138_election_refuted",
    "Verif.Small.C138_order",
    "Verif.Small.C138_data_nodes",
    "Verif.Small.C138_seed_clone",
    "Verif.Small.C138_nets"
   ],
   "note": "Full for era, epoch and height numbers, chain ids and lists, modes, node, net and election types, addresses, FromBig, Cmp, Equal, data nodes, nets, clones. Texts of block numbers need a number of the epoch or nil (C138_block_refuted); texts of seeds tell the first five bytes only (C138_seed_text, C138_seed_refuted), and names of deprecated election types (C138_election_refuted) are refuted."
  },
  {
   "property": "C139",
   "status": "partial",
   "theorems": [
    "Verif.Combined.C139_sessions",
    "Verif.Combined.C139_committed",
    "Verif.Combined.C139_contents",
    "Verif.Combined.C139_isDirty_refuted",
    "Verif.Combined.C139_reports"
   ],
   "note": "Full for sessions of calls, commits and reopenings (C139_sessions), contents (C139_contents) and clean state after Commit (C139_committed). That a combined trie which is not dirty can be opened at its hash is refuted (C139_isDirty_refuted). What Commit reports when Save calls of the sub-tries fail: C139_reports. Not covered: one *Trie put under two keys; a failing Save of the root."
  },
  {
   "property": "C140",
   "status": "proved",
   "theorems": [
    "Verif.Trie.StoreProof.C140_sessions",
    "Verif.Trie.StoreProof.C140_verifies",
    "Verif.Trie.StoreProof.C140_existence"
   ],
   "note": "C140_sessions gives equality of all answers, C140_verifies and C140_existence what it means for contents and root hash. Save calls succeed."
  },
  {
   "property": "C141",
   "status": "proved",
   "theorems": [
    "Verif.Combined.C141_append",
    "Verif.Combined.C141_verifies",
    "Verif.Combined.C141_sound"
   ],
   "note": "C141_append: chains compose. C141_verifies: completeness after any session. C141_sound: soundness of the level of the combined trie, for proofs of the right length."
  },
  {
   "property": "C142",
   "status": "partial",
   "theorems": [
    "Verif.Rlp.C142_cursor",
    "Verif.Rlp.C142_list",
    "Verif.Rlp.C142_end_partial",
    "Verif.Rlp.C142_end_refuted"
   ],
   "note": "C142_cursor and C142_list give every answer of every sequence of calls. Refuted: ListEnd skips a value without content that has been looked at (C142_end_refuted); holds when ListEnd and MoreDataInList do not follow such a look (C142_end_partial). Inputs of fewer than 2^62 bytes."
  },
  {
   "property": "C143",
   "status": "partial",
   "theorems": [
    "Verif.DB.CachedConc.C143_linearizable",
    "Verif.DB.CachedConc.C143_quiet",
    "Verif.DB.CachedConc.C143_progress",
    "Verif.DB.CachedConc.C143_closed_refuted"
   ],
   "note": "Linearizability, coherence and progress for all schedules and evictions (C143_linearizable, C143_quiet, C143_progress). Refuted: reads after Close (C143_closed_refuted), Has of a cached miss (C35). The counters and I/O errors of goleveldb are not modelled; each call of goleveldb or of the cache is one atomic step; sync.RWMutex is trusted."
  },
  {
   "property": "C144",
   "status": "partial",
   "theorems": [
    "Verif.Lru.C144_new",
    "Verif.Lru.C144_size",
    "Verif.Lru.C144_keeps",
    "Verif.Lru.C144_value",
    "Verif.Lru.C144_add",
    "Verif.Lru.C144_evicts",
    "Verif.Lru.C144_concurrent_refuted",
    "Verif.Lru.C144_concurrent_partial"
   ],
   "note": "Proved for all sequences of calls (C144_new, C144_size, C144_add, C144_value, C144_keeps, C144_evicts). Refuted: Add is not atomic (C144_concurrent_refuted; C144_concurrent_partial). The hashicorp cache is trusted to be an LRU list whose calls are atomic."
  },
  {
   "property": "C145",
   "status": "partial",
   "theorems": [
    "Verif.Merkle.C145_parts",
    "Verif.Merkle.C145_parts_partial",
    "Verif.Merkle.C145_parts_refuted",
    "Verif.Merkle.C145_ripemd_refuted",
    "Verif.Merkle.C145_slices",
    "Verif.Merkle.C145_slices_proof",
    "Verif.Merkle.C145_object",
    "Verif.Merkle.C145_values",
    "Verif.Merkle.C145_error_refuted",
    "Verif.Merkle.C145_binary",
    "Verif.Merkle.C145_binary_sides",
    "Verif.Merkle.C145_binary_refuted"
   ],
   "note": "Proved: digests of concatenations and of encodings, binding of and proofs for roots over slices and values. Refuted: borders between slices (C145_parts_refuted), HashRipemd160 (C145_ripemd_refuted), EncodeHash of refused values (C145_error_refuted), nodes of binary trees with sides of other lengths (C145_binary_refuted; C145_binary for hashes). The digest and the go-rtl encoder are parameters."
  },
  {
   "property": "C146",
   "status": "partial",
   "theorems": [
    "Verif.Combined.C146_linearizable",
    "Verif.Combined.C146_progress",
    "Verif.Combined.C146_static",
    "Verif.Combined.C146_moving_refuted"
   ],
   "note": "Linearizability and progress for all schedules (C146_linearizable, C146_progress), exact hashes and proofs for sub-tries that do not change (C146_static). Refuted: hashes of one moment while sub-tries change (C146_moving_refuted). sync.RWMutex is trusted; InitTrie, Commit and Marshal are not among the calls (Commit while sub-tries change: C178; iterating: C176)."
  },
  {
   "property": "C147",
   "status": "partial",
   "theorems": [
    "Verif.DB.MemConc.C147_temporary",
    "Verif.DB.MemConc.C147_temporary_progress",
    "Verif.DB.MemConc.C147_mem",
    "Verif.DB.MemConc.C147_mem_progress",
    "Verif.DB.MemConc.C147_mem_batch_refuted"
   ],
   "note": "Linearizability and progress for all schedules of a temporary database (C147_temporary, C147_temporary_progress) and of a MemDB apart from batches as single calls (C147_mem, C147_mem_progress). Refuted: batches of a MemDB are not seen whole (C147_mem_batch_refuted). sync.Map and sync.RWMutex are trusted; Close is not among the calls."
  },
  {
   "property": "C148",
   "status": "partial",
   "theorems": [
    "Verif.Trie.Shared.C148_linearizable",
    "Verif.Trie.Shared.C148_progress",
    "Verif.Trie.Shared.C148_isEmpty_refuted",
    "Verif.Trie.Shared.C148_collapse_refuted"
   ],
   "note": "Linearizability for all schedules of Get, Put, Delete, HashValue, Commit, GetProof, GetExistenceProof and Count (C148_linearizable), and progress (C148_progress). Refuted: IsEmpty and Collapse (C148_isEmpty_refuted, C148_collapse_refuted). Reads and writes of the counter are taken to be atomic; sync.Mutex is trusted; the storage does not fail."
  },
  {
   "property": "C149",
   "status": "proved",
   "theorems": [
    "Verif.HTree.Shared.C149_linearizable",
    "Verif.HTree.Shared.C149_progress",
    "Verif.HTree.Shared.C149_once",
    "Verif.HTree.Shared.C149_agree"
   ],
   "note": "Linearizability to a list for all schedules (C149_linearizable), progress (C149_progress), at most one accepted append for each key (C149_once) and agreement of readers (C149_agree), the last two for goroutines that do not store. Has is excluded: it never returns (C99). Rebase, Clone, Chop, MergeProof and String under concurrent use are not modelled; sync.Mutex is trusted."
  },
  {
   "property": "C150",
   "status": "partial",
   "theorems": [
    "Verif.Memory.C150_slices",
    "Verif.Memory.C150_byteSlices",
    "Verif.Memory.C150_big",
    "Verif.Memory.C150_proofs",
    "Verif.Memory.C150_chain",
    "Verif.Memory.C150_infos",
    "Verif.Memory.C150_sharding",
    "Verif.Memory.C150_allIDs_refuted"
   ],
   "note": "Equality and independence for all contents of memory and all later writes: C150_slices, C150_byteSlices, C150_big, C150_proofs, C150_chain, C150_infos, C150_sharding. Refuted for AllIDs of a sharding, which hands out its own list (C150_allIDs_refuted). Capacities of slices beyond their arrays' lengths are left out; pointers are assumed not to dangle (Go guarantees it); clones of tries are C117 and C121."
  },
  {
   "property": "C151",
   "status": "partial",
   "theorems": [
    "Verif.Nodes.C151_linearizable",
    "Verif.Nodes.C151_progress",
    "Verif.Nodes.C151_grows",
    "Verif.Nodes.C151_once",
    "Verif.Nodes.C151_agree",
    "Verif.Nodes.C151_get_refuted",
    "Verif.Nodes.C151_nodeIDs_refuted"
   ],
   "note": "Proved for the calls that hold the lock, all schedules: C151_linearizable, C151_progress, and without deletions C151_grows, C151_once, C151_agree. Refuted for Get (C151_get_refuted) and GetNodeIDs (C151_nodeIDs_refuted), which do not hold it. The readers-writer lock is trusted; calls with a nil id return before the lock and are left out; slices are read and written in one step."
  },
  {
   "property": "C152",
   "status": "partial",
   "theorems": [
    "Verif.Trie.Store.C152_linearizable",
    "Verif.Trie.Store.C152_progress",
    "Verif.Trie.Store.C152_maps",
    "Verif.Trie.Store.C152_isolated",
    "Verif.Trie.Store.C152_live_refuted"
   ],
   "note": "Proved for all schedules of the calls of C16 and C17 (with the limits of C17 on reverts): C152_linearizable, C152_progress, C152_maps, C152_isolated. Refuted for the trie given out by LiveTrie (C152_live_refuted); the model with pointers is tied to the one without by ptrs_rev. Copy, Rebase, SetTo, proofs and iterators are left out here."
  },
  {
   "property": "C153",
   "status": "partial",
   "theorems": [
    "Verif.Nodes.C153_texts",
    "Verif.Nodes.C153_roundtrip",
    "Verif.Nodes.C153_full",
    "Verif.Nodes.C153_length_refuted",
    "Verif.Nodes.C153_prefix_refuted",
    "Verif.Nodes.C153_append",
    "Verif.Nodes.C153_bytes",
    "Verif.Nodes.C153_isIn",
    "Verif.Nodes.C153_isNodeIDIn",
    "Verif.Nodes.C153_identifiers",
    "Verif.Nodes.C153_base",
    "Verif.Nodes.C153_paths"
   ],
   "note": "Proved: C153_texts, C153_roundtrip, C153_full, C153_append, C153_bytes, C153_isIn, C153_isNodeIDIn, C153_identifiers, C153_base, C153_paths. Refuted: texts of other lengths (C153_length_refuted) and the texts of MarshalText (C153_prefix_refuted)."
  },
  {
   "property": "C154",
   "status": "proved",
   "theorems": [
    "Verif.HTree.RevConc.C154_linearizable",
    "Verif.HTree.RevConc.C154_progress",
    "Verif.HTree.RevConc.C154_stable",
    "Verif.HTree.RevConc.C154_isolated",
    "Verif.HTree.RevConc.C154_lock_needed"
   ],
   "note": "For all schedules: C154_linearizable, C154_progress, C154_stable, C154_isolated. As in C117, no write fails, the digest has no collision on what is hashed and the lists are shorter than 2^64. C154_lock_needed shows that the claim fails for the same steps without the lock. Has (C99), MergeProof, Rebase and String are left out."
  },
  {
   "property": "C155",
   "status": "proved",
   "theorems": [
    "Verif.HTree.C155_roundtrip",
    "Verif.HTree.C155_nil",
    "Verif.HTree.C155_flags",
    "Verif.HTree.C155_clean",
    "Verif.HTree.C155_uncommitted_refuted"
   ],
   "note": "C155_roundtrip, for a committed tree; C155_nil, C155_flags, C155_clean. Assumes that the external codec gives back a map of branches and an array of byte slices that are not empty and reads exactly what was written. The node read into is new. C155_uncommitted_refuted: without Commit the values below the root are lost silently."
  },
  {
   "property": "C156",
   "status": "proved",
   "theorems": [
    "Verif.Num.C156_linearizable",
    "Verif.Num.C156_progress",
    "Verif.Num.C156_copies"
   ],
   "note": "For all schedules: C156_linearizable, C156_progress, C156_copies. The Go map is the list of its entries, gone through in some order; sync.Mutex is trusted. The highest value under CAS alone is C47."
  },
  {
   "property": "C157",
   "status": "proved",
   "theorems": [
    "Verif.Printing.C157_elements",
    "Verif.Printing.C157_bytes",
    "Verif.Printing.C157_double",
    "Verif.Printing.C157_single",
    "Verif.Printing.C157_nil",
    "Verif.Printing.C157_lines",
    "Verif.Printing.C157_commas_refuted",
    "Verif.Printing.C157_toplevel_refuted"
   ],
   "note": "C157_elements, C157_bytes, C157_double, C157_nil, C157_lines. Reflection is replaced by what the switches see; methods of elements are arbitrary functions. C157_commas_refuted, C157_toplevel_refuted: limits of the claim."
  },
  {
   "property": "C158",
   "status": "proved",
   "theorems": [
    "Verif.HTree.C158_hash",
    "Verif.HTree.C158_value",
    "Verif.HTree.C158_last",
    "Verif.HTree.C158_overwrite_refuted"
   ],
   "note": "C158_hash, C158_value, C158_last. C158_overwrite_refuted: without the condition on the right siblings the restored tree can overwrite earlier values."
  },
  {
   "property": "C159",
   "status": "partial",
   "theorems": [
    "Verif.Rlp.Descr.C159_reflect",
    "Verif.Rlp.Descr.C159_reflect_exact",
    "Verif.Rlp.Descr.C159_gen_exact",
    "Verif.Rlp.Descr.C159_gen_ends",
    "Verif.Rlp.Descr.C159_nil",
    "Verif.Rlp.Descr.C159_gen_nil",
    "Verif.Rlp.Descr.C159_routes",
    "Verif.Rlp.Descr.C159_agree",
    "Verif.Rlp.Descr.C159_recursive_refuted",
    "Verif.Rlp.Descr.C159_byteMethods_refuted",
    "Verif.Rlp.Descr.C159_pointerMethods_refuted",
    "Verif.Rlp.Descr.C159_methods_refuted",
    "Verif.Rlp.Descr.C159_u256_refuted"
   ],
   "note": "Proved: C159_reflect, C159_reflect_exact, C159_nil (reflection, all programs), C159_gen_exact, C159_gen_ends, C159_gen_nil (generator), C159_routes, C159_agree. Refuted beyond: C159_recursive_refuted, C159_byteMethods_refuted, C159_pointerMethods_refuted, C159_methods_refuted, C159_u256_refuted. Which interfaces types implement is part of the graph; fields of structs are covered by C114 and C123."
  },
  {
   "property": "C160",
   "status": "proved",
   "theorems": [
    "Verif.Rlp.GenFile.C160_imports",
    "Verif.Rlp.GenFile.C160_qualify",
    "Verif.Rlp.GenFile.C160_temps",
    "Verif.Rlp.GenFile.C160_sameName_refuted"
   ],
   "note": "C160_imports, C160_qualify, C160_temps. C160_sameName_refuted: limit of the claim (packages with the same name)."
  },
  {
   "property": "C161",
   "status": "partial",
   "theorems": [
    "Verif.Logging.C161_delivery",
    "Verif.Logging.C161_hook",
    "Verif.Logging.C161_suffix",
    "Verif.Logging.C161_withField_partial",
    "Verif.Logging.C161_check",
    "Verif.Logging.C161_checkLog",
    "Verif.Logging.C161_withField_refuted",
    "Verif.Logging.C161_check_refuted"
   ],
   "note": "Proved: C161_delivery, C161_hook, C161_suffix, C161_check, C161_checkLog. WithField is refuted (C161_withField_refuted) and characterised (C161_withField_partial); C161_check_refuted: a failed initialisation is final. logrus and the rotation of files are trusted; each call is one step."
  },
  {
   "property": "C162",
   "status": "partial",
   "theorems": [
    "Verif.Rlp.ErrCtx.C162_same",
    "Verif.Rlp.ErrCtx.C162_path",
    "Verif.Rlp.ErrCtx.C162_place",
    "Verif.Rlp.ErrCtx.C162_text",
    "Verif.Rlp.ErrCtx.C162_silent_refuted",
    "Verif.Rlp.ErrCtx.C162_kind_refuted",
    "Verif.Rlp.ErrCtx.C162_pointer_refuted"
   ],
   "note": "Proved: C162_same, C162_path, C162_place, C162_text. That every error has a context, and the type of the value, is refuted (C162_silent_refuted, C162_kind_refuted, C162_pointer_refuted). C162_place is for inputs that are encodings of items; for all others C162_path. Types with their own DecodeRLP: C164."
  },
  {
   "property": "C163",
   "status": "partial",
   "theorems": [
    "Verif.Trie.Show.C163_string",
    "Verif.Trie.Show.C163_values_partial",
    "Verif.Trie.Show.C163_reopened",
    "Verif.Trie.Show.C163_unchanged",
    "Verif.Trie.Show.C163_apart",
    "Verif.Trie.Show.C163_valueString_partial",
    "Verif.Trie.Show.C163_long_refuted",
    "Verif.Trie.Show.C163_missing_refuted",
    "Verif.Trie.Show.C163_forged_refuted",
    "Verif.Trie.Show.C163_empty_key_refuted",
    "Verif.Trie.Show.C163_hashed_refuted"
   ],
   "note": "Proved: C163_string, C163_reopened, C163_unchanged, C163_apart, and the parts of PrintValues and ValueString that hold (C163_values_partial, C163_valueString_partial). Refuted: PrintValues with long values (C163_long_refuted), lost nodes (C163_missing_refuted), texts with commas and line breaks (C163_forged_refuted), the empty key (C163_empty_key_refuted), independence of caches (C163_hashed_refuted)."
  },
  {
   "property": "C164",
   "status": "proved",
   "theorems": [
    "Verif.Rlp.Own.C164_accepts",
    "Verif.Rlp.Own.C164_encode",
    "Verif.Rlp.Own.C164_pointer",
    "Verif.Rlp.Own.C164_roundtrip",
    "Verif.Rlp.Own.C164_injective",
    "Verif.Rlp.Own.C164_nilPointer",
    "Verif.Rlp.Own.C164_nil_refuted",
    "Verif.Rlp.Own.C164_nothing_refuted",
    "Verif.Rlp.Own.C164_endOfList_refuted"
   ],
   "note": "Proved for lawful methods. Refuted for nil pointers (C164_nil_refuted), methods that write nothing (C164_nothing_refuted) and methods that return the end of their own list (C164_endOfList_refuted), all of which the documentation of the package permits or does not rule out."
  },
  {
   "property": "C165",
   "status": "partial",
   "theorems": [
    "Verif.Identity.C165_classes",
    "Verif.Identity.C165_useful",
    "Verif.Identity.C165_digests",
    "Verif.Identity.C165_addressHash",
    "Verif.Identity.C165_seeds",
    "Verif.Identity.C165_short",
    "Verif.Identity.C165_short_refuted",
    "Verif.Identity.C165_bits",
    "Verif.Identity.C165_byName",
    "Verif.Identity.C165_intersection",
    "Verif.Identity.C165_addresses",
    "Verif.Identity.C165_noMap",
    "Verif.Identity.C165_copy_refuted",
    "Verif.Identity.C165_unprefixed"
   ],
   "note": "Proved: C165_classes, C165_useful, C165_digests, C165_addressHash, C165_seeds, C165_bits, C165_byName, C165_intersection, C165_addresses, C165_noMap, C165_unprefixed, C165_short (what short texts tell). Refuted: copies of a NetInfo (C165_copy_refuted) and short texts (C165_short_refuted). strings.ToUpper is a parameter, the usual one on ASCII."
  },
  {
   "property": "C166",
   "status": "partial",
   "theorems": [
    "Verif.HTree.Faulty.C166_history",
    "Verif.HTree.Faulty.C166_history_reported",
    "Verif.Trie.Store.Faulty.C166_sessions_partial",
    "Verif.Trie.Store.Faulty.C166_retry_partial",
    "Verif.Trie.Store.Faulty.C166_refuted"
   ],
   "note": "Proved for up to maxGenSize + 1 commits: C166_sessions_partial (answers of all calls), C166_retry_partial (a commit without failures stores everything). Refuted beyond that: C166_refuted. For history trees without a bound, and with honest reports: C166_history, C166_history_reported. Limits are arbitrary, collapsing of values is included; reopening between failing commits is not (see C08_refuted)."
  },
  {
   "property": "C167",
   "status": "partial",
   "theorems": [
    "Verif.Trie.Json.C167_texts",
    "Verif.Trie.Json.C167_node",
    "Verif.Trie.Json.C167_chain",
    "Verif.Trie.Json.C167_injective",
    "Verif.Trie.Json.C167_order",
    "Verif.Trie.Json.C167_missing_refuted",
    "Verif.Trie.Json.C167_bits",
    "Verif.Trie.Json.C167_types",
    "Verif.Trie.Json.C167_headers",
    "Verif.Trie.Json.C167_nodes"
   ],
   "note": "Round trips in full (C167_texts, C167_node, C167_chain, C167_injective, C167_order), texts of types and headers in full (C167_types, C167_headers, C167_nodes). That everything read can be used is refuted (C167_missing_refuted). JSON is modelled as a tree of values; the text of the tree is the part of encoding/json that is trusted, and names of fields are matched exactly."
  },
  {
   "property": "C168",
   "status": "partial",
   "theorems": [
    "Verif.BigMath.C168_sum",
    "Verif.BigMath.C168_sum_refuted",
    "Verif.BigMath.C168_payments",
    "Verif.BigMath.C168_created",
    "Verif.BigMath.C168_signs",
    "Verif.BigMath.C168_set",
    "Verif.BigMath.C168_max_min",
    "Verif.BigMath.C168_pow_partial",
    "Verif.BigMath.C168_pow_refuted"
   ],
   "note": "Sums from nil, payments, copies, signs, SetInt, maximum and minimum in full (C168_sum, C168_payments, C168_created, C168_signs, C168_set, C168_max_min). Sums that start with a given number change it (C168_sum_refuted); powers are exact for exponents that are not negative (C168_pow_partial, C168_pow_refuted). The loops are callers written for the claim; the calls in them are the code."
  },
  {
   "property": "C169",
   "status": "partial",
   "theorems": [
    "Verif.HTree.C169_history_audited_partial",
    "Verif.HTree.C169_history_length_partial",
    "Verif.HTree.C169_history_honest",
    "Verif.HTree.C169_history_forged_refuted",
    "Verif.HTree.C169_history_hash_refuted",
    "Verif.Trie.Store.Damaged.C169_forged_refuted",
    "Verif.Trie.Store.Damaged.C169_lost_refuted",
    "Verif.Trie.Store.Damaged.C169_lost_writes",
    "Verif.Trie.Store.Damaged.C169_audited_partial",
    "Verif.Trie.Store.Damaged.C169_honest",
    "Verif.Trie.Store.Damaged.C169_delete_refuted"
   ],
   "note": "Refuted for every root and every other tree (C169_forged_refuted) and for lost entries (C169_lost_refuted). Proved for a storage in which every entry has the hash it is stored under, up to named collisions (C169_audited_partial); storages written by the code are such (C169_honest). Put and Delete over a lost root answer false (C169_lost_writes); Delete may panic beside a lost child (C169_delete_refuted). For history trees the refutations are C169_history_forged_refuted and C169_history_hash_refuted; over a checked storage Get gives nothing, the value, or the digest of nothing at an unused height, up to named collisions (C169_history_audited_partial), and without digests of nothing the length is right (C169_history_length_partial); C169_history_honest says what passes the check. HashValue and GetProof over such a storage are not covered: they use the hashes of branches in an entry as they are."
  },
  {
   "property": "C170",
   "status": "partial",
   "theorems": [
    "Verif.Light.C170_complete",
    "Verif.Light.C170_accepts",
    "Verif.Light.C170_sound",
    "Verif.Light.C170_state_complete",
    "Verif.Light.C170_state_sound",
    "Verif.Light.C170_joined_exist",
    "Verif.Light.C170_verify_refuted"
   ],
   "note": "Full for the client Accepts, which checks the lengths of the proofs: C170_complete, C170_accepts, C170_sound, C170_state_complete; C170_state_sound has the conditions of C11 on the chain of the trie. C170_joined_exist: Exist gives an error on a joined chain. Refuted for a client that calls VerifyProofChain only (C170_verify_refuted)."
  },
  {
   "property": "C171",
   "status": "partial",
   "theorems": [
    "Verif.Merkle.Texts.C171_summary",
    "Verif.Merkle.Texts.C171_string",
    "Verif.Merkle.Texts.C171_string_items",
    "Verif.Merkle.Texts.C171_info",
    "Verif.Merkle.Texts.C171_orders",
    "Verif.Merkle.Texts.C171_info_iff",
    "Verif.Merkle.Texts.C171_info_items",
    "Verif.Merkle.Texts.C171_string_refuted",
    "Verif.Merkle.Texts.C171_info_refuted",
    "Verif.Merkle.Texts.C171_summary_refuted"
   ],
   "note": "Full for InfoString of proofs with a table in order (C171_info, C171_info_iff, C171_orders) and of all proofs made by Append (C171_info_items); String shows the path and the stored hashes and no more (C171_string), and the items if there are no repeats (C171_string_items). Refuted: C171_string_refuted, C171_info_refuted, C171_summary_refuted. Not modelled: nil or negative Paths. Texts of NodeProof and ProofChain are C177."
  },
  {
   "property": "C172",
   "status": "partial",
   "theorems": [
    "Verif.DB.Slices.C172_memory",
    "Verif.DB.Slices.C172_batch_partial",
    "Verif.DB.Slices.C172_calls",
    "Verif.DB.Slices.C172_batch_refuted",
    "Verif.DB.Slices.C172_cached_partial",
    "Verif.DB.Slices.C172_cached_refuted",
    "Verif.DB.Slices.C172_replace"
   ],
   "note": "Full for MemDB without batches (C172_calls), for all programs against batches that are read when applied (C172_memory), and Replace (C172_replace). C172_batch_partial needs that slices in a batch are not written into; C172_cached_partial that the caller does not write into slices that Get returned. Refuted: C172_batch_refuted, C172_cached_refuted. Not modelled: slices that are windows into a larger array; goleveldb is trusted to copy; Has and batches of cachedDB with slices (their values are C35)."
  },
  {
   "property": "C173",
   "status": "partial",
   "theorems": [
    "Verif.Abi.Set.C173_struct_partial",
    "Verif.Abi.Set.C173_struct_total",
    "Verif.Abi.Set.C173_list",
    "Verif.Abi.Set.C173_single",
    "Verif.Abi.Set.C173_indexed_refuted",
    "Verif.Abi.Set.C173_first_refuted",
    "Verif.Abi.Set.C173_big_refuted"
   ],
   "note": "C173_struct_partial: if copying into a struct succeeds, every argument's value is what set stored in its field and the other fields are unchanged; C173_struct_total: it does succeed if the fields have the types of the values; C173_list, C173_single: slices, arrays, variables, first fields, no values. Refuted: C173_indexed_refuted, C173_first_refuted, C173_big_refuted. Not modelled: embedded structs whose fields FieldByName would find, structs with unexported fields that a tag names."
  },
  {
   "property": "C174",
   "status": "proved",
   "theorems": [
    "Verif.ByteOps.Memory.C174_memory",
    "Verif.ByteOps.Memory.C174_clone",
    "Verif.ByteOps.Memory.C174_slice_refuted"
   ],
   "note": "C174_memory for all programs of these calls, C174_clone what it means for a copy and a slice. Refuted: C174_slice_refuted. Writes into a part of a slice are not modelled; NodeID.Bytes and Seed.Byte are slices that panic for nil."
  },
  {
   "property": "C175",
   "status": "proved",
   "theorems": [
    "Verif.Service.Copies.C175_copies",
    "Verif.Service.Copies.C175_close_refuted"
   ],
   "note": "C175_copies for all programs. Refuted: C175_close_refuted. Calls one after the other (concurrent calls on one service are C62); copying a service while a method of it runs, which copies the status without its lock, is not modelled."
  },
  {
   "property": "C176",
   "status": "proved",
   "theorems": [
    "Verif.Combined.C176_sound",
    "Verif.Combined.C176_complete",
    "Verif.Combined.C176_moment_refuted",
    "Verif.Combined.C176_current_refuted"
   ],
   "note": "C176_sound and C176_complete for all environments. Refuted: C176_moment_refuted, C176_current_refuted. The bytes that Marshal writes depend on go-rtl and are not modelled."
  },
  {
   "property": "C177",
   "status": "proved",
   "theorems": [
    "Verif.Trie.ProofText.C177_info",
    "Verif.Trie.ProofText.C177_info_nil",
    "Verif.Trie.ProofText.C177_chain",
    "Verif.Trie.ProofText.C177_node",
    "Verif.Trie.ProofText.C177_value_refuted",
    "Verif.Trie.ProofText.C177_nil_refuted"
   ],
   "note": "C177_node and C177_chain, both directions. Refuted: C177_value_refuted, C177_nil_refuted. The long text in full for proofs whose Merkle proofs were made by Append (C177_info, C177_info_nil). NodeProof.String, which shows as much of the Merkle proof as its String (C171), is not modelled."
  },
  {
   "property": "C178",
   "status": "partial",
   "theorems": [
    "Verif.Combined.C178_moments",
    "Verif.Combined.C178_still_partial",
    "Verif.Combined.C178_key_refuted",
    "Verif.Combined.C178_stored_refuted"
   ],
   "note": "C178_moments for all changes by others; C178_still_partial: the claim when no sub-trie changes during Commit. Refuted otherwise: C178_key_refuted, C178_stored_refuted. Each call of a sub-trie is one step; the encoding of the record is C104."
  },
  {
   "property": "C179",
   "status": "partial",
   "theorems": [
    "Verif.Conc.Order.C179_progress_partial",
    "Verif.Conc.Order.C179_shorter",
    "Verif.Conc.Order.C179_released_partial",
    "Verif.Conc.Order.C179_has_refuted",
    "Verif.Conc.Order.C179_callback_refuted"
   ],
   "note": "C179_progress_partial, C179_shorter and C179_released_partial for all methods in the table. Refuted: C179_has_refuted, C179_callback_refuted. Not in the table: Has of history trees, a SyncTrie around a SyncTrie, a cachedDB over a temporaryDB or over itself (Replace); functions of values (encode, hash, String) are taken to use no locks. The table was read off the code."
  },
  {
   "property": "C180",
   "status": "proved",
   "theorems": [
    "Verif.Trie.PrefixMem.C180_prefixes"
   ],
   "note": "C180_prefixes: the lists of the other models are right about prefixes. The caller's slice in setPrefix is given by its bytes, since the code only reads it."
  },
  {
   "property": "C181",
   "status": "partial",
   "theorems": [
    "Verif.Memory.Hashes.C181_hashes_partial",
    "Verif.Memory.Hashes.C181_trie_refuted",
    "Verif.Memory.Hashes.C181_nil_refuted"
   ],
   "note": "C181_hashes_partial: holds for all slices but those of tries and of nothing. Refuted for these: C181_trie_refuted, C181_nil_refuted (both for every digest). Contents are given as a whole; hashes of inner nodes are not given out by the code. Hashers of values, which may return slices of their own, are not modelled."
  },
  {
   "property": "C182",
   "status": "partial",
   "theorems": [
    "Verif.Memory.Opening.C182_opening_partial",
    "Verif.Memory.Opening.C182_newTrie_refuted"
   ],
   "note": "C182_opening_partial: if no buffer is filled after it was given to NewTrie; Inherit and history trees need no condition. Refuted otherwise: C182_newTrie_refuted (for all hashes and storages). Changes of the opened tries and reopening after Collapse are not modelled here."
  },
  {
   "property": "C183",
   "status": "partial",
   "theorems": [
    "Verif.Memory.Values.C183_values_partial",
    "Verif.Memory.Values.C183_change_refuted",
    "Verif.Memory.Values.C183_again"
   ],
   "note": "C183_values_partial: if no value is changed after it was put. C183_again: putting a changed value again makes everything agree on this key, in every state. Refuted otherwise: C183_change_refuted (for all values and hashes). The trie is a map from keys to values here; that tries are such maps is C02 and C03. Values read back after a collapse are not modelled."
  },
  {
   "property": "C184",
   "status": "partial",
   "theorems": [
    "Verif.Abi.UnpackMem.C184_values",
    "Verif.Abi.UnpackMem.C184_kept_partial",
    "Verif.Abi.UnpackMem.C184_bytes_refuted"
   ],
   "note": "C184_values: what is seen while the data are unchanged is what C76 and others speak of. C184_kept_partial: for types without bytes, whatever is written into the buffer. Refuted for bytes: C184_bytes_refuted."
  },
  {
   "property": "C185",
   "status": "partial",
   "theorems": [
    "Verif.Abi.PackMem.C185_calls_partial",
    "Verif.Abi.PackMem.C185_empty_refuted",
    "Verif.Abi.PackMem.C185_bounds"
   ],
   "note": "C185_calls_partial: if callers do not write into, or append to, calls without arguments. Refuted for those: C185_empty_refuted (for every digest). Trusted: the digest is an array of exactly 32 bytes (Sum(nil)), packed arguments take a multiple of 32 bytes, and append makes a new array if there is no room. C185_bounds: a write behind the end of a call changes nothing."
  },
  {
   "property": "C186",
   "status": "partial",
   "theorems": [
    "Verif.ByteOps.Mem.C186_values_partial",
    "Verif.ByteOps.Mem.C186_pad_refuted",
    "Verif.ByteOps.Mem.C186_window_refuted"
   ],
   "note": "C186_values_partial: if no variable is written after it was padded to no more than its length or looked at through a window, or is the result of that, and reversed bytes are put back where they were. Refuted without: C186_pad_refuted (for all bytes and lengths, both sides), C186_window_refuted."
  },
  {
   "property": "C187",
   "status": "partial",
   "theorems": [
    "Verif.Pool.Keys.C187_workers",
    "Verif.Pool.Keys.C187_alone_partial",
    "Verif.Pool.Keys.C187_keyCount_refuted"
   ],
   "note": "C187_workers: workers exclude each other. C187_alone_partial: nothing uses the map while it is written, if nobody is going through the result of KeyCount, or if no event has a key. Refuted for callers of KeyCount: C187_keyCount_refuted. Not modelled: callers that write into the map."
  }
 ]
}
