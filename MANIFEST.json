{
 "claims": [
  {
   "property": "C01",
   "status": "proved",
   "theorems": [
    "Verif.DataBuilder.C01_store",
    "Verif.DataBuilder.C01_store_history",
    "Verif.DataBuilder.C01_store_from_new",
    "Verif.C01_cell_store"
   ],
   "note": "byte-level builder refined to bit lists; every store op, histories, slices, builders and references; width bounds as in the quantifier, C51 has the rest"
  },
  {
   "property": "C02",
   "status": "proved",
   "theorems": [
    "Verif.C02_load_after_store"
   ],
   "note": "any store program read back by the mirrored loads over the finished cell"
  },
  {
   "property": "C03",
   "status": "proved",
   "theorems": [
    "Verif.C03_read",
    "Verif.C03_read_history",
    "Verif.C03_split",
    "Verif.C03_get",
    "Verif.C03_get_reference",
    "Verif.C03_get_prefix"
   ],
   "note": "get_raw with a non-zero offset is C05"
  },
  {
   "property": "C04",
   "status": "proved",
   "theorems": [
    "Verif.C04_lex_cmp",
    "Verif.C04_longest_common_prefix",
    "Verif.C04_strip_prefix",
    "Verif.C04_is_prefix_suffix",
    "Verif.C04_test_uniform",
    "Verif.C04_count"
   ],
   "note": ""
  },
  {
   "property": "C05",
   "status": "partial",
   "theorems": [
    "Verif.C05_get_raw_partial",
    "Verif.C05_get_raw_leaves_window",
    "Verif.C05_get_raw_reads_out_of_bounds"
   ],
   "note": "the code violates the property (two witnesses); the partial theorem has the part that holds"
  },
  {
   "property": "C06",
   "status": "proved",
   "theorems": [
    "Verif.DataBuilder.C06_prepend_raw",
    "Verif.DataBuilder.C06_rewind",
    "Verif.DataBuilder.C06_store_rewind"
   ],
   "note": ""
  },
  {
   "property": "C07",
   "status": "proved",
   "theorems": [
    "Verif.C07_d1",
    "Verif.C07_d2",
    "Verif.C07_injective",
    "Verif.C07_virtualize"
   ],
   "note": ""
  },
  {
   "property": "C08",
   "status": "proved",
   "theorems": [
    "Verif.C08_mask",
    "Verif.C08_slots",
    "Verif.C08_iter",
    "Verif.C08_from_level_vs_cut"
   ],
   "note": ""
  },
  {
   "property": "C09",
   "status": "proved",
   "theorems": [
    "Verif.C09_decode",
    "Verif.C09_unique"
   ],
   "note": ""
  },
  {
   "property": "C51",
   "status": "partial",
   "theorems": [
    "Verif.DataBuilder.C51_wide_store_zeros_wraps",
    "Verif.DataBuilder.C51_long_raw_truncated"
   ],
   "note": "violated by the code: witnesses; the part that holds is C01"
  },
  {
   "property": "C52",
   "status": "partial",
   "theorems": [
    "Verif.C52_skip_first_wraps"
   ],
   "note": "violated by the code: witness; the part that holds is C03"
  },
  {
   "property": "C10",
   "status": "proved",
   "theorems": [
    "Verif.C10_build",
    "Verif.C10_invariant",
    "Verif.C10_hash_slots",
    "Verif.C10_library",
    "Verif.C10_library_only"
   ],
   "note": "C10_library, C10_library_only: library cells can be made for every hash without a panic, and all library cells have that form."
  },
  {
   "property": "C11",
   "status": "proved",
   "theorems": [
    "Verif.C11_hash_depth",
    "Verif.C11_content_only"
   ],
   "note": ""
  },
  {
   "property": "C12",
   "status": "proved",
   "theorems": [
    "Verif.C12_repr_hash",
    "Verif.C12_cells"
   ],
   "note": "for all well-formed trees, pruned branches and Merkle cells included"
  },
  {
   "property": "C13",
   "status": "proved",
   "theorems": [
    "Verif.C13_make_pruned",
    "Verif.C13_ancestors"
   ],
   "note": ""
  },
  {
   "property": "C14",
   "status": "partial",
   "theorems": [
    "Verif.C14_hash_partial",
    "Verif.C14_proof_body_partial",
    "Verif.C14_repeat_partial",
    "Verif.C14_boxed_repeat",
    "Verif.C14_mask_five",
    "Verif.C14_descendants"
   ],
   "note": "violated by the code for level mask 0b101 and for descendants in trees with several levels (two witnesses); proved: the level formula for every other mask, and full agreement with the original tree for proof bodies over level-0 trees"
  },
  {
   "property": "C21",
   "status": "proved",
   "theorems": [
    "Verif.C21_write",
    "Verif.C21_round_trip",
    "Verif.C21_read_any",
    "Verif.C21_minimal",
    "Verif.C21_parts",
    "Verif.C21_read_overlong"
   ],
   "note": "read-back holds for every legal encoding, not only the shortest one; Verif.C21_read_overlong records that the reader does not check the label length against the key"
  },
  {
   "property": "C22",
   "status": "proved",
   "theorems": [
    "Verif.C22_step",
    "Verif.C22_history",
    "Verif.C22_empty",
    "Verif.C22_no_errors",
    "Verif.C22_any_encoding"
   ],
   "note": "histories of get/set/replace/add/remove over raw dictionaries with any key length up to 1023"
  },
  {
   "property": "C23",
   "status": "proved",
   "theorems": [
    "Verif.C23_canonical",
    "Verif.C23_histories",
    "Verif.C23_insert_remove"
   ],
   "note": ""
  },
  {
   "property": "C24",
   "status": "proved",
   "theorems": [
    "Verif.C24_iter",
    "Verif.C24_listing_unique",
    "Verif.C24_reversed",
    "Verif.C24_keys",
    "Verif.C24_owned",
    "Verif.C24_error_ends",
    "Verif.C24_exotic"
   ],
   "note": ""
  },
  {
   "property": "C25",
   "status": "proved",
   "theorems": [
    "Verif.C25_find_bound",
    "Verif.C25_remove_bound"
   ],
   "note": ""
  },
  {
   "property": "C26",
   "status": "proved",
   "theorems": [
    "Verif.C26_neighbour",
    "Verif.C26_unique",
    "Verif.C26_wrong_length"
   ],
   "note": ""
  },
  {
   "property": "C32",
   "status": "partial",
   "theorems": [
    "Verif.C32_values_unsigned_partial",
    "Verif.C32_values_signed_partial",
    "Verif.C32_owned_partial",
    "Verif.C32_signed_order_wrong",
    "Verif.C32_reversed_owned_wrong"
   ],
   "note": "violated by the code: signed value iteration is in the wrong order when all keys share the first bit, reversed owned value iteration returns the cell of another value (witnesses); proved: unsigned iteration in both directions, signed iteration when the root label is empty, ascending owned iteration"
  },
  {
   "property": "C34",
   "status": "partial",
   "theorems": [
    "Verif.C34_basic",
    "Verif.C34_remove_bound",
    "Verif.C34_aug_insert",
    "Verif.C34_aug_remove",
    "Verif.C34_modify",
    "Verif.C34_typed",
    "Verif.C34_typed_remove_partial",
    "Verif.C34_typed_bound_partial",
    "Verif.C34_aug_dict_partial",
    "Verif.C34_aug_modify_partial",
    "Verif.C34_aug_not_atomic",
    "Verif.C31_not_atomic",
    "Verif.C57_remove_unreadable"
   ],
   "note": "Proved on arbitrary cells for get, insert, remove, remove bound, batch modification, plain and augmented, and the typed reads, insertions and raw removals. The code violates it in three places, each with a witness: a typed remove of an unreadable value, a removal from an augmented dictionary that leaves an unreadable root extra, and a merge that stops half-way; the _partial theorems say exactly when the typed and augmented methods fail with a change."
  },
  {
   "property": "C35",
   "status": "proved",
   "theorems": [
    "Verif.C35_union",
    "Verif.C35_error_ends"
   ],
   "note": ""
  },
  {
   "property": "C27",
   "status": "proved",
   "theorems": [
    "Verif.C27_build",
    "Verif.C27_unsorted",
    "Verif.C27_insertions",
    "Verif.C27_get",
    "Verif.C27_signed_wrong"
   ],
   "note": "For keys whose order is the order of their bits (unsigned integers, hashes). For signed key types the property is false; C27_signed_wrong is the witness (the code has a TODO for it)."
  },
  {
   "property": "C29",
   "status": "proved",
   "theorems": [
    "Verif.C29_split",
    "Verif.C29_split_refused",
    "Verif.C29_merge",
    "Verif.C29_merge_empty",
    "Verif.C29_round_trip",
    "Verif.C29_split_raw"
   ],
   "note": ""
  },
  {
   "property": "C30",
   "status": "partial",
   "theorems": [
    "Verif.C30_trivial_partial",
    "Verif.C30_wrong",
    "Verif.C30_absent_wrong"
   ],
   "note": "violated by the code: labels are read with the wrong width; two witnesses; only the trivial prefixes hold"
  },
  {
   "property": "C31",
   "status": "partial",
   "theorems": [
    "Verif.C31_merge_partial",
    "Verif.C31_merge_empty",
    "Verif.C31_refused_wrong",
    "Verif.C31_not_atomic",
    "Verif.C31_bad_right_accepted"
   ],
   "note": "violated by the code: a check on root bit lengths refuses valid merges; a failing merge leaves part of the entries; malformed right sides are silently accepted (witnesses). Holds as stated once the check passes."
  },
  {
   "property": "C16",
   "status": "proved",
   "theorems": [
    "Verif.Boc.C16_safe",
    "Verif.Boc.C16_cells",
    "Verif.Boc.C16_decode"
   ],
   "note": ""
  },
  {
   "property": "C15",
   "status": "proved",
   "theorems": [
    "Verif.Boc.C15_roundtrip",
    "Verif.Boc.C15_encode",
    "Verif.Boc.C15_bytes",
    "Verif.Boc.C15_builder"
   ],
   "note": "up to an explicit hash collision below the root; the decoded root is equal in every part; strict prefixes are rejected, bytes after the bag are ignored"
  },
  {
   "property": "C17",
   "status": "proved",
   "theorems": [
    "Verif.Boc.C17_order",
    "Verif.Boc.C17_deep"
   ],
   "note": "up to an explicit hash collision"
  },
  {
   "property": "C18",
   "status": "partial",
   "theorems": [
    "Verif.Boc.C18_stats_partial",
    "Verif.Boc.C18_chunks",
    "Verif.Boc.C18_chunks_assert",
    "Verif.Boc.C18_late"
   ],
   "note": "exact for every program that sets without_hashes before adding roots; violated when it is set later (witness); the debug assertion of encode_to_writer fails with a checksum"
  },
  {
   "property": "C19",
   "status": "proved",
   "theorems": [
    "Verif.Boc.C19_roundtrip",
    "Verif.Boc.C19_ignored"
   ],
   "note": "the case of without_hashes set after the roots is the witness Verif.Boc.C18_late"
  },
  {
   "property": "C20",
   "status": "partial",
   "theorems": [
    "Verif.Boc.C20_roundtrip_partial",
    "Verif.Boc.C20_exact_partial",
    "Verif.Boc.C20_pair",
    "Verif.Boc.C20_duplicate_roots"
   ],
   "note": "violated for repeated roots when there are more roots than distinct cells (witness: encode_pair of a leaf with itself cannot be decoded); proved for all other root lists"
  },
  {
   "property": "C41",
   "status": "proved",
   "theorems": [
    "Verif.C41_store",
    "Verif.C41_invalid",
    "Verif.C41_load",
    "Verif.V248.C41_v248_store",
    "Verif.V248.C41_v248_invalid",
    "Verif.V248.C41_v248_load"
   ],
   "note": "VarUint24, VarUint56, Tokens and VarUint248"
  },
  {
   "property": "C42",
   "status": "partial",
   "theorems": [
    "Verif.V248.C42_add",
    "Verif.V248.C42_sub",
    "Verif.V248.C42_div",
    "Verif.V248.C42_mul_partial",
    "Verif.V248.C42_mul_range_wrong",
    "Verif.V248.C42_add_operator_wrong",
    "Verif.V248.C42_add_operator_partial",
    "Verif.V248.C42_ops"
   ],
   "note": "checked_add/sub and division exact; checked_mul accepts results up to 2^256 (witness) and the + operator drops the high words (witness); both exact on the stated part"
  },
  {
   "property": "C43",
   "status": "proved",
   "theorems": [
    "Verif.V248.C43_v248"
   ],
   "note": ""
  },
  {
   "property": "C44",
   "status": "partial",
   "theorems": [
    "Verif.C44_small",
    "Verif.C44_small_key",
    "Verif.C44_split_depth_unchecked",
    "Verif.C44_split_depth_partial"
   ],
   "note": "SplitDepth::new accepts 32 and 33, which store writes truncated to five bits (witness); exact up to 31"
  },
  {
   "property": "C53",
   "status": "proved",
   "theorems": [
    "Verif.C53_arith",
    "Verif.C53_assign",
    "Verif.C53_kinds"
   ],
   "note": ""
  },
  {
   "property": "C54",
   "status": "partial",
   "theorems": [
    "Verif.V248.C54_display",
    "Verif.V248.C54_parse",
    "Verif.V248.C54_reject",
    "Verif.V248.C54_parse_wrong",
    "Verif.V248.C54_round_partial"
   ],
   "note": "texts of at most 64 digits denoting 2^128+4 or more are parsed wrongly (witness: 10*2^128 parses as 0); the exact result is given for every text of digits"
  },
  {
   "property": "C46",
   "status": "partial",
   "theorems": [
    "Verif.ShardIdent.C46_new",
    "Verif.ShardIdent.C46_length",
    "Verif.ShardIdent.C46_split",
    "Verif.ShardIdent.C46_merge",
    "Verif.ShardIdent.C46_split_merge",
    "Verif.ShardIdent.C46_parent",
    "Verif.ShardIdent.C46_intersects",
    "Verif.ShardIdent.C46_contains",
    "Verif.ShardIdent.C46_cover",
    "Verif.ShardIdent.C46_disjoint",
    "Verif.ShardIdent.C46_ancestor_wrong",
    "Verif.ShardIdent.C46_ancestor_partial",
    "Verif.ShardIdent.C46_cell",
    "Verif.ShardIdent.C46_masterchain_split",
    "Verif.ShardIdent.C46_block_id"
   ],
   "note": "Everything but is_ancestor_of is proved; is_ancestor_of compares the wrong bits (C46_ancestor_wrong is a concrete counterexample), C46_ancestor_partial says exactly what it computes. Splitting the masterchain gives shards the constructor refuses (C46_masterchain_split)."
  },
  {
   "property": "C48",
   "status": "proved",
   "theorems": [
    "Verif.Crc.C48_remainder",
    "Verif.Crc.C48_append",
    "Verif.Crc.C48_burst",
    "Verif.Crc.C48_detect"
   ],
   "note": ""
  },
  {
   "property": "C49",
   "status": "partial",
   "theorems": [
    "Verif.Bitstring.C49_parse",
    "Verif.Bitstring.C49_format",
    "Verif.Bitstring.C49_round_partial",
    "Verif.Bitstring.C49_long_wrong"
   ],
   "note": "round trip up to 1020 bits; strings of 1021..1023 bits are rendered with 256 digits and a tag and are then rejected by from_hex_str (witness)"
  },
  {
   "property": "C50",
   "status": "partial",
   "theorems": [
    "Verif.HashBytes.C50_round",
    "Verif.HashBytes.C50_accept",
    "Verif.HashBytes.C50_panic",
    "Verif.HashBytes.C50_short_base64"
   ],
   "note": "the round trip is proved for every hash and the accepted texts are characterised exactly; the parser panics on some texts, does not check the two-byte prefix and accepts base64 of 31 bytes (witnesses)"
  },
  {
   "property": "C55",
   "status": "partial",
   "theorems": [
    "Verif.ShardIdent.C55_shard",
    "Verif.ShardIdent.C55_shard_accept",
    "Verif.ShardIdent.C55_shard_trailing",
    "Verif.ShardIdent.C55_masterchain_child",
    "Verif.ShardIdent.BlockId.C55_block",
    "Verif.ShardIdent.BlockId.C55_block_accept"
   ],
   "note": "round trips proved for every value the constructors give and the accepted texts characterised; the shard parser ignores everything after a second colon (witness) and children of the masterchain are displayed but not parsed back (witness)"
  },
  {
   "property": "C47",
   "status": "partial",
   "theorems": [
    "Verif.C47_std",
    "Verif.C47_int",
    "Verif.C47_anycast_31",
    "Verif.StdAddr.C47_base64_form",
    "Verif.StdAddr.C47_raw_accept",
    "Verif.StdAddr.C47_raw_partial",
    "Verif.StdAddr.C47_anycast_text",
    "Verif.StdAddr.C47_base64_accept",
    "Verif.StdAddr.C47_base64_partial",
    "Verif.StdAddr.C47_url_flag_wrong",
    "Verif.StdAddr.C47_tag_wrong",
    "Verif.StdAddr.C47_typo",
    "Verif.StdAddr.C47_prefix",
    "Verif.C47_ext",
    "Verif.C47_ext_accept",
    "Verif.C56_keys"
   ],
   "note": "the cell form is proved for all addresses, including anycast prefixes of 31 bits, which the scheme excludes; texts are proved for addresses without anycast, the text of an address with anycast is never accepted; the URL-safe flag is lost when the text has neither special character, and undocumented tag bytes are accepted"
  },
  {
   "property": "C56",
   "status": "proved",
   "theorems": [
    "Verif.C56_keys",
    "Verif.C56_faithful",
    "Verif.C56_order"
   ],
   "note": ""
  },
  {
   "property": "C57",
   "status": "proved",
   "theorems": [
    "Verif.C57_step",
    "Verif.C57_any",
    "Verif.C57_canonical",
    "Verif.C57_iter",
    "Verif.C57_find",
    "Verif.C57_bound",
    "Verif.C57_remove_bound",
    "Verif.C57_empty",
    "Verif.C57_build",
    "Verif.C57_no_errors",
    "Verif.C57_remove_unreadable",
    "Verif.C57_build_ok",
    "Verif.C57_stops",
    "Verif.C57_keys",
    "Verif.C57_values",
    "Verif.C57_union",
    "Verif.C57_stops_all",
    "Verif.C57_ends_all"
   ],
   "note": "for dictionaries whose values can be read back; typed remove of an unreadable value reports an error after removing it (witness C57_remove_unreadable); values in signed order are C32"
  },
  {
   "property": "C45",
   "status": "proved",
   "theorems": [
    "Verif.C45_amounts",
    "Verif.C45_add",
    "Verif.C45_sub",
    "Verif.C45_any",
    "Verif.C45_clamp",
    "Verif.C45_normalized",
    "Verif.C45_add_sub",
    "Verif.C45_comm",
    "Verif.C45_assoc",
    "Verif.C45_assign",
    "Verif.C45_from_iter",
    "Verif.C45_codes",
    "Verif.C45_comp_add",
    "Verif.C45_is_zero"
   ],
   "note": ""
  },
  {
   "property": "C36",
   "status": "partial",
   "theorems": [
    "Verif.Merkle.C36_build",
    "Verif.Merkle.C36_empty",
    "Verif.Merkle.C36_level0",
    "Verif.Merkle.C36_plain",
    "Verif.Merkle.C36_view",
    "Verif.Merkle.C36_for_absent_cell",
    "Verif.Merkle.C36_for_cell",
    "Verif.Merkle.C36_load",
    "Verif.Merkle.C36_store",
    "Verif.Merkle.C36_reused_cell",
    "Verif.Merkle.C36_root_level"
   ],
   "note": "Proved for every tree, filter and hasher (up to hash collisions inside the tree) when no included cell occurs at two Merkle depths; C36_reused_cell shows that the code breaks the property otherwise, C36_root_level that proofs of roots of non-zero level cannot be loaded. The multithreaded builders are in C84."
  },
  {
   "property": "C37",
   "status": "partial",
   "theorems": [
    "Verif.Merkle.C37_update",
    "Verif.Usage.C37_usage",
    "Verif.Usage.C37_data_access",
    "Verif.Merkle.C37_visited",
    "Verif.Merkle.C37_stored",
    "Verif.Merkle.C37_forgotten",
    "Verif.Merkle.C37_level_gap"
   ],
   "note": "For all pairs of trees of level 0 without Merkle cells, all filters whose included subtrees have no skipped cells: the update is always created, names the right hashes and depths, can be stored and loaded, and applying it gives exactly the new tree when every reused cell is reached in the old tree through known cells, otherwise InvalidData (both directions). Up to hash collisions. Missing: trees that contain Merkle cells or have a level. The unrestricted claim is false: C37_forgotten (skipped cell met before an included subtree) and C37_level_gap (level mask with a gap inside two Merkle proofs) are concrete updates that are created but cannot be applied."
  },
  {
   "property": "C38",
   "status": "proved",
   "theorems": [
    "Verif.Merkle.C38_apply",
    "Verif.Merkle.C38_other_old",
    "Verif.Merkle.C38_load",
    "Verif.Merkle.C38_store",
    "Verif.Merkle.C38_deep_panic"
   ],
   "note": "For every update with well-formed cells, of whatever origin: a successful application means the old tree has the named hash and the result is a well-formed cell with the named hash, hence the only such tree up to collisions. Loading is characterised exactly. C38_deep_panic: a pruned branch below eight Merkle proofs makes applying panic."
  },
  {
   "property": "C40",
   "status": "partial",
   "theorems": [
    "Verif.Stat.C40_history",
    "Verif.Stat.C40_limit",
    "Verif.Stat.C40_cell",
    "Verif.Stat.C40_slice",
    "Verif.Stat.C40_root_unchecked",
    "Verif.Stat.C40_after_failure"
   ],
   "note": "For all sequences of cells and slices and all limits, up to hash collisions: the counters equal the number and the bits of the distinct cells plus the data of the slices, and the exact condition for an item to fit. C40_root_unchecked and C40_after_failure show where the limit is not exact: roots of cells are never compared with it, and a failed call leaves an uncounted cell marked as visited."
  },
  {
   "property": "C39",
   "status": "partial",
   "theorems": [
    "Verif.Usage.C39_exact",
    "Verif.Usage.C39_filter",
    "Verif.Usage.C37_usage",
    "Verif.Usage.C39_visited_subtree",
    "Verif.Usage.C39_touch",
    "Verif.Usage.C39_touch_whole",
    "Verif.Usage.C39_replay",
    "Verif.Usage.C39_replay_visited",
    "Verif.Usage.C39_replay_data_access",
    "Verif.Usage.Sync.C39_threads",
    "Verif.Usage.Sync.C39_threads_end",
    "Verif.Usage.Sync.C39_threads_late"
   ],
   "note": "For every history of tracking, loading references, reading data, untracking and dropping the tree, in both modes: the tracked cells answer like the plain cells and the tree contains exactly the cells met (up to nothing: no collision assumption). A marked root that was not visited is included with all descendants. C39_visited_subtree: the mark has no effect on a cell that was visited itself, so the second half of the property is false of the code there. C39_touch, C39_touch_whole: touching a tracked cell recursively adds exactly the cells below it, in both modes, and the subtree stands unpruned in every proof made with the tree (C36_build ties specNode to the builder). C39_replay: in the mode OnLoad, for trees of level 0 without Merkle cells, every computation on the tracked root can be repeated on the proof made with the tree and gets the same answers, up to hash collisions. C39_replay_visited: the same in both modes and with any marks of subtrees if all cells given to the computation were visited. C39_replay_data_access is a finding: in the mode OnDataAccess the condition cannot be left out. C39_threads, C39_threads_end: the same for any number of threads under every schedule of their steps (feature sync), without deadlocks. C39_threads_late is a finding: in the mode OnLoad a thread can be given a reference before the tree contains it, while another thread that asked for the same reference is between creating and recording it."
  },
  {
   "property": "C33",
   "status": "proved",
   "theorems": [
    "Verif.C33_step",
    "Verif.C33_history",
    "Verif.C33_new",
    "Verif.C33_fold",
    "Verif.C33_build",
    "Verif.C33_split",
    "Verif.C33_merge",
    "Verif.C33_modify",
    "Verif.C33_currency",
    "Verif.C33_currency_history",
    "Verif.C33_shard_fees",
    "Verif.C33_import_fees",
    "Verif.C33_depth_balance",
    "Verif.C33_key_max_lt"
   ],
   "note": "For every extra type whose comparator computes a function of the leading extras (C33_fold: associative), and for the five extra types of the crate (instances proved lawful). find_by_extra is C81."
  },
  {
   "property": "C28",
   "status": "proved",
   "theorems": [
    "Verif.C28_modify",
    "Verif.C28_sequential",
    "Verif.C28_same_map",
    "Verif.C28_repeated",
    "Verif.C28_unsorted",
    "Verif.C28_repeated_differs",
    "Verif.C28_empty_differs"
   ],
   "note": "For every canonical dictionary (plain or augmented) and every strictly ascending list of modifications, bulk modification gives the canonical dictionary of the modified map, or fails leaving the dictionary as it was exactly if no such dictionary exists. If the single set and remove operations succeed one after the other, bulk modification succeeds with the identical cell. Lists with repeated keys: the first modification counts on non-empty dictionaries (differs from sequential application, witness C28_repeated_differs); on an empty dictionary removals are filtered out first (C28_empty_differs). Lists out of order are refused. The order of the keys is that of their bits; errors of the value callback are not modelled."
  },
  {
   "property": "C58",
   "status": "partial",
   "theorems": [
    "Verif.C58_messages",
    "Verif.C58_headers",
    "Verif.C58_ghost_refused",
    "Verif.C58_header_refused"
   ],
   "note": "All four message types. Proved: exact bytes, round trip, exactness of loading, no panics. Two refusals of values that fit: a given layout that puts a missing state init into a cell (C58_ghost_refused), and a bare external header that exactly fills the cell (C58_header_refused)."
  },
  {
   "property": "C59",
   "status": "partial",
   "theorems": [
    "Verif.C59_layout_partial",
    "Verif.C59_internal_refused",
    "Verif.C59_exotic_body_refused"
   ],
   "note": "Proved for external messages; for internal messages the declared size is one bit short, so the property fails for messages of exactly 1024 bits (C59_internal_refused). Exotic body cells are outside the hypotheses (C59_exotic_body_refused)."
  },
  {
   "property": "C60",
   "status": "partial",
   "theorems": [
    "Verif.C60_codecs",
    "Verif.C60_status",
    "Verif.C60_optional_status",
    "Verif.C60_size",
    "Verif.C60_shard_account",
    "Verif.C60_used_broken"
   ],
   "note": "The codecs, sizes and statuses are proved. The last part is false of the code: StorageUsed::compute fails for every account (C60_used_broken)."
  },
  {
   "property": "C61",
   "status": "proved",
   "theorems": [
    "Verif.C61_codecs",
    "Verif.C61_round",
    "Verif.C61_out_msgs",
    "Verif.C61_out_msgs_all"
   ],
   "note": "Lazily loaded parts are cells in the model; the message parser of the iterator is a parameter (C58 is about the parser)."
  },
  {
   "property": "C62",
   "status": "proved",
   "theorems": [
    "Verif.C62_codecs",
    "Verif.C62_shortcuts",
    "Verif.C62_exported",
    "Verif.C62_imported",
    "Verif.C62_immediate",
    "Verif.C62_created_lt",
    "Verif.C62_collect_fee",
    "Verif.C62_regular_bits",
    "Verif.C62_in_parts",
    "Verif.C62_out_parts",
    "Verif.C62_in_accessors",
    "Verif.C62_out_accessors",
    "Verif.C62_next_hop",
    "Verif.C62_hop_constants",
    "Verif.C62_two_forms",
    "Verif.C62_no_envelope_needed"
   ],
   "note": "Lazily loaded parts are cells in the model. C62_in_parts, C62_out_parts: the parts named by the accessors are exactly the references of the stored description. C62_no_envelope_needed is a finding: the shortcuts accept a cell that is no envelope, so they agree with loading the envelope only when that succeeds."
  },
  {
   "property": "C63",
   "status": "partial",
   "theorems": [
    "Verif.C63_codec_partial",
    "Verif.C63_iter",
    "Verif.C63_exact",
    "Verif.C63_safe",
    "Verif.C63_endless",
    "Verif.C63_after_error",
    "Verif.C63_mode_lost"
   ],
   "note": "Iteration over well-formed lists is proved in both directions. Violated by the code in three cases, each with a witness: the iterator does not end after an error (endless errors, actions that are not in the list), and modes of 128 and above lose their highest bit when a change of libraries is stored; the codec is proved for the other modes."
  },
  {
   "property": "C64",
   "status": "partial",
   "theorems": [
    "Verif.C64_codecs",
    "Verif.C64_latest",
    "Verif.C64_iter",
    "Verif.C64_iter_exact",
    "Verif.C64_partition",
    "Verif.C64_build",
    "Verif.C64_all",
    "Verif.C64_from_shards",
    "Verif.C64_dropped",
    "Verif.C64_silent",
    "Verif.C64_order",
    "Verif.C64_after_error",
    "Verif.C64_no_tag",
    "Verif.C64_workchain",
    "Verif.C64_halves"
   ],
   "note": "Without the feature tycho (see C88 for the records of tycho). All parts are proved, except that an ordinary cell without data is silently taken for an empty tree (C64_silent), and that iteration over all workchains goes on after an error inside one of them (C64_after_error). Intersecting shards are accepted by from_shards and some of them are lost (C64_dropped); the order is that of unsigned keys, not that of shard identifiers (C64_order)."
  },
  {
   "property": "C65",
   "status": "partial",
   "theorems": [
    "Verif.C65_storage",
    "Verif.C65_storage_mono",
    "Verif.C65_storage_split",
    "Verif.C65_gas",
    "Verif.C65_gas_mono",
    "Verif.C65_fwd",
    "Verif.C65_parts_partial",
    "Verif.C65_parts_saturate",
    "Verif.C65_parts_bound",
    "Verif.C65_burn",
    "Verif.C65_addr_len"
   ],
   "note": "All proved except the exact value of the parts of a forwarding fee of 2^112 or more, where the product saturates (witness)."
  },
  {
   "property": "C66",
   "status": "proved",
   "theorems": [
    "Verif.Vset.C66_prng",
    "Verif.Vset.C66_mc",
    "Verif.Vset.C66_fair",
    "Verif.Vset.C66_shard",
    "Verif.Vset.C66_determined",
    "Verif.Vset.C66_hash",
    "Verif.Vset.C66_zero_weight"
   ],
   "note": "SHA-512 is a parameter: the theorems hold for every function. Debug assertions are modelled as panics. Positive weights are a hypothesis; C66_zero_weight shows what happens without it."
  },
  {
   "property": "C67",
   "status": "partial",
   "theorems": [
    "Verif.C67_codecs",
    "Verif.C67_burning_loaded",
    "Verif.C67_limits_loaded",
    "Verif.C67_store_refuses",
    "Verif.C67_store_accepts",
    "Verif.C67_gas_prices",
    "Verif.C67_old_forms",
    "Verif.C67_consensus_truncated",
    "Verif.C67_workchain_unchecked",
    "Verif.C67_gas_repeated"
   ],
   "note": "Without the feature tycho (see C87 for the parameters of tycho). Violated by the code in two cases, each with a witness: a consensus config with 256 or more candidates per round is stored truncated (`Sound` has the bound as a condition), and workchain descriptions with impossible split depths are loaded although they can not be stored."
  },
  {
   "property": "C68",
   "status": "partial",
   "theorems": [
    "Verif.Vset.C68_validator_loads",
    "Verif.Vset.C68_validator_round",
    "Verif.Vset.C68_adnl_lost",
    "Verif.Vset.C68_store",
    "Verif.Vset.C68_accepts",
    "Verif.Vset.C68_round",
    "Verif.Vset.C68_loaded",
    "Verif.Vset.C68_usable",
    "Verif.C68_root_in_place",
    "Verif.Vset.C68_old_form",
    "Verif.Vset.C68_zero_weight",
    "Verif.Vset.C68_unchecked_store",
    "Verif.Vset.C68_fewer_entries"
   ],
   "note": "Violated by the code in these cases, each with a witness: the ADNL address of a validator with a seqno is replaced by zeros when stored; sets that do not meet the conditions of the loader are stored without an error; a dictionary with fewer entries than declared is accepted and gives a set that can not be stored and loaded; weights of zero are accepted. Which slices are accepted is proved for well-formed dictionaries; for malformed ones only what loaded sets promise (C68_loaded)."
  },
  {
   "property": "C69",
   "status": "partial",
   "theorems": [
    "Verif.C69_codecs",
    "Verif.C69_header",
    "Verif.C69_software",
    "Verif.C69_prev_ref",
    "Verif.C69_data_for_sign",
    "Verif.C69_block_id",
    "Verif.C69_flow",
    "Verif.C69_flow_extra",
    "Verif.C69_header_refused",
    "Verif.C69_fees_lost"
   ],
   "note": "Without the feature tycho (see C88 for the records of tycho). Violated by the code in three cases, each with a witness: a value flow with extra currencies in the collected fees does not come back (the loader takes another cell for the dictionary; the codec theorem has their absence as a condition); headers with the number zero, or with a previous vertical block and the vertical number zero, are stored but refused by the loader, and a software version without its flag is lost (C69_header is the exact condition); after setting two previous blocks without the flag for a merge, they can not be loaded (C69_prev_ref is the exact condition). `validate` is modelled up to the comparison of the two sums, which are returned."
  },
  {
   "property": "C70",
   "status": "proved",
   "theorems": [
    "Verif.C70_root_in_place",
    "Verif.C70_root_consumed",
    "Verif.C70_codec",
    "Verif.C70_account_block",
    "Verif.C70_no_transactions"
   ],
   "note": "An account block without transactions is not stored (InvalidData), which is part of C70_no_transactions."
  },
  {
   "property": "C71",
   "status": "partial",
   "theorems": [
    "Verif.C71_codecs",
    "Verif.C71_reload",
    "Verif.C71_upgrade",
    "Verif.C71_extra",
    "Verif.C71_custom",
    "Verif.C71_library",
    "Verif.C71_overrides",
    "Verif.C71_overrides_not_total",
    "Verif.C71_flag_lost"
   ],
   "note": "Both settings of the feature tycho. Violated in one case (C71_flag_lost): the second flag of the data of the masterchain is accepted when loading and lost when storing, so that the loaded value is stored in another cell. Values come back in all cases. Without tycho there is no consensus info; the model has the one of the zerostate then."
  },
  {
   "property": "C72",
   "status": "proved",
   "theorems": [
    "Verif.Config.C72_get",
    "Verif.Config.C72_table",
    "Verif.Config.C72_apart",
    "Verif.Config.C72_remove",
    "Verif.Config.C72_history",
    "Verif.Config.C72_addresses",
    "Verif.Config.C72_validator_sets",
    "Verif.Config.C72_lists",
    "Verif.Config.C72_fundamental",
    "Verif.Config.C72_prices",
    "Verif.Config.C72_new"
   ],
   "note": "Parameters 6, 13 and 30, which are handed out as raw slices, are covered as cells (getRawCell, setRaw). Of validator sets the getters are covered here, their codec by C68."
  },
  {
   "property": "C73",
   "status": "partial",
   "theorems": [
    "Verif.Big.C73_truncate",
    "Verif.Big.C73_unsigned",
    "Verif.Big.C73_signed",
    "Verif.Big.C73_refused",
    "Verif.Big.C73_unsigned_as_signed",
    "Verif.Big.C73_var_unsigned",
    "Verif.Big.C73_var_signed",
    "Verif.Big.C73_var_refused",
    "Verif.Big.C73_length_cut",
    "Verif.Big.C73_sign_lost"
   ],
   "note": "Violated by the code in two cases, each with a witness: a BigInt that is stored as unsigned loses its sign without an error; the bit length is cut to 16 bits, so that numbers with 65536 or more bits can pass the check. All else is proved. The operations of num-bigint are modelled by their documented results."
  },
  {
   "property": "C74",
   "status": "partial",
   "theorems": [
    "Verif.Abi.C74_round_partial",
    "Verif.Abi.C74_unit",
    "Verif.Abi.C74_injective_partial",
    "Verif.Abi.C74_size",
    "Verif.Abi.C74_varint_sign",
    "Verif.Abi.C74_empty_maps",
    "Verif.Abi.C74_empty_map",
    "Verif.Abi.C74_big_element",
    "Verif.Abi.C74_last_unit",
    "Verif.Abi.C74_optional_fixed",
    "Verif.Abi.C74_refused",
    "Verif.Abi.C74_utf8",
    "Verif.Abi.C74_succeeds",
    "Verif.Abi.C74_total",
    "Verif.Abi.C74_negative_size",
    "Verif.Abi.C74_short_array"
   ],
   "note": "The round trip is proved for all values that meet Good and Regular (AbiGood.lean); C74_succeeds and C74_total say when a value can be encoded at all, C74_utf8 what the bytes of a string are. The statement without these conditions is false of the code: witnesses are given for lost signs of variable-length integers, empty maps before references, large elements that begin with a reference in version 1, empty tuples at the end, optionals of fixed arrays."
  },
  {
   "property": "C75",
   "status": "partial",
   "theorems": [
    "Verif.Abi.C75_internal_partial",
    "Verif.Abi.C75_output_partial",
    "Verif.Abi.C75_event_partial",
    "Verif.Abi.C75_one_id",
    "Verif.Abi.C75_ids",
    "Verif.Abi.C75_call_or_answer",
    "Verif.Abi.C75_room",
    "Verif.Abi.C75_external_partial",
    "Verif.Abi.C75_unsigned_partial",
    "Verif.Abi.C75_fillable_partial",
    "Verif.Abi.C75_signed_data",
    "Verif.Abi.C75_filled",
    "Verif.Abi.C75_v1_payload_lost",
    "Verif.Abi.C75_v1_unreadable",
    "Verif.Abi.C75_v1_headers",
    "Verif.Abi.C75_explicit_id",
    "Verif.Abi.C75_elements_unchecked",
    "Verif.Abi.C75_repeated_headers",
    "Verif.Abi.C75_expire_overflow",
    "Verif.Abi.C75_versions"
   ],
   "note": "The round trips are proved for arguments that meet the conditions of C74, for internal bodies in all versions and for external ones from version 2 on with headers that leave room (all lists of different headers). The rest is false of the code: version 1 bodies with a signature lose the payload, version 1 headers are read in another order than they are written, explicit ids are shared by calls and answers, elements of arrays are not checked, repeated headers push the id into a cell where it is not looked for."
  },
  {
   "property": "C76",
   "status": "proved",
   "theorems": [
    "Verif.Abi.C76_description",
    "Verif.Abi.C76_accepted",
    "Verif.Abi.C76_small_texts",
    "Verif.Abi.C76_text",
    "Verif.Abi.C76_function",
    "Verif.Abi.C76_event",
    "Verif.Abi.C76_function_event",
    "Verif.Abi.C76_parentheses",
    "Verif.Abi.C76_not_canonical",
    "Verif.Abi.C76_widths"
   ],
   "note": "Signatures are texts here; ids are their hashes. Names are assumed to hold no opening parenthesis (C76_parentheses shows why). C76_not_canonical and C76_widths record what the parser accepts beyond what is printed."
  },
  {
   "property": "C77",
   "status": "partial",
   "theorems": [
    "Verif.Abi.C77_encode",
    "Verif.Abi.C77_tokens",
    "Verif.Abi.C77_order",
    "Verif.Abi.C77_round_partial",
    "Verif.Abi.C77_default",
    "Verif.Abi.C77_update",
    "Verif.Abi.C77_update_reads_partial",
    "Verif.Abi.C77_update_encode",
    "Verif.Abi.C77_fields_partial",
    "Verif.Abi.C77_find_function",
    "Verif.Abi.C77_find_event",
    "Verif.Abi.C77_order_decides",
    "Verif.Abi.C77_zero_key",
    "Verif.Abi.C77_shared_key",
    "Verif.Abi.C77_find_ambiguous"
   ],
   "note": "Content, order and updates are proved for all values; reading back needs the conditions of C74 on values. Violated by the code in four cases, each with a witness: whether encoding succeeds depends on the order of the hash map (C77_order_decides; two successful runs always agree), a field with key zero is overwritten by the public key, fields may share a key, functions may share an id."
  },
  {
   "property": "C78",
   "status": "partial",
   "theorems": [
    "Verif.Caps.C78_iter",
    "Verif.Caps.C78_add",
    "Verif.Caps.C78_collect",
    "Verif.Caps.C78_ext",
    "Verif.Caps.C78_collect_items",
    "Verif.Caps.C78_names",
    "Verif.Caps.C78_human_partial",
    "Verif.Caps.C78_len_partial",
    "Verif.Caps.C78_unknown_bit"
   ],
   "note": "Proved for all masks except for two parts which hold exactly for masks without unknown bits (the theorems say so both ways): the announced length of the iterator counts unknown bits, and the human-readable form drops them (C78_unknown_bit)."
  },
  {
   "property": "C79",
   "status": "partial",
   "theorems": [
    "Verif.Sigs.C79_check",
    "Verif.Sigs.C79_node",
    "Verif.Sigs.C79_weight_partial",
    "Verif.Sigs.C79_repeated",
    "Verif.Sigs.C79_overflow",
    "Verif.Sigs.C79_sign_id",
    "Verif.Sigs.C79_id_or_data",
    "Verif.Sigs.C79_whole"
   ],
   "note": "C79_check gives the result for all dictionaries: one summand per entry. That a signer counts once is false of the code: entries by one signer under several keys count several times (C79_repeated), up to an overflow (C79_overflow). C79_weight_partial has the full claim for dictionaries in which no signer occurs twice, and nodes with different identifiers. Hash and signature scheme are parameters."
  },
  {
   "property": "C80",
   "status": "proved",
   "theorems": [
    "Verif.Abi.C80_round",
    "Verif.Abi.C80_injective",
    "Verif.Abi.C80_onto",
    "Verif.Abi.C80_plain",
    "Verif.Abi.C80_cells",
    "Verif.Abi.C80_tail",
    "Verif.Abi.C80_hash_cut",
    "Verif.Abi.C80_range",
    "Verif.Abi.C80_other_forms",
    "Verif.Abi.C80_hash_keys"
   ],
   "note": "For all types of the universe RTy by induction on the type. C80_onto leaves out standard and variable addresses (the ABI type allows the other kind) and types without FromAbi. C80_cells is for values in the range of their ABI type, without arrays of fixed length other than bytes. Recorded besides: derived structs ignore further items of a tuple, a hash drops the high bits of a number, ranges of variable-length integers are not checked (the values concerned cannot be read from cells)."
  },
  {
   "property": "C81",
   "status": "proved",
   "theorems": [
    "Verif.C81_walk",
    "Verif.C81_sound",
    "Verif.C81_index",
    "Verif.C81_branch",
    "Verif.C81_order",
    "Verif.C81_old_blocks",
    "Verif.C81_max"
   ],
   "note": "For all extra types that satisfy the laws of C33 (the ones of the crate do), for all search objects with state. The decoding of the found key and value is that of C57. A search with Ordering::Equal is covered by C81_sound only."
  },
  {
   "property": "C82",
   "status": "partial",
   "theorems": [
    "Verif.Drop.C82_drop_partial",
    "Verif.Drop.C82_history_partial",
    "Verif.Drop.C82_no_leak_partial",
    "Verif.Drop.C82_weak_nesting"
   ],
   "note": "Proved for all memories and programs without weak handles. With them the bound on the stack is false (C82_weak_nesting: chains of cells with weak handles nest as deep as they are long); that nothing released is touched then, and that nothing is left over, is C85, which also covers the atomic counts of feature sync. The wrappers for virtual and tracked cells are not modelled."
  },
  {
   "property": "C85",
   "status": "proved",
   "theorems": [
    "Verif.DropPar.C85_safe",
    "Verif.DropPar.C85_kept",
    "Verif.DropPar.C85_no_leak",
    "Verif.DropPar.C85_ends",
    "Verif.DropPar.C85_built",
    "Verif.DropPar.C85_upgrade",
    "Verif.DropPar.C85_nesting"
   ],
   "note": "Proved for all histories and interleavings, in a model where each access to a count is atomic and all accesses are in one order. C85_nesting is a finding: when other threads release their handles between the check and the release, destructors nest without a bound, so the stack is bounded only for releases that nobody disturbs (C82)."
  },
  {
   "property": "C86",
   "status": "partial",
   "theorems": [
    "Verif.Derive.C86_sound_partial",
    "Verif.Derive.C86_round_partial",
    "Verif.Derive.C86_version",
    "Verif.Derive.C86_old_data",
    "Verif.Derive.C86_new_data",
    "Verif.Derive.C86_restored",
    "Verif.Derive.C86_validated",
    "Verif.Derive.C86_tag_text",
    "Verif.Derive.C86_not_restored",
    "Verif.Derive.C86_equal_tags",
    "Verif.Derive.C86_wide_tag"
   ],
   "note": "Proved for all structs with tags that differ and have at most 64 bits. The macros accept others, and then the property is false: equal tags (C86_equal_tags: a stored value is loaded as another one) and tag texts of 64 hexadecimal digits (C86_wide_tag: no tag is stored). Enums are refused by the macros. The token streams are not modelled: the model is the code that they generate."
  },
  {
   "property": "C87",
   "status": "partial",
   "theorems": [
    "Verif.Derive.C87_sound",
    "Verif.Derive.C87_fits",
    "Verif.Derive.C87_consensus_layout",
    "Verif.Derive.C87_msgs_layout",
    "Verif.Derive.C87_work_units_layout",
    "Verif.Derive.C87_positions_layout",
    "Verif.Derive.C87_nested_layout",
    "Verif.Derive.C87_consensus_documented",
    "Verif.Derive.C87_collation_documented"
   ],
   "note": "Everything is proved for all values but the last sentence, which is false of the code: no cell written by the documented schemes of ConsensusConfig and CollationConfig is accepted (C87_consensus_documented, C87_collation_documented)."
  },
  {
   "property": "C88",
   "status": "partial",
   "theorems": [
    "Verif.Tycho.C88_codecs",
    "Verif.Tycho.C88_header",
    "Verif.Tycho.C88_old_data",
    "Verif.Tycho.C88_new_data",
    "Verif.Tycho.C88_other_build",
    "Verif.Tycho.C88_misread"
   ],
   "note": "Everything is proved for all values but the last sentence, which is false of the code in two cases. The tag of a block is the same in both builds: every block stored with the feature is accepted without it, as a block with no updates of the queue (C88_other_build). The tags of descriptions of shards are the same too, but one field is half as long: every description stored without the feature (and a time before 2038) is accepted with it, with wrong fields (C88_misread). Headers are told apart (C88_old_data, C88_new_data)."
  },
  {
   "property": "C89",
   "status": "partial",
   "theorems": [
    "Verif.Abi.C89_signed_partial",
    "Verif.Abi.C89_unsigned_partial",
    "Verif.Abi.C89_signable_partial",
    "Verif.Abi.C89_bound",
    "Verif.Abi.C89_refused",
    "Verif.Abi.C89_other_dst",
    "Verif.Abi.C89_internal_partial"
   ],
   "note": "Partial: calls must meet the conditions of C75 (arguments that come back, room for headers); internal messages can be refused by one bit (C59). C89_bound and C89_other_dst are up to hash collisions. Keys and signatures are abstract. C89_other_dst is a hazard of the interface: with_dst does not compare the address with the one that was signed."
  },
  {
   "property": "C90",
   "status": "partial",
   "theorems": [
    "Verif.RefsIter.C90_cell",
    "Verif.RefsIter.C90_slice",
    "Verif.RefsIter.C90_once",
    "Verif.RefsIter.C90_peek",
    "Verif.RefsIter.C90_peek_prev_wrong",
    "Verif.RefsIter.C90_peek_prev_partial",
    "Verif.RefsIter.C90_peek_prev_outside"
   ],
   "note": "For every sequence of calls the iterators agree with a queue that holds the references of the cell or of the window; every child comes exactly once. Partial because the code violates the last sentence: peek_prev does not show what next_back returns (C90_peek_prev_wrong); it shows what next returned last (this is what the Merkle builders rely on) and on a slice the reference in front of the window (C90_peek_prev_outside)."
  },
  {
   "property": "C91",
   "status": "proved",
   "theorems": [
    "Verif.Boc.C91_context",
    "Verif.Boc.C91_build",
    "Verif.Boc.C91_text",
    "Verif.Boc.C91_text_means",
    "Verif.Boc.C91_encodable",
    "Verif.Boc.C91_repr",
    "Verif.Boc.C91_decoded",
    "Verif.Boc.C91_safe",
    "Verif.Boc.C91_rayon"
   ],
   "note": "Up to collisions of the hash function inside of the value, and for values of fewer than 2^32 different cells. C91_context and C91_build say what the abstract contexts of the other codec theorems are in the case of the empty context: they accept exactly the well-formed trees."
  },
  {
   "property": "C92",
   "status": "proved",
   "theorems": [
    "Verif.ArrayVec.C92_lists",
    "Verif.ArrayVec.C92_once",
    "Verif.ArrayVec.C92_no_leak",
    "Verif.ArrayVec.C92_alive",
    "Verif.ArrayVec.C92_contract",
    "Verif.ArrayVec.C92_counter_wraps"
   ],
   "note": "Items are numbers that stand for owned values; a clone gets new numbers, so that the theorems do not say that a clone has equal items (only how many and that each is owned once). Capacities above 255 are excluded: the assertion in the type that excludes them is never evaluated, and C92_counter_wraps shows what a vector of 256 does in a release build."
  },
  {
   "property": "C93",
   "status": "partial",
   "theorems": [
    "Verif.Form.C93_scalars",
    "Verif.Form.C93_checked",
    "Verif.Form.C93_unchecked_partial",
    "Verif.Form.C93_v248_partial",
    "Verif.Form.C93_anycast_lost",
    "Verif.Form.C93_var_lost",
    "Verif.Form.C93_fields",
    "Verif.Form.C93_twice",
    "Verif.Form.C93_cells",
    "Verif.Form.C93_lazy",
    "Verif.Form.C93_dict",
    "Verif.Form.C93_dict_bytes",
    "Verif.Form.C93_dict_read",
    "Verif.Form.C93_order_matters",
    "Verif.Form.C93_keys",
    "Verif.Form.C93_config",
    "Verif.Form.C93_message",
    "Verif.Form.C93_in_msg",
    "Verif.Form.C93_exotic_body_refused",
    "Verif.Form.C93_vset",
    "Verif.Form.C93_vset_read",
    "Verif.Form.C93_vset_valid",
    "Verif.Form.C93_main_unchecked",
    "Verif.Form.C93_containers",
    "Verif.Form.C93_containers_read",
    "Verif.Form.C93_nested_option"
   ],
   "note": "False of the code in the cases with witnesses: addresses with anycast and of variable length, 248-bit integers as text from 2^128+4 to 10^64 (C54), exotic bodies, an option directly in an option of cells; numbers and external addresses of other formats are not checked; without room for the longest labels it depends on the order of the hash map whether a dictionary is read (C93_order_matters). Everything else is proved for all values: cells up to collisions of the hash function, dictionaries in canonical form with room for the longest label. Formats are taken for faithful carriers of the data model of serde (maps with numeric keys included); which error is returned is not modelled."
  },
  {
   "property": "C94",
   "status": "partial",
   "theorems": [
    "Verif.SzTy.C94_exact",
    "Verif.SzTy.C94_fits",
    "Verif.SzTy.C94_builds",
    "Verif.SzTy.C94_too_large",
    "Verif.SzTy.C94_headers",
    "Verif.C94_sequence",
    "Verif.C94_arithmetic",
    "Verif.C94_stats",
    "Verif.C94_stats_sizes",
    "Verif.C94_parts",
    "Verif.C94_parts_wrong",
    "Verif.C94_wraps"
   ],
   "note": "Proved for all types, values and builders. False of the code in four cases: headers of internal messages take one bit more than announced (C94_headers says exactly so), a release build announces sums modulo 2^16 (C94_wraps), integers beyond their range are announced as nothing and then refused (C94_too_large), a range beyond its cell is announced in full (C94_parts_wrong)."
  },
  {
   "property": "C95",
   "status": "partial",
   "theorems": [
    "Verif.Abi.C95_read",
    "Verif.Abi.C95_accepts",
    "Verif.Abi.C95_id_text",
    "Verif.Abi.C95_id_round",
    "Verif.Abi.C95_calls_partial",
    "Verif.Abi.C95_answers_partial",
    "Verif.Abi.C95_events_partial",
    "Verif.Abi.C95_functions_differ",
    "Verif.Abi.C95_events_differ",
    "Verif.Abi.C95_builders",
    "Verif.Abi.C95_names_ignored",
    "Verif.Abi.C95_unnamed",
    "Verif.Abi.C95_flatten",
    "Verif.Abi.C95_overloads_lost"
   ],
   "note": "The encoded arguments must meet the conditions of C74 and C75, and ids must differ. Of functions with one name (overloads) only the last is kept: C95_overloads_lost."
  },
  {
   "property": "C96",
   "status": "partial",
   "theorems": [
    "Verif.CellText.C96_preorder",
    "Verif.CellText.C96_determines",
    "Verif.CellText.C96_prefix_free",
    "Verif.CellText.C96_same_text",
    "Verif.CellText.C96_root",
    "Verif.CellText.C96_short_partial",
    "Verif.CellText.C96_short_ambiguous"
   ],
   "note": "proved: order, termination, full text determines the tree and the other way round, no text begins another one, what the text of a root tells. Part that fails: the short form does not determine the tree (C96_short_ambiguous is a pair of cells); C96_short_partial is what it does determine. Bound of the loop in the model: the number of paths, with a proof that it is not reached"
  },
  {
   "property": "C97",
   "status": "proved",
   "theorems": [
    "Verif.Boc.C97_history",
    "Verif.Boc.C97_clear",
    "Verif.Boc.C97_cache",
    "Verif.Boc.C97_stream",
    "Verif.Boc.C97_stream_ends",
    "Verif.Boc.C97_torn",
    "Verif.Boc.C97_torn_cell"
   ],
   "note": "counters are natural numbers (C16 and the bounds of C15 say when they fit); write_all of the standard library is modelled by its documented loop. The rejection of torn bags is up to collisions of the hash function inside of the bag, as in C15"
  },
  {
   "property": "C98",
   "status": "partial",
   "theorems": [
    "Verif.Compare.C98_data_equal",
    "Verif.Compare.C98_data_order",
    "Verif.Compare.C98_builder_equal",
    "Verif.Compare.C98_builder_order",
    "Verif.Compare.C98_builder_neither",
    "Verif.Compare.C98_order_agrees_partial",
    "Verif.Compare.C98_order_disagrees",
    "Verif.Compare.C98_type_hash",
    "Verif.Compare.C98_value_equal",
    "Verif.Compare.C98_value_equivalence",
    "Verif.Compare.C98_value_type",
    "Verif.Compare.C98_value_cell",
    "Verif.Compare.C98_read",
    "Verif.Compare.C98_map_equal"
   ],
   "note": "The order of cell builders ignores the exotic flag, so two builders that are not equal can be level (C98_order_disagrees). Everything else is proved for all inputs."
  },
  {
   "property": "C99",
   "status": "proved",
   "theorems": [
    "Verif.Arb.C99_cell",
    "Verif.Arb.C99_builder",
    "Verif.Arb.C99_fuel",
    "Verif.Arb.C99_ordinary",
    "Verif.Arb.C99_all_ordinary",
    "Verif.Arb.C99_max_depth",
    "Verif.Arb.C99_int_addr",
    "Verif.Arb.C99_ext_addr",
    "Verif.Arb.C99_amounts",
    "Verif.Arb.C99_coins",
    "Verif.Arb.C99_currency",
    "Verif.Arb.C99_actions",
    "Verif.Arb.C99_action_range",
    "Verif.Arb.C99_deep_cells"
   ],
   "note": "C99_deep_cells is a finding: `Cell::arbitrary` gives cells no ordinary cell can refer to, and `ShardAccount::arbitrary` unwraps the result of storing an account around such a cell (code or data of its state), so that generator can panic. Addresses are generated with rewrite prefixes of 1 to 30 bits, although 31 can be read and stored. The generators of other models (messages, accounts, blocks) are not modelled; for output actions the generator of the message is a parameter. C99_action_range includes a finding: library modes of 128 and above come out, which do not survive being stored."
  },
  {
   "property": "C83",
   "status": "partial",
   "theorems": [
    "Verif.Merkle.C83_enough",
    "Verif.Merkle.C83_exact_partial",
    "Verif.Merkle.C83_same",
    "Verif.Merkle.C83_lost"
   ],
   "note": "That nothing leaks (the counters are never too small) is proved for all plain trees, up to hash collisions. That they are exact is false of the code when a removed cell refers to a cell inside a part that the update prunes as reused (C83_lost: a cell of the new tree loses its last reference); C83_exact_partial has the full claim for all other pairs. Trees of level 0 without Merkle cells; counters are not bounded by u32."
  },
  {
   "property": "C84",
   "status": "partial",
   "theorems": [
    "Verif.Merkle.Par.C84_proof_partial",
    "Verif.Merkle.Par.C84_ends",
    "Verif.Merkle.Par.C84_no_wait_partial",
    "Verif.Merkle.Par.C84_update_partial",
    "Verif.Merkle.Par.C84_changed",
    "Verif.Merkle.Par.C84_race",
    "Verif.Merkle.Par.C84_update_differs",
    "Verif.Merkle.Par.C84_exponential"
   ],
   "note": "Agreement is proved for all trees, filters, split points and interleavings, up to hash collisions, when no included cell occurs at two Merkle depths and, for updates, when subtrees included as a whole contain no skipped cells. It is false of the code otherwise: C84_race (the result depends on the schedule) and C84_update_differs (the update depends on the split points). That every build ends holds without conditions, but the work at the end can be exponential (C84_exponential). The maps of the crate scc are taken to be linearizable and rayon scopes to wait for all tasks."
  }
 ]
}