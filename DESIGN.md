# Formal model of everscale-types: design

The model is a Lean 4 development in `lean/Verif`. It mirrors the Rust code in
`/repo/src` function by function as total computable functions, and the
properties of `properties.jsonl` are theorems about those functions.

## Trusted base

* Lean 4.33.0's kernel. Mathlib modules are used only as already checked lemmas.
* Axioms: every property theorem depends on at most `propext`, `Classical.choice`, `Quot.sound`
  (Lean's standard three). There is no added axiom, no `sorry`/`admit`, no `native_decide`/`bv_decide`,
  no `implemented_by`/`unsafe`. `decide +kernel` is used only for closed terms (witnesses, finite tables).
* The hand translation from Rust to Lean. Every definition of the model cites the file and lines it models
  and says what it simplifies. This is the part a reader has to check by eye; `seeded/LOG.jsonl`
  records how sensitive the theorems are to errors in it (realistic wrong programs and the theorems
  that fail on them). There `broken_at` are the places where the build reports an error, and
  `theorems_failed` the property theorems among them or whose proofs rest on them; the latter are found from
  the dependencies of the unedited model, as the files after a broken one are not built.
* SHA-256 is not modelled: it is a parameter `H : Hasher` (a function from byte strings to 32-byte strings).
  Where a property needs collision resistance, the theorem says "either the conclusion
  holds or here are two different representations, of cells at hand, with the same hash" (`Collision`, `Clash`).
  Global injectivity is never assumed (it would be false). Concrete witnesses use `toyHasher`.

## Conventions of the model

* A function that mutates through `&mut` returns the new value; a failing one returns the value it leaves behind
  too, so that "errors change nothing" is a statement, not an assumption.
* `Result`/`Option` stay data (`Except Err`, `Option`). Panics, overflow checks of debug builds and
  out-of-range indexing are explicit outcomes (`Err.panic`), never silently totalised.
* Machine integers are `Nat`/`Int` with explicit reduction or `BitVec`/`UInt8`; the reduction is stated
  where the code relies on it.
* Loops become structural recursion (or recursion on an explicit fuel that is proved sufficient).
* Traits (`Load`, `Store`, `AugDictExtra`, `CellContext`, filters) become parameters; a law demanded of the parameter is a
  named structure, and the implementations in the crate are proved to satisfy it.

## Layers and files

| layer | files (lean/Verif) | code modelled |
|---|---|---|
| bits | `Basic`, `Mem`, `Builder*`, `CellBuilder*` | `cell/builder.rs`: byte-level store operations, rewind, prepend, references, finalisation |
| slices | `Slice*` | `cell/slice.rs`: windows, loads, gets, prefixes, comparison, uniformity scans (word-level) |
| cells | `Level*`, `Cell`, `CellLemmas*`, `CellProps`, `CellInj`, `Pruned*`, `Virtual*` | `cell/mod.rs`, `cell/builder.rs` (`CellParts::compute_hashes`), `cell/cell_impl`, `merkle/pruned_branch.rs` |
| codecs | `Codec`, `CodecPrims`, `CodecRel` | the `Load`/`Store` traits and combinators for derived implementations |
| numbers | `Num*`, `V248*` | `num/mod.rs`, `num/varuint248.rs` |
| dictionaries | `Dict`, `DictLabel`, `DictTrie`, `DictLemmas`, `DictProps`, `DictFind*`, `DictIter*`, `DictOrder`, `DictUnionProps`, `DictValuesLemmas`, `DictSplit*`, `DictMergeProps`, `DictBuild*`, `DictPieces`, `DictMod*`, `DictDefault` | `dict/mod.rs`, `dict/ops/*.rs`, `dict/raw.rs` |
| augmented | `DictAug*` | `dict/aug.rs`, the `AugDictExtra` implementations |
| typed | `TypedDict*`, `DictKeys` | `dict/typed.rs`, the `DictKey` implementations |
| currencies | `Currency*` | `models/currency.rs` |
| bags of cells | `BocSer*`, `BocDe*`, `BocProps`, `BocRound*` | `boc/ser.rs`, `boc/de.rs`, `boc/mod.rs` |
| Merkle | `Merkle*`, `Usage*` | `merkle/*.rs`, `cell/usage_tree.rs` |
| statistics | `StorageStat` | `cell/mod.rs` (`StorageStat`) |
| identifiers | `Shard*`, `Addr`, `AddrText` | `models/block/block_id.rs`, `models/message/address.rs` |
| texts | `Text*`, `BitText`, `V248Text`, `Crc` | `util.rs`, `crc.rs`, `FromStr`/`Display` implementations |
| Computations repeated on proofs | UsageReplay | `cell/usage_tree.rs`, `merkle/proof.rs` together; no new code |
| Random balances and actions | ArbitraryMoney, ArbitraryActions | the `Arbitrary` implementations of `num`, `models/currency.rs`, `models/vm/out_actions.rs`, `SimpleBalance` |
| Typed iterators | TypedUnion | `dict/typed.rs:1095-1292`: `UnionIter`, `Keys`, `Values` |
| Shards of one workchain | ShardTreeGet | `models/block/shard_hashes.rs:84-98`, `742-795` |
| Containers of cells for serde | FormsBox | `boc/serde.rs:21-321`: `SerdeBoc` of pointers, options, vectors, arrays and maps nested to any depth; the capacity reserved for a hash map is not modelled |
| random cells | Arbitrary, ArbitraryLemmas, ArbitraryComplete, ArbitraryProps, ArbitraryAddr | `arbitrary.rs`, `cell/builder.rs`, `merkle/proof.rs`, `merkle/update.rs`, `models/message/address.rs` (`Arbitrary`) |
| comparisons | Compare, AbiSame, AbiSameRead, CompareProps | `cell/builder.rs:186-228, 717-741`, `abi/mod.rs:86-175`, `abi/ty.rs:183-195, 699-766`, `abi/value/mod.rs:106-116, 439-490` |
| writers used again, streams | `BocReuse`, `BocReuseProps` | `boc/ser.rs` with its counter `cell_count`, caches, targets, `encode_to_writer` into failing streams |
| printed cells | `CellText`, `CellTextProps` | `cell/mod.rs` `DisplayCellRoot`, `DisplayCellTree` |
| descriptions of contracts | AbiDescr, AbiDescrLemmas, AbiDescrProps | `abi/contract.rs` (deserializer, ids, builders), `abi/ty.rs` (flatten, from_index) |
| announced sizes | ExactSize, ExactSizeLemmas, ExactSizeProps | `ExactSize` for all types, `Size`, `CellTreeStats` |
| Forms for serde | Forms, FormsLemmas, FormsDict, FormsMore, FormsProps | the hand-written and derived `Serialize`/`Deserialize` of `dict/typed.rs:960-1012`, `models/message/*`, `models/account/mod.rs`, `models/block/block_id.rs`, `models/config/mod.rs:799-905`, `models/config/params.rs:1334-1396`, `models/transaction/mod.rs:82-173`, `models/currency.rs`, `num/*`, `cell/lazy.rs:215-268`, `cell/mod.rs:891-963`, over values of the data model of serde |
| Vectors on the stack | ArrayVec, ArrayVecProps | `util.rs:156-321` `ArrayVec`, `ArrayVecIntoIter`; memory as slots that may be unwritten, items with identities |
| values as BOCs, text, serde | `BocRepr`, `BocReprProps` | `boc/mod.rs` `BocRepr`, hex and base64; `boc/ser.rs` `encode_rayon`; `boc/serde.rs` |
| iterators over children | RefsIter, RefsIterProps | `cell/mod.rs` `RefsIter`, `ClonedRefsIter` |
| Calls as messages | AbiCall, AbiCallProps | `abi/contract.rs:426-548, 626-820, 1071-1221`, `abi/signature.rs`; the clock and the signing are parameters |
| Blocks of tycho | TychoBlock, TychoBlockProps | `models/block/mod.rs:29-173`, `240-560`, `714-725`, `models/block/block_proof.rs`, `models/block/shard_hashes.rs:425-593` with the feature `tycho` |
| Derived codecs | Derive, DeriveLemmas, DeriveProps | `proc/src/**` (the generated code as a function of the struct and its attributes) |
| Parameters of tycho | TychoParams, TychoParamsProps | `models/config/params.rs:641-975`, `models/shard/mod.rs:395-570`, `models/block/mod.rs:712-724` |
| TL-B schemes | Tlb, Account, AccountProps | combinators for `Store`/`Load` pairs with a grammar; `models/account/mod.rs` |
| Messages | Message, MessageLemmas, MessageProps | `models/message/mod.rs` |
| Transactions | TlbMore, Transaction, TransactionProps | `proc/src/derive_*.rs` (tags, validation), `models/transaction/*.rs` |
| Envelopes | Envelope, EnvelopeProps, EnvelopeAccess, EnvelopeHop | `models/message/{envelope,in_message,out_message}.rs` |
| Actions | OutActions, OutActionsProps | `models/vm/out_actions.rs` |
| Fees | Fees, FeesProps | `models/config/params.rs`: fee formulas, address lengths |
| Validator subsets | VsetSubset, VsetLemmas, VsetProps | `models/config/params.rs`: `ValidatorSet::compute_*`, `ValidatorSetPRNG` |
| Configuration parameters | ConfigParams, ConfigParamsProps | `models/config/params.rs`: the parameters of a fixed layout |
| Validator sets | VsetCodec, VsetCodecLemmas, VsetCodecProps | `models/config/params.rs` (`ValidatorSet`, `ValidatorDescription`), `dict/mod.rs` (`load_from_root_ext`) |
| Roots of dictionaries with sums in place | AugRoot, AugRootProps | dict/aug.rs (load_from_root_ext), models/block/block_extra.rs (AccountBlock) |
| Shard states | ShardState, ShardStateProps | models/shard/mod.rs, shard_extra.rs (with and without `tycho`; the lazily initialised empty values are not modelled) |
| Configuration | ConfigDict, ConfigDictProps | models/config/mod.rs |
| ABI values | Abi, AbiStream, AbiPack, AbiLeaf, AbiGood, AbiValue, AbiRound, AbiProps, AbiUtf8, AbiRoom, AbiSucceeds, AbiTotal | `abi/value/ser.rs`, `abi/value/de.rs`, `abi/value/mod.rs`, `abi/ty.rs` (types and sizes) |
| Message bodies of contracts | AbiContract, AbiContractLemmas, AbiContractProps | `abi/contract.rs` (functions, events, external inputs, signatures), `abi/value/ser.rs` and `de.rs` (headers), `abi/value/mod.rs` (`has_type`) |
| Names of ABI types | AbiText, AbiTextLemmas, AbiTextFull, AbiTextProps | abi/ty.rs (from_simple_str, Display, descriptions, WithoutName), signatures in abi/contract.rs, AbiVersion |
| Initial data and storage fields | AbiInit, AbiInitLemmas, AbiInitProps | abi/contract.rs (init data, fields, lookup by id), make_default_value in abi/value/mod.rs |
| Global capabilities | Caps, CapsLemmas, CapsProps | `models/global_version.rs` |
| Signatures of blocks | BlockSigs, BlockSigsProps | `models/block/block_extra.rs`, `abi/signature.rs` |
| Conversions to ABI values | AbiConv, AbiConvLemmas, AbiConvBack, AbiConvProps | `abi/traits.rs`, `abi-proc/src` |
| Search by extras | AugFind, AugFindProps | `dict/ops/find.rs` 336–463, `SearchByExtra` in `dict/mod.rs`, `AugDict::find_by_extra` |
| Release of cells | CellDrop, CellDropLemmas, CellDropLoops, CellDropProps | `cell/cell_impl/mod.rs` destructor of ordinary cells, with the counts of `Rc` (single-threaded) |
| Release of cells by several threads, weak handles | CellDropPar, CellDropParLemmas, CellDropParSteps, CellDropParProps | `cell/cell_impl/mod.rs` destructor of ordinary cells as a small-step machine, with the counts of `Arc` (`cell_impl/sync.rs`); ends in any interleaving |
| Counters of removed cells | MerkleRemoved, MerkleRemovedProps | `merkle/update.rs` `compute_removed_cells`, against a store with reference counters |
| Multithreaded Merkle builders | MerklePar, MerkleParLemmas, MerkleParSteps, MerkleParProps, MerkleParUpdate, MerkleParUpdateProps | `merkle/proof.rs` and `merkle/update.rs` under the feature `rayon`, `merkle/promise.rs` |
| Big integers | BigNum, BigNumProps | `cell/builder.rs:1153-1301`, `cell/slice.rs:1564-1635`, `util.rs:12-60` |
| Blocks | TlbDep, Block, BlockProps | models/block/mod.rs, block_extra.rs (without AccountBlock), block_proof.rs (without check_signatures), global_version.rs (GlobalVersion), models/config/mod.rs (BlockchainConfig as a value) |
| Shards | ShardDescr, ShardTree, ShardTreeIter, ShardTreeBuild, ShardTreeLemmas, ShardTreeProps | `models/block/shard_hashes.rs` |

Each topic has a model part, helper lemmas and a `...Props` part (its own file or its own section)
with the property theorems `Cnn_...`, each with a non-vacuity `example` beside it.

## What is not modelled

* Memory layout (`cell_impl/rc.rs`, `cell_impl/sync.rs` pointers and vtables) and `Send`/`Sync`: cells are values. Reference
  counting is modelled for the release of cells only (C82, C85), with atomic counts in one total order.
* SHA-256 itself; gas accounting of `CellContext` beyond "may refuse a cell" (`acc : Cell -> Bool` for dictionaries).
* The crates `rayon` and `scc`: a scope is taken to wait for all its tasks, the concurrent maps to be linearizable (C84).
* `serde` implementations other than those of C91 and C93; the formats themselves (a format is taken for a faithful carrier of the data model; that a JSON reader cannot turn the text of a key back into a number inside of a buffered tagged enum is not modelled), and which error they return.
* `arbitrary.rs`, the token streams of `proc/**` (the generated code is modelled, C86), `Debug` output other than that inside of printed cells (C96).
* the JSON syntax of ABI descriptions (serde): descriptions of contracts are modelled from the deserialized fields on (C95).

## The properties: model, statement, method

Status as in `MANIFEST.json`. `partial` means that a part is not proved, or that the code itself
violates the property; in the second case the violation is a theorem (a concrete witness) and is listed
under *Findings*.

### C01 Builder appends exactly the stored bits — proved

*Model and method.* The builder is 128 bytes and a bit length with the exact byte-level algorithms of `store_raw`, `store_uN`, ...; specification: append to a `List Bool`. Refinement by bit-index arithmetic, histories by induction over the list of operations.

*Scope.* byte-level builder refined to bit lists; every store op, histories, slices, builders and references; width bounds as in the quantifier, C51 has the rest

*Theorems* (BuilderProps.lean, SliceProps.lean): `DataBuilder.C01_store`, `DataBuilder.C01_store_history`, `DataBuilder.C01_store_from_new`, `C01_cell_store`

### C02 Load after store returns the stored value — proved

*Model and method.* Store programs over builders, the mirrored load program over the slice of the finished cell; specification: the list of stored values. Induction over the program.

*Scope.* any store program read back by the mirrored loads over the finished cell

*Theorems* (SliceProps.lean): `C02_load_after_store`

### C03 Slice reads never leave their window — proved

*Model and method.* Slices are a cell and a window; every read refines taking a prefix of the bit list of the window. Histories by induction.

*Scope.* get_raw with a non-zero offset is C05

*Theorems* (SliceProps.lean): `C03_read`, `C03_read_history`, `C03_split`, `C03_get`, `C03_get_reference`, `C03_get_prefix`

### C04 Lexicographic comparison, common prefix and uniformity on slices — proved

*Model and method.* The word-at-a-time scans of `lex_cmp`, `longest_common_data_prefix`, `test_uniform`, `count_leading/trailing` refined to functions on bit lists.

*Theorems* (SliceProps.lean): `C04_lex_cmp`, `C04_longest_common_prefix`, `C04_strip_prefix`, `C04_is_prefix_suffix`, `C04_test_uniform`, `C04_count`

### C05 get_raw(offset, ..) only reads inside the slice window — partial

*Model and method.* Same slice model; negation by two concrete witnesses, partial theorem for requests inside the window.

*Scope.* the code violates the property (two witnesses); the partial theorem has the part that holds

*Theorems* (SliceProps.lean): `C05_get_raw_partial`, `C05_get_raw_leaves_window`, `C05_get_raw_reads_out_of_bounds`

### C06 Prepend and rewind are exact — proved

*Model and method.* Same builder model; prepend is append on the left, rewind drops the last bits.

*Theorems* (BuilderProps.lean): `DataBuilder.C06_prepend_raw`, `DataBuilder.C06_rewind`, `DataBuilder.C06_store_rewind`

### C07 Cell descriptor bytes are an exact codec — proved

*Model and method.* Finite domain: decided by the kernel over all bytes, lifted by a lemma.

*Theorems* (LevelProps.lean): `C07_d1`, `C07_d2`, `C07_injective`, `C07_virtualize`

### C08 Level mask algebra — proved

*Model and method.* Finite domain of eight masks, decided by the kernel; specification: sets of levels.

*Theorems* (LevelProps.lean): `C08_mask`, `C08_slots`, `C08_iter`, `C08_from_level_vs_cut`

### C09 Completed cell data determines the bit string — proved

*Model and method.* Completion-tag codec on lists of bits and bytes; induction.

*Theorems* (LevelProps.lean): `C09_decode`, `C09_unique`

### C10 Only well-formed cells can be built — proved

*Model and method.* `CCell` is the tree with its stored descriptor, hashes and depths; `finalize` is modelled with all checks; specification: well-formedness of the plain tree. Both directions; histories of builds.

*Scope.* C10_library, C10_library_only: library cells can be made for every hash without a panic, and all library cells have that form.

*Theorems* (CellProps.lean, LibraryCell.lean): `C10_build`, `C10_invariant`, `C10_hash_slots`, `C10_library`, `C10_library_only`

### C11 Cell hashes and depths follow the TVM definition — proved

*Model and method.* The `compute_hashes` loop against a separate recursive definition of representation hash and depth per level; induction over trees.

*Theorems* (CellProps.lean): `C11_hash_depth`, `C11_content_only`

### C12 Equal hash implies equal content — proved

*Model and method.* Injectivity of the representation encoding, structural induction; collision as a disjunct.

*Scope.* for all well-formed trees, pruned branches and Merkle cells included

*Theorems* (CellInj.lean): `C12_repr_hash`, `C12_cells`

### C13 A pruned branch stands in for the cell it replaces — proved

*Model and method.* `make_pruned_branch` computed for every mask and Merkle depth; ancestors by induction over the context.

*Theorems* (PrunedProps.lean): `C13_make_pruned`, `C13_ancestors`

### C14 Virtualized cells present the hash of what they stand for — partial

*Model and method.* `virtualize` and the level lookups of `VirtualCellWrapper`; all masks by kernel computation, bodies of proofs by induction.

*Scope.* violated by the code for level mask 0b101 and for descendants in trees with several levels (two witnesses); proved: the level formula for every other mask, and full agreement with the original tree for proof bodies over level-0 trees

*Theorems* (VirtualProps.lean): `C14_hash_partial`, `C14_proof_body_partial`, `C14_repeat_partial`, `C14_boxed_repeat`, `C14_mask_five`, `C14_descendants`

### C15 BOC round trip — proved

*Model and method.* Encoder and decoder on byte lists; invariant of the table of cells built from the reversed order.

*Scope.* up to an explicit hash collision below the root; the decoded root is equal in every part; strict prefixes are rejected, bytes after the bag are ignored

*Theorems* (BocProps.lean): `Boc.C15_roundtrip`, `Boc.C15_encode`, `Boc.C15_bytes`, `Boc.C15_builder`

### C16 BOC decoding of arbitrary bytes is safe — proved

*Model and method.* Every index or slice of the decoder that could be out of bounds is an explicit panic outcome, shown unreachable; every returned cell is well formed.

*Theorems* (BocDeProps.lean): `Boc.C16_safe`, `Boc.C16_cells`, `Boc.C16_decode`

### C17 BOC cell order is topological and deduplicated — proved

*Model and method.* The two-stack DFS of `boc/ser.rs`; invariant over its steps.

*Scope.* up to an explicit hash collision

*Theorems* (BocProps.lean): `Boc.C17_order`, `Boc.C17_deep`

### C18 BOC size statistics are exact — partial

*Model and method.* Statistics and the chunks written by `encode_to_writer` compared with the encoded bytes.

*Scope.* exact for every program that sets without_hashes before adding roots; violated when it is set later (witness); the debug assertion of encode_to_writer fails with a checksum

*Theorems* (BocProps.lean): `Boc.C18_stats_partial`, `Boc.C18_chunks`, `Boc.C18_chunks_assert`, `Boc.C18_late`

### C19 BOC with stored hashes round-trips — proved

*Model and method.* As C15 with the stored-hashes flag.

*Scope.* the case of without_hashes set after the roots is the witness Verif.Boc.C18_late

*Theorems* (BocProps.lean): `Boc.C19_roundtrip`, `Boc.C19_ignored`

### C20 Multi-root BOC — partial

*Model and method.* As C15 for lists of roots.

*Scope.* violated for repeated roots when there are more roots than distinct cells (witness: encode_pair of a leaf with itself cannot be decoded); proved for all other root lists

*Theorems* (BocProps.lean): `Boc.C20_roundtrip_partial`, `Boc.C20_exact_partial`, `Boc.C20_pair`, `Boc.C20_duplicate_roots`

### C21 Dictionary edge labels: codec and minimality — proved

*Model and method.* Three label forms, exact codec; minimality by arithmetic over all forms.

*Scope.* read-back holds for every legal encoding, not only the shortest one; Verif.C21_read_overlong records that the reader does not check the label length against the key

*Theorems* (DictProps.lean): `C21_write`, `C21_round_trip`, `C21_read_any`, `C21_minimal`, `C21_parts`, `C21_read_overlong`

### C22 Dictionary operations behave as a finite map — proved

*Model and method.* Relation `RepresentsC` between dictionary cells and finite maps; each operation preserves it; histories by induction. Any legal encoding (not just the canonical one) for lookups.

*Scope.* histories of get/set/replace/add/remove over raw dictionaries with any key length up to 1023

*Theorems* (DictProps.lean): `C22_step`, `C22_history`, `C22_empty`, `C22_no_errors`, `C22_any_encoding`

### C23 Dictionary cells are canonical — proved

*Model and method.* The canonical trie is a function of the map, cells are a function of the trie.

*Theorems* (DictProps.lean): `C23_canonical`, `C23_histories`, `C23_insert_remove`

### C24 Dictionary iteration is complete and sorted — proved

*Model and method.* The iterator state machine (stack of segments) against the sorted list of entries.

*Theorems* (DictIterProps.lean): `C24_iter`, `C24_listing_unique`, `C24_reversed`, `C24_keys`, `C24_owned`, `C24_error_ends`, `C24_exotic`

### C25 Min/max lookup and removal — proved

*Model and method.* Descent to the extreme leaf against the extreme key of the map.

*Theorems* (DictFindProps.lean): `C25_find_bound`, `C25_remove_bound`

### C26 Neighbour lookup — proved

*Model and method.* The backtracking search against the nearest key of the map, signed and unsigned.

*Theorems* (DictFindProps.lean): `C26_neighbour`, `C26_unique`, `C26_wrong_length`

### C27 Bulk build equals repeated insertion — proved

*Model and method.* The stack-based builder with its merge steps; invariant: the stack represents the entries consumed so far.

*Scope.* For keys whose order is the order of their bits (unsigned integers, hashes). For signed key types the property is false; C27_signed_wrong is the witness (the code has a TODO for it).

*Theorems* (DictBuildProps.lean): `C27_build`, `C27_unsorted`, `C27_insertions`, `C27_get`, `C27_signed_wrong`

### C28 Bulk modification equals sequential modification — proved

*Model and method.* The cursor-based modification: an invariant relating the stack of opened edges and finished pieces to the map modified so far.

*Scope.* For every canonical dictionary (plain or augmented) and every strictly ascending list of modifications, bulk modification gives the canonical dictionary of the modified map, or fails leaving the dictionary as it was exactly if no such dictionary exists. If the single set and remove operations succeed one after the other, bulk modification succeeds with the identical cell. Lists with repeated keys: the first modification counts on non-empty dictionaries (differs from sequential application, witness C28_repeated_differs); on an empty dictionary removals are filtered out first (C28_empty_differs). Lists out of order are refused. The order of the keys is that of their bits; errors of the value callback are not modelled.

*Theorems* (DictModProps.lean): `C28_modify`, `C28_sequential`, `C28_same_map`, `C28_repeated`, `C28_unsorted`, `C28_repeated_differs`, `C28_empty_differs`

### C29 Split and merge by key bit — proved

*Model and method.* Split and merge by prefix over tries.

*Theorems* (DictSplitProps.lean): `C29_split`, `C29_split_refused`, `C29_merge`, `C29_merge_empty`, `C29_round_trip`, `C29_split_raw`

### C30 Sub-dictionary extraction — partial

*Model and method.* Witnesses against the natural statement, partial theorem for trivial prefixes.

*Scope.* violated by the code: labels are read with the wrong width; two witnesses; only the trivial prefixes hold

*Theorems* (DictSplitProps.lean): `C30_trivial_partial`, `C30_wrong`, `C30_absent_wrong`

### C31 Dictionary merge — partial

*Model and method.* Witnesses, and the exact result when the check on root lengths passes.

*Scope.* violated by the code: a check on root bit lengths refuses valid merges; a failing merge leaves part of the entries; malformed right sides are silently accepted (witnesses). Holds as stated once the check passes.

*Theorems* (DictMergeProps.lean): `C31_merge_partial`, `C31_merge_empty`, `C31_refused_wrong`, `C31_not_atomic`, `C31_bad_right_accepted`

### C32 Value iterators follow key order — partial

*Model and method.* As C24 for the value iterators; witnesses.

*Scope.* violated by the code: signed value iteration is in the wrong order when all keys share the first bit, reversed owned value iteration returns the cell of another value (witnesses); proved: unsigned iteration in both directions, signed iteration when the root label is empty, ascending owned iteration

*Theorems* (DictIterProps.lean): `C32_values_unsigned_partial`, `C32_values_signed_partial`, `C32_owned_partial`, `C32_signed_order_wrong`, `C32_reversed_owned_wrong`

### C33 Augmented dictionary root extra is the fold of the leaves — proved

*Model and method.* Augmented tries: extras at every edge; lawful extra types (`Good`); invariant over operation histories.

*Scope.* For every extra type whose comparator computes a function of the leading extras (C33_fold: associative), and for the five extra types of the crate (instances proved lawful). find_by_extra is C81.

*Theorems* (DictAugProps.lean, DictAugBulk.lean, DictAugModify.lean, DictAugTypes.lean): `C33_step`, `C33_history`, `C33_new`, `C33_fold`, `C33_build`, `C33_split`, `C33_merge`, `C33_modify`, `C33_currency`, `C33_currency_history`, `C33_shard_fees`, `C33_import_fees`, `C33_depth_balance`, `C33_key_max_lt`

### C34 Failing dictionary operations change nothing — partial

*Model and method.* Operations return the dictionary they leave behind, also on errors.

*Scope.* Proved on arbitrary cells for get, insert, remove, remove bound, batch modification, plain and augmented, and the typed reads, insertions and raw removals. The code violates it in three places, each with a witness: a typed remove of an unreadable value, a removal from an augmented dictionary that leaves an unreadable root extra, and a merge that stops half-way; the _partial theorems say exactly when the typed and augmented methods fail with a change.

*Theorems* (DictProps.lean, DictFindProps.lean, DictAtomicProps.lean, DictMergeProps.lean, TypedDictMore.lean): `C34_basic`, `C34_remove_bound`, `C34_aug_insert`, `C34_aug_remove`, `C34_modify`, `C34_typed`, `C34_typed_remove_partial`, `C34_typed_bound_partial`, `C34_aug_dict_partial`, `C34_aug_modify_partial`, `C34_aug_not_atomic`, `C31_not_atomic`, `C57_remove_unreadable`

### C35 Union iteration merges — proved

*Model and method.* Merge of two sorted listings.

*Theorems* (DictUnionProps.lean): `C35_union`, `C35_error_ends`

### C36 Merkle proofs preserve hashes — partial

*Model and method.* Proof builder as recursion over trees with a hash-keyed map; specification: the tree with the excluded subtrees pruned.

*Scope.* Proved for every tree, filter and hasher (up to hash collisions inside the tree) when no included cell occurs at two Merkle depths; C36_reused_cell shows that the code breaks the property otherwise, C36_root_level that proofs of roots of non-zero level cannot be loaded. The multithreaded builders are in C84.

*Theorems* (MerkleProps.lean, MerkleCodec.lean): `Merkle.C36_build`, `Merkle.C36_empty`, `Merkle.C36_level0`, `Merkle.C36_plain`, `Merkle.C36_view`, `Merkle.C36_for_absent_cell`, `Merkle.C36_for_cell`, `Merkle.C36_load`, `Merkle.C36_store`, `Merkle.C36_reused_cell`, `Merkle.C36_root_level`

### C37 Merkle update reconstructs the new state — partial

*Model and method.* Update creation (two proof builders, the set of reusable hashes) and application; specification: the pair of trees.

*Scope.* For all pairs of trees of level 0 without Merkle cells, all filters whose included subtrees have no skipped cells: the update is always created, names the right hashes and depths, can be stored and loaded, and applying it gives exactly the new tree when every reused cell is reached in the old tree through known cells, otherwise InvalidData (both directions). Up to hash collisions. Missing: trees that contain Merkle cells or have a level. The unrestricted claim is false: C37_forgotten (skipped cell met before an included subtree) and C37_level_gap (level mask with a gap inside two Merkle proofs) are concrete updates that are created but cannot be applied.

*Theorems* (MerkleUpdate.lean, UsageProps.lean, MerkleUpdateProps.lean): `Merkle.C37_update`, `Usage.C37_usage`, `Usage.C37_data_access`, `Merkle.C37_visited`, `Merkle.C37_stored`, `Merkle.C37_forgotten`, `Merkle.C37_level_gap`

### C38 Merkle update application is sound — proved

*Model and method.* Application over arbitrary well-formed updates.

*Scope.* For every update with well-formed cells, of whatever origin: a successful application means the old tree has the named hash and the result is a well-formed cell with the named hash, hence the only such tree up to collisions. Loading is characterised exactly. C38_deep_panic: a pruned branch below eight Merkle proofs makes applying panic.

*Theorems* (MerkleUpdate.lean, MerkleCodec.lean, MerkleUpdateProps.lean): `Merkle.C38_apply`, `Merkle.C38_other_old`, `Merkle.C38_load`, `Merkle.C38_store`, `Merkle.C38_deep_panic`

### C39 Usage tree tracks exactly the visited cells — partial

*Model and method.* Usage tree as a state machine over access histories; specification: the list of loaded cells. The recursive touch is the list of calls it makes, appended to any history; induction over the touched tree. Repeating a computation on the proof: an invariant over the history relates each cell held to the cell of the proof that stands for it. For threads: a machine with one step per atomic operation (flag, Once, concurrent set) and an arbitrary list of calls and steps as schedule; an invariant relates it to the plain machine run in the order of the returns; a rank of the places shows that all operations can be brought to their end.

*Scope.* For every history of tracking, loading references, reading data, untracking and dropping the tree, in both modes: the tracked cells answer like the plain cells and the tree contains exactly the cells met (up to nothing: no collision assumption). A marked root that was not visited is included with all descendants. C39_visited_subtree: the mark has no effect on a cell that was visited itself, so the second half of the property is false of the code there. C39_touch, C39_touch_whole: touching a tracked cell recursively adds exactly the cells below it, in both modes, and the subtree stands unpruned in every proof made with the tree (C36_build ties specNode to the builder). C39_replay: in the mode OnLoad, for trees of level 0 without Merkle cells, every computation on the tracked root can be repeated on the proof made with the tree and gets the same answers, up to hash collisions. C39_replay_visited: the same in both modes and with any marks of subtrees if all cells given to the computation were visited. C39_replay_data_access is a finding: in the mode OnDataAccess the condition cannot be left out. C39_threads, C39_threads_end: the same for any number of threads under every schedule of their steps (feature sync), without deadlocks. C39_threads_late is a finding: in the mode OnLoad a thread can be given a reference before the tree contains it, while another thread that asked for the same reference is between creating and recording it.

*Theorems* (Usage.lean, UsageProps.lean, UsageTouch.lean, UsageReplay.lean, UsageSyncProps.lean): `Usage.C39_exact`, `Usage.C39_filter`, `Usage.C37_usage`, `Usage.C39_visited_subtree`, `Usage.C39_touch`, `Usage.C39_touch_whole`, `Usage.C39_replay`, `Usage.C39_replay_visited`, `Usage.C39_replay_data_access`, `Usage.Sync.C39_threads`, `Usage.Sync.C39_threads_end`, `Usage.Sync.C39_threads_late`

### C40 Unique storage statistics — partial

*Model and method.* DFS with a visited set refined to the set of distinct subcells; both counters.

*Scope.* For all sequences of cells and slices and all limits, up to hash collisions: the counters equal the number and the bits of the distinct cells plus the data of the slices, and the exact condition for an item to fit. C40_root_unchecked and C40_after_failure show where the limit is not exact: roots of cells are never compared with it, and a failed call leaves an uncounted cell marked as visited.

*Theorems* (StorageStat.lean): `Stat.C40_history`, `Stat.C40_limit`, `Stat.C40_cell`, `Stat.C40_slice`, `Stat.C40_root_unchecked`, `Stat.C40_after_failure`

### C41 Variable length integers — proved

*Model and method.* Codec laws over `Nat` with the width of the length field as parameter.

*Scope.* VarUint24, VarUint56, Tokens and VarUint248

*Theorems* (NumProps.lean, V248Props.lean): `C41_store`, `C41_invalid`, `C41_load`, `V248.C41_v248_store`, `V248.C41_v248_invalid`, `V248.C41_v248_load`

### C42 VarUint248 checked arithmetic — partial

*Model and method.* Two-word arithmetic, including Knuth division, over `Nat`.

*Scope.* checked_add/sub and division exact; checked_mul accepts results up to 2^256 (witness) and the + operator drops the high words (witness); both exact on the stated part

*Theorems* (V248Props.lean): `V248.C42_add`, `V248.C42_sub`, `V248.C42_div`, `V248.C42_mul_partial`, `V248.C42_mul_range_wrong`, `V248.C42_add_operator_wrong`, `V248.C42_add_operator_partial`, `V248.C42_ops`

### C43 VarUint248 ordering — proved

*Model and method.* Lexicographic comparison of the words equals the order of the values.

*Theorems* (V248Props.lean): `V248.C43_v248`

### C44 Small fixed width integers — partial

*Model and method.* Codec laws, all constructors.

*Scope.* SplitDepth::new accepts 32 and 33, which store writes truncated to five bits (witness); exact up to 31

*Theorems* (NumProps.lean): `C44_small`, `C44_small_key`, `C44_split_depth_unchecked`, `C44_split_depth_partial`

### C45 Currency collections add and subtract component-wise — proved

*Model and method.* Currency collections over the dictionary map semantics; addition and subtraction per currency.

*Theorems* (CurrencyThms.lean, CurrencyMore.lean): `C45_amounts`, `C45_add`, `C45_sub`, `C45_any`, `C45_clamp`, `C45_normalized`, `C45_add_sub`, `C45_comm`, `C45_assoc`, `C45_assign`, `C45_from_iter`, `C45_codes`, `C45_comp_add`, `C45_is_zero`

### C46 Shard identifiers form a binary tree — partial

*Model and method.* Prefixes over 64-bit words; specification: bit strings ordered by prefix.

*Scope.* Everything but is_ancestor_of is proved; is_ancestor_of compares the wrong bits (C46_ancestor_wrong is a concrete counterexample), C46_ancestor_partial says exactly what it computes. Splitting the masterchain gives shards the constructor refuses (C46_masterchain_split).

*Theorems* (ShardProps.lean): `ShardIdent.C46_new`, `ShardIdent.C46_length`, `ShardIdent.C46_split`, `ShardIdent.C46_merge`, `ShardIdent.C46_split_merge`, `ShardIdent.C46_parent`, `ShardIdent.C46_intersects`, `ShardIdent.C46_contains`, `ShardIdent.C46_cover`, `ShardIdent.C46_disjoint`, `ShardIdent.C46_ancestor_wrong`, `ShardIdent.C46_ancestor_partial`, `ShardIdent.C46_cell`, `ShardIdent.C46_masterchain_split`, `ShardIdent.C46_block_id`

### C47 Address encodings round-trip — partial

*Model and method.* Codecs on bit lists; texts on character lists, base64 and CRC included.

*Scope.* the cell form is proved for all addresses, including anycast prefixes of 31 bits, which the scheme excludes; texts are proved for addresses without anycast, the text of an address with anycast is never accepted; the URL-safe flag is lost when the text has neither special character, and undocumented tag bytes are accepted

*Theorems* (Addr.lean, AddrText.lean, DictKeys.lean): `C47_std`, `C47_int`, `C47_anycast_31`, `StdAddr.C47_base64_form`, `StdAddr.C47_raw_accept`, `StdAddr.C47_raw_partial`, `StdAddr.C47_anycast_text`, `StdAddr.C47_base64_accept`, `StdAddr.C47_base64_partial`, `StdAddr.C47_url_flag_wrong`, `StdAddr.C47_tag_wrong`, `StdAddr.C47_typo`, `StdAddr.C47_prefix`, `C47_ext`, `C47_ext_accept`, `C56_keys`

### C48 CRC16 detects errors — proved

*Model and method.* CRC as remainder of polynomials over GF(2) given by bit lists; the table is checked by kernel computation.

*Theorems* (Crc.lean): `Crc.C48_remainder`, `Crc.C48_append`, `Crc.C48_burst`, `Crc.C48_detect`

### C49 Bitstring hex rendering round-trips — partial

*Model and method.* Character lists; exact set of accepted texts.

*Scope.* round trip up to 1020 bits; strings of 1021..1023 bits are rendered with 256 digits and a tag and are then rejected by from_hex_str (witness)

*Theorems* (BitText.lean): `Bitstring.C49_parse`, `Bitstring.C49_format`, `Bitstring.C49_round_partial`, `Bitstring.C49_long_wrong`

### C50 Hash bytes text rendering round-trips — partial

*Model and method.* Character lists; exact set of accepted texts.

*Scope.* the round trip is proved for every hash and the accepted texts are characterised exactly; the parser panics on some texts, does not check the two-byte prefix and accepts base64 of 31 bytes (witnesses)

*Theorems* (TextProps.lean): `HashBytes.C50_round`, `HashBytes.C50_accept`, `HashBytes.C50_panic`, `HashBytes.C50_short_base64`

### C51 Extreme store widths are refused — partial

*Model and method.* Witnesses against the byte-level builder.

*Scope.* violated by the code: witnesses; the part that holds is C01

*Theorems* (BuilderProps.lean): `DataBuilder.C51_wide_store_zeros_wraps`, `DataBuilder.C51_long_raw_truncated`

### C52 Extreme read widths are refused — partial

*Model and method.* Witness against the slice model.

*Scope.* violated by the code: witness; the part that holds is C03

*Theorems* (SliceProps.lean): `C52_skip_first_wraps`

### C53 Checked arithmetic of small and variable integers — proved

*Model and method.* Checked operations against `Nat` arithmetic with range.

*Theorems* (NumProps.lean): `C53_arith`, `C53_assign`, `C53_kinds`

### C54 Text of VarUint248 — partial

*Model and method.* Formatting and parsing of decimal texts.

*Scope.* texts of at most 64 digits denoting 2^128+4 or more are parsed wrongly (witness: 10*2^128 parses as 0); the exact result is given for every text of digits

*Theorems* (V248Text.lean): `V248.C54_display`, `V248.C54_parse`, `V248.C54_reject`, `V248.C54_parse_wrong`, `V248.C54_round_partial`

### C55 Text of shard and block ids — partial

*Model and method.* Formatting and parsing on character lists.

*Scope.* round trips proved for every value the constructors give and the accepted texts characterised; the shard parser ignores everything after a second colon (witness) and children of the masterchain are displayed but not parsed back (witness)

*Theorems* (TextProps.lean): `ShardIdent.C55_shard`, `ShardIdent.C55_shard_accept`, `ShardIdent.C55_shard_trailing`, `ShardIdent.C55_masterchain_child`, `ShardIdent.BlockId.C55_block`, `ShardIdent.BlockId.C55_block_accept`

### C56 Typed dictionary keys are faithful — proved

*Model and method.* Key codecs as injections into bit strings with order.

*Theorems* (DictKeys.lean): `C56_keys`, `C56_faithful`, `C56_order`

### C57 Typed dictionaries behave as maps — proved

*Model and method.* Typed layer over C22–C28; codec laws of keys and values as parameters. An iterator that parses what another one yields gives the parsed list; keys, values and unions are instances.

*Scope.* for dictionaries whose values can be read back; typed remove of an unreadable value reports an error after removing it (witness C57_remove_unreadable); values in signed order are C32

*Theorems* (TypedDictProps.lean, TypedDictMore.lean, CurrencyMore.lean, TypedUnion.lean): `C57_step`, `C57_any`, `C57_canonical`, `C57_iter`, `C57_find`, `C57_bound`, `C57_remove_bound`, `C57_empty`, `C57_build`, `C57_no_errors`, `C57_remove_unreadable`, `C57_build_ok`, `C57_stops`, `C57_keys`, `C57_values`, `C57_union`, `C57_stops_all`, `C57_ends_all`

### C58 Messages round trip — partial

*Model and method.* Programs over builders and slices; the encoding of each part as bits and references; spare room wanted by headers is tracked.

*Scope.* All four message types. Proved: exact bytes, round trip, exactness of loading, no panics. Two refusals of values that fit: a given layout that puts a missing state init into a cell (C58_ghost_refused), and a bare external header that exactly fills the cell (C58_header_refused).

*Theorems* (MessageProps.lean): `C58_messages`, `C58_headers`, `C58_ghost_refused`, `C58_header_refused`

### C59 Message layout is the best that fits — partial

*Model and method.* Declared sizes compared with the lengths of the encodings.

*Scope.* Proved for external messages; for internal messages the declared size is one bit short, so the property fails for messages of exactly 1024 bits (C59_internal_refused). Exotic body cells are outside the hypotheses (C59_exotic_body_refused).

*Theorems* (MessageProps.lean): `C59_layout_partial`, `C59_internal_refused`, `C59_exotic_body_refused`

### C60 Accounts follow their schemes — partial

*Model and method.* TL-B combinators: a grammar per type, `Sound` = store writes it and load reads exactly it.

*Scope.* The codecs, sizes and statuses are proved. The last part is false of the code: StorageUsed::compute fails for every account (C60_used_broken).

*Theorems* (AccountProps.lean): `C60_codecs`, `C60_status`, `C60_optional_status`, `C60_size`, `C60_shard_account`, `C60_used_broken`

### C61 Transactions follow their schemes — proved

*Model and method.* The combinators of C60; the iterator over messages is reduced to the iterator over dictionary values (C32).

*Scope.* Lazily loaded parts are cells in the model; the message parser of the iterator is a parameter (C58 is about the parser).

*Theorems* (TransactionProps.lean): `C61_codecs`, `C61_round`, `C61_out_msgs`, `C61_out_msgs_all`

### C62 Envelopes keep the message and conserve value — proved

*Model and method.* The combinators of C60; the grammar of an envelope has exactly one reference, so that the shortcut reads the message.

*Scope.* Lazily loaded parts are cells in the model. C62_in_parts, C62_out_parts: the parts named by the accessors are exactly the references of the stored description. C62_no_envelope_needed is a finding: the shortcuts accept a cell that is no envelope, so they agree with loading the envelope only when that succeeds.

*Theorems* (EnvelopeProps.lean, EnvelopeAccess.lean, EnvelopeHop.lean): `C62_codecs`, `C62_shortcuts`, `C62_exported`, `C62_imported`, `C62_immediate`, `C62_created_lt`, `C62_collect_fee`, `C62_regular_bits`, `C62_in_parts`, `C62_out_parts`, `C62_in_accessors`, `C62_out_accessors`, `C62_next_hop`, `C62_hop_constants`, `C62_two_forms`, `C62_no_envelope_needed`

### C63 Output actions are read as they were written — partial

*Model and method.* The combinators of C60; a list of actions is an inductive relation on cells; invariant over the calls of the iterator.

*Scope.* Iteration over well-formed lists is proved in both directions. Violated by the code in three cases, each with a witness: the iterator does not end after an error (endless errors, actions that are not in the list), and modes of 128 and above lose their highest bit when a change of libraries is stored; the codec is proved for the other modes.

*Theorems* (OutActionsProps.lean): `C63_codec_partial`, `C63_iter`, `C63_exact`, `C63_safe`, `C63_endless`, `C63_after_error`, `C63_mode_lost`

### C64 Shard trees partition their workchains — partial

*Model and method.* A binary tree as specification; an invariant over the segments of the iterator; an invariant over the stack of the builder (a forest of trees, each a left child of the path of the next); the dictionary of workchains by C22 and C24.

*Scope.* Without the feature tycho (see C88 for the records of tycho). All parts are proved, except that an ordinary cell without data is silently taken for an empty tree (C64_silent), and that iteration over all workchains goes on after an error inside one of them (C64_after_error). Intersecting shards are accepted by from_shards and some of them are lost (C64_dropped); the order is that of unsigned keys, not that of shard identifiers (C64_order).

*Theorems* (ShardTreeProps.lean, ShardTreeGet.lean): `C64_codecs`, `C64_latest`, `C64_iter`, `C64_iter_exact`, `C64_partition`, `C64_build`, `C64_all`, `C64_from_shards`, `C64_dropped`, `C64_silent`, `C64_order`, `C64_after_error`, `C64_no_tag`, `C64_workchain`, `C64_halves`

### C65 Fees are the documented formulas — partial

*Model and method.* `u128` operations with their overflow checks or saturation; rounding is specified by the least number of units.

*Scope.* All proved except the exact value of the parts of a forwarding fee of 2^112 or more, where the product saturates (witness).

*Theorems* (FeesProps.lean): `C65_storage`, `C65_storage_mono`, `C65_storage_split`, `C65_gas`, `C65_gas_mono`, `C65_fwd`, `C65_parts_partial`, `C65_parts_saturate`, `C65_parts_bound`, `C65_burn`, `C65_addr_len`

### C66 Validator subsets are fair selections — proved

*Model and method.* The loops with all index and overflow checks; the shuffle is a fold of exchanges, proved injective; the weighted choice is compared with the line of the remaining validators, the sorted holes being an invariant.

*Scope.* SHA-512 is a parameter: the theorems hold for every function. Debug assertions are modelled as panics. Positive weights are a hypothesis; C66_zero_weight shows what happens without it.

*Theorems* (VsetProps.lean): `Vset.C66_prng`, `Vset.C66_mc`, `Vset.C66_fair`, `Vset.C66_shard`, `Vset.C66_determined`, `Vset.C66_hash`, `Vset.C66_zero_weight`

### C67 Configuration parameters survive cells — partial

*Model and method.* The combinators of C60; the recursion over flat prefixes of gas prices by fuel, with the fuel proved irrelevant.

*Scope.* Without the feature tycho (see C87 for the parameters of tycho). Violated by the code in two cases, each with a witness: a consensus config with 256 or more candidates per round is stored truncated (`Sound` has the bound as a condition), and workchain descriptions with impossible split depths are loaded although they can not be stored.

*Theorems* (ConfigParamsProps.lean): `C67_codecs`, `C67_burning_loaded`, `C67_limits_loaded`, `C67_store_refuses`, `C67_store_accepts`, `C67_gas_prices`, `C67_old_forms`, `C67_consensus_truncated`, `C67_workchain_unchecked`, `C67_gas_repeated`

### C68 Validator sets survive cells — partial

*Model and method.* Store and load programs over the typed dictionary of validators (C57); an ideal encoding of validators, of which the code writes the part that `plain` keeps; the collecting loop compared with the list of entries.

*Scope.* Violated by the code in these cases, each with a witness: the ADNL address of a validator with a seqno is replaced by zeros when stored; sets that do not meet the conditions of the loader are stored without an error; a dictionary with fewer entries than declared is accepted and gives a set that can not be stored and loaded; weights of zero are accepted. Which slices are accepted is proved for well-formed dictionaries; for malformed ones only what loaded sets promise (C68_loaded).

*Theorems* (VsetCodecProps.lean): `Vset.C68_validator_loads`, `Vset.C68_validator_round`, `Vset.C68_adnl_lost`, `Vset.C68_store`, `Vset.C68_accepts`, `Vset.C68_round`, `Vset.C68_loaded`, `Vset.C68_usable`, `C68_root_in_place`, `Vset.C68_old_form`, `Vset.C68_zero_weight`, `Vset.C68_unchecked_store`, `Vset.C68_fewer_entries`

### C69 Blocks survive cells, and the balance of a block is exact — partial

*Model and method.* Store and load programs over the vocabulary of codecs, extended by fields that depend on others, children that are opened before and read after other fields, and checks on load. The header is proved to come back exactly under the stated conditions; the flow is proved by induction over the list of amounts with the addition of C45, and equality of sums by canonicity of the dictionaries.

*Scope.* Without the feature tycho (see C88 for the records of tycho). Violated by the code in three cases, each with a witness: a value flow with extra currencies in the collected fees does not come back (the loader takes another cell for the dictionary; the codec theorem has their absence as a condition); headers with the number zero, or with a previous vertical block and the vertical number zero, are stored but refused by the loader, and a software version without its flag is lost (C69_header is the exact condition); after setting two previous blocks without the flag for a merge, they can not be loaded (C69_prev_ref is the exact condition). `validate` is modelled up to the comparison of the two sums, which are returned.

*Theorems* (BlockProps.lean): `C69_codecs`, `C69_header`, `C69_software`, `C69_prev_ref`, `C69_data_for_sign`, `C69_block_id`, `C69_flow`, `C69_flow_extra`, `C69_header_refused`, `C69_fees_lost`

### C70 A dictionary with sums can be stored without its own cell — proved

*Model and method.* The node is read by the label reader of C22, then the sum, then either two references or the value; the grammar of nodes is proved to be what dictionaries with sums (C33) have at their root.

*Scope.* An account block without transactions is not stored (InvalidData), which is part of C70_no_transactions.

*Theorems* (AugRootProps.lean): `C70_root_in_place`, `C70_root_consumed`, `C70_codec`, `C70_account_block`, `C70_no_transactions`

### C71 Shard states survive cells — partial

*Model and method.* Store and load programs as for C69; the feature is a parameter. The reload theorems add up the sizes of the parts.

*Scope.* Both settings of the feature tycho. Violated in one case (C71_flag_lost): the second flag of the data of the masterchain is accepted when loading and lost when storing, so that the loaded value is stored in another cell. Values come back in all cases. Without tycho there is no consensus info; the model has the one of the zerostate then.

*Theorems* (ShardStateProps.lean): `C71_codecs`, `C71_reload`, `C71_upgrade`, `C71_extra`, `C71_custom`, `C71_library`, `C71_overrides`, `C71_overrides_not_total`, `C71_flag_lost`

### C72 The blockchain configuration behaves as a map of parameters — proved

*Model and method.* The typed dictionary of C57 with cells as values; a history is a list of changes, each accepted or refused; getters are compared with the map.

*Scope.* Parameters 6, 13 and 30, which are handed out as raw slices, are covered as cells (getRawCell, setRaw). Of validator sets the getters are covered here, their codec by C68.

*Theorems* (ConfigDictProps.lean): `Config.C72_get`, `Config.C72_table`, `Config.C72_apart`, `Config.C72_remove`, `Config.C72_history`, `Config.C72_addresses`, `Config.C72_validator_sets`, `Config.C72_lists`, `Config.C72_fundamental`, `Config.C72_prices`, `Config.C72_new`

### C73 Big integers survive cells — partial

*Model and method.* Integers are Lean `Int` and `Nat`; the byte operations of num-bigint (minimal little-endian bytes, two's complement by inverting and adding one, resize, shifts) are modelled on lists of bytes. Their values are computed by induction over the bytes, which gives the bits written by `store_raw`; the loads are shown to take exactly `n` bits, with the sign extension of a `u64` proved by arithmetic. The specification is `natBits`, `twoBits` (number modulo 2^n) and the range `FitsI`.

*Scope.* Violated by the code in two cases, each with a witness: a BigInt that is stored as unsigned loses its sign without an error; the bit length is cut to 16 bits, so that numbers with 65536 or more bits can pass the check. All else is proved. The operations of num-bigint are modelled by their documented results.

*Theorems* (BigNumProps.lean): `Big.C73_truncate`, `Big.C73_unsigned`, `Big.C73_signed`, `Big.C73_refused`, `Big.C73_unsigned_as_signed`, `Big.C73_var_unsigned`, `Big.C73_var_signed`, `Big.C73_var_refused`, `Big.C73_length_cut`, `Big.C73_sign_lost`

### C74 ABI values come back from their serialized form — partial

*Model and method.* A value is a list of leaves (bits and references that are stored together). The serializer puts leaves into a stack of builders by their declared sizes; the result is shown to be a chain of groups of leaves. Invariants on declared and actual sizes (`AbiPack.lean`) give what the decoder relies on to know whether the last reference of a cell is a value or the next cell (`Link`, `AbiStream.lean`). The main theorem is by mutual induction over values, items, elements and entries (`AbiRound.lean`); arrays and maps use the dictionary theorems of C22 and C24. That encoding succeeds (`C74_succeeds`, `C74_total`) is a second induction with an invariant on the room that the serializer has left (`AbiRoom.lean`).

*Scope.* The round trip is proved for all values that meet Good and Regular (AbiGood.lean); C74_succeeds and C74_total say when a value can be encoded at all, C74_utf8 what the bytes of a string are. The statement without these conditions is false of the code: witnesses are given for lost signs of variable-length integers, empty maps before references, large elements that begin with a reference in version 1, empty tuples at the end, optionals of fixed arrays.

*Theorems* (AbiProps.lean, AbiUtf8.lean, AbiTotal.lean): `Abi.C74_round_partial`, `Abi.C74_unit`, `Abi.C74_injective_partial`, `Abi.C74_size`, `Abi.C74_varint_sign`, `Abi.C74_empty_maps`, `Abi.C74_empty_map`, `Abi.C74_big_element`, `Abi.C74_last_unit`, `Abi.C74_optional_fixed`, `Abi.C74_refused`, `Abi.C74_utf8`, `Abi.C74_succeeds`, `Abi.C74_total`, `Abi.C74_negative_size`, `Abi.C74_short_array`

### C75 Message bodies of contracts come back — partial

*Model and method.* Headers, id and arguments are leaves of the same packing as in C74, after an offset for signature or address; `packedAt` shows that leaves which fit stay in the first cell, and a second invariant that the offset stays free there, so that signature and address can be put in front. The reader of the prefix is composed of exact readers. Equality of signed cells is inverted by reading the address back.

*Scope.* The round trips are proved for arguments that meet the conditions of C74, for internal bodies in all versions and for external ones from version 2 on with headers that leave room (all lists of different headers). The rest is false of the code: version 1 bodies with a signature lose the payload, version 1 headers are read in another order than they are written, explicit ids are shared by calls and answers, elements of arrays are not checked, repeated headers push the id into a cell where it is not looked for.

*Theorems* (AbiContractProps.lean): `Abi.C75_internal_partial`, `Abi.C75_output_partial`, `Abi.C75_event_partial`, `Abi.C75_one_id`, `Abi.C75_ids`, `Abi.C75_call_or_answer`, `Abi.C75_room`, `Abi.C75_external_partial`, `Abi.C75_unsigned_partial`, `Abi.C75_fillable_partial`, `Abi.C75_signed_data`, `Abi.C75_filled`, `Abi.C75_v1_payload_lost`, `Abi.C75_v1_unreadable`, `Abi.C75_v1_headers`, `Abi.C75_explicit_id`, `Abi.C75_elements_unchecked`, `Abi.C75_repeated_headers`, `Abi.C75_expire_overflow`, `Abi.C75_versions`

### C76 Names of ABI types: descriptions come back, signatures tell types apart — proved

*Model and method.* Modelled: the printers, the parser, descriptions as a tree of fields, signatures. Proved by induction over types that the parser inverts the short form; for the full form, which the code never parses, a parser is written in the proofs and shown to invert the printer, so equal texts mean equal types.

*Scope.* Signatures are texts here; ids are their hashes. Names are assumed to hold no opening parenthesis (C76_parentheses shows why). C76_not_canonical and C76_widths record what the parser accepts beyond what is printed.

*Theorems* (AbiTextProps.lean): `Abi.C76_description`, `Abi.C76_accepted`, `Abi.C76_small_texts`, `Abi.C76_text`, `Abi.C76_function`, `Abi.C76_event`, `Abi.C76_function_event`, `Abi.C76_parentheses`, `Abi.C76_not_canonical`, `Abi.C76_widths`

### C77 Initial data of contracts: what is written, what updates leave alone, and that it is read back — partial

*Model and method.* Modelled: the loops of encode_init_data, update_init_data and decode_init_data over the dictionary model of C22, with the hash map as a list in an arbitrary order; storage fields as a packed tuple. Proved by induction over the values that the dictionary represents the map written entry by entry, then by the canonical form (C23) that equal maps are equal cells; reading uses the round trip of C74.

*Scope.* Content, order and updates are proved for all values; reading back needs the conditions of C74 on values. Violated by the code in four cases, each with a witness: whether encoding succeeds depends on the order of the hash map (C77_order_decides; two successful runs always agree), a field with key zero is overwritten by the public key, fields may share a key, functions may share an id.

*Theorems* (AbiInitProps.lean): `Abi.C77_encode`, `Abi.C77_tokens`, `Abi.C77_order`, `Abi.C77_round_partial`, `Abi.C77_default`, `Abi.C77_update`, `Abi.C77_update_reads_partial`, `Abi.C77_update_encode`, `Abi.C77_fields_partial`, `Abi.C77_find_function`, `Abi.C77_find_event`, `Abi.C77_order_decides`, `Abi.C77_zero_key`, `Abi.C77_shared_key`, `Abi.C77_find_ambiguous`

### C78 Sets of capabilities behave as sets — partial

*Model and method.* A mask is a number; the loop of the iterator (trailing zeros, cleared lowest bit) is shown by induction to list the set bits in ascending order; bits and names of capabilities are finite tables, over which injectivity is decided.

*Scope.* Proved for all masks except for two parts which hold exactly for masks without unknown bits (the theorems say so both ways): the announced length of the iterator counts unknown bits, and the human-readable form drops them (C78_unknown_bit).

*Theorems* (CapsProps.lean): `Caps.C78_iter`, `Caps.C78_add`, `Caps.C78_collect`, `Caps.C78_ext`, `Caps.C78_collect_items`, `Caps.C78_names`, `Caps.C78_human_partial`, `Caps.C78_len_partial`, `Caps.C78_unknown_bit`

### C79 Checked signatures weigh what their signers weigh — partial

*Model and method.* The loop over the typed dictionary (C57) as a fold over its entries; the hash map of nodes as a list in which inserting replaces, compared with the last validator of an identifier. Under distinct signers the sum over entries is regrouped as a sum over validators.

*Scope.* C79_check gives the result for all dictionaries: one summand per entry. That a signer counts once is false of the code: entries by one signer under several keys count several times (C79_repeated), up to an overflow (C79_overflow). C79_weight_partial has the full claim for dictionaries in which no signer occurs twice, and nodes with different identifiers. Hash and signature scheme are parameters.

*Theorems* (BlockSigsProps.lean): `Sigs.C79_check`, `Sigs.C79_node`, `Sigs.C79_weight_partial`, `Sigs.C79_repeated`, `Sigs.C79_overflow`, `Sigs.C79_sign_id`, `Sigs.C79_id_or_data`, `Sigs.C79_whole`

### C80 Rust values survive conversion to ABI values — proved

*Model and method.* The Rust types with conversions form a universe `RTy` with a type of values `El` for each code; conversions are functions by recursion over codes. Round trip, typing and surjectivity are mutual inductions over codes; the test for `u8` behind bytes is a cast that is defined for one code only. Storing in cells reduces to C74_total: `Fits` of a Rust value gives the conditions of C74 for its ABI value.

*Scope.* For all types of the universe RTy by induction on the type. C80_onto leaves out standard and variable addresses (the ABI type allows the other kind) and types without FromAbi. C80_cells is for values in the range of their ABI type, without arrays of fixed length other than bytes. Recorded besides: derived structs ignore further items of a tuple, a hash drops the high bits of a number, ranges of variable-length integers are not checked (the values concerned cannot be read from cells).

*Theorems* (AbiConvProps.lean): `Abi.C80_round`, `Abi.C80_injective`, `Abi.C80_onto`, `Abi.C80_plain`, `Abi.C80_cells`, `Abi.C80_tail`, `Abi.C80_hash_cut`, `Abi.C80_range`, `Abi.C80_other_forms`, `Abi.C80_hash_keys`

### C81 Searching an augmented dictionary by extras — proved

*Model and method.* Model `findByExtra` with an arbitrary search object (state, `onLeaf`, `onEdge`). Specification `Search`: a walk over key prefixes in which the object sees the combined extras (`Total` of C33) of both sides. The walk over the cells is proved to be such a walk by induction over the tree; the statements on indices and orderings follow by induction over the walk.

*Scope.* For all extra types that satisfy the laws of C33 (the ones of the crate do), for all search objects with state. The decoding of the found key and value is that of C57. A search with Ordering::Equal is covered by C81_sound only.

*Theorems* (AugFindProps.lean): `C81_walk`, `C81_sound`, `C81_index`, `C81_branch`, `C81_order`, `C81_old_blocks`, `C81_max`

### C82 Releasing deep trees of cells — partial

*Model and method.* Memory is a list of places with nodes (slots, count, `without_first`, strong and weak counts); access to a released place, a missing slot, a count below zero, nesting above the bound and too many rounds are explicit errors. Invariant of the loops: the way back is a chain of cells with one handle each (`Chain`), all other cells are as before, and every strong count is the number of handles and slots (`Acct`); each round decreases a weight. Histories are a refinement of programs in which nothing is released (`Plan`, `Needed`).

*Scope.* Proved for all memories and programs without weak handles. With them the bound on the stack is false (C82_weak_nesting: chains of cells with weak handles nest as deep as they are long); that nothing released is touched then, and that nothing is left over, is C85, which also covers the atomic counts of feature sync. The wrappers for virtual and tracked cells are not modelled.

*Theorems* (CellDropProps.lean): `Drop.C82_drop_partial`, `Drop.C82_history_partial`, `Drop.C82_no_leak_partial`, `Drop.C82_weak_nesting`

### C83 Counters of removed cells — partial

*Model and method.* Specification: a store is a list of all cells of its trees, once per hash (`Lists`); the counter of a hash is the number of slots and roots that refer to it (`refCount`). The walk is shown to visit exactly the old cells reachable without passing shown cells of the new tree (`Gone`), once per hash, so the reported counters are the slots of these cells; comparison with the two stores is by counting over lists without repetition.

*Scope.* That nothing leaks (the counters are never too small) is proved for all plain trees, up to hash collisions. That they are exact is false of the code when a removed cell refers to a cell inside a part that the update prunes as reused (C83_lost: a cell of the new tree loses its last reference); C83_exact_partial has the full claim for all other pairs. Trees of level 0 without Merkle cells; counters are not bounded by u32.

*Theorems* (MerkleRemovedProps.lean): `Merkle.C83_enough`, `Merkle.C83_exact_partial`, `Merkle.C83_same`, `Merkle.C83_lost`

### C84 Multithreaded Merkle builders agree with the single-threaded ones — partial

*Model and method.* Tasks are small machines; a step is one access to the shared map together with the local work up to the next access, a schedule is a list of task numbers. Invariant over all steps (`PoolOk`): every saved, stored or returned cell *stands for* an original cell at its Merkle depth (`Stands`), where a cell that waits for a task stands for the cell the task was given; after all tasks have ended everything is finished by induction over the tree (`settle_stands`), and the finished cell is the one of the specification of C36. Ending: a weight that each step decreases. For updates the changed cells are characterised exactly (reached and leading to a reused cell) for both builders.

*Scope.* Agreement is proved for all trees, filters, split points and interleavings, up to hash collisions, when no included cell occurs at two Merkle depths and, for updates, when subtrees included as a whole contain no skipped cells. It is false of the code otherwise: C84_race (the result depends on the schedule) and C84_update_differs (the update depends on the split points). That every build ends holds without conditions, but the work at the end can be exponential (C84_exponential). The maps of the crate scc are taken to be linearizable and rayon scopes to wait for all tasks.

*Theorems* (MerkleParProps.lean, MerkleParUpdateProps.lean): `Merkle.Par.C84_proof_partial`, `Merkle.Par.C84_ends`, `Merkle.Par.C84_no_wait_partial`, `Merkle.Par.C84_update_partial`, `Merkle.Par.C84_changed`, `Merkle.Par.C84_race`, `Merkle.Par.C84_update_differs`, `Merkle.Par.C84_exponential`

### C85 Cells shared by threads are released safely and completely — proved

*Model and method.* A running destructor is a stack of frames, a step is one access to a count with the local work that follows; actions of the program and steps of all destructors are interleaved in any order. Access to a released place, a moved slot, a count below zero and a change of a cell with more than one pointer are explicit errors. Invariant (`Inv`): each strong count is the number of held handles, handles in frames and slots of cells in memory; a cell that was changed since it was built has one handle, which is in a frame or in a slot of another changed cell; a replaced first slot is read only as the way back; there is a rank that falls along the slots. The invariant gives all statements; a weight of memory and frames that each step decreases gives the end.

*Scope.* Proved for all histories and interleavings, in a model where each access to a count is atomic and all accesses are in one order. C85_nesting is a finding: when other threads release their handles between the check and the release, destructors nest without a bound, so the stack is bounded only for releases that nobody disturbs (C82).

*Theorems* (CellDropParProps.lean): `DropPar.C85_safe`, `DropPar.C85_kept`, `DropPar.C85_no_leak`, `DropPar.C85_ends`, `DropPar.C85_built`, `DropPar.C85_upgrade`, `DropPar.C85_nesting`

### C86 Derived codecs follow the scheme of the struct in every version — partial

*Model and method.* A struct is data: fields with their types, codecs, versions and defaults, tags, validation. The model is the generated code as a function of this data; what the macros refuse is a boolean function. The specification is a grammar: the tag of a version, then the fields of that version. Proved by induction over the fields with the combinators for sound codecs.

*Scope.* Proved for all structs with tags that differ and have at most 64 bits. The macros accept others, and then the property is false: equal tags (C86_equal_tags: a stored value is loaded as another one) and tag texts of 64 hexadecimal digits (C86_wide_tag: no tag is stored). Enums are refused by the macros. The token streams are not modelled: the model is the code that they generate.

*Theorems* (DeriveProps.lean): `Derive.C86_sound_partial`, `Derive.C86_round_partial`, `Derive.C86_version`, `Derive.C86_old_data`, `Derive.C86_new_data`, `Derive.C86_restored`, `Derive.C86_validated`, `Derive.C86_tag_text`, `Derive.C86_not_restored`, `Derive.C86_equal_tags`, `Derive.C86_wide_tag`

### C87 Parameters and queue positions of tycho are stored by their schemes and always fit — partial

*Model and method.* The structs are descriptions for the model of C86; soundness is C86 with the side conditions evaluated. Upper and lower bounds on the sizes of all encodings are derived field by field; the upper bounds give that storing never overflows, the lower bounds that cells of the documented schemes are too short.

*Scope.* Everything is proved for all values but the last sentence, which is false of the code: no cell written by the documented schemes of ConsensusConfig and CollationConfig is accepted (C87_consensus_documented, C87_collation_documented).

*Theorems* (TychoParamsProps.lean): `Derive.C87_sound`, `Derive.C87_fits`, `Derive.C87_consensus_layout`, `Derive.C87_msgs_layout`, `Derive.C87_work_units_layout`, `Derive.C87_positions_layout`, `Derive.C87_nested_layout`, `Derive.C87_consensus_documented`, `Derive.C87_collation_documented`

### C88 Blocks of tycho come back from cells, and the data of the two builds is not confused — partial

*Model and method.* Codecs as in C69 and C64, with the fields and tags of the feature. For headers, typed values always fit (sizes are added up), and the condition for coming back is exact. Between the builds, the relations of the schemes are compared: the older form of a header is one of the two forms of the newer loader; the tags of the newer form differ; for blocks and descriptions the encoding of one build is split into an encoding of the other and a rest.

*Scope.* Everything is proved for all values but the last sentence, which is false of the code in two cases. The tag of a block is the same in both builds: every block stored with the feature is accepted without it, as a block with no updates of the queue (C88_other_build). The tags of descriptions of shards are the same too, but one field is half as long: every description stored without the feature (and a time before 2038) is accepted with it, with wrong fields (C88_misread). Headers are told apart (C88_old_data, C88_new_data).

*Theorems* (TychoBlockProps.lean): `Tycho.C88_codecs`, `Tycho.C88_header`, `Tycho.C88_old_data`, `Tycho.C88_new_data`, `Tycho.C88_other_build`, `Tycho.C88_misread`

### C89 Calls of contracts arrive as they were made — partial

*Model and method.* Composition of C75 (bodies), C58/C59 (messages) and C12 (hashes). The receiver is specified separately: `readBody` reads signature, headers and id, `checkedData` is what a contract hashes, `Accepts` is the check of the signature against an abstract scheme.

*Scope.* Partial: calls must meet the conditions of C75 (arguments that come back, room for headers); internal messages can be refused by one bit (C59). C89_bound and C89_other_dst are up to hash collisions. Keys and signatures are abstract. C89_other_dst is a hazard of the interface: with_dst does not compare the address with the one that was signed.

*Theorems* (AbiCallProps.lean): `Abi.C89_signed_partial`, `Abi.C89_unsigned_partial`, `Abi.C89_signable_partial`, `Abi.C89_bound`, `Abi.C89_refused`, `Abi.C89_other_dst`, `Abi.C89_internal_partial`

### C90 Iterators over children behave as queues with two ends — partial

*Model and method.* Simulation between the iterator and a list used from both ends, by induction over the list of calls.

*Scope.* For every sequence of calls the iterators agree with a queue that holds the references of the cell or of the window; every child comes exactly once. Partial because the code violates the last sentence: peek_prev does not show what next_back returns (C90_peek_prev_wrong); it shows what next returned last (this is what the Merkle builders rely on) and on a slice the reference in front of the window (C90_peek_prev_outside).

*Theorems* (RefsIterProps.lean): `RefsIter.C90_cell`, `RefsIter.C90_slice`, `RefsIter.C90_once`, `RefsIter.C90_peek`, `RefsIter.C90_peek_prev_wrong`, `RefsIter.C90_peek_prev_partial`, `RefsIter.C90_peek_prev_outside`

### C91 Values survive their BOCs, as bytes and as text — proved

*Model and method.* The cells of a tree are made by induction over it (C10), so that the empty context accepts exactly the well-formed trees; then the round trips of BOCs (C15), of text (C43) and of codecs compose.

*Scope.* Up to collisions of the hash function inside of the value, and for values of fewer than 2^32 different cells. C91_context and C91_build say what the abstract contexts of the other codec theorems are in the case of the empty context: they accept exactly the well-formed trees.

*Theorems* (BocReprProps.lean): `Boc.C91_context`, `Boc.C91_build`, `Boc.C91_text`, `Boc.C91_text_means`, `Boc.C91_encodable`, `Boc.C91_repr`, `Boc.C91_decoded`, `Boc.C91_safe`, `Boc.C91_rayon`

### C92 Small vectors own their items — proved

*Model and method.* A world of vectors and iterators over slots of memory is simulated by a world of lists, one operation at a time; in the world of lists every item is counted to be in exactly one place (user, one object, or dropped).

*Scope.* Items are numbers that stand for owned values; a clone gets new numbers, so that the theorems do not say that a clone has equal items (only how many and that each is owned once). Capacities above 255 are excluded: the assertion in the type that excludes them is never evaluated, and C92_counter_wraps shows what a vector of 256 does in a release build.

*Theorems* (ArrayVecProps.lean): `ArrayVec.C92_lists`, `ArrayVec.C92_once`, `ArrayVec.C92_no_leak`, `ArrayVec.C92_alive`, `ArrayVec.C92_contract`, `ArrayVec.C92_counter_wraps`

### C93 Values survive serde — partial

*Model and method.* Each form is a pair of functions between values and data of serde. Round trips compose: fields with different names (what is read depends only on the entries of these names), lists, options, maps. Dictionaries are sets of entries put into the trie one after another; canonical tries over values that leave room for the longest label always exist, so no order fails, and the result is unique. Containers of cells are a universe of types; the round trip is proved by induction over the type, with the keys read so far as invariant for maps.

*Scope.* False of the code in the cases with witnesses: addresses with anycast and of variable length, 248-bit integers as text from 2^128+4 to 10^64 (C54), exotic bodies, an option directly in an option of cells; numbers and external addresses of other formats are not checked; without room for the longest labels it depends on the order of the hash map whether a dictionary is read (C93_order_matters). Everything else is proved for all values: cells up to collisions of the hash function, dictionaries in canonical form with room for the longest label. Formats are taken for faithful carriers of the data model of serde (maps with numeric keys included); which error is returned is not modelled.

*Theorems* (FormsProps.lean, FormsBox.lean): `Form.C93_scalars`, `Form.C93_checked`, `Form.C93_unchecked_partial`, `Form.C93_v248_partial`, `Form.C93_anycast_lost`, `Form.C93_var_lost`, `Form.C93_fields`, `Form.C93_twice`, `Form.C93_cells`, `Form.C93_lazy`, `Form.C93_dict`, `Form.C93_dict_bytes`, `Form.C93_dict_read`, `Form.C93_order_matters`, `Form.C93_keys`, `Form.C93_config`, `Form.C93_message`, `Form.C93_in_msg`, `Form.C93_exotic_body_refused`, `Form.C93_vset`, `Form.C93_vset_read`, `Form.C93_vset_valid`, `Form.C93_main_unchecked`, `Form.C93_containers`, `Form.C93_containers_read`, `Form.C93_nested_option`

### C94 Announced sizes are the stored ones — partial

*Model and method.* The types are a datatype with options and pairs; store and size are functions over it, and the theorem is an induction over types: the writer puts down an encoding whose length is the announced one. Sums in `u16` and `u8` are modelled for both builds.

*Scope.* Proved for all types, values and builders. False of the code in four cases: headers of internal messages take one bit more than announced (C94_headers says exactly so), a release build announces sums modulo 2^16 (C94_wraps), integers beyond their range are announced as nothing and then refused (C94_too_large), a range beyond its cell is announced in full (C94_parts_wrong).

*Theorems* (ExactSizeProps.lean): `SzTy.C94_exact`, `SzTy.C94_fits`, `SzTy.C94_builds`, `SzTy.C94_too_large`, `SzTy.C94_headers`, `C94_sequence`, `C94_arithmetic`, `C94_stats`, `C94_stats_sizes`, `C94_parts`, `C94_parts_wrong`, `C94_wraps`

### C95 Contracts are made of their descriptions as these say — partial

*Model and method.* The deserialized description is data (the JSON syntax itself is not modelled); reading of versions, headers, ids, types and the collection into maps is modelled line by line and compared with a declarative specification (`Describes`, `Readable`). Dispatch combines this with C75 (bodies) and C77 (search by id); differences of ids follow from C76 (signatures) and injectivity of UTF-8.

*Scope.* The encoded arguments must meet the conditions of C74 and C75, and ids must differ. Of functions with one name (overloads) only the last is kept: C95_overloads_lost.

*Theorems* (AbiDescrProps.lean): `Abi.C95_read`, `Abi.C95_accepts`, `Abi.C95_id_text`, `Abi.C95_id_round`, `Abi.C95_calls_partial`, `Abi.C95_answers_partial`, `Abi.C95_events_partial`, `Abi.C95_functions_differ`, `Abi.C95_events_differ`, `Abi.C95_builders`, `Abi.C95_names_ignored`, `Abi.C95_unnamed`, `Abi.C95_flatten`, `Abi.C95_overloads_lost`

### C96 The printed text of a tree of cells lists every cell once per path, and determines the tree — partial

*Model and method.* Model of both forms of the text and of the loop with its stack. The loop is shown to write the text in pre-order (a separate recursive definition); the full text is then taken apart at its colons, commas and ends of lines, the short one by its indentation.

*Scope.* proved: order, termination, full text determines the tree and the other way round, no text begins another one, what the text of a root tells. Part that fails: the short form does not determine the tree (C96_short_ambiguous is a pair of cells); C96_short_partial is what it does determine. Bound of the loop in the model: the number of paths, with a proof that it is not reached

*Theorems* (CellTextProps.lean): `CellText.C96_preorder`, `CellText.C96_determines`, `CellText.C96_prefix_free`, `CellText.C96_same_text`, `CellText.C96_root`, `CellText.C96_short_partial`, `CellText.C96_short_ambiguous`

### C97 Used writers of bags of cells behave like new ones, and an interrupted write leaves a beginning of the bag that no reader accepts — proved

*Model and method.* A second model of the writer that keeps its counter as a field; operations on it refine those of the first model as long as the counter is right, and every history keeps it right (induction over the list of operations). Streams are lists of answers; what reached the medium is shown to be a beginning of the bag by induction over the answers and chunks; C15 rejects proper beginnings.

*Scope.* counters are natural numbers (C16 and the bounds of C15 say when they fit); write_all of the standard library is modelled by its documented loop. The rejection of torn bags is up to collisions of the hash function inside of the bag, as in C15

*Theorems* (BocReuseProps.lean): `Boc.C97_history`, `Boc.C97_clear`, `Boc.C97_cache`, `Boc.C97_stream`, `Boc.C97_stream_ends`, `Boc.C97_torn`, `Boc.C97_torn_cell`

### C98 Comparing builders, ABI types, ABI values and maps means comparing their content — partial

*Model and method.* Both comparisons of builders are modelled on the 128-byte buffers and related to the stored bits with the representation invariant of the builder (zeroes after the end). The order is shown to be a composition of lexicographic orders, hence transitive and antisymmetric. For ABI types and values `bare` removes all names; equality is `bare a = bare b`, the words given to the hasher are a prefix-free code of the bare type, and the serializer and the parser commute with `bare` (mutual induction over types and values).

*Scope.* The order of cell builders ignores the exotic flag, so two builders that are not equal can be level (C98_order_disagrees). Everything else is proved for all inputs.

*Theorems* (CompareProps.lean): `Compare.C98_data_equal`, `Compare.C98_data_order`, `Compare.C98_builder_equal`, `Compare.C98_builder_order`, `Compare.C98_builder_neither`, `Compare.C98_order_agrees_partial`, `Compare.C98_order_disagrees`, `Compare.C98_type_hash`, `Compare.C98_value_equal`, `Compare.C98_value_equivalence`, `Compare.C98_value_type`, `Compare.C98_value_cell`, `Compare.C98_read`, `Compare.C98_map_equal`

### C99 Random cells, addresses, balances and actions are always valid — proved

*Model and method.* A generator is a function from the list of numbers that is left to a value and the rest, or a stop (refused, panic, out of fuel). A Hoare-style predicate (safe on inputs of at most n numbers) goes through the generators; nesting is bounded by the length of the input because every nested cell costs a number. Completeness goes by induction on the tree, writing down the input.

*Scope.* C99_deep_cells is a finding: `Cell::arbitrary` gives cells no ordinary cell can refer to, and `ShardAccount::arbitrary` unwraps the result of storing an account around such a cell (code or data of its state), so that generator can panic. Addresses are generated with rewrite prefixes of 1 to 30 bits, although 31 can be read and stored. The generators of other models (messages, accounts, blocks) are not modelled; for output actions the generator of the message is a parameter. C99_action_range includes a finding: library modes of 128 and above come out, which do not survive being stored.

*Theorems* (ArbitraryProps.lean, ArbitraryAddr.lean, ArbitraryMoney.lean, ArbitraryActions.lean): `Arb.C99_cell`, `Arb.C99_builder`, `Arb.C99_fuel`, `Arb.C99_ordinary`, `Arb.C99_all_ordinary`, `Arb.C99_max_depth`, `Arb.C99_int_addr`, `Arb.C99_ext_addr`, `Arb.C99_amounts`, `Arb.C99_coins`, `Arb.C99_currency`, `Arb.C99_actions`, `Arb.C99_action_range`, `Arb.C99_deep_cells`

## Findings

Places where the code violates the natural form of a property. Each is a theorem about the model with a concrete
witness; the corresponding property keeps the part that does hold.

| where | what | witness |
|---|---|---|
| `slice.rs get_raw` | checks `bits`, not `offset + bits`, against the window; also reads past the cell's data | `C05_get_raw_leaves_window`, `C05_get_raw_reads_out_of_bounds` |
| `builder.rs store_zeros`, `store_raw` | sums of `u16` wrap (release) and `len()*8` is truncated to `u16` | `DataBuilder.C51_wide_store_zeros_wraps`, `DataBuilder.C51_long_raw_truncated` |
| `slice.rs skip_first` | `u16` sum wraps for wide requests | `C52_skip_first_wraps` |
| `VirtualCellWrapper` | level masks with a gap (0b101), descendants of trees with several levels | `C14_mask_five`, `C14_descendants` |
| `dict/mod.rs read_label` | a label may be longer than the remaining key | `C21_read_overlong` |
| `Dict::try_from_sorted_slice` on signed keys | sorted by value, not by bits: the dictionary is malformed | `C27_signed_wrong` |
| `dict_modify_from_sorted_iter` | repeated keys, empty modification lists differ from the sequential meaning | `C28_repeated_differs`, `C28_empty_differs` |
| `dict_get_subdict` | labels read with the prefix length instead of the remaining key length | `C30_wrong`, `C30_absent_wrong` |
| `dict_merge` | refuses legal merges by comparing root bit lengths, is not atomic, swallows iterator errors | `C31_refused_wrong`, `C31_not_atomic`, `C31_bad_right_accepted` |
| `RawValues::signed`, reversed `RawOwnedValues` | wrong order; wrong parent cell | `C32_signed_order_wrong`, `C32_reversed_owned_wrong` |
| `boc/ser.rs without_hashes` | after adding roots, counts are stale: the header is wrong; `encode_to_writer` assertion fails with a checksum | `Boc.C18_late`, `Boc.C18_chunks_assert` |
| `boc` repeated roots | more roots than cells: encoded, but not decodable | `Boc.C20_duplicate_roots` |
| `VarUint248::checked_mul`, `+` | range test on the wrong value; high words dropped | `V248.C42_mul_range_wrong`, `V248.C42_add_operator_wrong` |
| `SplitDepth::new` | accepts 32 and 33 | `C44_split_depth_unchecked` |
| `ShardIdent::is_ancestor_of` | compares the wrong bits; splitting the masterchain | `ShardIdent.C46_ancestor_wrong`, `ShardIdent.C46_masterchain_split` |
| `StdAddr` texts | anycast of 31 bits, URL-safe flag lost, undocumented tags accepted, address with a changed character accepted | `C47_anycast_31`, `StdAddr.C47_url_flag_wrong`, `StdAddr.C47_tag_wrong`, `StdAddr.C47_typo` |
| `Bitstring::from_hex_str` | rejects the rendering of 1021..1023 bits | `Bitstring.C49_long_wrong` |
| `HashBytes::from_str` | panics on non-ASCII texts, accepts base64 of 31 bytes | `HashBytes.C50_panic`, `HashBytes.C50_short_base64` |
| `VarUint248::from_str` | 10*2^128 parses as 0 | `V248.C54_parse_wrong` |
| `ShardIdent::from_str` | ignores everything after a second colon; children of the masterchain do not parse back | `ShardIdent.C55_shard_trailing`, `ShardIdent.C55_masterchain_child` |
| typed `Dict::remove` | reports an error after removing an unreadable value | `C57_remove_unreadable` |
| `MerkleProofBuilder` | caches by hash only, ignoring the Merkle depth; proofs of roots of non-zero level do not load | `Merkle.C36_reused_cell`, `Merkle.C36_root_level` |
| `MerkleUpdate` creation | an included cell whose skipped descendant is reused makes an update that cannot be applied; level gaps; reading data without loading references | `Merkle.C37_forgotten`, `Merkle.C37_level_gap`, `Usage.C37_data_access` |
| `MerkleUpdate::apply` | panics below eight Merkle proofs (debug builds; the shift wraps in release) | `Merkle.C38_deep_panic` |
| `UsageCell::load_reference` (sync) | a thread can get a reference that the tree does not contain yet | `Usage.Sync.C39_threads_late` |
| `UsageTree::add_subtree` | no effect on a cell visited itself | `Usage.C39_visited_subtree` |
| `StorageStat` | roots are never compared with the limit; a failed call leaves an uncounted cell marked visited | `Stat.C40_root_unchecked`, `Stat.C40_after_failure` |
| `UsageTree` in the mode `OnDataAccess` | data that was read through the tree need not be in the proof made with it | `Usage.C39_replay_data_access` |
| `InMsg::load_msg*`, `OutMsg::load_message*` | read the first reference of the envelope cell without checking that it is an envelope | `C62_no_envelope_needed` |
| `ChangeLibraryMode::arbitrary` | gives any byte, also the modes of 128 and above, which lose their highest bit when the action is stored | C99_action_range |
| `boc/serde.rs:93-98`, `230-235` (C93) | `Some(None)` of an option of an option of cells is written like `None` in formats where `Some` leaves no trace (JSON), and comes back as `None` | `C93_nested_option` |
| `models/account/mod.rs:197-204`, `438-466` | `ShardAccount::arbitrary` unwraps the result of building a cell around code and data taken from `Cell::arbitrary` without `check_max_depth`; such a cell can have depth 65535 (an ordinary cell over a pruned branch that claims depth 65534), so building fails and the generator panics. | `C99_deep_cells` |
| `cell/builder.rs:197-221` `Ord for CellBuilder` | the order does not look at `is_exotic`, although equality does: an ordinary and an exotic builder with the same content are not `==` but compare as `Equal`, so an ordered set keeps only one of them | `C98_order_disagrees` |
| `cell/mod.rs:1745-1746` | the short text of a tree (`{:#}`) prints the stored bytes with the completion tag and no number of bits nor types: `0x81` of eight bits and `1000000` of seven bits print alike | `C96_short_ambiguous` |
| `abi/contract.rs:308-335` | Functions of one name (overloads) are collected into a hash map by name: only the last one is kept and the others cannot be found by their ids | `C95_overloads_lost` |
| `cell/mod.rs:1484-1490` `Size::add_assign` | sums of announced sizes wrap in a release build: 65 slices are announced as nothing and do not fit into a cell | `C94_wraps` |
| `cell/slice.rs:226-231` `CellSliceParts::exact_size` | a range beyond the cell is announced in full although `apply` cuts it | `C94_parts_wrong` |
| `dict/typed.rs:994-1003` `Deserialize for Dict` | the entries are set in the order in which a hash map with a random seed yields them; an entry can be too long for its label when it is alone and fit when another one is there already, so the same text is read in one process and refused in another | `C93_order_matters` |
| `models/message/address.rs` `StdAddr`, `IntAddr` in serde | an address with anycast is serialised, its text cannot be deserialised, and other formats silently drop the anycast; every address of variable length is serialised as the text `varaddr` | `C93_anycast_lost`, `C93_var_lost` |
| `num/varuint248.rs`, `models/message/address.rs` in formats that are not readable | numbers of 249 bits and more and external addresses with bits set after their end are accepted | `C93_unchecked_partial` |
| `models/config/params.rs:1334-1378` `Deserialize for ValidatorSet` | more main validators than validators are accepted, which the loader from cells refuses | `C93_main_unchecked` |
| `models/message/mod.rs:72-86` `BodySerializer` | an owned message with a whole exotic cell as its body can be stored, but not serialised in a readable format | `C93_exotic_body_refused` |
| `util.rs:164` `ArrayVec::_ASSERT_LEN` | the constant that asserts `N <= u8::MAX` is never mentioned, so it is never evaluated: a vector of capacity 256 compiles, its 256th push (within the contract) wraps `len` to 0 in a release build and all items are leaked. All vectors in the crate have capacity 4 | `C92_counter_wraps` |
| `RefsIter::peek_prev` | documented to return what `next_back` returns; returns the item before the front end, which on the iterator of a slice can lie outside of its window | `C90_peek_prev_wrong`, `C90_peek_prev_outside` |
| `abi/contract.rs:1168-1174` `with_dst` | the address that was signed (ABI 2.3) is not compared with the destination: a body made for one address and sent to another is refused there | `C89_other_dst` |
| `models/block/mod.rs:87-173`, `Block` with and without `tycho` | the tag 0x11ef55bb is used by both builds for different contents: every block stored with the feature is accepted without it, as a block with an empty dictionary of queue updates | `Tycho.C88_other_build` |
| `models/block/shard_hashes.rs:481-593`, `ShardDescription` with and without `tycho` | the tags are the same but `next_validator_shard` (64 bits) is replaced by an anchor (32 bits): every description of the one build with a time before 2038 is accepted by the other, with wrong fields | `Tycho.C88_misread` |
| derive macros | equal tags are accepted: a stored value is loaded as another one | C86_equal_tags |
| derive macros | the width of a tag wraps at 256 bits: no tag is stored for a text of 64 hexadecimal digits | C86_wide_tag |
| `ConsensusConfig` | three fields have 16 bits, the documented scheme has 8: no documented cell is accepted | C87_consensus_documented |
| `CollationConfig` | tag `#a6` of the first documented scheme with the fields of the second (`#a7`): no documented cell is accepted | C87_collation_documented |
| `StorageUsed::compute` | condition inverted: fails with `IntOverflow` for every account | C60_used_broken |
| `IntMsgInfo::bit_len`, `RelaxedIntMsgInfo::bit_len` | one bit short; a message of 1024 bits is refused although it fits with the body in a cell | C59_internal_refused |
| `MessageLayout::compute_full_size` | counts a reference for a state init that is not there | C58_ghost_refused |
| `Store` for `ExtInMsgInfo`, `ExtOutMsgInfo` | capacity check counts the tag twice | C58_header_refused |
| `OwnedMessage` with an exotic body cell | refused if no layout is given | C59_exotic_body_refused |
| `OutActionsRevIter::next` | a slice with data but no references yields `InvalidData` for ever | C63_endless |
| `OutActionsRevIter::next` | goes on in the middle of an action that could not be read | C63_after_error |
| `OutAction::ChangeLibrary` | modes of 128 and above lose their highest bit when stored | C63_mode_lost |
| `ShardHashes::from_shards` | shards that intersect the others are accepted and silently dropped | C64_dropped |
| `WorkchainShardsTreeRawIter::new` | an ordinary cell without data gives an empty iteration, not an error | C64_silent |
| `ShardsTreeRawIter::next` | goes on with the next workchain after an error inside a tree | C64_after_error |
| `ShardHashes::iter` | documented order is that of shard identifiers; it is that of unsigned keys | C64_order |
| `MsgForwardPrices::get_first_part`, `get_next_part` | the product saturates: of a fee of `2^112` or more the part is `2^112 - 1` | C65_parts_saturate |
| `ValidatorSet::compute_subset` | a validator of weight zero makes a debug assertion fail (without assertions one validator is chosen twice) | C66_zero_weight |
| `Store for ConsensusConfig` | the number of candidates is cut to 8 bits: 300 comes back as 44, 256 can not be loaded | C67_consensus_truncated |
| `Load for WorkchainDescription` | `is_valid` checks only the format when loading, but also the split depths when storing: a loaded value may not be storable | C67_workchain_unchecked |
| `Load for GasLimitsPrices` | any number of flat prefixes is accepted, the last one counts | C67_gas_repeated |
| `Store for ValidatorDescription` | the ADNL address of a validator with a `mc_seqno_since` is stored as zeros | Vset.C68_adnl_lost |
| `Store for ValidatorSet` | stores sets that its own loader refuses | Vset.C68_unchecked_store |
| `Load for ValidatorSet` | accepts a dictionary with fewer validators than declared (then `main` may exceed their number), and weights of zero | Vset.C68_fewer_entries, Vset.C68_zero_weight |
| `Load for ValueFlow` | reads the collected fees before the reference to the first four amounts: with extra currencies in the fees (or burned) another cell is taken for their dictionary | C69_flow_extra, C69_fees_lost |
| `Store for BlockInfo` | stores headers that its own loader refuses (number zero; previous vertical block with vertical number zero) and drops a software version without its flag | C69_header, C69_header_refused |
| `BlockInfo::set_prev_ref` | leaves the flag `after_merge` as it is: what was set is not loaded | C69_prev_ref |
| `Load for McStateExtra` | accepts the second flag, which is not kept: the value is stored in another cell | C71_flag_lost |
| `AugDict::remove*`, `modify_*` | with a tree whose remaining root holds no readable extra the error comes after the tree was replaced; the stored root extra stays the old one | `C34_aug_not_atomic` |
| `store_bigint` | with `signed = false` a negative number is accepted and its magnitude is stored | `C73_sign_lost` |
| `BigIntExt::bitsize` | the bit length is cut to 16 bits, so that a number with 65536 bits passes the check of `store_biguint` for any width | `C73_length_cut` |
| `UnsignedBody::fill_signature`, version 1 | only the signature is stored, the payload is dropped; no function can read the body | `C75_v1_payload_lost`, `C75_v1_unreadable` |
| `build_payload` and `decode_external_input`, version 1 | headers are written before the id and read after it | `C75_v1_headers` |
| `FunctionBuilder::with_id` | one explicit id is used for calls and answers, which can then be taken for each other | `C75_explicit_id` |
| `AbiValue::has_type` | elements of arrays, maps and optionals are not checked against the type: wrong arguments are encoded | `C75_elements_unchecked` |
| `decode_external_input` | the id is read without looking into the next cell: bodies with repeated headers cannot be read | `C75_repeated_headers` |
| `build_payload` | `(time / 1000) as u32 + 60` overflows | `C75_expire_overflow` |
| `AbiSerializer::write_varint` | positive numbers are written without room for a sign: `varint` 128 comes back as -128 | `C74_varint_sign` |
| `AbiSerializer::write_map` | an empty map asks for a reference that the total does not have: before version 2.2 values after it are read wrongly | `C74_empty_maps`, `C74_empty_map` |
| ABI version 1, `load_cell` | array elements in a cell of their own that begin with a reference cannot be read | `C74_big_element` |
| `load_tuple_ext` | an empty tuple as the last item makes the decoder follow the reference of the item before | `C74_last_unit` |
| `write_array` | a fixed array asks for two bits where its type declares one: an optional in place is spread over two cells and cannot be read | `C74_optional_fixed`, `C74_refused` |
| `write_varint`, `require_builder` | zero is refused in `varuint1`; sizes above 1023 bits make `Size::MAX - current` overflow | `C74_refused` |
| `AbiType::from_simple_str` | accepts `uint+8`, `uint008`, `bool[+2]`, widths that no cell holds (`uint65535`) and widths of no bits (`int0`) | `C76_not_canonical`, `C76_widths` |
| `FunctionSignatureRaw`, `EventSignatureRaw` | names are not checked: with a parenthesis in a name a function and an event share a signature and so an id | `C76_parentheses` |
| `Contract::encode_init_data` | a value that is too large for the only leaf of a dictionary is refused or not depending on the iteration order of a hash map | `C77_order_decides` |
| `Contract` init data | a field with key 0 is accepted and overwritten by the public key; fields with equal keys are accepted and overwrite each other | `C77_zero_key`, `C77_shared_key` |
| `find_function_by_id` | functions with equal explicit ids are accepted; which one is found depends on a hash map | `C77_find_ambiguous` |
| `GlobalCapabilitiesIter::size_hint`, `Serialize for GlobalCapabilities` | bits without a name are counted by the size hint though not iterated, and are lost by the human-readable form | `C78_unknown_bit` |
| `check_signatures` | a signature of one node that is listed under several keys is counted several times: the weight can exceed the total weight of the list (or overflow) | `C79_repeated`, `C79_overflow` |
| `extend_signature_with_id` | data signed without an id may be data signed with an id | `C79_id_or_data` |
| ABI `compute_exact_size` | for a negative variable-length integer one byte less may be counted than is written, so before version 2.2 a value that fits is refused | C74_negative_size |
| ABI `load_array_raw` | the length before the dictionary is an upper bound only: an array with fewer elements than it says is accepted | C74_short_array |
| `FromAbi` derived for a struct | a tuple with more items than fields is accepted, the rest is ignored | `C80_tail` |
| `HashBytes::from_abi` | a number of more than 256 bits is cut off without an error | `C80_hash_cut` |
| `VarUint24::from_abi` (also 56 and `Tokens`) | the range is not checked, the result cannot be stored | `C80_range` |
| destructor of cells | the loop that releases deep trees passes over cells with weak handles (`try_as_mut` is `Rc::get_mut`); a chain of them is released by nested destructors, as deep as the chain, so the stack is not bounded | `C82_weak_nesting` |
| destructor of cells, several threads | another thread may release its handle between the check that a cell is shared and the release of the handle in the slot; the cell is then released by a nested destructor. For every n there is a schedule with n nested destructors | `C85_nesting` |
| `compute_removed_cells` | only hashes shown in the update's new tree count as kept; a removed cell that shares a child with a reused (pruned) part makes the walk go into that child and count its references as removed, so a store with counters loses cells that the new tree needs | `C83_lost` |
| multithreaded proof builder | a saved cell is used again at another Merkle depth by whichever thread comes later, so for trees with a cell inside and outside of a Merkle cell the same call gives a valid or an invalid proof, depending on the schedule | `C84_race` |
| multithreaded update builder | each thread has its own map of visited cells, so with filters that include whole subtrees over skipped cells the update depends on what is split off | `C84_update_differs` |
| multithreaded builders, end of the build | cells above a split point are neither saved in finished form nor marked as visited; a chain of n cells with two references each takes 2^n steps | `C84_exponential` |
| `parse_block_id` | does not look at the tag | C64_no_tag |
