{"id": "C01", "title": "Builder appends exactly the stored bits", "statement": "Every successful CellBuilder store operation (bit, zeros, ones, uint of any width, small uint, raw bytes, slice data) leaves all previously stored bits unchanged and appends exactly the stored value's bits, most significant first; it fails with CellOverflow exactly when more than 1023 bits would result, and a failing operation leaves the builder unchanged. Bits past the length always stay zero.", "quantifier": "all builder states, all values, all sequences of store operations, all widths up to 64512 bits and raw buffers shorter than 8192 bytes (beyond these see C51)", "why_tests_cant": "The byte-level code has a separate path per (bit offset mod 8, width mod 8) combination and depends on residual bits of earlier writes; tests exercise a few offsets.", "anchors": ["src/cell/builder.rs: CellDataBuilder::{store_bit,store_zeros,store_ones,store_u8..u256,store_uint,store_small_uint,store_raw,store_slice_data}"]}
{"id": "C02", "title": "Load after store returns the stored value", "statement": "For every unsigned width, storing a value into a builder and later loading the same width at that position of a slice over the finished cell returns the value and advances the slice by exactly the width; any interleaving of store operations can be read back by the mirrored sequence of loads.", "quantifier": "all values, widths 1..64/128/256, positions and sequences of stores", "why_tests_cant": "Bit alignment makes the number of distinct machine paths (offset x width x value) too large to sample.", "anchors": ["src/cell/builder.rs: store_uint, store_u*", "src/cell/slice.rs: load_uint, get_u*, load_u*"]}
{"id": "C03", "title": "Slice reads never leave their window", "statement": "Reading, skipping, splitting and prefix-loading on a CellSlice returns exactly the corresponding bits/references of the slice's window, fails with CellUnderflow exactly when the window is too short, never panics or reads outside the cell, and splitting gives two slices whose contents concatenate to the original.", "quantifier": "all cells, windows, all sequences of reads, lengths up to 64511 bits and 251 references (beyond these see C52)", "why_tests_cant": "Off-by-one errors at window edges only show for particular alignments and window bounds.", "anchors": ["src/cell/slice.rs: get_bit, get_small_uint, get_uint, get_raw, load_*, skip_first, skip_last, split_at, load_prefix, get_prefix, get_suffix, only_first, only_last"]}
{"id": "C04", "title": "Lexicographic comparison, common prefix and uniformity on slices", "statement": "longest_common_data_prefix returns the maximal common leading part of two slices; lex_cmp is the lexicographic order of their bit strings; is_data_prefix_of / is_data_suffix_of decide prefix/suffix; test_uniform returns Some(b) exactly when all remaining bits equal b; strip_data_prefix removes a prefix exactly when it is there.", "quantifier": "all pairs of slices at all alignments", "why_tests_cant": "Byte-aligned and misaligned comparison paths meet only at specific offsets.", "anchors": ["src/cell/slice.rs: longest_common_data_prefix_impl, lex_cmp, is_data_prefix_of, is_data_suffix_of, strip_data_prefix, test_uniform, count_leading"]}
{"id": "C05", "title": "get_raw(offset, ..) only reads inside the slice window", "statement": "CellSlice::get_raw(offset, target, bits) succeeds only if offset + bits fits in the slice's remaining bits, and then returns exactly those bits.", "quantifier": "all slices, offsets and bit counts", "why_tests_cant": "Existing tests only use offset 0 or whole-cell slices; the property fails just when the window ends before the cell does.", "anchors": ["src/cell/slice.rs: CellSlice::get_raw"]}
{"id": "C06", "title": "Prepend and rewind are exact", "statement": "CellDataBuilder::prepend_raw puts the given bits before the existing ones; rewind(n) removes exactly the last n bits and restores the zero-tail invariant, so that later stores behave as if the removed bits had never been written.", "quantifier": "all builders and all n", "why_tests_cant": "Needs the residual-bits invariant after arbitrary histories of stores and rewinds.", "anchors": ["src/cell/builder.rs: prepend_raw, rewind, store_* "]}
{"id": "C07", "title": "Cell descriptor bytes are an exact codec", "statement": "compute_d1/compute_d2 followed by the accessor functions return the level mask, exotic flag, reference count, byte length and alignment that were put in, for all legal inputs; two legal (mask, exotic, refs, bit length) inputs with different masks, flags, counts or byte lengths/alignment give different descriptors.", "quantifier": "all level masks, flags, reference counts 0..4, bit lengths 0..1023", "why_tests_cant": "Cross product of all fields.", "anchors": ["src/cell/mod.rs: CellDescriptor::{compute_d1,compute_d2,new,level_mask,is_exotic,reference_count,byte_len,is_aligned,store_hashes}"]}
{"id": "C08", "title": "Level mask algebra", "statement": "level is the number of significant (set) levels; hash_index(l) counts the significant levels among 1..=l and is monotone, so hash slots are a gap-free numbering of exactly the significant levels; virtualize(a).virtualize(b)=virtualize(a+b); the iterator yields level 0 and then exactly the set levels in increasing order.", "quantifier": "all masks, all levels", "why_tests_cant": "A handful of masks is tested; hash lookup correctness relies on it for all.", "anchors": ["src/cell/mod.rs: LevelMask, LevelMaskIter"]}
{"id": "C09", "title": "Completed cell data determines the bit string", "statement": "The byte representation of a finished cell (padded data with completion tag plus second descriptor byte) determines the data bits and the bit length uniquely and can be decoded back for every bit length 0..=1023.", "quantifier": "all bit strings of length 0..=1023", "why_tests_cant": "All lengths and all tail bit patterns matter (the tag is searched from the low end).", "anchors": ["src/cell/builder.rs: CellBuilder::build_ext", "src/boc/de.rs: cell data tag parsing", "src/cell/cell_impl/mod.rs: compute_bit_len"]}
{"id": "C10", "title": "Only well-formed cells can be built", "statement": "CellBuilder::build / finalize succeed exactly for well-formed contents: the level mask is the OR of the children's masks for ordinary cells, shifted for Merkle cells, the declared mask for pruned branches; exotic cells have the exact shape (size, references) of their type; depth never exceeds 65535. Every cell in a tree built this way satisfies these rules. A library cell can be built for every hash, without a panic, and every library cell is one of these.", "quantifier": "all trees built by any sequence of build operations", "why_tests_cant": "An invariant over all constructible trees.", "anchors": ["src/cell/cell_context.rs: CellParts::compute_hashes", "src/cell/builder.rs: build_ext, build_library"]}
{"id": "C11", "title": "Cell hashes and depths follow the TVM definition", "statement": "For every well-formed cell and every level 0..3, hash(level) and depth(level) equal the recursive definition: representation with masked descriptor, own data at level 0 (previous hash above), children's depths and hashes taken at level (+1 under a Merkle cell); for pruned branches below their top level, the stored values.", "quantifier": "all well-formed cells, all levels", "why_tests_cant": "Needs induction over trees, and slots of the hash table must line up for all 8 masks.", "anchors": ["src/cell/cell_context.rs: compute_hashes", "src/cell/cell_impl/mod.rs: hash, depth, hash_index, PrunedBranch"]}
{"id": "C12", "title": "Equal hash implies equal content", "statement": "If two well-formed level-0 trees without pruned branches have equal representation hashes then they are the same tree, or the hash function collides on two concrete preimages that are cell representations inside those trees. DynCell equality therefore is structural equality.", "quantifier": "all pairs of trees", "why_tests_cant": "Universally quantified over pairs of trees; relies on injectivity of the representation encoding.", "anchors": ["src/cell/cell_context.rs: compute_hashes", "src/cell/mod.rs: impl PartialEq for DynCell"]}
{"id": "C13", "title": "A pruned branch stands in for the cell it replaces", "statement": "make_pruned_branch(cell, d) succeeds exactly for cells with no significant level above d + 1 (any other cell gives InvalidCell) and then produces a valid pruned branch cell whose hash and depth at every level up to d equal those of the original cell, so replacing a subtree by its pruned branch never changes the lower-level hashes of any ancestor.", "quantifier": "all cells, all ancestors, all merkle depths 0..2", "why_tests_cant": "Every position in every tree.", "anchors": ["src/merkle/pruned_branch.rs: make_pruned_branch", "src/cell/cell_context.rs: compute_hashes"]}
{"id": "C14", "title": "Virtualized cells present the hash of what they stand for", "statement": "A virtualized cell shows the tree under a Merkle cell: its hash/depth at level l are those of the underlying cell with the significant levels above the virtualization cut removed, consistently for all of its descendants.", "quantifier": "all cells, all levels and virtualization depths", "why_tests_cant": "All masks and depths.", "anchors": ["src/cell/cell_impl/mod.rs: VirtualCell, VirtualCellWrapper, virtual_hash_index"]}
{"id": "C15", "title": "BOC round trip", "statement": "Encoding any tree of well-formed cells as a BOC and decoding the bytes returns the same root, for both with and without CRC; the decoder consumes all bytes.", "quantifier": "all finite cell trees/DAGs the header can describe, all header options", "why_tests_cant": "Quantifies over all trees; index sizes change with cell counts, so boundary behaviour appears only for huge inputs.", "anchors": ["src/boc/ser.rs: BocHeader::{with_root,encode,encode_header}", "src/boc/de.rs: BocHeader::decode, finalize", "src/boc/mod.rs: Boc::{encode,decode}"]}
{"id": "C16", "title": "BOC decoding of arbitrary bytes is safe", "statement": "For every byte string, decoding either returns an error or produces cells; it never reads outside the input, never panics, and every produced cell satisfies the well-formedness rules; references always point to strictly later cells, so the result is acyclic.", "quantifier": "all byte strings", "why_tests_cant": "Attacker controlled input of unbounded size.", "anchors": ["src/boc/de.rs: BocHeader::decode, RawCell reading, BocHeader::finalize"]}
{"id": "C17", "title": "BOC cell order is topological and deduplicated", "statement": "Header construction lists every distinct subcell (by hash) exactly once, with every parent before its children in the emitted file; the emitted indices refer to the right cells.", "quantifier": "all trees and DAGs, any number of roots", "why_tests_cant": "Depends on the traversal order and sharing pattern of arbitrary DAGs.", "anchors": ["src/boc/ser.rs: BocHeader::fill, fill_deep"]}
{"id": "C18", "title": "BOC size statistics are exact", "statement": "compute_stats predicts the exact size of the encoded output.", "quantifier": "all trees, all header options", "why_tests_cant": "Sizes of all trees; options interact.", "anchors": ["src/boc/ser.rs: compute_stats, encode_header, encode_cells_chunk"]}
{"id": "C19", "title": "BOC with stored hashes round-trips", "statement": "Encoding with stored hashes and decoding again returns the same cells, for every level mask.", "quantifier": "all trees, including non contiguous level masks", "why_tests_cant": "Only some masks break it.", "anchors": ["src/boc/ser.rs: with_hashes / encode_cells", "src/boc/de.rs: store_hashes handling"]}
{"id": "C20", "title": "Multi-root BOC", "statement": "A BOC with several roots decodes to the same roots in the same order; shared subtrees are stored once.", "quantifier": "all root lists up to the limit", "why_tests_cant": "All lists of trees.", "anchors": ["src/boc/ser.rs: add_root", "src/boc/de.rs: roots"]}
{"id": "C21", "title": "Dictionary edge labels: codec and minimality", "statement": "Writing an edge label and reading it back with the same remaining key length returns the label and leaves the reader exactly after it; the chosen encoding is never longer than any of the three legal encodings, and is a function of the label and key length only.", "quantifier": "all labels and remaining key lengths 0..=1023", "why_tests_cant": "Three encodings with length dependent choices.", "anchors": ["src/dict/mod.rs: write_label, read_label"]}
{"id": "C22", "title": "Dictionary operations behave as a finite map", "statement": "After any history of set/replace/add/remove operations, get(k) returns exactly the value of the last effective operation on k, every other key is unaffected, and the returned flag/old value tells whether the key was present.", "quantifier": "all histories, all key lengths, all key sets", "why_tests_cant": "Histories reach arbitrary tree shapes: edge splits and merges at all positions.", "anchors": ["src/dict/ops/{get,insert,remove}.rs"]}
{"id": "C23", "title": "Dictionary cells are canonical", "statement": "The cell produced by any history depends only on the resulting map: two histories with the same final contents give identical cells (hence identical hashes), and a removed key leaves no trace.", "quantifier": "all pairs of histories", "why_tests_cant": "Pairs of unbounded histories.", "anchors": ["src/dict/ops/insert.rs", "src/dict/ops/remove.rs: dict_remove_owned merge of edges"]}
{"id": "C24", "title": "Dictionary iteration is complete and sorted", "statement": "Iterating yields every key/value exactly once in strictly increasing bit order; reversed yields the exact reverse; signed mode yields two's complement order.", "quantifier": "all dictionaries, all key lengths, all modes", "why_tests_cant": "All shapes of trees.", "anchors": ["src/dict/raw.rs: RawIter, RawKeys"]}
{"id": "C25", "title": "Min/max lookup and removal", "statement": "dict_find_bound (min/max, signed/unsigned) returns the least/greatest key of the dictionary in the chosen order together with its value, None exactly when empty; dict_remove_bound removes precisely that entry.", "quantifier": "all dictionaries", "why_tests_cant": "All tree shapes", "anchors": ["src/dict/ops/find.rs: dict_find_bound", "src/dict/ops/remove.rs: dict_remove_bound_owned"]}
{"id": "C26", "title": "Neighbour lookup", "statement": "get_next/get_prev/get_or_next/get_or_prev return the entry with the closest key strictly (or not strictly) greater/smaller than a given key, signed or unsigned, None exactly when there is no such key; the given key need not be present.", "quantifier": "all dictionaries and all keys", "why_tests_cant": "The search descends and backtracks; errors appear only for particular combinations of edge divergence.", "anchors": ["src/dict/ops/find.rs: dict_find_owned, dict_find"]}
{"id": "C27", "title": "Bulk build equals repeated insertion", "statement": "Building a dictionary from a sorted list of unique keys gives the identical cell as inserting the entries one at a time.", "quantifier": "all sorted lists of any length", "why_tests_cant": "Stack machine with merges depends on the whole sequence.", "anchors": ["src/dict/ops/build.rs: build_dict_from_sorted_iter"]}
{"id": "C28", "title": "Bulk modification equals sequential modification", "statement": "Applying a sorted list of (key, optional value) modifications to a dictionary gives the identical cell as the corresponding sequence of single set and remove operations.", "quantifier": "all dictionaries and all sorted modification lists", "why_tests_cant": "All interleavings of the modification list with the tree.", "anchors": ["src/dict/ops/modify.rs"]}
{"id": "C29", "title": "Split and merge by key bit", "statement": "dict_split_by_prefix divides a dictionary into the entries starting with prefix++0 and prefix++1, and merging sibling dictionaries restores the union.", "quantifier": "all dictionaries, all prefixes", "why_tests_cant": "All tree shapes.", "anchors": ["src/dict/ops/split_merge.rs"]}
{"id": "C30", "title": "Sub-dictionary extraction", "statement": "dict_get_subdict(prefix) returns the dictionary of exactly the entries whose key starts with the prefix.", "quantifier": "all dictionaries and prefixes", "why_tests_cant": "Depends on label length vs prefix length.", "anchors": ["src/dict/ops/get.rs: dict_get_subdict"]}
{"id": "C31", "title": "Dictionary merge", "statement": "dict_merge inserts all entries of the other dictionary.", "quantifier": "all pairs of dictionaries", "why_tests_cant": "All pairs.", "anchors": ["src/dict/ops/split_merge.rs: dict_merge"]}
{"id": "C32", "title": "Value iterators follow key order", "statement": "values() in signed or reversed mode yields the values in the order of the respective key iterator; owned value iterators yield slices of the right cells.", "quantifier": "all dictionaries and modes", "why_tests_cant": "Only roots with nonempty labels reveal the bug.", "anchors": ["src/dict/raw.rs: RawValues, RawOwnedValues"]}
{"id": "C33", "title": "Augmented dictionary root extra is the fold of the leaves", "statement": "After any history of set/add/remove on an AugDict, every fork stores the combination of its two children's extras, so the root extra is the fold of all leaf extras in key order, and the key/value view behaves as a map.", "quantifier": "all histories, all augmentation functions", "why_tests_cant": "All histories.", "anchors": ["src/dict/aug.rs", "src/dict/ops/insert.rs: aug_dict_insert", "src/dict/ops/remove.rs: aug_dict_remove_owned"]}
{"id": "C34", "title": "Failing dictionary operations change nothing", "statement": "If a dictionary operation returns an error the dictionary is left exactly as before.", "quantifier": "all dictionaries (also malformed cells), all operations", "why_tests_cant": "All malformed inputs.", "anchors": ["src/dict/ops/insert.rs", "src/dict/ops/remove.rs"]}
{"id": "C35", "title": "Union iteration merges", "statement": "UnionIter over two dictionaries yields the keys of both in order, each key once with the values from each side.", "quantifier": "all pairs of dictionaries, all modes", "why_tests_cant": "All interleavings.", "anchors": ["src/dict/raw.rs: RawUnionIter"]}
{"id": "C36", "title": "Merkle proofs preserve hashes", "statement": "A Merkle proof built from a tree with any filter, is a well-formed cell whose virtualized content has the same hash and depth as the original root; included cells are unchanged, others are replaced by pruned branches; loading the proof accepts it.", "quantifier": "all trees, all filters, all nested Merkle depths", "why_tests_cant": "All trees and all subsets of visited cells.", "anchors": ["src/merkle/proof.rs: MerkleProof, MerkleProofBuilder"]}
{"id": "C37", "title": "Merkle update reconstructs the new state", "statement": "Creating an update from old to new and applying it to old gives exactly new, for every pair of trees and every set of visited old cells.", "quantifier": "all pairs of trees and usage sets", "why_tests_cant": "All pairs.", "anchors": ["src/merkle/update.rs: create, MerkleUpdate::apply"]}
{"id": "C38", "title": "Merkle update application is sound", "statement": "If apply returns Ok on any update and any old tree, then the old tree has the update's old hash and the result has the update's new hash.", "quantifier": "all updates (also adversarial) and trees", "why_tests_cant": "Adversarial updates.", "anchors": ["src/merkle/update.rs: apply_ext"]}
{"id": "C39", "title": "Usage tree tracks exactly the visited cells", "statement": "A cell is reported as visited exactly when it was accessed through the tracked tree, and subtree marks apply to descendants. Touching a tracked cell recursively adds the cells below it and nothing else, so that subtree is never pruned from a proof. A computation that visited all cells it was given can be repeated on the proof made with the usage tree, with the same answers; in the mode that tracks loading this is every computation. The same holds when several threads share tracked cells: whatever the schedule, each of them sees the plain cells, no thread waits forever, and once their operations have returned the tree contains exactly the cells accessed.", "quantifier": "all access histories; any number of threads and all interleavings of their steps", "why_tests_cant": "All histories and schedules; a test runs a few interleavings of the many.", "anchors": ["src/cell/usage_tree.rs: UsageTree, UsageTreeWithSubtrees, UsageCell (with and without sync)", "src/cell/mod.rs: DynCell::touch_recursive"]}
{"id": "C40", "title": "Unique storage statistics", "statement": "StorageStat counts each distinct cell once: cell and bit totals equal the sums over the set of distinct subcells, and the limit result is exact.", "quantifier": "all DAGs and sequences of added cells, all limits", "why_tests_cant": "All sharing patterns.", "anchors": ["src/cell/mod.rs: StorageStat::{add_cell,add_slice,compute_for_cell}"]}
{"id": "C41", "title": "Variable length integers", "statement": "Every value of VarUint24, VarUint56, Tokens and VarUint248 that is valid is stored with the minimal number of whole bytes, the reported bit length is the number of stored bits, and loading returns it; invalid values are refused.", "quantifier": "all values", "why_tests_cant": "2^248 values.", "anchors": ["src/num/mod.rs: impl_var_uints, store_u128", "src/num/varuint248.rs: store_into, load_from"]}
{"id": "C42", "title": "VarUint248 checked arithmetic", "statement": "checked_add/sub/mul/div return the exact mathematical result or None when it does not fit 248 bits (or division by zero); operators agree with them.", "quantifier": "all pairs of values", "why_tests_cant": "2^496 pairs; carries between halves.", "anchors": ["src/num/varuint248.rs"]}
{"id": "C43", "title": "VarUint248 ordering", "statement": "The ordering of VarUint248 is the numerical order.", "quantifier": "all pairs", "why_tests_cant": "2^496 pairs", "anchors": ["src/num/varuint248.rs: Ord"]}
{"id": "C44", "title": "Small fixed width integers", "statement": "UintN (9, 12, 15) and SplitDepth: valid values round trip; out of range values are refused, arithmetic is exact or None.", "quantifier": "all values", "why_tests_cant": "All values times all positions", "anchors": ["src/num/mod.rs: impl_small_uints, SplitDepth"]}
{"id": "C45", "title": "Currency collections add and subtract component-wise", "statement": "checked_add of currency collections is the component-wise sum, failing exactly on overflow of some component; checked_sub is the component-wise difference, failing exactly on a component underflow; (a+b)-b = a up to zero entries.", "quantifier": "all currency collections", "why_tests_cant": "All key sets and amounts", "anchors": ["src/models/currency.rs"]}
{"id": "C46", "title": "Shard identifiers form a binary tree", "statement": "split gives the two halves: children are disjoint, cover exactly the parent's accounts, and merging them returns the parent; opposite, is_ancestor_of, is_parent_of, intersects and contains_account agree with the set of account prefixes each shard denotes; store/load round trip.", "quantifier": "all valid shard identifiers and accounts", "why_tests_cant": "2^60 prefixes", "anchors": ["src/models/block/block_id.rs: ShardIdent"]}
{"id": "C47", "title": "Address encodings round-trip", "statement": "Standard, variable and external addresses survive cell store/load; standard addresses survive textual and base64 rendering with their flags, dictionary keys of addresses round trip.", "quantifier": "all addresses and flags", "why_tests_cant": "2^264 addresses", "anchors": ["src/models/message/address.rs"]}
{"id": "C48", "title": "CRC16 detects errors", "statement": "crc_16 computes the CCITT polynomial remainder; appending it yields zero; any single burst error up to 16 bits is detected.", "quantifier": "all byte strings", "why_tests_cant": "All strings", "anchors": ["src/crc.rs"]}
{"id": "C49", "title": "Bitstring hex rendering round-trips", "statement": "The hex rendering (with completion tag) of any bit string up to 1023 bits parses back to the same bits.", "quantifier": "all bit strings of at most 1023 bits", "why_tests_cant": "Fails only at the extreme lengths", "anchors": ["src/util.rs: Bitstring"]}
{"id": "C50", "title": "Hash bytes text rendering round-trips", "statement": "HashBytes rendered as hex and parsed returns the same bytes; base64 and prefixed forms agree.", "quantifier": "all 2^256 hashes", "why_tests_cant": "All hashes", "anchors": ["src/cell/mod.rs: HashBytes::from_str, fmt"]}
{"id": "C51", "title": "Extreme store widths are refused", "statement": "A store of any width and any buffer, however large, either appends exactly the documented bits or fails with CellOverflow leaving the builder unchanged.", "quantifier": "all builder states, all u16 widths, all buffer lengths", "why_tests_cant": "Fails only for widths close to 65535 or buffers of at least 8192 bytes.", "anchors": ["src/cell/builder.rs: CellDataBuilder::{store_zeros,store_raw}"]}
{"id": "C52", "title": "Extreme read widths are refused", "statement": "Skipping or reading more bits than the window has fails with CellUnderflow for every u16 width.", "quantifier": "all windows, all u16 widths", "why_tests_cant": "Fails only when start + width wraps around 65536.", "anchors": ["src/cell/slice.rs: CellSliceRange::{skip_first,only_first,has_remaining}"]}
{"id": "C53", "title": "Checked arithmetic of small and variable integers", "statement": "checked_add, checked_sub and checked_mul (where offered) of UintN, VarUint24/56 and Tokens return exactly the mathematical result, and None exactly when it does not fit.", "quantifier": "all values of all kinds", "why_tests_cant": "All pairs of values", "anchors": ["src/num/mod.rs: impl_ops, impl_small_uints, impl_var_uints"]}
{"id": "C54", "title": "Text of VarUint248", "statement": "Displaying a VarUint248 gives its decimal notation, and parsing a text of digits gives the number it denotes or an overflow error; so parsing a displayed value returns it.", "quantifier": "all values, all texts, all radixes 2..36", "why_tests_cant": "2^248 values; the unchecked parsing path is only wrong above 2^128", "anchors": ["src/num/varuint248.rs: fmt_u256, from_str_radix, Display, FromStr"]}
{"id": "C55", "title": "Text of shard and block ids", "statement": "Displaying a shard identifier or a block id and parsing the text returns the same value; a parsed text denotes the value returned.", "quantifier": "all shard identifiers and block ids, all texts", "why_tests_cant": "2^100 values and every text", "anchors": ["src/models/block/block_id.rs: ShardIdent, BlockId Display and FromStr"]}
{"id": "C56", "title": "Typed dictionary keys are faithful", "statement": "Every key type has a fixed number of bits; a key is stored as its documented form of that length, the key read back from those bits is the same, different keys have different forms, and the order of the stored forms is the numeric order (unsigned) or non-negative numbers first (signed).", "quantifier": "all key types of the library, all their values, all bit strings of the right length", "why_tests_cant": "2^8 to 2^267 keys per type", "anchors": ["src/dict/mod.rs: DictKey, StoreDictKey, LoadDictKey", "src/num/mod.rs", "src/models/message/address.rs", "src/models/block/block_extra.rs: ShardIdentFull"]}
{"id": "C57", "title": "Typed dictionaries behave as maps", "statement": "A Dict<K, V> behaves as a finite map from keys to values: get, contains, insert (set, replace, add), remove, iteration in either direction, keys, values, iteration over two dictionaries at once, neighbour queries and minimum/maximum see exactly the entries put in and not removed; equal maps have the same root cell; and with the ordinary build context no operation fails.", "quantifier": "all key and value types with faithful codecs, all operation histories", "why_tests_cant": "All histories of inserts and removes over up to 2^267 keys", "anchors": ["src/dict/typed.rs: Dict"]}
{"id": "C58", "title": "Messages round trip", "statement": "A message (borrowed or owned body, final or relaxed header) stored into a cell and loaded back has the same header, state init and body, and reports the layout it was stored in; storing writes exactly the documented form or fails with CellOverflow if there is no room; loading arbitrary data never panics, and whatever is loaded was an encoding of the result.", "quantifier": "all headers, state inits, bodies and layouts; all cells for loading", "why_tests_cant": "Four message types, three headers, four layouts, any body", "anchors": ["src/models/message/mod.rs: Store, Load for BaseMessage, MsgInfo, RelaxedMsgInfo"]}
{"id": "C59", "title": "Message layout is the best that fits", "statement": "A message without a given layout is stored in the first of the layouts (all in the root; body in a cell; state init in a cell; both in cells) in which it fits into one cell, and is refused only if it fits in none; the size declared for its parts is the size they take.", "quantifier": "all messages", "why_tests_cant": "The failure needs a message of exactly 1024 bits", "anchors": ["src/models/message/mod.rs: MessageLayout::{compute,compute_full_size}, exact_size, bit_len"]}
{"id": "C60", "title": "Accounts follow their schemes", "statement": "Accounts, account states, state inits, storage info and shard accounts are stored in exactly their documented form, loaded back from it whatever follows, and nothing else is accepted; the reported sizes and statuses are those of the stored data; the storage used by an account is the number of distinct cells and bits below it.", "quantifier": "all values, all cells for loading", "why_tests_cant": "All combinations of optional parts", "anchors": ["src/models/account/mod.rs: Account, AccountState, StateInit, StorageInfo, StorageUsed, StorageExtra, ShardAccount"]}
{"id": "C61", "title": "Transactions follow their schemes", "statement": "Transactions, their descriptions and all their phases are stored in exactly their documented form, loaded back from it whatever follows, and nothing else is accepted; a transaction whose parts were put into lazy cells gives back the same parts; iterating the outgoing messages yields each message once, in the order of the keys, up to the first invalid one, whose error is yielded last.", "quantifier": "all transactions, phases and dictionaries of outgoing messages", "why_tests_cant": "All combinations of phases, all dictionaries", "anchors": ["src/models/transaction/mod.rs: Transaction, TxInfo, OrdinaryTxInfo, TickTockTxInfo, HashUpdate, TxOutMsgIter", "src/models/transaction/phases.rs"]}
{"id": "C62", "title": "Envelopes keep the message and conserve value", "statement": "Message envelopes, inbound, outbound and enqueued messages are stored in exactly their documented form, loaded back from it, and nothing else is accepted; each accessor of an inbound or outbound message gives the part that its kind of message has, and nothing for the other kinds; the workchain and prefix of a next hop are those in the stored address; for every cell that loads as an envelope the accessors that skip it give the same message, header or error as loading the envelope and then the message; the value exported with a new outbound message (value, IHR fee and remaining forward fee of the message) is the value imported with the same envelope as a final or transit inbound message, and the fees collected are never more than the fee that remains.", "quantifier": "all envelopes, messages and declared fees; all cells for loading", "why_tests_cant": "All combinations of message kinds and amounts", "anchors": ["src/models/message/envelope.rs: MsgEnvelope, IntermediateAddr", "src/models/message/in_message.rs: InMsg::{compute_fees,load_msg,load_msg_cell,load_transaction,transaction_cell,in_msg_envelope_cell,out_msg_envelope_cell}", "src/models/message/out_message.rs: OutMsg::{compute_exported_value,load_message,load_out_msg_envelope,load_reimport_msg,transaction_cell}, EnqueuedMsg"]}
{"id": "C63", "title": "Output actions are read as they were written", "statement": "Every output action is stored in its documented form and loaded back unchanged, and nothing else is accepted; iterating a list of actions yields exactly its actions, the last one first, and ends; over anything else the iteration yields an error and ends, and never panics.", "quantifier": "all actions, all modes, all lists of actions, all cells", "why_tests_cant": "Lists of any length and cells of any shape", "anchors": ["src/models/vm/out_actions.rs: OutAction, OutActionsRevIter"]}
{"id": "C64", "title": "Shard trees partition their workchains", "statement": "The shards of any set of complete trees, given in any order, are stored by from_shards and all of them come back from iteration, workchain by workchain in the order of the keys, each tree from left to right, with the descriptions as given; from non-intersecting shards a tree is built exactly if they cover the workchain; the shards of a tree are in ascending order, do not intersect, and every account belongs to exactly one; iteration over any cell yields shards, then at most one error, then ends, without an error only if the cell is a tree of at most 60 levels; the latest block identifiers are those of the descriptions; descriptions follow their schemes.", "quantifier": "all trees up to the maximal split depth, all orders of shards and of the hash map, all cells", "why_tests_cant": "The number of trees is unbounded, the hash map gives the workchains in random order", "anchors": ["src/models/block/shard_hashes.rs: ShardHashes::{from_shards,iter,raw_iter,latest_blocks}, WorkchainShardHashes, ShardDescription, FutureSplitMerge, WorkchainShardsTreeRawIter, ShardsTreeRawIter"]}
{"id": "C65", "title": "Fees are the documented formulas", "statement": "The storage, gas, forwarding and burned fees computed from a configuration are the documented rational formulas rounded up (burned fees and fee parts: rounded down), for all prices and amounts of work: nothing panics or wraps, the results are valid token amounts, more work never costs less, a period charged in two parts costs at most one unit more, the parts of a forwarding fee never exceed it, burned fees never exceed the fees. An address length is accepted exactly if it is between the bounds and is the upper bound or a whole number of steps above the lower one.", "quantifier": "all prices, amounts, periods, fractions and address formats", "why_tests_cant": "The products reach the limits of 128 bits only for prices and amounts that no unit test tries together; rounding and monotonicity are statements about all inputs.", "anchors": ["models/config/params.rs: StoragePrices::compute_storage_fee, GasLimitsPrices::compute_gas_fee, MsgForwardPrices::{compute_fwd_fee, get_first_part, get_next_part}, BurningConfig::compute_burned_fees, WorkchainFormatExtended::check_addr_len"]}
{"id": "C66", "title": "Validator subsets are fair selections", "statement": "A masterchain subset consists of the first `main` validators, each exactly once, in the order of the set or shuffled so that every order comes from exactly one sequence of draws. A shard subset consists of the requested number of different validators (all if there are fewer), each chosen with a probability proportional to its weight among those not chosen yet. The pseudo-random numbers are the words of the hashes of seed, seed plus one and so on, each used once in order. The short hash is the CRC-32C of the documented text. Nothing panics.", "quantifier": "all validator sets with positive weights, shards, configurations, catchain seqnos, seeds and hash functions", "why_tests_cant": "Whether a choice repeats a validator or is biased depends on every possible draw in every round.", "anchors": ["models/config/params.rs: ValidatorSet::{compute_subset, compute_mc_subset, compute_subset_hash_short}, ValidatorSetPRNG::{with_seed, next_u64, next_ranged}"]}
{"id": "C67", "title": "Configuration parameters survive cells", "statement": "Every fixed-layout configuration parameter (burning, minting, voting, workchains, rewards, elections, validator counts and stakes, storage, gas and forwarding prices, block limits, catchain, consensus, size limits) that is stored loads as the same value; loading accepts exactly the documented encodings, including the older forms with their defaults; what the checks promise (burning share at most one, ordered limits, nonzero numbers) holds for every loaded value; values that fail the check are refused on storing; loading any cell neither panics nor reads outside it.", "quantifier": "all values of the parameters, all cells", "why_tests_cant": "A field order, a width or a missed older form shows only for particular values and tags, and the checks have to hold for every cell that is accepted.", "anchors": ["models/config/params.rs: BurningConfig, ConfigVotingSetup, ConfigProposalSetup, WorkchainDescription, WorkchainFormat, BlockCreationRewards, ElectionTimings, ValidatorCountParams, ValidatorStakeParams, StoragePrices, GasLimitsPrices, BlockLimits, BlockParamLimits, MsgForwardPrices, CatchainConfig, ConsensusConfig, SizeLimitsConfig"]}
{"id": "C68", "title": "Validator sets survive cells", "statement": "A validator set that is stored loads again exactly if it has a validator, the number of masterchain validators is between one and the number of validators, and the total weight is the sum of the weights; it then loads as the same set, each validator with the weight of those before it. A slice in the newer form is accepted exactly if the indices of its dictionary run from zero without gaps up to the declared number or to the end of the dictionary, at least one, with the declared total weight; the older form gives the sum of the weights. Validator descriptions have exactly three accepted forms. Every loaded set meets the conditions of the choice of validators, positive weights apart.", "quantifier": "all validator sets, all well-formed dictionaries of validators, all slices", "why_tests_cant": "The dictionary is read through an iterator; gaps, wrong totals and wrong counts are unbounded families of malformed sets.", "anchors": ["models/config/params.rs: ValidatorSet, ValidatorDescription (Store, Load)", "dict/mod.rs: Dict::load_from_root_ext, dict_load_from_root"]}
{"id": "C69", "title": "Blocks survive cells, and the balance of a block is exact", "statement": "Blocks, headers, value flows, contents, masterchain extras, signatures and block proofs that are stored load as the same value; loading accepts exactly the documented encodings and neither panics nor leaves the cell. A header comes back exactly if its sequence number is not zero, a previous vertical block comes with a nonzero vertical number, and the software version is reported. Setting the software version keeps the flags consistent; setting the previous block never panics, and loading it gives it back. The data to sign determines the block. The check of a value flow says exactly whether the native tokens and every other currency are in balance, or reports an overflow.", "quantifier": "all blocks, headers, flows and proofs; all cells", "why_tests_cant": "Wrong field orders and flags show only for particular combinations of optional parts; the balance has to be exact for every currency, including those that cancel.", "anchors": ["models/block/mod.rs: Block, BlockInfo, PrevBlockRef, BlockRef, ValueFlow (Store, Load, validate, set_gen_software, set_prev_ref, load_prev_ref, build_data_for_sign)", "models/block/block_extra.rs: BlockExtra, McBlockExtra, BlockSignature, Signature, ShardFeeCreated", "models/block/block_proof.rs: BlockProof, BlockSignatures", "models/global_version.rs: GlobalVersion", "models/config/mod.rs: BlockchainConfig"]}
{"id": "C70", "title": "A dictionary with sums can be stored without its own cell", "statement": "The root of a dictionary with sums that is stored in place (its node directly among other data) is recovered: the loader finds the end of the node, returns the same dictionary with the same sum, and leaves the rest unread. Account blocks (the transactions of an account in a block) load as what was stored, and the sum of the fees kept with them is the sum over all transactions.", "quantifier": "all dictionaries with sums, key widths and trailing data; all account blocks", "why_tests_cant": "The end of the node is known only from its label and the layouts of sum and value; which branch is taken depends on the number of entries.", "anchors": ["dict/aug.rs: AugDict::load_from_root_ext", "models/block/block_extra.rs: AccountBlock (Store, Load)", "dict/mod.rs: read_label"]}
{"id": "C71", "title": "Shard states survive cells", "statement": "Shard states of both forms, the data of the masterchain, libraries with their publishers, creator statistics and the bookkeeping of processed messages load as what was stored, and always fit into their cells; the first bit of a cell tells the two forms apart. With the feature tycho, states of the older form are read as the same state and written in the newer form; without it, states of the newer form are refused. Data of the masterchain set in a state are the data loaded from it. Overriding of a genesis is a strict order.", "quantifier": "all states and their parts; all cells; both settings of the feature", "why_tests_cant": "The layout depends on flags, optional parts and the feature; parts are built before and read after other fields.", "anchors": ["models/shard/mod.rs: ShardState, ShardStateUnsplit, ShardStateSplit, LibDescr, ProcessedUptoInfo and its parts, set_custom, load_custom", "models/shard/shard_extra.rs: McStateExtra, ValidatorInfo, ConsensusInfo, GenesisInfo::overrides, KeyBlockRef, KeyMaxLt, CreatorStats, BlockCounters"]}
{"id": "C72", "title": "The blockchain configuration behaves as a map of parameters", "statement": "Every getter of the blockchain configuration gives the value of its own parameter, or its documented fallback (the minter address falls back to the configuration address, the fee collector to the elector, each validator set has a temporary form with precedence), and an error if the parameter is damaged; setting or removing a parameter affects no other parameter; what was set is read back as the same value; a failed change changes nothing; the parameter with the address cannot be removed, so a configuration with it can always be stored; lists of parameters, addresses and storage prices are stored as exactly what was given.", "quantifier": "every configuration in any dictionary form, every history of sets and removals, every value of each parameter type, every context", "why_tests_cant": "a mistake in one of about forty getters and setters (a wrong number, a swapped fallback) shows only for the combination of parameters that are present", "anchors": ["models/config/mod.rs: BlockchainConfig::new_empty, BlockchainConfigParams (get, set, set_raw, remove, contains, all getters and setters), NonEmptyDict, define_config_params"]}
{"id": "C73", "title": "Big integers survive cells", "statement": "A BigUint or BigInt that fits into the requested number of bits is stored as exactly these bits (two's complement when signed) and is read back; numbers that do not fit are refused and leave the builder as it was; the truncating stores append the low bits of every number, of any size and sign. The variable-length forms store every number that their length field can describe in the fewest bytes, read any valid form, and refuse longer numbers. Loading any slice neither panics nor reads outside of it.", "quantifier": "all integers (no bound on their size), all widths up to 1023 bits, length fields of up to 7 bits, all slices", "why_tests_cant": "Sign extension, alignment to bytes and the cut at 64 bits interact for every pair of a number and a width.", "anchors": ["cell/builder.rs: CellBuilder::{store_bigint, store_bigint_truncate, store_biguint, store_biguint_truncate, store_var_bigint, store_var_biguint}", "cell/slice.rs: CellSlice::{load_bigint, load_biguint, load_var_bigint, load_var_biguint}", "util.rs: BigIntExt::bitsize"]}
{"id": "C74", "title": "ABI values come back from their serialized form", "statement": "Under every ABI version, if `AbiValue::make_cell` serializes a value then `AbiType`-directed loading of the cell gives the same value back, however many cells the value is spread over, and different values of one type have different cells; a value whose type fits into one cell takes one cell, within the bits and references that the type declares.", "quantifier": "all ABI versions from 1.0 on; all values: integers of any width, variable-length integers, booleans, cells, addresses, bytes, strings, tokens, tuples, arrays, maps, optionals and references, nested to any depth and of any length; strict and partial loading", "why_tests_cant": "Where the serializer starts a new cell and where the decoder follows a reference are decided by two different rules (declared sizes against remaining bits and references); whether they agree depends on the whole sequence of sizes, which tests only sample.", "anchors": ["src/abi/value/ser.rs: AbiSerializer, AbiValue::make_cell, compute_size_full", "src/abi/value/de.rs: AbiValue::load, load_ext, preload_bits, load_cell", "src/abi/ty.rs: AbiType::max_size"]}
{"id": "C75", "title": "Message bodies of contracts come back", "statement": "The arguments of a function, encoded as the body of an internal message, of an answer, of an event, or (from version 2 on) of an external message with any signature or none, are read back by the same function under the names that the function gives them. A body is accepted by functions of one id only, and with computed ids never as a call and as an answer. A payload that was built can be signed for every address and takes every signature; a body determines signature and payload, and from version 2.3 on what is signed determines address and payload.", "quantifier": "all functions, events and ABI versions, all lists of headers and header values, all arguments (of any nesting and size), all signatures, all slices given to the decoders", "why_tests_cant": "Headers, id and arguments share cells in a way that depends on the declared sizes of everything after them; only a proof covers all places where a cell can end, and tests of the library cover no version 1 messages with signatures", "anchors": ["src/abi/contract.rs: Function::encode_internal_input, decode_internal_input, encode_output, decode_output, decode_external_input, FunctionBuilder::build", "src/abi/contract.rs: ExternalInput::build_input, build_input_without_signature, build_payload", "src/abi/contract.rs: UnsignedBody::fill_signature, Event::encode_internal_input, decode_internal_input", "src/abi/value/ser.rs: AbiSerializer::reserve_headers, write_header_value", "src/abi/value/de.rs: AbiHeader::skip_all"]}
{"id": "C76", "title": "Names of ABI types: descriptions come back, signatures tell types apart", "statement": "A named ABI type written as a description (name, type string with `tuple`, components) is read back as the same type with the same component names, for any nesting of arrays, maps, optionals, references and tuples; every description that is accepted yields a type that survives being written and read again. The full text of two types is equal exactly if the types are equal without names. The signature strings that function and event ids are computed from determine the name, the inputs, the outputs, the major version (and the headers for major version 1), contain nothing else, and no function shares its signature with an event. Versions, headers and map key types come back from their texts.", "quantifier": "All types (unbounded nesting, any number of tuple items, numbers in the range of their Rust types), all descriptions, all names without an opening parenthesis, all header lists, all versions.", "why_tests_cant": "The texts are a context-free language with nesting and suffixes; that no two different types, of all the infinitely many, print alike, and that the ad-hoc parser splits every printed text where the printer joined it, needs an induction over types. An ambiguity would give two functions one id.", "anchors": ["src/abi/ty.rs: AbiType::from_simple_str, Display, DisplayAbiTypeSimple, NamedAbiType Serialize/Deserialize, WithoutName, PlainAbiType, AbiHeaderType", "src/abi/contract.rs: FunctionSignatureRaw, EventSignatureRaw", "src/abi/mod.rs: AbiVersion"]}
{"id": "C77", "title": "Initial data of contracts: what is written, what updates leave alone, and that it is read back", "statement": "Encoding the initial data of a contract gives a dictionary that holds exactly the public key under the key zero and, under the key of every field, the value given for it or the default of its type; only listed fields of the right type are accepted, each at most once. Decoding returns those values. The result does not depend on the order in which the fields are walked (a hash map) or the values are given. Updating existing data, whatever wrote it, changes the public key and the given fields only; updating encoded data gives the cell that encoding with the new values gives. Storage fields come back from their packed form. A function or event is found by its id.", "quantifier": "All descriptions with distinct names and distinct non-zero keys, all value lists, all public keys, all well-formed existing data in any label encoding, all iteration orders, all ABI versions.", "why_tests_cant": "The dictionary is built in the random order of a hash map; that any order gives the same cell and that an update touches nothing else must hold for all orders, keys and previous contents.", "anchors": ["src/abi/contract.rs: Contract::encode_init_data, update_init_data, decode_init_data, encode_fields, decode_fields, find_function_by_id, find_event_by_id", "src/abi/value/mod.rs: AbiType::make_default_value", "src/abi/value/ser.rs: NamedAbiValue::make_builder, tuple_to_builder"]}
{"id": "C78", "title": "Sets of capabilities behave as sets", "statement": "The capabilities of a software version form a set: iterating gives every member exactly once, in the order of bits, and nothing else; adding one adds it alone; collecting any list gives exactly its members whatever the order and repetitions; the announced number of items is the number of items; the names of capabilities are read back; the human-readable form of a set is read back as the same set.", "quantifier": "All 64-bit masks, all capabilities, all lists of capabilities, all texts.", "why_tests_cant": "A mask has 2^64 values, with bits that have no name; tests of the library try three masks, none of them with an unnamed bit.", "anchors": ["src/models/global_version.rs: GlobalCapabilities, GlobalCapability, GlobalCapabilitiesIter, FromIterator, Serialize, Deserialize"]}
{"id": "C79", "title": "Checked signatures weigh what their signers weigh", "statement": "Checking the signatures of a block against a list of validators either fails because a signature by one of them is wrong, or returns the total weight of those validators that have signed, each counted once; entries by others do not matter; the result is never more than the weight of the list. Data for signing with a network id determines the id and the data.", "quantifier": "All dictionaries of signatures in any label encoding, all validator lists, all data, any signature scheme and any hash of public keys, all signature ids.", "why_tests_cant": "A node accepts a block if the returned weight exceeds two thirds of the total; tests check one recorded block with honest entries, not dictionaries made by an adversary.", "anchors": ["src/models/block/block_extra.rs: BlockSignature, BlockSignatureExt::check_signatures", "src/models/config/params.rs: ValidatorDescription::verify_signature", "src/abi/signature.rs: extend_signature_with_id"]}
{"id": "C80", "title": "Rust values survive conversion to ABI values", "statement": "The ABI value of a Rust value (integers, hashes, booleans, addresses, tokens, cells, bytes, strings, options, vectors, arrays, maps, tuples, structs with derived conversions) has the ABI type declared for its Rust type and is converted back to the same value; different values have different ABI values; every in-range ABI value of the declared type is converted; what is encoded into cells, decoded with the declared type and converted back is the value that went in.", "quantifier": "All Rust types built from those with ABI conversions, nested to any depth, and all their values; all ABI values of the declared type; all ABI versions from 2 on.", "why_tests_cant": "The types form an infinite family given by trait implementations and macros; tests convert a few structs.", "anchors": ["src/abi/traits.rs: WithAbiType, WithPlainAbiType, IntoAbi, IntoPlainAbi, FromAbi, FromPlainAbi", "abi-proc/src: derive_with_abi_type.rs, derive_into_abi.rs, derive_from_abi.rs"]}
{"id": "C81", "title": "Searching an augmented dictionary by extras", "statement": "`AugDict::find_by_extra` never fails on a dictionary built by the library; whatever the search object answers, an item it returns is an item of the dictionary with its own extra and value. At every fork the search object is shown the combined extras of all entries of each side. So a search for a property that a combined extra has exactly if one of its parts has it (an index) returns the first (last) such entry, and nothing only if there is none; a search with `Branch` returns the entry with the least (greatest) key; a search with `Ordering` over maxima (minima) returns an entry with the greatest (least) extra.", "quantifier": "all extra types with their laws, all search objects (with state), all dictionaries reachable by any history of operations, all key lengths up to 1023", "why_tests_cant": "a few searches in a fixed dictionary cannot show that an entry is never overlooked for any history, order of keys and labels", "anchors": ["src/dict/ops/find.rs aug_dict_find_by_extra", "src/dict/mod.rs SearchByExtra", "src/dict/aug.rs AugDict::find_by_extra"]}
{"id": "C82", "title": "Releasing deep trees of cells", "statement": "Releasing the last handle of a cell tree of any depth and any sharing needs a bounded stack: destructors are nested at most twice. It never touches a cell that was already released and never releases a cell twice. Afterwards exactly those cells are in memory that can still be reached through other handles, and they are unchanged; a program that has released all its handles leaves no cell in memory.", "quantifier": "every memory with correct reference counts and every shape of shared cells in it, every handle; every sequence of building cells, cloning and releasing handles and taking children", "why_tests_cant": "The destructor takes the tree apart with unsafe pointer reads and keeps its way back in the cells it is releasing. Whether a cell is taken apart in place or only loses a count depends on sharing, so errors need particular shapes and orders of release; tests release a few.", "anchors": ["src/cell/cell_impl/mod.rs: OrdinaryCell::drop, take_first_child, replace_first_child_with_parent, take_next_child", "src/cell/cell_impl/rc.rs: Cell, WeakCell, try_as_mut"]}
{"id": "C83", "title": "Counters of removed cells", "statement": "A store that keeps every cell once, with the number of references to it, moves from an old tree to a new one by adding the new tree and then subtracting the counters that a Merkle update reports as removed. Afterwards each cell of the new tree has the counter it would have in a store of the new tree alone, and each other cell has counter zero: nothing is lost and nothing leaks.", "quantifier": "every pair of old and new cell trees of level zero with any sharing inside and between them, every filter of changed cells from which the update is built", "why_tests_cant": "The counters depend on which parts are shared and where the update cuts the trees. A wrong counter shows much later, as a missing cell or as garbage; tests use a few pairs of trees and do not compare counters with the store.", "anchors": ["src/merkle/update.rs: MerkleUpdate::compute_removed_cells, MerkleUpdate::create"]}
{"id": "C84", "title": "Multithreaded Merkle builders agree with the single-threaded ones", "statement": "Building a Merkle proof or a Merkle update with several threads gives the same result as building it with one: the same cells with the same hashes at all levels, the same set of pruned hashes, or an error in both cases. This does not depend on which cells are handed to other threads nor on the order in which the threads run. A build always ends, and no thread waits for a result that is never set.", "quantifier": "every cell tree (for updates every pair of trees), every filter, every set of cells at which work is split off, every interleaving of the tasks", "why_tests_cant": "The result of a thread depends on which cells other threads have finished at that moment. A test runs a handful of the interleavings, cannot choose them, and a wrong one cannot be repeated.", "anchors": ["src/merkle/proof.rs: MerkleProofBuilder::par_build, MerkleProofBuilder::par_build_raw_ext", "src/merkle/update.rs: MerkleUpdateBuilder::rayon_build_ext, MerkleUpdateBuilder::par_build", "src/merkle/promise.rs: Promise"]}
{"id": "C85", "title": "Cells shared by threads are released safely and completely", "statement": "When threads share cells and clone, give away, upgrade and release their handles, in any order and while other threads release theirs, the release never touches a released cell, never releases a cell twice, and never changes a cell that somebody else can see. At every moment each cell that can be reached from a held handle is in memory with the references it was built with; a weak handle gives back a whole cell or nothing. Every release ends without waiting for another one, and when all have ended exactly the cells that can be reached from held handles are left in memory.", "quantifier": "every history of builds, clones, loads of children, weak handles and releases by any number of threads, every interleaving of the steps of the running destructors", "why_tests_cant": "The destructor moves references through the cells it takes apart while other threads look at the counts of the same cells. Between its check that a cell is not shared and the release of its own handle anything may happen; a test hits a few of the interleavings by chance, and a wrong one is memory corruption that is seen much later, if at all.", "anchors": ["src/cell/cell_impl/mod.rs: OrdinaryCellHeader::drop, take_first_child, replace_first_child_with_parent, take_next_child", "src/cell/cell_impl/sync.rs: Cell::downgrade, WeakCell::upgrade, Cell::try_as_mut"]}
{"id": "C86", "title": "Derived codecs follow the scheme of the struct in every version", "statement": "For a struct with the attributes of the derive macros (tags, fields since a version, a validation), the derived code stores a value as the tag of the oldest version that can hold it followed by the fields of that version, and loads every version, with defaults for the fields that the version does not have. Loading what was stored gives the value back; a new version of a struct reads all data of older ones and writes the same data as they do as long as the new fields have their defaults; older code refuses versions it does not know. Values that the validation refuses are neither stored nor loaded. Nothing else is accepted and nothing panics.", "quantifier": "every struct the macros accept (any number of fields, tags and versions, any field codecs that are sound), every value, every cell", "why_tests_cant": "Macros are tested through a handful of structs; the property is about all structs that users write. The choice of the version depends on which fields have their defaults, so the number of cases grows with every version.", "anchors": ["proc/src/derive_load.rs: build_struct, load_tags_versioned, load_tag_op_value, load_op", "proc/src/derive_store.rs: build_struct, store_tags_versioned, store_tag_op", "proc/src/internals/attr.rs: parse_tag", "proc/src/internals/ast.rs: Container::validate"]}
{"id": "C87", "title": "Parameters and queue positions of tycho are stored by their schemes and always fit", "statement": "The configuration of collation and consensus, the execution parameters and the processed positions of message queues (feature tycho) are loaded back as they were stored, and exactly the data of their schemes is accepted. Every value fits into one cell, so storing never fails. Execution parameters without the newest field are stored as the old version. A cell written by the documented scheme is accepted.", "quantifier": "every value of the fifteen structs, every cell", "why_tests_cant": "Sizes and optional parts combine: whether the largest collation config with all versions of its parts fits is a statement on all values. Data written by other implementations, which follow the documented scheme, is not in the test suite.", "anchors": ["src/models/config/params.rs: CollationConfig, MsgsExecutionParams, WorkUnitsParams, ConsensusConfig", "src/models/shard/mod.rs: ProcessedUptoInfo, ProcessedUptoPartition, ExternalsProcessedUpto, InternalsProcessedUpto", "src/models/block/mod.rs: OutMsgQueueUpdates", "proc/src: Store, Load"]}
{"id": "C88", "title": "Blocks of tycho come back from cells, and the data of the two builds is not confused", "statement": "With the feature tycho, blocks with the updates of their queue, headers with milliseconds, block contents, signatures, proofs and descriptions of shards are loaded back as they were stored, and exactly the data of their schemes is accepted, without panics. Storing a header never fails. Headers and contents stored without the feature are loaded with the same fields. What one build stores the other loads as the same values or refuses.", "quantifier": "every value, every slice, both builds", "why_tests_cant": "The two builds are different programs, and no test runs both. Whether the bits of one layout are also well-formed in the other is a statement on all values.", "anchors": ["src/models/block/mod.rs: Block, BlockInfo, BlockExtra, OutMsgQueueUpdates", "src/models/block/block_proof.rs: BlockProof, BlockSignatures", "src/models/block/shard_hashes.rs: ShardDescription"]}
{"id": "C89", "title": "Calls of contracts arrive as they were made", "statement": "A call made with encode_external(..).build_message(address), with any state init, signed with any key and optional signature id and stored as a message, is loaded with this address and state init and a body from which decode_external_input gives the arguments back and in which headers, reported time of expiration, function id and signature stand as given. A contract at this address, which takes the hash of its address (from ABI 2.3 on) and of all that follows the signature, and prepends the id of its network, finds that the signature fits. Once a payload is made it can be signed for every address and always fits into a message. From 2.3 on what is checked for another address, another call or another network is different data, so a signature is of no use there. The same holds for messages without signature and, when they can be stored, for internal messages.", "quantifier": "every function of version 2 or later, arguments, headers, address, state init, key, signature id and time", "why_tests_cant": "The body, its signature and the message around it are laid out by three layers that reserve room for each other; tests try a few calls. That a signature is bound to one address, call and network is a statement on all pairs of messages.", "anchors": ["src/abi/contract.rs: ExternalInput, UnsignedExternalMessage, UnsignedBody, Function::encode_internal_message", "src/abi/signature.rs: extend_signature_with_id", "src/models/message/mod.rs: OwnedMessage"]}
{"id": "C90", "title": "Iterators over children behave as queues with two ends", "statement": "Whatever sequence of next, next_back, peek and len is called on an iterator over the references of a cell or of a slice, the answers are those of a queue with two ends that holds exactly the references of the cell, or those in the window of the slice: every child comes once, from the front in order, from the back in reverse, and nothing outside the window. peek shows what next returns, and peek_prev what next_back returns, as documented.", "quantifier": "all cells and slices, all sequences of calls", "why_tests_cant": "The two ends share one window; only all interleavings show that they never overlap and never leave it.", "anchors": ["src/cell/mod.rs: RefsIter, ClonedRefsIter, DynCell::references", "src/cell/slice.rs: CellSlice::references"]}
{"id": "C91", "title": "Values survive their BOCs, as bytes and as text", "statement": "A value of any type, encoded with BocRepr as bytes, hex or base64, is decoded to the same value; a cell written as hex, as base64 or through serde (readable or not) is read back as the same cell. It can be encoded exactly if its encoding fits into one cell and the resulting tree is well-formed. Decoding accepts exactly the BOCs whose root is an ordinary cell that begins with an encoding of the value, text means the bytes that it denotes (other text is an unknown BOC), no input panics, and the two kinds of failures are told apart. Encoding in parallel gives the same bytes whatever the order in which the tasks end.", "quantifier": "all value types with a sound codec, all values, all inputs, all schedules of the tasks", "why_tests_cant": "The statement joins the codec of every type with the cell builder and the BOC writer and reader, for values of every shape.", "anchors": ["src/boc/mod.rs: Boc::encode_hex, Boc::encode_base64, Boc::decode_hex, Boc::decode_base64, BocRepr, BocReprError", "src/boc/ser.rs: BocHeader::encode_rayon", "src/boc/serde.rs: SerdeBoc", "src/cell/mod.rs: Serialize for DynCell, DynCell::parse"]}
{"id": "C92", "title": "Small vectors own their items", "statement": "A vector on the stack with room for at most 255 items, and the iterator it turns into, behave like lists under any sequence of creating, pushing within the capacity, reading, cloning, iterating, taking apart and dropping: no memory is read that was not written, every answer is that of the lists, no item is dropped twice, nothing that can still be reached has been dropped, and when the vectors are gone every item is with the user or was dropped.", "quantifier": "any capacity up to 255 and any finite program over any number of vectors and iterators whose pushes respect the documented contract", "why_tests_cant": "double drops and leaks depend on the order of operations, above all on iterators dropped half way; tests run a few orders and do not see uninitialised memory", "anchors": ["src/util.rs: ArrayVec, ArrayVecIntoIter"]}
{"id": "C93", "title": "Values survive serde", "statement": "Addresses, shards, block identifiers, hashes, variable length integers, currencies, state inits, message headers and messages, validator sets, cells, options, vectors, arrays and maps of cells nested to any depth, values in cells, dictionaries, sets of keys and tables of parameters that are serialised through serde and deserialised in the same kind of format (readable or not) are the same; the order of fields, unknown fields and the order in which a hash map is walked do not matter; of repeated keys the last one counts; whatever is deserialised is a valid value of its type.", "quantifier": "all values of these types, all orders of fields and of hash maps, all data models as input", "why_tests_cant": "The data comes from outside and hash maps are walked in an order that changes with every process; a test sees a few values and one order.", "anchors": ["src/dict/typed.rs: Serialize and Deserialize for Dict", "src/models/message/mod.rs: Serialize and Deserialize for BaseMessage, MsgInfo", "src/models/message/address.rs: Serialize and Deserialize for IntAddr, StdAddr, ExtAddr", "src/models/transaction/mod.rs: serde_in_msg, serde_out_msgs", "src/models/config/mod.rs: Serialize and Deserialize for BlockchainConfigParams", "src/models/config/params.rs: Deserialize for ValidatorSet", "src/models/block/block_id.rs: Serialize and Deserialize for ShardIdent, BlockId", "src/num/varuint248.rs: Serialize and Deserialize for VarUint248", "src/cell/lazy.rs: Serialize and Deserialize for Lazy", "src/boc/serde.rs: SerdeBoc, SerializeAsBoc, DeserializeAsBoc", "src/cell/mod.rs: Serialize and Deserialize for HashBytes"]}
{"id": "C94", "title": "Announced sizes are the stored ones", "statement": "Every type that announces its size (integers of variable and fixed length, cells and lazy cells, slices, dictionaries, currency collections, state inits, headers of messages, options and tuples of them to any depth) is stored in exactly the announced number of bits and references; whether a value can be stored follows from the announced size and the room that is left; the announced sizes of any sequence of values, added up, fit into a cell exactly if the values can be stored one after another. Sizes can be subtracted again. Counters of cells and bits never run over: sums of any number of them are exact or the largest number, and do not depend on the order.", "quantifier": "every type built from the types with a size, every value, every builder, every sequence of values, every list of counters", "why_tests_cant": "The types nest to any depth and the announced size is computed apart from the writer; a test compares the two for single values, and overflows of the 16-bit and 8-bit sums need sequences of dozens of values.", "anchors": ["src/cell/slice.rs ExactSize", "src/cell/mod.rs Size", "src/cell/mod.rs CellTreeStats", "src/num/mod.rs exact_size", "src/num/varuint248.rs exact_size", "src/models/currency.rs exact_size", "src/models/account/mod.rs exact_size_const", "src/models/message/mod.rs exact_size_const", "src/dict/typed.rs exact_size", "src/dict/aug.rs exact_size", "src/cell/lazy.rs exact_size"]}
{"id": "C95", "title": "Contracts are made of their descriptions as these say", "statement": "A contract read from a JSON description has exactly the declared version, headers, functions, events, fields and initial data: the version text has precedence over the number, explicit ids are taken as written (`0x` and hexadecimal digits), other ids are the lower 31 bits of the hash of the signature (highest bit clear for calls and events, set for answers), and of entries with one name the last one stays. Exactly the readable descriptions are accepted. When ids differ, the first 32 bits of an encoded call, answer or event lead to its function or event in whatever order the contract keeps them; this one reads the arguments back and all others refuse. Computed ids of different functions or events can only be equal if different signatures have the same 31 bits of hash, and names of arguments have no part in them. The builders make the same functions and events.", "quantifier": "all descriptions, hash functions, functions, events, arguments and orders of the maps", "why_tests_cant": "Descriptions, names and hash map orders are unbounded; that unrelated functions refuse a body, and that an id clash needs a hash clash, cannot be sampled.", "anchors": ["src/abi/contract.rs: Deserialize for Contract", "src/abi/contract.rs: Contract::find_function_by_id", "src/abi/contract.rs: FunctionBuilder", "src/abi/contract.rs: EventBuilder", "src/abi/contract.rs: compute_function_id", "src/abi/contract.rs: compute_event_id", "src/abi/ty.rs: NamedAbiType::flatten"]}
{"id": "C96", "title": "The printed text of a tree of cells lists every cell once per path, and determines the tree", "statement": "Printing a cell tree (Display of DynCell::display_tree) ends and prints each cell before its children, the children in their order, each two columns further to the right. Two trees have the same full text exactly if they are the same tree (types, bits, references); no full text is the beginning of another one. The text of a root alone tells its type, data, number of bits, number of references, depth and representation hash. The short form ({:#}) determines the shape of the tree and the stored bytes of each cell, but not the number of bits: two different cells print alike there.", "quantifier": "all finished cells of any size and shape, both forms of the text, every text that follows", "why_tests_cant": "texts of trees are compared by people and by snapshot tests; a test shows a few trees, not that no two trees ever share a text or that the stack visits each shape in order", "anchors": ["src/cell/mod.rs: DisplayCellRoot, DisplayCellTree, LevelMask Debug, CellType Debug"]}
{"id": "C97", "title": "Used writers of bags of cells behave like new ones, and an interrupted write leaves a beginning of the bag that no reader accepts", "statement": "Whatever has been done with a BOC writer before (roots added, options changed, cleared, encoded, turned into a cache and made anew), each bag it appends to a target is the one a new writer with the roots since the last clear and the same options makes; what the target held before stays and does not enter the checksum. Encoding many cells with one shared cache gives what encoding without a cache gives. When a bag is written to a stream, then for every sequence of partial writes, interruptions, errors and for every point at which the process stops, the medium holds a beginning of the bag; a successful call means the whole bag; a stream that makes progress gets it. A reader accepts what an interrupted write left only if it is the whole bag, so a cell read from there is the cell that was written.", "quantifier": "all histories of operations on a writer, all targets, all cells, all sizes of chunks, all sequences of answers of the stream and all crash points", "why_tests_cant": "depends on histories of reuse and on the point of a failure; tests encode once into an empty vector", "anchors": ["src/boc/ser.rs: BocHeader::clear, into_cache, with_root_and_cache, add_root, encode, encode_to_writer, encode_crc", "src/boc/mod.rs: Boc::encode_with_cache"]}
{"id": "C98", "title": "Comparing builders, ABI types, ABI values and maps means comparing their content", "statement": "Two data builders are equal, and neither is before the other, exactly if the same bits were stored in them; they are ordered by length and then by their bits. Two cell builders are equal exactly if they agree in the exotic flag, in the stored bits and in the hashes of their references; their order can be read from either side, is transitive, and treats two builders as level exactly if they are equal. Two ABI types or values compared without names are equal exactly if they become identical when all names are removed; equal types feed the same input to every hash function and different types feed different inputs; equal values have equal types and are encoded as the same cell; reading a cell by either of two equal types gives equal values. Two hash maps are equal exactly if they have the same keys and equal values under every key.", "quantifier": "all builders reachable by storing, all ABI types and values of any nesting, all cells, all versions, all maps with any order of entries", "why_tests_cant": "Equality, ordering and hashing have to agree for every pair and triple of values; tests compare a few pairs, and disagreements show only when a set or a map silently drops or duplicates an element.", "anchors": ["src/cell/builder.rs: PartialEq, Ord for CellBuilder, CellDataBuilder", "src/abi/ty.rs: PartialEq, Hash for WithoutName<AbiType>", "src/abi/value/mod.rs: PartialEq for WithoutName<AbiValue>", "src/abi/mod.rs: WithoutName"]}
{"id": "C99", "title": "Random cells, addresses, balances and actions are always valid", "statement": "The generators of random cells for fuzz tests (`Cell::arbitrary`, `CellBuilder::arbitrary`, `OrdinaryCell::arbitrary`, also for Merkle proofs and updates) end on every input without a panic: they refuse the input or give a cell that is a well-formed tree, whose Merkle cells name the hashes and depths of their children. `OrdinaryCell` gives trees without exotic cells only, and every such tree comes from some input. `has_max_depth` is true exactly when the cell has depth 65535 at some level. The generators of internal and external addresses never panic either; they give exactly the addresses that can be stored, with rewrite prefixes of 1 to 30 bits, each one for some input. The generators of amounts and of balances give a value on every input: exactly the values of the type, for currencies exactly the canonical dictionaries of at most 127 amounts. The generator of output actions never panics, gives cells of level 0 only and any byte of flags.", "quantifier": "every input of the fuzzer (of any length), every nesting of cells, every well-formed ordinary tree, every storable address", "why_tests_cant": "A fuzz test samples inputs of its own generator; that no input makes the generator itself panic, or leaves a kind of cell out, is a statement about all inputs.", "anchors": ["src/arbitrary.rs: OrdinaryCell, OrdinaryCellBuilder, check_max_depth", "src/cell/builder.rs: Arbitrary for CellBuilder", "src/cell/mod.rs: Arbitrary for Cell, CellType, DynCell::has_max_depth", "src/merkle/proof.rs: Arbitrary for MerkleProof", "src/merkle/update.rs: Arbitrary for MerkleUpdate", "src/models/message/address.rs: Arbitrary for IntAddr, StdAddr, VarAddr, ExtAddr, Anycast", "src/num/mod.rs: Arbitrary for SplitDepth, VarUint24, VarUint56, Tokens", "src/num/varuint248.rs: Arbitrary for VarUint248", "src/models/currency.rs: Arbitrary for CurrencyCollection, ExtraCurrencyCollection", "src/models/vm/out_actions.rs: Arbitrary for OutAction, LibRef"]}
