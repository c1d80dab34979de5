import Verif.BocDe
/-
Bags of cells: the writer (`boc/ser.rs`).
-/
namespace Verif

mutual
/-- An upper bound for the number of iterations of `fill_deep` on a cell. -/
def CCell.steps : CCell → Nat
  | .mk _ _ _ rs _ => CCell.stepsList rs + 1
def CCell.stepsList : List CCell → Nat
  | [] => 0
  | c :: cs => CCell.steps c + 1 + CCell.stepsList cs
end

namespace Boc

/-- `boc/ser.rs:44-53` `BocHeader`. The map from hashes to indices is a list of pairs with the newest entry first. The
counters are natural numbers (`u32` and `u64` in the code). -/
structure Writer where
  roots : List Nat
  index : List (Hash × Nat)
  cells : List CCell
  dataSize : Nat
  refCount : Nat
  withoutHashes : Bool
  crc : Bool

namespace Writer

/-- `boc/ser.rs:55-69` `default`. -/
def new : Writer := ⟨[], [], [], 0, 0, false, false⟩

/-- `rev_indices.get`. -/
def find (w : Writer) (h : Hash) : Option Nat := (w.index.find? fun e => e.1 == h).map (·.2)

/-- The field `cell_count`: it is increased with every new cell. -/
def count (w : Writer) : Nat := w.cells.length

end Writer

/-- `boc/ser.rs:465-473` `byte_len_full`. -/
def byteLenFull (d : CellDescriptor) (withoutHashes : Bool) : Nat :=
  d.byteLen + if !withoutHashes && d.storeHashes then (d.levelMask.level + 1) * (32 + 2) else 0

/-- `boc/ser.rs:427-433` (the same statements in `451-457`): a cell whose children are all listed. -/
def Writer.push (w : Writer) (c : CCell) : Writer :=
  { w with
    index := (c.reprHash, w.count) :: w.index, cells := w.cells ++ [c]
    dataSize := w.dataSize + byteLenFull c.desc w.withoutHashes, refCount := w.refCount + c.desc.referenceCount }

mutual
/-- `boc/ser.rs:419-434` `fill_recursive`. -/
def Writer.fillRec (w : Writer) : CCell → Writer
  | .mk d n bs rs hs => (w.fillList rs).push (.mk d n bs rs hs)
/-- The loop `boc/ser.rs:421-425`. -/
def Writer.fillList (w : Writer) : List CCell → Writer
  | [] => w
  | c :: cs => Writer.fillList (if (w.find c.reprHash).isSome then w else w.fillRec c) cs
end

/-- `boc/ser.rs:436-462` `fill_deep`: the loop over the stack. An entry of the stack is a cell and its references that have
not been visited yet; the top of the stack comes first. The loop of the code has no bound. -/
def Writer.deepGo : Nat → List (CCell × List CCell) → Writer → Option Writer
  | _, [], w => some w
  | 0, _ :: _, _ => none
  | fuel + 1, (c, []) :: stack, w => deepGo fuel stack (w.push c)
  | fuel + 1, (c, r :: rs) :: stack, w =>
    if (w.find r.reprHash).isSome then deepGo fuel ((c, rs) :: stack) w
    else deepGo fuel ((r, r.refs) :: (c, rs) :: stack) w

/-- `boc/ser.rs:436-462` `fill_deep`; a run that does not end within the bound gives back the input (C17 shows that this does
not happen). -/
def Writer.fillDeep (w : Writer) (root : CCell) : Writer := (deepGo root.steps [(root, root.refs)] w).getD w

/-- `boc/ser.rs:402-418` `fill`. -/
def Writer.fill (w : Writer) (root : CCell) : Writer × Nat :=
  match w.find root.reprHash with
  | some i => (w, i)
  | none =>
    let w' := if root.reprDepth ≤ 128 then w.fillRec root else w.fillDeep root
    (w', w'.count - 1)

/-- `boc/ser.rs:174-178` `add_root`. -/
def Writer.addRoot (w : Writer) (root : CCell) : Writer :=
  { (w.fill root).1 with roots := (w.fill root).1.roots ++ [(w.fill root).2] }

/-- `boc/ser.rs:76-80` `with_root`. -/
def Writer.withRoot (root : CCell) : Writer := Writer.new.addRoot root

/-- `boc/ser.rs:180-185` `with_crc`. -/
def Writer.withCrc (w : Writer) (b : Bool) : Writer := { w with crc := b }

/-- `boc/ser.rs:187-194` `without_hashes`. -/
def Writer.setWithoutHashes (w : Writer) (b : Bool) : Writer := { w with withoutHashes := b }

/-- `boc/ser.rs:164-171` `clear`. -/
def Writer.clear (w : Writer) : Writer := { w with roots := [], index := [], cells := [], dataSize := 0, refCount := 0 }

/-- `boc/ser.rs:493-495` `number_of_bytes_to_fit`. -/
def bytesToFit (l : Nat) : Nat := 8 - (if l = 0 then 64 else 63 - Nat.log2 l) / 8

/-- `boc/ser.rs:475-491` `BocHeaderStats`. -/
structure Stats where
  offsetSize : Nat
  refSize : Nat
  totalCellsSize : Nat
  totalSize : Nat

/-- `boc/ser.rs:293-327` `compute_stats`. -/
def Writer.stats (w : Writer) : Stats :=
  let refSize := bytesToFit w.count
  let total := w.dataSize + w.count * 2 + refSize * w.refCount
  let offsetSize := bytesToFit total
  ⟨offsetSize, refSize, total, 4 + 2 + refSize * (3 + w.roots.length) + offsetSize + total + (if w.crc then 4 else 0)⟩

/-- `boc/ser.rs:329-360` `encode_header`. -/
def Writer.header (w : Writer) : List Byte :=
  let s := w.stats
  [0xb5, 0xee, 0x9c, 0x72] ++ [BitVec.ofNat 8 s.refSize ||| (if w.crc then 0x40 else 0), BitVec.ofNat 8 s.offsetSize] ++
    beBytes s.refSize w.count ++ beBytes s.refSize w.roots.length ++ beBytes s.refSize 0 ++ beBytes s.offsetSize s.totalCellsSize ++
    w.roots.flatMap fun r => beBytes s.refSize (w.count - r - 1)

/-- `boc/ser.rs:367-369`: the descriptor that is written. -/
def Writer.descOf (w : Writer) (c : CCell) : CellDescriptor :=
  ⟨c.desc.d1 &&& ~~~ (if w.withoutHashes then 0x10 else 0), c.desc.d2⟩

/-- `boc/ser.rs:370-378`: the stored hashes and depths. -/
def hashBytes (d : CellDescriptor) (c : CCell) : List Byte :=
  if d.storeHashes then (d.levelMask.toList.flatMap fun l => c.hash l) ++ d.levelMask.toList.flatMap fun l => u16be (c.depth l) else []

/-- `boc/ser.rs:366-388`: one cell. A child that is not listed is skipped (in a debug build an assertion fails); C17 shows
that this does not happen. -/
def Writer.cellBytes (w : Writer) (refSize : Nat) (c : CCell) : List Byte :=
  [(w.descOf c).d1, (w.descOf c).d2] ++ hashBytes (w.descOf c) c ++ c.data ++
    c.refs.flatMap fun r => match w.find r.reprHash with
      | some i => beBytes refSize (w.count - i - 1)
      | none => []

/-- `boc/ser.rs:362-389` `encode_cells_chunk`. -/
def Writer.cellsBytes (w : Writer) (refSize : Nat) (chunk : List CCell) : List Byte := chunk.reverse.flatMap (w.cellBytes refSize)

/-- `boc/ser.rs:196-207` `encode` (into an empty target) with `391-400` `encode_crc`. -/
def Writer.encode (w : Writer) : List Byte :=
  let body := w.header ++ w.cellsBytes w.stats.refSize w.cells
  body ++ if w.crc then leBytes (crc32c body) else []

/-- `rchunks(k)`: chunks from the end of the list (`fuel` bounds their number). -/
def rchunks (k : Nat) : Nat → List CCell → List (List CCell)
  | 0, _ => []
  | fuel + 1, l => if l.isEmpty then [] else l.drop (l.length - k) :: rchunks k fuel (l.take (l.length - k))

/-- `boc/ser.rs:209-250` `encode_to_writer`, into a writer that never fails: the bytes written, and whether the assertion at
the end (debug builds only) holds. -/
def Writer.encodeToWriter (w : Writer) (chunkSize : Nat) : List Byte × Bool :=
  let chunks := w.header :: (rchunks chunkSize w.cells.length w.cells).map (w.cellsBytes w.stats.refSize)
  let crc := chunks.foldl crcAppend 0
  (chunks.flatten ++ (if w.crc then leBytes crc else []), (chunks.map List.length).sum == w.stats.totalSize)

/-- `boc/mod.rs:135-146` `Boc::encode`. -/
def encode (c : CCell) : List Byte := (Writer.withRoot c).encode

/-- `boc/mod.rs:189-203` `Boc::encode_pair`. -/
def encodePair (a b : CCell) : List Byte := ((Writer.withRoot a).addRoot b).encode

end Boc
end Verif
