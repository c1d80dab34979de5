import Verif.Cell
/-
Bags of cells: the reader (`boc/de.rs`).
Every read of the input is checked here: a read outside of it is the outcome `BocErr.fault`, and an arithmetic underflow
is `BocErr.panic`. C16 shows that neither happens.
-/
namespace Verif

/-- `boc/de.rs:545-598` `Error`, and two outcomes that are not errors of the code. -/
inductive BocErr where
  | unexpectedEof | unknownBocTag | invalidHeader | invalidRefSize | invalidOffsetSize | rootCellNotFound
  | unexpectedMultipleRoots | tooManyRootCells | absentCellsNotSupported | tooFewRootCells | invalidTotalSize
  | rootOutOfBounds | invalidRef | unnormalizedCell | invalidRefOrder | invalidCell | invalidChecksum
  | fault | panic
  deriving DecidableEq, Repr

namespace Boc

/-- `if !cond { return Err(e) }`. -/
def ensure (cond : Bool) (e : BocErr) : Except BocErr Unit := if cond then .ok () else .error e

/-- The big-endian number in the bytes (`util.rs:80-115` `read_be_u32_fast`, `read_be_u64_fast`). -/
def beNat (l : List Byte) : Nat := l.foldl (fun a b => a * 256 + b.toNat) 0

/-- The last `n` bytes of a big-endian number (`to_be_bytes()[4 - n..]`). -/
def beBytes : Nat → Nat → List Byte
  | 0, _ => []
  | n + 1, v => beBytes n (v / 256) ++ [BitVec.ofNat 8 v]

/-- A read of the next `n` bytes. The reader is an offset into the data in the code (`boc/de.rs:308-364`); here it is the
rest of the data. -/
def next (n : Nat) (rest : List Byte) : Except BocErr (List Byte × List Byte) :=
  if n ≤ rest.length then .ok (rest.take n, rest.drop n) else .error .fault

/-- `boc/de.rs:318-345` reads of numbers. -/
def nextNat (n : Nat) (rest : List Byte) : Except BocErr (Nat × List Byte) := do
  let (b, rest) ← next n rest
  .ok (beNat b, rest)

/-- `boc/mod.rs:17-27` `BocTag`. -/
inductive Tag where
  | indexed | indexedCrc32 | generic
  deriving DecidableEq, Repr

/-- `boc/mod.rs:32-57` `from_bytes`. -/
def Tag.fromBytes (b : List Byte) : Option Tag :=
  if b = [0xb5, 0xee, 0x9c, 0x72] then some .generic
  else if b = [0xac, 0xc3, 0xa7, 0x28] then some .indexedCrc32
  else if b = [0x68, 0xff, 0x65, 0xf3] then some .indexed
  else none

/-- The variables set in `boc/de.rs:51-82`. -/
structure Flags where
  hasIndex : Bool
  hasCrc : Bool
  hasCacheBits : Bool
  refSize : Nat
  multi : Bool

/-- `boc/de.rs:59-82`. -/
def flagsOf (tag : Tag) (flags : Byte) : Flags := match tag with
  | .indexed => ⟨true, false, false, flags.toNat, false⟩
  | .indexedCrc32 => ⟨true, true, false, flags.toNat, false⟩
  | .generic => ⟨(flags &&& 0x80) != 0, (flags &&& 0x40) != 0, (flags &&& 0x20) != 0, (flags &&& 7).toNat, true⟩

/-- `boc/de.rs:13-18` `Options`. -/
structure Options where
  minRoots : Option Nat
  maxRoots : Option Nat

/-- `boc/de.rs:31-35` `BocHeader`. -/
structure Header where
  refSize : Nat
  cells : List (List Byte)
  roots : List Nat

/-- CRC32-C (Castagnoli), one byte, reflected polynomial `0x82F63B78`. The code uses the `crc32c` crate. -/
def crcBit (x : BitVec 32) : BitVec 32 := if x.getLsbD 0 then (x >>> 1) ^^^ 0x82F63B78#32 else x >>> 1
def crcByte (x : BitVec 32) (b : Byte) : BitVec 32 :=
  crcBit (crcBit (crcBit (crcBit (crcBit (crcBit (crcBit (crcBit (x ^^^ b.setWidth 32))))))))

/-- `crc32c::crc32c_append`. -/
def crcAppend (crc : BitVec 32) (d : List Byte) : BitVec 32 := ~~~ (d.foldl crcByte (~~~ crc))

/-- `crc32c::crc32c`. -/
def crc32c (d : List Byte) : BitVec 32 := crcAppend 0 d

/-- `u32::to_le_bytes`. -/
def leBytes (x : BitVec 32) : List Byte := (List.range 4).map fun k => x.extractLsb' (8 * k) 8

/-- `boc/de.rs:39-95`: the first six bytes. -/
def readFlags (data : List Byte) : Except BocErr (Flags × Nat × List Byte) := do
  ensure (decide (6 ≤ data.length)) .unexpectedEof
  let (tag, rest) ← next 4 data
  let (fl, rest) ← nextNat 1 rest
  let (os, rest) ← nextNat 1 rest
  match Tag.fromBytes tag with
  | none => .error .unknownBocTag
  | some tag => do
    let f := flagsOf tag (BitVec.ofNat 8 fl)
    ensure (!(f.hasCacheBits && !f.hasIndex)) .invalidHeader
    ensure (decide (1 ≤ f.refSize ∧ f.refSize ≤ 4)) .invalidRefSize
    ensure (decide (1 ≤ os ∧ os ≤ 8)) .invalidOffsetSize
    .ok (f, os, rest)

/-- `boc/de.rs:98-175`: the counts and the total size, with their checks. The sums and products do not overflow their
types (the numbers are below `2^32`); the subtraction is checked. -/
def readCounts (f : Flags) (os : Nat) (opts : Options) (rest : List Byte) : Except BocErr (Nat × Nat × Nat × List Byte) := do
  ensure (decide (f.refSize * 3 + os ≤ rest.length)) .invalidHeader
  let (cells, rest) ← nextNat f.refSize rest
  let (roots, rest) ← nextNat f.refSize rest
  let (absent, rest) ← nextNat f.refSize rest
  ensure (decide (roots ≠ 0)) .rootCellNotFound
  ensure (f.multi || decide (roots ≤ 1)) .unexpectedMultipleRoots
  ensure (decide (roots + absent ≤ cells)) .tooManyRootCells
  ensure (decide (absent = 0)) .absentCellsNotSupported
  ensure (decide (opts.minRoots.getD 0 ≤ roots)) .tooFewRootCells
  ensure (decide (roots ≤ opts.maxRoots.getD 32)) .tooManyRootCells
  let (total, rest) ← nextNat os rest
  ensure (decide (roots * f.refSize ≤ cells * (2 + f.refSize))) .panic
  ensure (decide (cells * (2 + f.refSize) - roots * f.refSize ≤ total)) .invalidTotalSize
  ensure (decide (total ≤ cells * (2 + 4 * (2 + 32) + 128 + 4 * f.refSize))) .invalidTotalSize
  .ok (cells, roots, total, rest)

/-- `boc/de.rs:183-192`: the indices of the roots. -/
def readRoots (refSize cells : Nat) : Nat → List Byte → Except BocErr (List Nat × List Byte)
  | 0, rest => .ok ([], rest)
  | k + 1, rest => do
    let (i, rest) ← nextNat refSize rest
    ensure (decide (i < cells)) .rootOutOfBounds
    let (is, rest) ← readRoots refSize cells k rest
    .ok (i :: is, rest)

/-- `boc/de.rs:181-196`: the roots. -/
def rootsOf (f : Flags) (cells roots : Nat) (rest : List Byte) : Except BocErr (List Nat × List Byte) :=
  if f.multi then readRoots f.refSize cells roots rest else .ok ([0], rest)

/-- `boc/de.rs:486-537` `read_raw_cell_from_ptr`: the length of the cell at the start of the bytes. -/
def rawLen (bytes : List Byte) (refSize : Nat) : Except BocErr Nat := do
  ensure (decide (2 ≤ bytes.length)) .unexpectedEof
  let (d1, rest) ← nextNat 1 bytes
  let (d2, _) ← nextNat 1 rest
  let d : CellDescriptor := ⟨BitVec.ofNat 8 d1, BitVec.ofNat 8 d2⟩
  ensure (!d.isAbsent) .absentCellsNotSupported
  ensure (decide (d.referenceCount ≤ 4)) .invalidRef
  ensure (!(d.storeHashes && (d.isExotic && d.referenceCount == 0 && decide (0 < d.levelMask.level)))) .unnormalizedCell
  let off := if d.storeHashes then (32 + 2) * (d.levelMask.level + 1) else 0
  let total := 2 + off + d.byteLen + d.referenceCount * refSize
  ensure (decide (total ≤ bytes.length)) .unexpectedEof
  if d.byteLen > 0 ∧ d.isAligned = false then do
    let (b, _) ← nextNat 1 (bytes.drop (2 + off + d.byteLen - 1))
    ensure (BitVec.ofNat 8 b &&& 0x7f != 0) .unnormalizedCell
    .ok total
  else .ok total

/-- `boc/de.rs:211-225`: the cells as byte strings. -/
def readCells (refSize : Nat) : Nat → List Byte → Except BocErr (List (List Byte) × List Byte)
  | 0, rest => .ok ([], rest)
  | k + 1, rest => do
    let len ← rawLen rest refSize
    let (c, rest) ← next len rest
    let (cs, rest) ← readCells refSize k rest
    .ok (c :: cs, rest)

/-- `boc/de.rs:228-244` with `366-374` `check_crc`: the total size and the checksum. -/
def checkEnd (f : Flags) (total : Nat) (data start rest : List Byte) : Except BocErr (List Byte) := do
  ensure (decide (total + rest.length = start.length)) .invalidTotalSize
  if f.hasCrc then do
    ensure (decide (4 ≤ rest.length)) .unexpectedEof
    let (crc, rest') ← next 4 rest
    ensure (decide (crc = leBytes (crc32c (data.take (data.length - rest.length))))) .invalidChecksum
    .ok rest'
  else .ok rest

/-- `boc/de.rs:37-251` `BocHeader::decode`, with the bytes after the bag of cells as an additional result. -/
def decodeRest (data : List Byte) (opts : Options) : Except BocErr (Header × List Byte) := do
  let (f, os, rest) ← readFlags data
  let (cells, roots, total, rest) ← readCounts f os opts rest
  ensure (decide (roots * f.refSize ≤ rest.length)) .unexpectedEof
  let (rs, rest) ← rootsOf f cells roots rest
  let index := if f.hasIndex then cells * os else 0
  ensure (decide (index + total + (if f.hasCrc then 4 else 0) ≤ rest.length)) .unexpectedEof
  let (_, start) ← next index rest
  let (cs, rest) ← readCells f.refSize cells start
  let rest ← checkEnd f total data start rest
  .ok (⟨f.refSize, cs, rs⟩, rest)

/-- `boc/de.rs:37-251` `BocHeader::decode`. -/
def decodeHeader (data : List Byte) (opts : Options) : Except BocErr Header := do
  let (h, _) ← decodeRest data opts
  .ok h

/-- `boc/de.rs:434-456`: the references of a cell. The subtraction `cell_count - child_index - 1` must not underflow. `cells` has the cells made so far, in the order in which they were made. -/
def readRefs (cells : List CCell) (count refSize : Nat) : Nat → List Byte → Except BocErr (List CCell)
  | 0, _ => .ok []
  | k + 1, bytes => do
    let (i, rest) ← nextNat refSize bytes
    ensure (decide (i < count)) .invalidRef
    ensure (decide (i + 1 ≤ count)) .panic
    match cells[count - i - 1]? with
    | none => .error .invalidRefOrder
    | some c => do
      let cs ← readRefs cells count refSize k rest
      .ok (c :: cs)

/-- `boc/de.rs:392-470` `CellParts::from_raw_cell`. -/
def partsOf (raw : List Byte) (cells : List CCell) (count refSize : Nat) : Except BocErr CellParts := do
  let (d1, rest) ← nextNat 1 raw
  let (d2, rest) ← nextNat 1 rest
  let d : CellDescriptor := ⟨BitVec.ofNat 8 d1, BitVec.ofNat 8 d2⟩
  let (_, rest) ← next (if d.storeHashes then (32 + 2) * (d.levelMask.level + 1) else 0) rest
  let (data, rest) ← next d.byteLen rest
  let refs ← readRefs cells count refSize d.referenceCount rest
  .ok ⟨decodeBitLen d data, d, orChildren refs, refs, data⟩

/-- One cell of `boc/de.rs:264-276`. -/
def makeCell (H : Hasher) (raw : List Byte) (cells : List CCell) (count refSize : Nat) : Except BocErr CCell := do
  let p ← partsOf raw cells count refSize
  match p.finalize H with
  | .ok c => .ok c
  | .error _ => .error .invalidCell

/-- The loop `boc/de.rs:264-276`; `raws` from the last cell of the file to the first. The failure to allocate memory for the
result (`boc/de.rs:260-262`) is not modelled. -/
def finalizeGo (H : Hasher) (count refSize : Nat) : List (List Byte) → List CCell → Except BocErr (List CCell)
  | [], cells => .ok cells
  | raw :: raws, cells => do
    let c ← makeCell H raw cells count refSize
    finalizeGo H count refSize raws (cells ++ [c])

/-- `boc/de.rs:254-279` `finalize` with a context that only computes hashes. -/
def Header.finalize (H : Hasher) (h : Header) : Except BocErr (List CCell) :=
  finalizeGo H h.cells.length h.refSize h.cells.reverse []

/-- `boc/de.rs:300-304` `ProcessedCells::get`. -/
def getCell (cells : List CCell) (i : Nat) : Except BocErr (Option CCell) :=
  if i + 1 ≤ cells.length then .ok cells[cells.length - i - 1]? else .error .panic

/-- `boc/mod.rs:255-271` `Boc::decode_ext` (and `Boc::decode`). -/
def decode (H : Hasher) (data : List Byte) : Except BocErr CCell := do
  let h ← decodeHeader data ⟨some 1, some 1⟩
  match h.roots with
  | [] => .error .rootCellNotFound
  | r :: _ => do
    let cells ← h.finalize H
    match ← getCell cells r with
    | some c => .ok c
    | none => .error .rootCellNotFound

/-- `boc/mod.rs:274-294` `Boc::decode_pair_ext` (and `Boc::decode_pair`). -/
def decodePair (H : Hasher) (data : List Byte) : Except BocErr (CCell × CCell) := do
  let h ← decodeHeader data ⟨some 2, some 2⟩
  match h.roots with
  | r1 :: r2 :: _ => do
    let cells ← h.finalize H
    match ← getCell cells r1, ← getCell cells r2 with
    | some c1, some c2 => .ok (c1, c2)
    | _, _ => .error .rootCellNotFound
  | _ => .error .rootCellNotFound

/-- All roots of a header: `BocHeader::decode`, `finalize`, and `get` for each root. -/
def getAll (cells : List CCell) : List Nat → Except BocErr (List CCell)
  | [] => .ok []
  | r :: rs => do
    match ← getCell cells r with
    | some c => do
      let cs ← getAll cells rs
      .ok (c :: cs)
    | none => .error .rootCellNotFound

/-- A user of the header interface: all roots of the bag. -/
def decodeAll (H : Hasher) (opts : Options) (data : List Byte) : Except BocErr (List CCell) := do
  let h ← decodeHeader data opts
  let cells ← h.finalize H
  getAll cells h.roots

end Boc
end Verif
