import Verif.Level
/-
Model of cells: finalization (`cell/cell_context.rs`, `cell/builder.rs` `build_ext`), hash and depth access
(`cell/cell_impl`), and the specification of both on plain trees.

SHA-256 is a parameter. Reference counting, allocation and the deep drop are not modelled: a cell is an
immutable tree. The precomputed hashes of the empty cell and of the two static cells
(`cell/cell_impl/mod.rs:43-215`, `cell/mod.rs` `EMPTY_CELL_HASH`) are not modelled: they are taken to be what
`compute_hashes` gives for these cells.
-/
namespace Verif

abbrev Hash := List Byte

/-- The hash function (SHA-256 in the code); the only thing known about it is the length of its output. -/
structure Hasher where
  sha : List Byte → Hash
  len : ∀ m, (sha m).length = 32

/-- `u16::to_be_bytes` -/
def u16be (n : Nat) : List Byte := [BitVec.ofNat 8 (n / 256), BitVec.ofNat 8 n]

/-- A finished cell as the code stores it (`cell/cell_impl/mod.rs:228-236` `OrdinaryCellHeader` with its data,
`455-459` `LibraryReference`, `526-530` `PrunedBranchHeader` with its data). The pruned branch and library
variants store a single hash; the variant is a function of the descriptor. -/
inductive CCell where
  | mk (desc : CellDescriptor) (bitLen : Nat) (data : List Byte) (refs : List CCell) (hashes : List (Hash × Nat))

namespace CCell

def desc : CCell → CellDescriptor | .mk d _ _ _ _ => d
def bitLen : CCell → Nat | .mk _ n _ _ _ => n
def data : CCell → List Byte | .mk _ _ d _ _ => d
def refs : CCell → List CCell | .mk _ _ _ r _ => r
def hashes : CCell → List (Hash × Nat) | .mk _ _ _ _ h => h

/-- `hash(level)`: `cell/cell_impl/mod.rs:238-252, 429-431` (ordinary and Merkle cells), `431-433` (library),
`572-586` (pruned branch). An index past the stored hashes would be undefined behaviour in the code; here it
gives the empty string, and `C10_hash_slots` shows that it does not happen. -/
def hash (c : CCell) (level : Nat) : Hash :=
  let i := c.desc.levelMask.hashIndex level
  match c.desc.cellType with
  | .prunedBranch =>
    if i = c.desc.levelMask.level then (c.hashes.getD 0 ([], 0)).1
    else (c.data.drop (2 + i * 32)).take 32
  | .libraryReference => (c.hashes.getD 0 ([], 0)).1
  | _ => (c.hashes.getD i ([], 0)).1

/-- `depth(level)`: `cell/cell_impl/mod.rs:433-435`, `499-501`, `587-604`. -/
def depth (c : CCell) (level : Nat) : Nat :=
  let i := c.desc.levelMask.hashIndex level
  match c.desc.cellType with
  | .prunedBranch =>
    if i = c.desc.levelMask.level then 0
    else natOfBits (bytesToBits ((c.data.drop (2 + c.desc.levelMask.level * 32 + i * 2)).take 2))
  | .libraryReference => 0
  | _ => (c.hashes.getD i ([], 0)).2

/-- `cell/mod.rs` `DynCell::repr_hash`: the hash at `LevelMask::MAX_LEVEL`. -/
def reprHash (c : CCell) : Hash := c.hash 3
def reprDepth (c : CCell) : Nat := c.depth 3

end CCell

/-- `cell/cell_context.rs:53-77` `CellParts`. -/
structure CellParts where
  bitLen : Nat
  desc : CellDescriptor
  childrenMask : LevelMask
  refs : List CCell
  data : List Byte

namespace CellParts

/-- `cell/cell_context.rs:94-155`: cell type and level mask that follow from the contents, or `InvalidCell`. -/
def classify (p : CellParts) : Except Err (CellType × LevelMask) :=
  let mask := p.desc.levelMask
  let level := mask.level
  if p.desc.isExotic then
    match p.data[0]? with
    | none => .error .invalidCell
    | some first =>
      match CellType.fromByteExotic first with
      | some .prunedBranch =>
        if level = 0 then .error .invalidCell
        else if p.bitLen ≠ 16 + level * 272 ∨ p.refs ≠ [] then .error .invalidCell
        else if mask ≠ p.data.getD 1 0 then .error .invalidCell
        else .ok (.prunedBranch, mask)
      | some .merkleProof =>
        if p.bitLen ≠ 280 ∨ p.refs.length ≠ 1 then .error .invalidCell
        else .ok (.merkleProof, p.childrenMask.virtualize 1)
      | some .merkleUpdate =>
        if p.bitLen ≠ 552 ∨ p.refs.length ≠ 2 then .error .invalidCell
        else .ok (.merkleUpdate, p.childrenMask.virtualize 1)
      | some .libraryReference =>
        if p.bitLen ≠ 264 ∨ p.refs ≠ [] then .error .invalidCell
        else .ok (.libraryReference, 0)
      | _ => .error .invalidCell
  else .ok (.ordinary, p.childrenMask)

/-- The bytes that are hashed: `cell/cell_context.rs:171-204`. -/
def preimage (d1 d2 : Byte) (payload : List Byte) (depths : List Nat) (hashes : List Hash) : List Byte :=
  [d1, d2] ++ payload ++ depths.flatMap u16be ++ hashes.flatten

/-- One iteration of the loop `cell/cell_context.rs:160-208`. The depth check is interleaved with hashing in
the code; here it comes first (hashing has no effect). -/
def levelStep (H : Hasher) (p : CellParts) (isPruned : Bool) (off level : Nat) (hashes : List (Hash × Nat)) :
    Except Err (List (Hash × Nat)) :=
  let mask := p.desc.levelMask
  if level ≠ 0 ∧ (isPruned = true ∨ mask.contains level = false) then .ok hashes
  else
    let lm := if isPruned then mask else LevelMask.fromLevel level
    let d1 := (p.desc.d1 &&& ~~~ 0xf0#8) ||| (lm <<< 5)
    let payload := if level = 0 then p.data else ((hashes.getLast?).getD ([], 0)).1
    let depths := p.refs.map (fun c => c.depth (level + off))
    if depths.any (fun d => decide (d + 1 > 65535)) then .error .depthOverflow
    else .ok (hashes ++ [(H.sha (preimage d1 p.desc.d2 payload depths (p.refs.map fun c => c.hash (level + off))),
        depths.foldl (fun a d => max a (d + 1)) 0)])

/-- `cell/cell_context.rs:80-209` `compute_hashes`. -/
def computeHashes (H : Hasher) (p : CellParts) : Except Err (List (Hash × Nat)) := do
  let (ty, computed) ← p.classify
  if computed ≠ p.desc.levelMask then .error .invalidCell
  else
    let off := if ty.isMerkle then 1 else 0
    let h0 ← p.levelStep H ty.isPrunedBranch off 0 []
    let h1 ← p.levelStep H ty.isPrunedBranch off 1 h0
    let h2 ← p.levelStep H ty.isPrunedBranch off 2 h1
    p.levelStep H ty.isPrunedBranch off 3 h2

/-- `cell/cell_impl/sync.rs:177-181` `finalize_cell` with `198-244` `make_cell`: the variants differ only in what they
store, see `CCell`. -/
def finalize (H : Hasher) (p : CellParts) : Except Err CCell := do
  let hashes ← p.computeHashes H
  .ok (.mk p.desc p.bitLen p.data p.refs hashes)

end CellParts

/-- The OR of the children's level masks (`cell/builder.rs:505-508`). -/
def orChildren (refs : List CCell) : LevelMask := refs.foldl (fun m c => m ||| c.desc.levelMask) 0

/-- `cell/builder.rs:516-533`: the level mask chosen by `build_ext`. -/
def CellB.levelMask (b : CellB CCell) : LevelMask :=
  let cm := orChildren b.refs
  if b.exotic && decide (b.inner.bitLen ≥ 8) then
    match CellType.fromByteExotic (b.inner.data.getD 0 0) with
    | some .prunedBranch => LevelMask.new (b.inner.data.getD 1 0)
    | some .merkleProof | some .merkleUpdate => cm.virtualize 1
    | some .libraryReference => 0
    | _ => cm
  else cm

/-- `cell/builder.rs:494-571` the parts handed to `finalize_cell` by `build_ext`. -/
def CellB.parts (b : CellB CCell) : CellParts :=
  { bitLen := b.inner.bitLen,
    desc := ⟨CellDescriptor.computeD1 b.levelMask b.exotic b.refs.length, CellDescriptor.computeD2 b.inner.bitLen⟩,
    childrenMask := orChildren b.refs, refs := b.refs, data := b.inner.finish }

/-- `CellBuilder::build` / `build_ext` with the empty context. -/
def CellB.build (H : Hasher) (b : CellB CCell) : Except Err CCell := b.parts.finalize H

/-! ### Specification: trees, their well-formedness, hashes and depths -/

/-- A cell as plain content. -/
inductive Cell where
  | mk (exotic : Bool) (bits : Bits) (refs : List Cell)

namespace Cell
def exotic : Cell → Bool | .mk e _ _ => e
def bits : Cell → Bits | .mk _ b _ => b
def refs : Cell → List Cell | .mk _ _ r => r
end Cell

/-- Group bits into bytes (for lengths divisible by 8). -/
def bytesOfBits (l : Bits) : List Byte :=
  (List.range (l.length / 8)).map fun i => BitVec.ofNat 8 (natOfBits ((l.drop (8 * i)).take 8))

/-- The `i`-th byte of a bit string, as a number. -/
def byteAt (l : Bits) (i : Nat) : Nat := natOfBits ((l.drop (8 * i)).take 8)

/-- The exotic types by their tag byte. -/
def exoticTypeOf : Nat → Option CellType
  | 1 => some .prunedBranch
  | 2 => some .libraryReference
  | 3 => some .merkleProof
  | 4 => some .merkleUpdate
  | _ => none

/-- The type of a cell from its exotic flag and its first byte; `none` for an unknown exotic type. -/
def typeOf (exotic : Bool) (bits : Bits) : Option CellType :=
  if exotic then
    if bits.length < 8 then none
    else exoticTypeOf (byteAt bits 0)
  else some .ordinary

/-- What is known about a cell from outside: level mask, hash and depth at each level. -/
structure Info where
  mask : LevelMask
  hash : Nat → Hash
  depth : Nat → Nat

/-- The OR of masks. -/
def orMasks : List LevelMask → LevelMask
  | [] => 0
  | m :: ms => m ||| orMasks ms

/-- The shape rules of the cell types; gives the level mask. -/
def shape (ty : CellType) (bits : Bits) (children : List LevelMask) : Option LevelMask :=
  match ty with
  | .ordinary => if bits.length ≤ 1023 ∧ children.length ≤ 4 then some (orMasks children) else none
  | .prunedBranch =>
    let m := BitVec.ofNat 8 (byteAt bits 1)
    if 1 ≤ byteAt bits 1 ∧ byteAt bits 1 ≤ 7 ∧ bits.length = 16 + 272 * LevelMask.countUpTo m 3 ∧ children = [] then some m
    else none
  | .libraryReference => if bits.length = 264 ∧ children = [] then some 0 else none
  | .merkleProof => if bits.length = 280 ∧ children.length = 1 then some (orMasks children >>> 1) else none
  | .merkleUpdate => if bits.length = 552 ∧ children.length = 2 then some (orMasks children >>> 1) else none

/-- The maximum of `d + 1` over the children's depths `d` (0 without children). -/
def depthOver : List Nat → Nat
  | [] => 0
  | d :: ds => max (d + 1) (depthOver ds)

/-- Hash of a node's representation: descriptor bytes, payload, children's depths, children's hashes. -/
def nodeHash (H : Hasher) (mask : LevelMask) (exotic : Bool) (bitLen : Nat) (payload : List Byte)
    (depths : List Nat) (hashes : List Hash) : Hash :=
  H.sha ([CellDescriptor.computeD1 mask exotic depths.length, CellDescriptor.computeD2 bitLen] ++ payload
    ++ depths.flatMap u16be ++ hashes.flatten)

/-- Hash of an ordinary or Merkle node at level `l`: level 0 hashes the data, a significant level hashes the
previous level's hash instead, an insignificant level repeats the previous level. -/
def levelHash (H : Hasher) (mask : LevelMask) (exotic : Bool) (bits : Bits) (off : Nat) (ch : List Info) : Nat → Hash
  | 0 => nodeHash H 0 exotic bits.length (bytesOfBits (tagged bits)) (ch.map (·.depth off)) (ch.map (·.hash off))
  | l + 1 =>
    if mask.getLsbD l then
      nodeHash H (LevelMask.fromLevel (l + 1)) exotic bits.length (levelHash H mask exotic bits off ch l)
        (ch.map (·.depth (l + 1 + off))) (ch.map (·.hash (l + 1 + off)))
    else levelHash H mask exotic bits off ch l

/-- Depth of an ordinary or Merkle node at level `l`. -/
def levelDepth (mask : LevelMask) (off : Nat) (ch : List Info) : Nat → Nat
  | 0 => depthOver (ch.map (·.depth off))
  | l + 1 => if mask.getLsbD l then depthOver (ch.map (·.depth (l + 1 + off))) else levelDepth mask off ch l

/-- Everything about a node from its contents and its children. A pruned branch with `n` significant levels stores `n`
hashes and `n` depths, for the levels below each significant one; from its top significant level on it shows
its own hash and depth 0. -/
def nodeInfo (H : Hasher) (exotic : Bool) (bits : Bits) (ch : List Info) : Info :=
  match typeOf exotic bits with
  | some .prunedBranch =>
    let m : LevelMask := BitVec.ofNat 8 (byteAt bits 1)
    let n := m.countUpTo 3
    { mask := m,
      hash := fun l => if m.countUpTo l = n then nodeHash H m exotic bits.length (bytesOfBits (tagged bits)) [] []
        else bytesOfBits ((bits.drop (16 + 256 * m.countUpTo l)).take 256),
      depth := fun l => if m.countUpTo l = n then 0
        else natOfBits ((bits.drop (16 + 256 * n + 16 * m.countUpTo l)).take 16) }
  | some .libraryReference => ⟨0, levelHash H 0 exotic bits 0 ch, levelDepth 0 0 ch⟩
  | some .merkleProof | some .merkleUpdate =>
    let m := orMasks (ch.map (·.mask)) >>> 1
    ⟨m, levelHash H m exotic bits 1 ch, levelDepth m 1 ch⟩
  | _ =>
    let m := orMasks (ch.map (·.mask))
    ⟨m, levelHash H m exotic bits 0 ch, levelDepth m 0 ch⟩

mutual
/-- Level mask, hashes and depths of a tree. -/
def Cell.info (H : Hasher) : Cell → Info
  | .mk e b rs => nodeInfo H e b (Cell.infoList H rs)
def Cell.infoList (H : Hasher) : List Cell → List Info
  | [] => []
  | c :: cs => c.info H :: Cell.infoList H cs
end

mutual
/-- Well-formedness of a whole tree: every cell has the shape of its type (with the level mask that follows), and
all depths seen by a parent leave room for one more level. -/
def Cell.WF (H : Hasher) : Cell → Prop
  | .mk e b rs => (∃ ty, typeOf e b = some ty ∧ shape ty b ((Cell.infoList H rs).map (·.mask)) ≠ none ∧
      ∀ l, l ≤ 3 → (l = 0 ∨ (Cell.info H (.mk e b rs)).mask.getLsbD (l - 1) = true) → ∀ i ∈ Cell.infoList H rs,
        i.depth (l + if ty.isMerkle then 1 else 0) < 65535) ∧ Cell.WFList H rs
def Cell.WFList (H : Hasher) : List Cell → Prop
  | [] => True
  | c :: cs => Cell.WF H c ∧ Cell.WFList H cs
end

mutual
/-- The plain content of a finished cell. -/
def CCell.tree : CCell → Cell
  | .mk d n bytes rs _ => .mk d.isExotic ((bytesToBits bytes).take n) (CCell.treeList rs)
def CCell.treeList : List CCell → List Cell
  | [] => []
  | c :: cs => c.tree :: CCell.treeList cs
end

/-- Parts whose fields agree with each other, as `build_ext` and the BOC reader produce them. -/
structure CellParts.Ok (p : CellParts) : Prop where
  refs : p.desc.referenceCount = p.refs.length
  refs_le : p.refs.length ≤ 4
  cm : p.childrenMask = orChildren p.refs
  bitLen : p.bitLen ≤ 1023
  d2 : p.desc.d2 = CellDescriptor.computeD2 p.bitLen
  data : p.data.length = (p.bitLen + 7) / 8
  tagged : bytesToBits p.data = tagged ((bytesToBits p.data).take p.bitLen)

/-- Cells made by finalization from consistent parts over cells made the same way. -/
inductive Built (H : Hasher) : CCell → Prop
  | mk {p : CellParts} {c : CCell} (hp : p.Ok) (hr : ∀ r ∈ p.refs, Built H r) (h : p.finalize H = .ok c) : Built H c

end Verif
