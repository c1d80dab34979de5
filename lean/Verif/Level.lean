import Verif.CellBuilder
/-
Model of `LevelMask`, `CellDescriptor` and `CellType` (`cell/mod.rs:986-1400`).
-/
namespace Verif

/-- `cell/mod.rs:1240-1242` `LevelMask(u8)`. -/
abbrev LevelMask := BitVec 8

namespace LevelMask

/-- `cell/mod.rs:1250-1252` `LevelMask::new` -/
def new (mask : Byte) : LevelMask := mask &&& 7
/-- `cell/mod.rs:1256-1258` -/
def isEmpty (m : LevelMask) : Bool := m == 0
/-- `cell/mod.rs:1275-1282` `LevelMask::from_level` -/
def fromLevel (level : Nat) : LevelMask :=
  match level with
  | 0 => 0
  | 1 => 1
  | 2 => 3
  | _ => 7
/-- `cell/mod.rs:1285-1287` `LevelMask::level`: counts the set bits. -/
def level (m : LevelMask) : Nat := ((m &&& 1) + ((m >>> 1) &&& 1) + ((m >>> 2) &&& 1)).toNat
/-- `cell/mod.rs:1290-1292` -/
def hashIndex (m : LevelMask) (l : Nat) : Nat := level (m &&& fromLevel l)
/-- `cell/mod.rs:1295-1297`; `l` is a `u8`; the shift by `l - 1 ≥ 8` panics in a debug build and is taken
modulo 8 in a release build, it is not reached with `l ≤ 8`. -/
def contains (m : LevelMask) (l : Nat) : Bool := l == 0 || (m &&& ((1#8) <<< (l - 1))) != 0
/-- `cell/mod.rs:1302-1304`; shifts by 8 and more are outside the model (not used by the code). -/
def virtualize (m : LevelMask) (offset : Nat) : LevelMask := m >>> offset

/-- `cell/mod.rs:1318-1321` `into_iter`: the iterator's state, and `1383-1399` `LevelMaskIter::next`. -/
def iterStart (m : LevelMask) : Byte := 1 ||| (m <<< 1)
def iterNext (s : Byte) : Option (Nat × Byte) :=
  if s ≠ 0 then
    let mask := s &&& ~~~ (s - 1)
    some (trailingZeros mask, s &&& ~~~ mask)
  else none
/-- Run the iterator to its end; every step clears a bit, so 8 steps are enough. -/
def iterRun : Nat → Byte → List Nat
  | 0, _ => []
  | n + 1, s => match iterNext s with
    | some (l, s) => l :: iterRun n s
    | none => []
def toList (m : LevelMask) : List Nat := iterRun 8 (iterStart m)

/-- Specification: level `l ≥ 1` is significant when bit `l - 1` is set; level 0 always is. -/
def Significant (m : LevelMask) (l : Nat) : Prop := l = 0 ∨ (m.getLsbD (l - 1) = true)

/-- Specification: the number of significant levels among `1..=l`. -/
def countUpTo (m : LevelMask) : Nat → Nat
  | 0 => 0
  | l + 1 => m.countUpTo l + (m.getLsbD l).toNat

end LevelMask

/-- `cell/mod.rs:986-999` `CellType`. -/
inductive CellType where
  | ordinary | prunedBranch | libraryReference | merkleProof | merkleUpdate
  deriving DecidableEq, Repr

namespace CellType
/-- `cell/mod.rs:1004-1006` -/
def isMerkle : CellType → Bool
  | .merkleProof | .merkleUpdate => true
  | _ => false
/-- `cell/mod.rs:1017-1019` -/
def isPrunedBranch : CellType → Bool
  | .prunedBranch => true
  | _ => false
/-- `cell/mod.rs:1029-1037` -/
def toByte : CellType → Byte
  | .ordinary => 0xff
  | .prunedBranch => 1
  | .libraryReference => 2
  | .merkleProof => 3
  | .merkleUpdate => 4
/-- `cell/mod.rs:1053-1061` -/
def fromByteExotic (b : Byte) : Option CellType :=
  if b = 1 then some .prunedBranch
  else if b = 2 then some .libraryReference
  else if b = 3 then some .merkleProof
  else if b = 4 then some .merkleUpdate
  else none
end CellType

/-- `cell/mod.rs:1095-1103` `CellDescriptor`. -/
structure CellDescriptor where
  d1 : Byte
  d2 : Byte
  deriving DecidableEq, Repr

namespace CellDescriptor

/-- `cell/mod.rs:1114-1116` `compute_d1` -/
def computeD1 (mask : LevelMask) (isExotic : Bool) (refCount : Nat) : Byte :=
  (mask <<< 5) ||| ((if isExotic then 1#8 else 0#8) <<< 3) ||| (BitVec.ofNat 8 refCount &&& 7)
/-- `cell/mod.rs:1120-1122` `compute_d2` -/
def computeD2 (bitLen : Nat) : Byte :=
  (BitVec.ofNat 8 (bitLen / 4) &&& ~~~ 1#8) ||| (if bitLen % 8 ≠ 0 then 1#8 else 0#8)
/-- `cell/mod.rs:1135-1139` -/
def virtualize (d : CellDescriptor) (offset : Nat) : CellDescriptor :=
  { d with d1 := ((d.d1 >>> offset) &&& 0xe0) ||| (d.d1 &&& ~~~ 0xe0#8) }
/-- `cell/mod.rs:1142-1159` -/
def cellType (d : CellDescriptor) : CellType :=
  if d.d1 &&& 8 = 0 then .ordinary
  else if d.d1 &&& 7 = 0 then
    if d.d1 &&& 0xe0 = 0 then .libraryReference else .prunedBranch
  else if d.d1 &&& 7 = 1 then .merkleProof
  else .merkleUpdate
/-- `cell/mod.rs:1163-1165` -/
def referenceCount (d : CellDescriptor) : Nat := (d.d1 &&& 7).toNat
/-- `cell/mod.rs:1184-1186` -/
def isExotic (d : CellDescriptor) : Bool := (d.d1 &&& 8) != 0
/-- `cell/mod.rs:1219-1222` -/
def levelMask (d : CellDescriptor) : LevelMask := d.d1 >>> 5
/-- `cell/mod.rs:1171-1178` -/
def hashCount (d : CellDescriptor) : Nat :=
  let level := d.levelMask.level
  if d.isExotic && d.referenceCount == 0 && decide (level > 0) then 1 else level + 1
/-- `cell/mod.rs:1190-1192` -/
def isPrunedBranch (d : CellDescriptor) : Bool := d.isExotic && d.referenceCount == 0 && !d.levelMask.isEmpty
/-- `cell/mod.rs:1196-1198` -/
def isLibrary (d : CellDescriptor) : Bool := d.isExotic && d.referenceCount == 0 && d.levelMask.isEmpty
/-- `cell/mod.rs:1202-1204` -/
def isMerkle (d : CellDescriptor) : Bool := d.isExotic && d.referenceCount != 0
/-- `cell/mod.rs:1208-1210` -/
def isAbsent (d : CellDescriptor) : Bool := d.d1 == 0x0f#8
/-- `cell/mod.rs:1214-1216` -/
def storeHashes (d : CellDescriptor) : Bool := (d.d1 &&& 0x10) != 0
/-- `cell/mod.rs:1227-1229` -/
def isAligned (d : CellDescriptor) : Bool := (d.d2 &&& 1) == 0
/-- `cell/mod.rs:1233-1235` -/
def byteLen (d : CellDescriptor) : Nat := ((d.d2 &&& 1) + (d.d2 >>> 1)).toNat

end CellDescriptor

/-- `boc/de.rs:419-425`: the bit length recovered from the descriptor and the data bytes. -/
def decodeBitLen (d : CellDescriptor) (data : List Byte) : Nat :=
  if d.isAligned then data.length * 8
  else match data.getLast? with
    | some b => data.length * 8 - trailingZeros b - 1
    | none => 0

end Verif
