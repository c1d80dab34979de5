import Verif.Builder
/-
Model of `CellSlice` (`cell/slice.rs`), byte level. A slice is a window into the data bytes and the
references of a cell. `u16` / `u8` additions wrap (release build behaviour; debug builds panic).
-/
namespace Verif

/-- `u8` addition (release build). -/
def u8add (a b : Nat) : Nat := (a + b) % 256

/-- `cell/slice.rs:233-240` `CellSliceRange`. -/
structure SliceRange where
  bitsStart : Nat
  bitsEnd : Nat
  refsStart : Nat
  refsEnd : Nat
  deriving DecidableEq, Repr

namespace SliceRange

/-- `cell/slice.rs:326-328` -/
def sizeBits (r : SliceRange) : Nat := r.bitsEnd - r.bitsStart
/-- `cell/slice.rs:331-333` -/
def sizeRefs (r : SliceRange) : Nat := r.refsEnd - r.refsStart
/-- `cell/slice.rs:341-343` -/
def isDataEmpty (r : SliceRange) : Bool := decide (r.bitsStart ≥ r.bitsEnd)
/-- `cell/slice.rs:346-348` -/
def isRefsEmpty (r : SliceRange) : Bool := decide (r.refsStart ≥ r.refsEnd)

/-- The check shared by `cell/slice.rs:375-457`: the window is too small. -/
def tooSmall (r : SliceRange) (bits refs : Nat) : Bool :=
  decide (u16add r.bitsStart bits > r.bitsEnd) || decide (u8add r.refsStart refs > r.refsEnd)

/-- `cell/slice.rs:369-371` -/
def hasRemaining (r : SliceRange) (bits refs : Nat) : Bool :=
  decide (u16add r.bitsStart bits ≤ r.bitsEnd) && decide (u8add r.refsStart refs ≤ r.refsEnd)

/-- `cell/slice.rs:374-384` -/
def skipFirst (r : SliceRange) (bits refs : Nat) : Except Err Unit × SliceRange :=
  if r.tooSmall bits refs then (.error .cellUnderflow, r)
  else (.ok (), { r with bitsStart := u16add r.bitsStart bits, refsStart := u8add r.refsStart refs })

/-- `cell/slice.rs:387-397` -/
def onlyFirst (r : SliceRange) (bits refs : Nat) : Except Err Unit × SliceRange :=
  if r.tooSmall bits refs then (.error .cellUnderflow, r)
  else (.ok (), { r with bitsEnd := u16add r.bitsStart bits, refsEnd := u8add r.refsStart refs })

/-- `cell/slice.rs:400-410` -/
def skipLast (r : SliceRange) (bits refs : Nat) : Except Err Unit × SliceRange :=
  if r.tooSmall bits refs then (.error .cellUnderflow, r)
  else (.ok (), { r with bitsEnd := r.bitsEnd - bits, refsEnd := r.refsEnd - refs })

/-- `cell/slice.rs:413-423` -/
def onlyLast (r : SliceRange) (bits refs : Nat) : Except Err Unit × SliceRange :=
  if r.tooSmall bits refs then (.error .cellUnderflow, r)
  else (.ok (), { r with bitsStart := r.bitsEnd - bits, refsStart := r.refsEnd - refs })

/-- `cell/slice.rs:428-441`; the result and the advanced range. -/
def splitPrefix (r : SliceRange) (bits refs : Nat) : Except Err SliceRange × SliceRange :=
  if r.tooSmall bits refs then (.error .cellUnderflow, r)
  else
    let self := { r with bitsStart := u16add r.bitsStart bits, refsStart := u8add r.refsStart refs }
    (.ok { r with bitsEnd := self.bitsStart, refsEnd := self.refsStart }, self)

/-- `cell/slice.rs:445-458` -/
def splitSuffix (r : SliceRange) (bits refs : Nat) : Except Err SliceRange × SliceRange :=
  if r.tooSmall bits refs then (.error .cellUnderflow, r)
  else
    let self := { r with bitsEnd := r.bitsEnd - bits, refsEnd := r.refsEnd - refs }
    (.ok { r with bitsStart := self.bitsEnd, refsStart := self.refsEnd }, self)

/-- `cell/slice.rs:462-469` -/
def getPrefix (r : SliceRange) (bits refs : Nat) : SliceRange :=
  { r with bitsEnd := min (u16add r.bitsStart bits) r.bitsEnd, refsEnd := min (u8add r.refsStart refs) r.refsEnd }

end SliceRange

/-- `cell/slice.rs:486-490` `CellSlice`: `data` is `cell.data()`, `refs` are the cell's children. -/
structure CSlice (ρ : Type) where
  data : List Byte
  refs : List ρ
  range : SliceRange
  deriving Repr

/-- `u8::leading_zeros` and friends. -/
def leadingZeros {w : Nat} (v : BitVec w) : Nat := ((List.range w).find? fun i => v.getMsbD i).getD w

/-- `u8::trailing_zeros` and friends. -/
def trailingZeros {w : Nat} (v : BitVec w) : Nat := ((List.range w).find? fun i => v.getLsbD i).getD w

namespace CSlice
variable {ρ : Type}

/-- `cell/slice.rs:1163-1171` -/
def getBit (s : CSlice ρ) (offset : Nat) : Except Err Bool :=
  if u16add s.range.bitsStart offset < s.range.bitsEnd then
    let index := u16add s.range.bitsStart offset
    match s.data[index / 8]? with
    | some byte => .ok (((byte >>> (7 - index % 8)) &&& 1) != 0)
    | none => .error .cellUnderflow
  else .error .cellUnderflow

/-- `cell/slice.rs:1174-1183` -/
def loadBit (s : CSlice ρ) : Except Err Bool × CSlice ρ :=
  if s.range.bitsStart < s.range.bitsEnd then
    let index := s.range.bitsStart
    match s.data[index / 8]? with
    | some byte => (.ok (((byte >>> (7 - index % 8)) &&& 1) != 0),
        { s with range := { s.range with bitsStart := s.range.bitsStart + 1 } })
    | none => (.error .cellUnderflow, s)
  else (.error .cellUnderflow, s)

/-- `cell/slice.rs:1198-1238`, `1248-1288`, `1298-1335`: `get_u16`, `get_u32`, `get_u64` for `n = 2, 4, 8`
bytes. The unaligned path goes through a register of `2 * n` bytes. -/
def getWord (n : Nat) (s : CSlice ρ) (offset : Nat) : Except Err (BitVec (8 * n)) :=
  if u16add (u16add s.range.bitsStart offset) (8 * n) ≤ s.range.bitsEnd then
    let index := u16add s.range.bitsStart offset
    let r := index % 8
    let q := index / 8
    if r = 0 ∧ q + n ≤ s.data.length then do
      let bs ← rdN s.data q n
      .ok (fromBE n bs)
    else if r ≠ 0 ∧ q + (n + 1) ≤ s.data.length then do
      let bs ← rdN s.data q (n + 1)
      let res := fromBE (2 * n) (List.replicate (n - 1) 0 ++ bs)
      .ok ((res >>> (8 - r)).setWidth (8 * n))
    else .error .cellUnderflow
  else .error .cellUnderflow

/-- `cell/slice.rs:1345-1378` -/
def getU128 (s : CSlice ρ) (offset : Nat) : Except Err (BitVec 128) :=
  if u16add (u16add s.range.bitsStart offset) 128 ≤ s.range.bitsEnd then
    let index := u16add s.range.bitsStart offset
    let r := index % 8
    let q := index / 8
    if r = 0 ∧ q + 16 ≤ s.data.length then do
      let bs ← rdN s.data q 16
      .ok (fromBE 16 bs)
    else if r ≠ 0 ∧ q + 17 ≤ s.data.length then do
      let bytes ← rdN s.data q 17
      let res : BitVec 128 := fromBE 16 (bytes.drop 1)
      .ok ((((bytes.getD 0 0).setWidth 128) <<< (120 + r)) ||| (res >>> (8 - r)))
    else .error .cellUnderflow
  else .error .cellUnderflow

/-- `cell/slice.rs:1388-1437`; the result is a `[u8; 32]`. -/
def getU256 (s : CSlice ρ) (offset : Nat) : Except Err (List Byte) :=
  if u16add (u16add s.range.bitsStart offset) 256 ≤ s.range.bitsEnd then
    let index := u16add s.range.bitsStart offset
    let r := index % 8
    let q := index / 8
    if r = 0 ∧ q + 32 ≤ s.data.length then rdN s.data q 32
    else if r ≠ 0 ∧ q + 33 ≤ s.data.length then do
      let shift := 8 - r
      let revShift := 120 + r
      let bytes ← rdN s.data q 33
      let ovf := bytes.getD 0 0
      let hi : BitVec (8 * 16) := fromBE 16 ((bytes.drop 1).take 16)
      let lo : BitVec (8 * 16) := fromBE 16 (bytes.drop 17)
      .ok (toBE 16 ((hi >>> shift) ||| (ovf.setWidth (8 * 16) <<< revShift))
        ++ toBE 16 ((lo >>> shift) ||| (hi <<< revShift)))
    else .error .cellUnderflow
  else .error .cellUnderflow

/-- `cell/slice.rs:1450-1487` -/
def getSmallUint (s : CSlice ρ) (offset bits : Nat) : Except Err Byte :=
  if bits = 0 then .ok 0
  else if bits ≤ 8 ∧ u16add (u16add s.range.bitsStart offset) bits ≤ s.range.bitsEnd then
    let index := u16add s.range.bitsStart offset
    let r := index % 8
    let q := index / 8
    match s.data[q]? with
    | none => .error .cellUnderflow
    | some byte =>
      if r = 0 then .ok (byte >>> (8 - bits))
      else if bits ≤ 8 - r then .ok ((byte >>> (8 - r - bits)) &&& (((1#8) <<< bits) - 1))
      else
        match s.data[q + 1]? with
        | none => .error .cellUnderflow
        | some next =>
          let res : BitVec 16 := (byte.setWidth 16 <<< 8) ||| next.setWidth 16
          .ok (((res >>> (8 - r)).setWidth 8) >>> (8 - bits))
  else .error .cellUnderflow

/-- `cell/slice.rs:1504-1551` -/
def getUint (s : CSlice ρ) (offset bits : Nat) : Except Err (BitVec 64) :=
  if bits = 0 then .ok 0
  else if bits ≤ 64 ∧ u16add (u16add s.range.bitsStart offset) bits ≤ s.range.bitsEnd then
    let index := u16add s.range.bitsStart offset
    if (s.range.bitsEnd + 7) / 8 > s.data.length then .error .cellUnderflow
    else
      let r := index % 8
      let q := index / 8
      do
        let b0 ← rd s.data q
        let firstByte := b0 &&& ((0xff#8) >>> r)
        let rightShift := (8 - (bits + r) % 8) % 8
        if r + bits ≤ 8 then .ok ((firstByte >>> rightShift).setWidth 64)
        else
          let bits := bits - (8 - r)
          let src ← rdN s.data (q + 1) ((bits + 7) / 8)
          let bytes ← copyTo (List.replicate 8 0) 0 src
          let result : BitVec 64 := (fromBE 8 bytes) >>> (64 - bits)
          .ok (result ||| (firstByte.setWidth 64 <<< bits))
  else .error .cellUnderflow

/-- The unaligned read loop of `cell/slice.rs:1678-1683`; returns the written target bytes. -/
def rawLoop (data : List Byte) (r : Nat) : Nat → Nat → Except Err (List Byte)
  | 0, _ => .ok []
  | n + 1, p => do
    let x ← rd data p
    let y ← rd data (p + 1)
    let rest ← rawLoop data r n (p + 1)
    .ok (((x <<< r) ||| (y >>> (8 - r))) :: rest)

/-- `cell/slice.rs:1638-1700`. `targetCap` is the length of the target buffer; the result is the filled
prefix of the target. -/
def getRaw (s : CSlice ρ) (offset targetCap bits : Nat) : Except Err (List Byte) :=
  if bits = 0 then .ok []
  else if u16add s.range.bitsStart bits ≤ s.range.bitsEnd then
    let index := u16add s.range.bitsStart offset
    let targetLen := (bits + 7) / 8
    if targetLen ≤ targetCap then
      let r := index % 8
      let q := index / 8
      do
        let target ← (
          if r = 0 ∧ q + targetLen ≤ s.data.length then rdN s.data q targetLen
          else if r ≠ 0 then
            let byteLen := (u16add bits r + 7) / 8 - 1
            if q + byteLen > s.data.length then .error .cellUnderflow
            else do
              let t ← rawLoop s.data r byteLen q
              if byteLen < targetLen then do
                let x ← rd s.data (q + byteLen)
                .ok (t ++ [x <<< r])
              else .ok t
          else .error .cellUnderflow)
        if bits % 8 ≠ 0 then do
          let x ← rd target (targetLen - 1)
          wr target (targetLen - 1) (x &&& ((0xff#8) <<< (8 - bits % 8)))
        else .ok target
    else .error .cellUnderflow
  else .error .cellUnderflow

/-- The pattern `let res = self.get_x(0); self.range.bits_start += W * res.is_ok()` of
`cell/slice.rs:1241-1245`, `1493-1497`, `1558-1562`, `1704-1712`. -/
def advance {α : Type} (s : CSlice ρ) (res : Except Err α) (w : Nat) : Except Err α × CSlice ρ :=
  match res with
  | .ok a => (.ok a, { s with range := { s.range with bitsStart := u16add s.range.bitsStart w } })
  | .error e => (.error e, s)

/-- `cell/slice.rs:1241-1245`, `1291-1295`, `1338-1342` -/
def loadWord (n : Nat) (s : CSlice ρ) : Except Err (BitVec (8 * n)) × CSlice ρ := s.advance (s.getWord n 0) (8 * n)
/-- `cell/slice.rs:1381-1385` -/
def loadU128 (s : CSlice ρ) : Except Err (BitVec 128) × CSlice ρ := s.advance (s.getU128 0) 128
/-- `cell/slice.rs:1440-1444` -/
def loadU256 (s : CSlice ρ) : Except Err (List Byte) × CSlice ρ := s.advance (s.getU256 0) 256
/-- `cell/slice.rs:1493-1497` -/
def loadSmallUint (s : CSlice ρ) (bits : Nat) : Except Err Byte × CSlice ρ := s.advance (s.getSmallUint 0 bits) bits
/-- `cell/slice.rs:1558-1562` -/
def loadUint (s : CSlice ρ) (bits : Nat) : Except Err (BitVec 64) × CSlice ρ := s.advance (s.getUint 0 bits) bits
/-- `cell/slice.rs:1704-1712` -/
def loadRaw (s : CSlice ρ) (targetCap bits : Nat) : Except Err (List Byte) × CSlice ρ :=
  s.advance (s.getRaw 0 targetCap bits) bits

/-- `cell/slice.rs:1744-1751` -/
def getReference (s : CSlice ρ) (index : Nat) : Except Err ρ :=
  if u8add s.range.refsStart index < s.range.refsEnd then
    match s.refs[u8add s.range.refsStart index]? with
    | some c => .ok c
    | none => .error .cellUnderflow
  else .error .cellUnderflow

/-- `cell/slice.rs:1801-1812` -/
def loadReference (s : CSlice ρ) : Except Err ρ × CSlice ρ :=
  if s.range.refsStart < s.range.refsEnd then
    match s.refs[s.range.refsStart]? with
    | some c => (.ok c, { s with range := { s.range with refsStart := s.range.refsStart + 1 } })
    | none => (.error .cellUnderflow, s)
  else (.error .cellUnderflow, s)

/-- `cell/slice.rs:748-750` etc.: range operations on the slice. -/
def withRange (s : CSlice ρ) (r : Except Err Unit × SliceRange) : Except Err Unit × CSlice ρ :=
  (r.1, { s with range := r.2 })

def skipFirst (s : CSlice ρ) (bits refs : Nat) := s.withRange (s.range.skipFirst bits refs)
def onlyFirst (s : CSlice ρ) (bits refs : Nat) := s.withRange (s.range.onlyFirst bits refs)
def skipLast (s : CSlice ρ) (bits refs : Nat) := s.withRange (s.range.skipLast bits refs)
def onlyLast (s : CSlice ρ) (bits refs : Nat) := s.withRange (s.range.onlyLast bits refs)

/-- `cell/slice.rs:1725-1731` -/
def loadPrefix (s : CSlice ρ) (bits refs : Nat) : Except Err (CSlice ρ) × CSlice ρ :=
  let r := s.range.splitPrefix bits refs
  (r.1.map fun x => { s with range := x }, { s with range := r.2 })

/-- `cell/slice.rs:1735-1741` -/
def loadSuffix (s : CSlice ρ) (bits refs : Nat) : Except Err (CSlice ρ) × CSlice ρ :=
  let r := s.range.splitSuffix bits refs
  (r.1.map fun x => { s with range := x }, { s with range := r.2 })

/-- `cell/slice.rs:834-839` -/
def getPrefix (s : CSlice ρ) (bits refs : Nat) : CSlice ρ := { s with range := s.range.getPrefix bits refs }

/-- `cell/slice.rs:1715-1720` -/
def loadRemaining (s : CSlice ρ) : CSlice ρ × CSlice ρ :=
  (s, { s with range := { s.range with bitsStart := s.range.bitsEnd, refsStart := s.range.refsEnd } })

/-- Loop of `cell/slice.rs:986-1008`, `n` iterations from index `i`. `.inl` is the early return (before
the `min`), `.inr` the state after the loop. -/
def lcpLoop (sd od : List Byte) (sq sr oq or' : Nat) :
    Nat → Nat → Byte → Byte → Nat → Except Err (Nat ⊕ (Byte × Byte × Nat))
  | 0, _, sb, ob, pl => .ok (.inr (sb, ob, pl))
  | n + 1, i, sb, ob, pl => do
    let ns ← rd sd (sq + i)
    let sb := sb ||| ((ns.setWidth 16) >>> (8 - sr)).setWidth 8
    let no ← rd od (oq + i)
    let ob := ob ||| ((no.setWidth 16) >>> (8 - or')).setWidth 8
    let x := sb ^^^ ob
    if x = 0 then lcpLoop sd od sq sr oq or' n (i + 1) (ns <<< sr) (no <<< or') (pl + 8)
    else .ok (.inl (pl + leadingZeros x))

/-- `cell/slice.rs:947-1029` -/
def lcpImpl (s o : CSlice ρ) (maxHint : Nat) : Except Err Nat :=
  if s.range.bitsStart ≥ s.range.bitsEnd ∨ o.range.bitsStart ≥ o.range.bitsEnd then .ok 0
  else
    let maxBitLen := min (min (s.range.bitsEnd - s.range.bitsStart) (o.range.bitsEnd - o.range.bitsStart)) maxHint
    let sr := s.range.bitsStart % 8
    let sq := s.range.bitsStart / 8
    let or' := o.range.bitsStart % 8
    let oq := o.range.bitsStart / 8
    let sBytes := (sr + maxBitLen + 7) / 8
    let oBytes := (or' + maxBitLen + 7) / 8
    let aligned := min sBytes oBytes
    do
      let sb ← rd s.data sq
      let ob ← rd o.data oq
      match ← lcpLoop s.data o.data sq sr oq or' (aligned - 1) 1 (sb <<< sr) (ob <<< or') 0 with
      | .inl k => .ok (min k maxBitLen)
      | .inr (sb, ob, pl) => do
        let sb ← (if sr > 0 ∧ aligned < sBytes then do
          let x ← rd s.data (sq + aligned)
          .ok (sb ||| (x >>> (8 - sr))) else .ok sb)
        let ob ← (if or' > 0 ∧ aligned < oBytes then do
          let x ← rd o.data (oq + aligned)
          .ok (ob ||| (x >>> (8 - or'))) else .ok ob)
        let mask := (0xff#8) <<< ((8 - maxBitLen % 8) % 8)
        .ok (min (pl + leadingZeros ((sb &&& mask) ^^^ (ob &&& mask))) maxBitLen)

/-- `cell/slice.rs:942-945` -/
def longestCommonDataPrefix (s o : CSlice ρ) : Except Err (CSlice ρ) := do
  let n ← s.lcpImpl o 65535
  .ok (s.getPrefix n 0)

/-- `cell/slice.rs:898-913` -/
def stripDataPrefix (s p : CSlice ρ) : Except Err (Option (CSlice ρ)) :=
  let n := p.range.sizeBits
  if n = 0 then .ok (some s)
  else if s.range.sizeBits < n then .ok none
  else do
    let lcp ← s.lcpImpl p n
    if n ≤ lcp then
      match s.skipFirst n 0 with
      | (.ok (), s') => .ok (some s')
      | (.error _, _) => .ok none
    else .ok none

/-- Loop of `cell/slice.rs:789-794` over full 32-bit chunks: `n` chunks starting at `offset`. -/
def lexLoop (a b : CSlice ρ) : Nat → Nat → Except Err Ordering
  | 0, _ => .ok .eq
  | n + 1, offset => do
    let x ← a.getWord 4 offset
    let y ← b.getWord 4 offset
    match compare x.toNat y.toNat with
    | .eq => lexLoop a b n (offset + 32)
    | o => .ok o

/-- `cell/slice.rs:771-804`; `samePtr` is `ptr::addr_eq(lhs.cell, rhs.cell)`. -/
def lexCmp (samePtr : Bool) (a b : CSlice ρ) : Except Err Ordering :=
  if samePtr && decide (a.range.bitsStart = b.range.bitsStart) then
    .ok (compare a.range.sizeBits b.range.sizeBits)
  else do
    let bits := min a.range.sizeBits b.range.sizeBits
    let rem := bits % 32
    match ← lexLoop a b (bits / 32) 0 with
    | .eq =>
      let tail ← (if rem > 0 then do
          let x ← a.getUint (bits - rem) rem
          let y ← b.getUint (bits - rem) rem
          .ok (compare x.toNat y.toNat)
        else .ok .eq)
      match tail with
      | .eq => .ok (compare a.range.sizeBits b.range.sizeBits)
      | o => .ok o
    | o => .ok o

/-- `cell/slice.rs:842-853` -/
def isDataPrefixOf (samePtr : Bool) (s o : CSlice ρ) : Except Err Bool :=
  let bits := s.range.sizeBits
  if bits > o.range.sizeBits then .ok false
  else do
    let r ← lexCmp samePtr s (o.onlyFirst bits 0).2
    .ok (r == .eq)

/-- `cell/slice.rs:856-867` -/
def isDataSuffixOf (samePtr : Bool) (s o : CSlice ρ) : Except Err Bool :=
  let bits := s.range.sizeBits
  if bits > o.range.sizeBits then .ok false
  else do
    let r ← lexCmp samePtr s (o.onlyLast bits 0).2
    .ok (r == .eq)

end CSlice

/-! ### Scanning for a run of equal bits -/

/-- `cmp_to as u8 * u8::MAX` -/
def xorByte (b : Bool) : Byte := if b then 0xff#8 else 0

/-- Byte loop of `cell/slice.rs:2042-2050` (and `2017-2025` with the alignment stop): scans whole bytes while
`rem ≥ 8`. `aligned` says whether the loop also stops at a pointer aligned to 8 (address `base + p`).
`.inl` is the early return value, `.inr` the state `(p, rem)` after the loop. -/
def scanBytes (data : List Byte) (cmpTo : Bool) (bitCount : Nat) (stopAligned : Bool) (base : Nat) :
    Nat → Nat → Nat → Except Err (Nat ⊕ (Nat × Nat))
  | 0, p, rem => .ok (.inr (p, rem))
  | fuel + 1, p, rem =>
    if rem ≥ 8 ∧ ¬ (stopAligned ∧ (base + p) % 8 = 0) then do
      let x ← rd data p
      let v := x ^^^ xorByte cmpTo
      if v ≠ 0 then .ok (.inl (bitCount - rem + leadingZeros v))
      else scanBytes data cmpTo bitCount stopAligned base fuel (p + 1) (rem - 8)
    else .ok (.inr (p, rem))

/-- Word loop of `cell/slice.rs:2028-2040`. -/
def scanWords (data : List Byte) (cmpTo : Bool) (bitCount : Nat) :
    Nat → Nat → Nat → Except Err (Nat ⊕ (Nat × Nat))
  | 0, p, rem => .ok (.inr (p, rem))
  | fuel + 1, p, rem =>
    if rem ≥ 64 then do
      let bs ← rdN data p 8
      let z := fromBE 8 bs ^^^ (if cmpTo then BitVec.allOnes (8 * 8) else 0)
      if z ≠ 0 then .ok (.inl (bitCount - rem + leadingZeros z))
      else scanWords data cmpTo bitCount fuel (p + 8) (rem - 64)
    else .ok (.inr (p, rem))

/-- `cell/slice.rs:1982-2062` `bits_memscan`; `base` is the address of the data buffer. The `while` loops
run on fuel `bit_count`, which bounds the number of iterations (each consumes at least 8 bits). -/
def bitsMemscan (data : List Byte) (base offset bitCount : Nat) (cmpTo : Bool) : Except Err Nat :=
  if bitCount = 0 then .ok 0
  else do
    let p := offset / 8
    let off := offset % 8
    let tailScan (p rem : Nat) : Except Err Nat := do
      match ← scanBytes data cmpTo bitCount true base bitCount p rem with
      | .inl k => .ok k
      | .inr (p, rem) =>
        match ← scanWords data cmpTo bitCount bitCount p rem with
        | .inl k => .ok k
        | .inr (p, rem) =>
          match ← scanBytes data cmpTo bitCount false base bitCount p rem with
          | .inl k => .ok k
          | .inr (p, rem) =>
            if rem > 0 then do
              let x ← rd data p
              let c := leadingZeros (x ^^^ xorByte cmpTo)
              if c < rem then .ok (bitCount - rem + c) else .ok bitCount
            else .ok bitCount
    if off > 0 then do
      let x ← rd data p
      let c := leadingZeros ((x ^^^ xorByte cmpTo) <<< off)
      let l := 8 - off
      if c < l ∨ bitCount ≤ l then .ok (min c bitCount)
      else tailScan (p + 1) (bitCount - l)
    else tailScan p bitCount

/-- Loop of `cell/slice.rs:2089-2103`: 32-bit words backwards; `p` is the pointer (end, exclusive). -/
def scanRevWords (data : List Byte) (cmpTo : Bool) : Nat → Nat → Nat → Nat → Except Err (Nat ⊕ (Nat × Nat × Nat))
  | 0, p, rem, res => .ok (.inr (p, rem, res))
  | fuel + 1, p, rem, res =>
    if rem ≥ 32 then
      if p < 4 then .error .fault
      else do
        let bs ← rdN data (p - 4) 4
        let v := fromBE 4 bs ^^^ (if cmpTo then BitVec.allOnes (8 * 4) else 0)
        if v ≠ 0 then .ok (.inl (res + trailingZeros v))
        else scanRevWords data cmpTo fuel (p - 4) (rem - 32) (res + 32)
    else .ok (.inr (p, rem, res))

/-- Loop of `cell/slice.rs:2105-2114`: bytes backwards. -/
def scanRevBytes (data : List Byte) (cmpTo : Bool) : Nat → Nat → Nat → Nat → Except Err (Nat ⊕ (Nat × Nat × Nat))
  | 0, p, rem, res => .ok (.inr (p, rem, res))
  | fuel + 1, p, rem, res =>
    if rem ≥ 8 then
      if p < 1 then .error .fault
      else do
        let x ← rd data (p - 1)
        let v := x ^^^ xorByte cmpTo
        if v ≠ 0 then .ok (.inl (res + trailingZeros v))
        else scanRevBytes data cmpTo fuel (p - 1) (rem - 8) (res + 8)
    else .ok (.inr (p, rem, res))

/-- `cell/slice.rs:2067-2124` `bits_memscan_rev`. -/
def bitsMemscanRev (data : List Byte) (offset bitCount : Nat) (cmpTo : Bool) : Except Err Nat :=
  if bitCount = 0 then .ok 0
  else do
    let p := (offset + bitCount) / 8
    let off := (offset + bitCount) % 8
    let tailScan (rem res : Nat) : Except Err Nat := do
      match ← scanRevWords data cmpTo rem p rem res with
      | .inl k => .ok k
      | .inr (p, rem, res) =>
        match ← scanRevBytes data cmpTo rem p rem res with
        | .inl k => .ok k
        | .inr (p, rem, res) =>
          if rem > 0 then
            if p < 1 then .error .fault
            else do
              let x ← rd data (p - 1)
              .ok (res + min (trailingZeros (x ^^^ xorByte cmpTo)) rem)
          else .ok res
    if off > 0 then do
      let x ← rd data p
      let c := trailingZeros ((x >>> (8 - off)) ^^^ xorByte cmpTo)
      if c < off ∨ off ≥ bitCount then .ok (min c bitCount)
      else tailScan (bitCount - off) off
    else tailScan bitCount 0

namespace CSlice
variable {ρ : Type}

/-- `cell/slice.rs:1032-1047` -/
def countLeading (base : Nat) (s : CSlice ρ) (bit : Bool) : Except Err Nat :=
  if s.range.bitsStart ≥ s.range.bitsEnd then .ok 0
  else if (s.range.bitsEnd + 7) / 8 > s.data.length then .error .cellUnderflow
  else bitsMemscan s.data base s.range.bitsStart (s.range.bitsEnd - s.range.bitsStart) bit

/-- `cell/slice.rs:1050-1065` -/
def countTrailing (s : CSlice ρ) (bit : Bool) : Except Err Nat :=
  if s.range.bitsStart ≥ s.range.bitsEnd then .ok 0
  else if (s.range.bitsEnd + 7) / 8 > s.data.length then .error .cellUnderflow
  else bitsMemscanRev s.data s.range.bitsStart (s.range.bitsEnd - s.range.bitsStart) bit

/-- Loop of `cell/slice.rs:1137-1142`: `n` bytes after `p` all equal `target`. -/
def allEqLoop (data : List Byte) (target : Byte) : Nat → Nat → Except Err Bool
  | 0, _ => .ok true
  | n + 1, p => do
    let x ← rd data (p + 1)
    if x ≠ target then .ok false else allEqLoop data target n (p + 1)

/-- `cell/slice.rs:1097-1160` -/
def testUniform (base : Nat) (s : CSlice ρ) : Except Err (Option Bool) :=
  if s.range.bitsStart ≥ s.range.bitsEnd then .ok none
  else if (s.range.bitsEnd + 7) / 8 > s.data.length then .ok none
  else do
    let bitCount := s.range.bitsEnd - s.range.bitsStart
    let r := s.range.bitsStart % 8
    let q := s.range.bitsStart / 8
    let first ← rd s.data q
    let bit := ((first >>> (7 - r)) &&& 1) != 0
    if bitCount < 64 then
      let target := xorByte bit
      let firstMask := (0xff#8) >>> r
      let lastMask := (0xff#8) <<< ((8 - (bitCount + r) % 8) % 8)
      if r + bitCount ≤ 8 then
        if ((first ^^^ target) &&& firstMask &&& lastMask) ≠ 0 then .ok none else .ok (some bit)
      else if ((first ^^^ target) &&& firstMask) ≠ 0 then .ok none
      else
        let bitCount := bitCount - (8 - r)
        if ← allEqLoop s.data target (bitCount / 8) q then
          if bitCount % 8 ≠ 0 then do
            let x ← rd s.data (q + bitCount / 8 + 1)
            if ((x ^^^ target) &&& lastMask) ≠ 0 then .ok none else .ok (some bit)
          else .ok (some bit)
        else .ok none
    else do
      let same ← bitsMemscan s.data base s.range.bitsStart bitCount bit
      .ok (if same = bitCount then some bit else none)

/-! ### Specification side -/

/-- The data bits visible through the window. -/
def bits (s : CSlice ρ) : Bits :=
  (List.range (s.range.bitsEnd - s.range.bitsStart)).map fun i => bitAt s.data (s.range.bitsStart + i)

/-- The references visible through the window. -/
def refList (s : CSlice ρ) : List ρ := (s.refs.drop s.range.refsStart).take (s.range.refsEnd - s.range.refsStart)

/-- The window lies inside a cell of legal size. -/
structure WF (s : CSlice ρ) : Prop where
  start_le : s.range.bitsStart ≤ s.range.bitsEnd
  end_le : s.range.bitsEnd ≤ 8 * s.data.length
  data_le : s.data.length ≤ 128
  rstart_le : s.range.refsStart ≤ s.range.refsEnd
  rend_le : s.range.refsEnd ≤ s.refs.length
  refs_le : s.refs.length ≤ 4

end CSlice

/-- Length of the longest common prefix. -/
def commonPrefixLen : Bits → Bits → Nat
  | a :: as, b :: bs => if a = b then commonPrefixLen as bs + 1 else 0
  | _, _ => 0

/-- Number of leading bits equal to `b`. -/
def runLength (b : Bool) : Bits → Nat
  | a :: as => if a = b then runLength b as + 1 else 0
  | [] => 0

/-- Lexicographic comparison of bit strings (`0 < 1`, a proper prefix is smaller). -/
def lexBits : Bits → Bits → Ordering
  | [], [] => .eq
  | [], _ :: _ => .lt
  | _ :: _, [] => .gt
  | a :: as, b :: bs => if a = b then lexBits as bs else if b then .lt else .gt

end Verif
