import Verif.Mem
/-
Model of `CellDataBuilder` (`cell/builder.rs`), byte level.

`u16` additions wrap (release build behaviour; a debug build panics instead).
-/
namespace Verif

/-- `cell/builder.rs:704-709` `CellDataBuilder`: a `[u8; 128]` buffer and a length in bits. -/
structure DataBuilder where
  data : List Byte
  bitLen : Nat
  deriving DecidableEq, Repr

/-- `u16` addition (release build). -/
def u16add (a b : Nat) : Nat := (a + b) % 65536

namespace DataBuilder

/-- Result of a `&mut self` operation: the `Result` and the builder afterwards. -/
abbrev Res := Except Err Unit × DataBuilder

/-- Commit the outcome of raw memory writes. A `fault` is undefined behaviour, the state does not
matter there. -/
def commit (b : DataBuilder) (r : Except Err (List Byte)) (newLen : Nat) : Res :=
  match r with
  | .ok d => (.ok (), { data := d, bitLen := newLen })
  | .error e => (.error e, b)

/-- `cell/builder.rs:795-800` -/
def new : DataBuilder := { data := List.replicate 128 0, bitLen := 0 }

/-- `cell/builder.rs:848-850` (`spare_capacity_bits`) -/
def spareCapacityBits (b : DataBuilder) : Nat := maxBitLen - b.bitLen

/-- `cell/builder.rs:854-856` -/
def hasCapacityBits (b : DataBuilder) (bits : Nat) : Bool := decide (u16add b.bitLen bits ≤ maxBitLen)

/-- `cell/builder.rs:859-862` -/
def clearBits (_ : DataBuilder) : DataBuilder := new

/-- `ptr::write_bytes(p, 0, n)`. -/
def zeroBytes (d : List Byte) (p n : Nat) : Except Err (List Byte) := copyTo d p (List.replicate n 0)

/-- `cell/builder.rs:865-892`. Pointer arithmetic happens on `data_ptr = data + q`. When `r = 0`
and the number of cleared bytes is 0 nothing is written. -/
def rewindBits (b : DataBuilder) (bits : Nat) : Res :=
  if bits = 0 then (.ok (), b)
  else if b.bitLen < bits then (.error .cellUnderflow, b)
  else
    let newLen := b.bitLen - bits
    let q := newLen / 8
    let r := newLen % 8
    let w : Except Err (List Byte) :=
      if r ≠ 0 then do
        let shift := 8 - r
        let x ← rd b.data q
        let d ← wr b.data q (x &&& (0xff#8 <<< shift))
        zeroBytes d (q + 1) ((bits - shift + 7) / 8)
      else zeroBytes b.data q ((bits + 7) / 8)
    commit b w newLen

/-- `cell/builder.rs:896-903` -/
def storeZeros (b : DataBuilder) (bits : Nat) : Res :=
  if u16add b.bitLen bits ≤ maxBitLen then (.ok (), { b with bitLen := u16add b.bitLen bits })
  else (.error .cellOverflow, b)

/-- `cell/builder.rs:913-921` -/
def storeBitZero (b : DataBuilder) : Res :=
  if b.bitLen < maxBitLen then (.ok (), { b with bitLen := b.bitLen + 1 })
  else (.error .cellOverflow, b)

/-- `cell/builder.rs:925-935` -/
def storeBitOne (b : DataBuilder) : Res :=
  if b.bitLen < maxBitLen then
    let q := b.bitLen / 8
    let r := b.bitLen % 8
    commit b (do
      let x ← rd b.data q
      wr b.data q (x ||| (1#8 <<< (7 - r)))) (b.bitLen + 1)
  else (.error .cellOverflow, b)

/-- `cell/builder.rs:939-945` -/
def storeBit (b : DataBuilder) (value : Bool) : Res :=
  if value then b.storeBitOne else b.storeBitZero

/-- `cell/builder.rs:949-970` -/
def storeU8 (b : DataBuilder) (value : Byte) : Res :=
  if b.bitLen + 8 ≤ maxBitLen then
    let q := b.bitLen / 8
    let r := b.bitLen % 8
    commit b (
      if r = 0 then wr b.data q value
      else do
        let x ← rd b.data q
        let d ← wr b.data q (x ||| (value >>> r))
        wr d (q + 1) (value <<< (8 - r))) (b.bitLen + 8)
  else (.error .cellOverflow, b)

/-- `cell/builder.rs:763-791` macro `impl_store_uint`, for an `n`-byte word. -/
def storeWord (n : Nat) (b : DataBuilder) (value : BitVec (8 * n)) : Res :=
  if b.bitLen + 8 * n ≤ maxBitLen then
    let q := b.bitLen / 8
    let r := b.bitLen % 8
    commit b (
      if r = 0 then copyTo b.data q (toBE n value)
      else do
        let x ← rd b.data q
        let d ← wr b.data q (x ||| (value >>> (8 * n - 8 + r)).setWidth 8)
        copyTo d (q + 1) (toBE n (value <<< (8 - r)))) (b.bitLen + 8 * n)
  else (.error .cellOverflow, b)

/-- `cell/builder.rs:974-976` -/
def storeU16 (b : DataBuilder) (v : BitVec 16) : Res := storeWord 2 b v
/-- `cell/builder.rs:980-982` -/
def storeU32 (b : DataBuilder) (v : BitVec 32) : Res := storeWord 4 b v
/-- `cell/builder.rs:986-988` -/
def storeU64 (b : DataBuilder) (v : BitVec 64) : Res := storeWord 8 b v
/-- `cell/builder.rs:992-994` -/
def storeU128 (b : DataBuilder) (v : BitVec 128) : Res := storeWord 16 b v

/-- `cell/builder.rs:999-1044` `store_u256`; `value` is a `[u8; 32]`. -/
def storeU256 (b : DataBuilder) (value : List Byte) : Res :=
  if b.bitLen + 256 ≤ maxBitLen then
    let q := b.bitLen / 8
    let r := b.bitLen % 8
    commit b (
      if r = 0 then copyTo b.data q value
      else do
        let hi : BitVec (8 * 16) := fromBE 16 (value.take 16)
        let lo : BitVec (8 * 16) := fromBE 16 (value.drop 16)
        let shift := 8 - r
        let x ← rd b.data q
        let d ← wr b.data q (x ||| (hi >>> (128 - shift)).setWidth 8)
        let d ← copyTo d (q + 1) (toBE 16 ((hi <<< shift) ||| (lo >>> (128 - shift))))
        copyTo d (q + 17) (toBE 16 (lo <<< shift))) (b.bitLen + 256)
  else (.error .cellOverflow, b)

/-- `cell/builder.rs:1050-1087` -/
def storeSmallUint (b : DataBuilder) (value : Byte) (bits : Nat) : Res :=
  if bits = 0 then (.ok (), b)
  else if u16add b.bitLen bits ≤ maxBitLen then
    let bitLen := if 8 ≤ bits then b.bitLen + (bits - 8) else b.bitLen
    let bits := if 8 ≤ bits then 8 else bits
    let value := value <<< (8 - bits)
    let q := bitLen / 8
    let r := bitLen % 8
    commit b (
      if r = 0 then wr b.data q value
      else do
        let x ← rd b.data q
        let d ← wr b.data q (x ||| (value >>> r))
        if bits + r > 8 then wr d (q + 1) (value <<< (8 - r)) else .ok d) (bitLen + bits)
  else (.error .cellOverflow, b)

/-- `cell/builder.rs:1093-1152` -/
def storeUint (b : DataBuilder) (value : BitVec 64) (bits : Nat) : Res :=
  if bits = 0 then (.ok (), b)
  else if u16add b.bitLen bits ≤ maxBitLen then
    let bitLen := if 64 ≤ bits then b.bitLen + (bits - 64) else b.bitLen
    let bits := if 64 ≤ bits then 64 else bits
    let value : BitVec (8 * 8) := value <<< (64 - bits)
    let q := bitLen / 8
    let r := bitLen % 8
    commit b (
      if r = 0 then copyTo b.data q ((toBE 8 value).take ((bits + 7) / 8))
      else do
        let shift := 8 - r
        let x ← rd b.data q
        let d ← wr b.data q (x ||| (value >>> (64 - shift)).setWidth 8)
        if shift ≤ bits ∧ bits - shift > 0 then
          copyTo d (q + 1) ((toBE 8 (value <<< shift)).take ((bits - shift + 7) / 8))
        else .ok d) (bitLen + bits)
  else (.error .cellOverflow, b)

/-- The unaligned copy loop of `cell/builder.rs:1450-1455`: `n` iterations starting with
`data_ptr = d + p`, `value_ptr = value + vp`. -/
def shiftLoop (r : Nat) (value : List Byte) : Nat → List Byte → Nat → Nat → Except Err (List Byte)
  | 0, d, _, _ => .ok d
  | n + 1, d, p, vp => do
    let v ← rd value vp
    let x ← rd d p
    let d ← wr d p (x ||| (v >>> r))
    let d ← wr d (p + 1) (v <<< (8 - r))
    shiftLoop r value n d (p + 1) (vp + 1)

/-- `value.len().saturating_mul(8) as u16` (`cell/builder.rs:1412`), 64-bit `usize`. -/
def valueBitLenU16 (value : List Byte) : Nat := (min (8 * value.length) (2 ^ 64 - 1)) % 65536

/-- `cell/builder.rs:1404-1471` `store_raw`. -/
def storeRaw (b : DataBuilder) (value : List Byte) (bits : Nat) : Res :=
  if u16add b.bitLen bits ≤ maxBitLen then
    let m := valueBitLenU16 value
    let bitLen := if m ≤ bits then u16add b.bitLen (bits - m) else b.bitLen
    let bits := if m ≤ bits then m else bits
    if bits = 0 then (.ok (), { b with bitLen := bitLen })
    else
      let q := bitLen / 8
      let r := bitLen % 8
      commit b (
        if r = 0 then do
          let byteLen := (bits + 7) / 8
          let src ← rdN value 0 byteLen
          let d ← copyTo b.data q src
          if bits % 8 ≠ 0 then do
            let x ← rd d (q + (byteLen - 1))
            wr d (q + (byteLen - 1)) (x &&& (0xff#8 <<< (8 - bits % 8)))
          else .ok d
        else do
          let byteLen := (bits + r + 7) / 8 - 1
          let valueLen := (bits + 7) / 8
          let d ← shiftLoop r value byteLen b.data q 0
          let d ← (if byteLen < valueLen then do
              let v ← rd value byteLen
              let x ← rd d (q + byteLen)
              wr d (q + byteLen) (x ||| (v >>> r))
            else .ok d)
          if (r + bits) % 8 ≠ 0 then do
            let x ← rd d (q + byteLen)
            wr d (q + byteLen) (x &&& (0xff#8 <<< (8 - (r + bits) % 8)))
          else .ok d) (bitLen + bits)
  else (.error .cellOverflow, b)

/-- `cell/builder.rs:907-909`: stores from the all-ones cell data `[0xff; 128]`
(`cell/cell_impl/mod.rs:219`). -/
def storeOnes (b : DataBuilder) (bits : Nat) : Res := storeRaw b (List.replicate 128 0xff#8) bits

/-- `cell/builder.rs:805-809` -/
def fromRawData (value : List Byte) (bits : Nat) : Except Err DataBuilder :=
  match storeRaw new value bits with
  | (.ok (), b) => .ok b
  | (.error e, _) => .error e

/-- `cell/builder.rs:1370-1401`. -/
def prependRaw (b : DataBuilder) (value : List Byte) (bits : Nat) : Res :=
  if bits = 0 then (.ok (), b)
  else if u16add b.bitLen bits ≤ maxBitLen then
    match storeRaw new value bits with
    | (.error e, _) => (.error e, b)
    | (.ok (), t) =>
      match storeRaw t b.data b.bitLen with
      | (.error e, _) => (.error e, b)
      | (.ok (), t) => (.ok (), t)
  else (.error .cellOverflow, b)

/-! ### Specification side -/

/-- The bits stored in a builder. -/
def bits (b : DataBuilder) : Bits := (List.range b.bitLen).map (bitAt b.data)

/-- The representation invariant: a full size buffer, a legal length, and zeroes after the end. -/
structure WF (b : DataBuilder) : Prop where
  len : b.data.length = 128
  le : b.bitLen ≤ maxBitLen
  tail : ∀ i, b.bitLen ≤ i → bitAt b.data i = false

end DataBuilder

/-- What `store_raw(value, bits)` is documented to store (`cell/builder.rs:1303-1306`): the first
`bits` bits of `value`, padded with leading zeroes if `value` is shorter. -/
def rawBits (value : List Byte) (bits : Nat) : Bits :=
  if bits ≤ 8 * value.length then (bytesToBits value).take bits
  else List.replicate (bits - 8 * value.length) false ++ bytesToBits value

end Verif
