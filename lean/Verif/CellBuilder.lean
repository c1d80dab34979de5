import Verif.Slice
/-
Model of `CellBuilder` (data + references) and of the data finishing step of `build_ext`.
-/
namespace Verif

/-- `cell/builder.rs:180-184` `CellBuilder`: a data builder, references and the exotic flag. -/
structure CellB (ρ : Type) where
  inner : DataBuilder
  refs : List ρ
  exotic : Bool

namespace CellB
variable {ρ : Type}

abbrev Res (ρ : Type) := Except Err Unit × CellB ρ

/-- `cell/builder.rs:398-405` -/
def new : CellB ρ := { inner := DataBuilder.new, refs := [], exotic := false }

/-- Lift a data operation (`Deref` to `CellDataBuilder`). -/
def onData (b : CellB ρ) (r : DataBuilder.Res) : Res ρ := (r.1, { b with inner := r.2 })

/-- `cell/builder.rs:439-447` -/
def storeReference (b : CellB ρ) (c : ρ) : Res ρ :=
  if b.refs.length < maxRefCount then (.ok (), { b with refs := b.refs ++ [c] })
  else (.error .cellOverflow, b)

/-- The `for cell in .. { ok!(self.store_reference(cell)) }` loops. -/
def storeReferences (b : CellB ρ) : List ρ → Res ρ
  | [] => (.ok (), b)
  | c :: cs =>
    match b.storeReference c with
    | (.ok (), b) => b.storeReferences cs
    | (.error e, b) => (.error e, b)

/-- `cell/builder.rs:456-468` `store_builder` -/
def storeBuilder (b o : CellB ρ) : Res ρ :=
  if u16add b.inner.bitLen o.inner.bitLen ≤ maxBitLen ∧ b.refs.length + o.refs.length ≤ maxRefCount then
    match b.inner.storeRaw o.inner.data o.inner.bitLen with
    | (.ok (), d) => { b with inner := d }.storeReferences o.refs
    | (.error e, d) => (.error e, { b with inner := d })
  else (.error .cellOverflow, b)

/-- `cell/builder.rs:1335-1364` `store_slice_data`. -/
def _root_.Verif.DataBuilder.storeSliceData (b : DataBuilder) (s : CSlice ρ) : DataBuilder.Res :=
  let bits := s.range.sizeBits
  if u16add b.bitLen bits ≤ maxBitLen then
    match s.getRaw 0 128 bits with
    | .ok d => b.storeRaw d bits
    | .error e => (.error e, b)
  else (.error .cellOverflow, b)

/-- `cell/builder.rs:473-490` `store_slice`; `value.references()` iterates `refs_start..refs_end`. -/
def storeSlice (b : CellB ρ) (s : CSlice ρ) : Res ρ :=
  if u16add b.inner.bitLen s.range.sizeBits ≤ maxBitLen ∧ b.refs.length + s.range.sizeRefs ≤ maxRefCount then
    match b.inner.storeSliceData s with
    | (.ok (), d) => { b with inner := d }.storeReferences ((s.refs.drop s.range.refsStart).take s.range.sizeRefs)
    | (.error e, d) => (.error e, { b with inner := d })
  else (.error .cellOverflow, b)

end CellB

/-- `cell/builder.rs:538-562`: put the completion tag after the data bits, then cut to whole bytes. -/
def DataBuilder.finish (b : DataBuilder) : List Byte :=
  let rem := b.bitLen % 8
  let last := b.bitLen / 8
  let d := if rem > 0 then
      let tagMask := (1#8) <<< (7 - rem)
      let dataMask := ~~~ (tagMask - 1)
      b.data.set last ((b.data.getD last 0 &&& dataMask) ||| tagMask)
    else b.data
  d.take (min ((b.bitLen + 7) / 8) 128)

/-- `cell/slice.rs:254-267`, `CellSliceRange::full` over the finished cell. -/
def CellB.asSlice {ρ : Type} (b : CellB ρ) : CSlice ρ :=
  { data := b.inner.finish, refs := b.refs,
    range := { bitsStart := 0, bitsEnd := b.inner.bitLen, refsStart := 0, refsEnd := b.refs.length } }

/-- Specification: the zero-padded bytes with the completion tag, from a plain bit string. -/
def tagged (l : Bits) : Bits :=
  if l.length % 8 = 0 then l else l ++ true :: List.replicate (7 - l.length % 8) false

end Verif
