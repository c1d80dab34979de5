import Verif.BigNumProps
import Verif.TypedDict
import Verif.DictIter
import Verif.TlbMore
/-!
# ABI values

The types and values of the contract ABI (`abi/ty.rs`, `abi/value/mod.rs`), the serializer that spreads values over a chain of cells
(`abi/value/ser.rs`) and the decoder that follows the chain (`abi/value/de.rs`).

Simplifications: names are strings; `string` values hold their bytes; a map is the list of its entries (the decoder inserts into a list as into a
`BTreeMap`); sizes are natural numbers: the saturating 16-bit and 64-bit sums of the code are plain sums here, which differ only beyond 65535 bits in
values that have to fit into one cell; the `debug_assert`s of `finalize` are left out; all errors that exist only in the ABI are `invalidData`.
-/
set_option linter.unusedVariables false
namespace Verif
namespace Abi

/-- `AbiVersion` (`abi/mod.rs`) -/
structure Ver where
  major : Nat
  minor : Nat
  deriving DecidableEq

/-- `abi/value/ser.rs:722-726` `use_max_size`: at least version 2.2. -/
def Ver.useMax (v : Ver) : Bool := decide (v.major > 2 ∨ v.major = 2 ∧ v.minor ≥ 2)

/-- `Size` (`cell/mod.rs`) and `CellTreeStats` (bits and references). -/
structure Size where
  bits : Nat
  refs : Nat
  deriving DecidableEq

def Size.add (a b : Size) : Size := ⟨a.bits + b.bits, a.refs + b.refs⟩
instance : Add Size := ⟨Size.add⟩

/-- `PlainAbiType` (`abi/ty.rs:798-809`) -/
inductive PTy
  | uint (n : Nat) | int (n : Nat) | bool | address
  deriving DecidableEq

/-- `abi/ty.rs:813-819` `key_bits` -/
def PTy.bits : PTy → Nat
  | .uint n => n | .int n => n | .bool => 1 | .address => 267

/-- `PlainAbiValue` (`abi/value/mod.rs`) -/
inductive PVal
  | uint (n v : Nat) | int (n : Nat) (x : Int) | bool (b : Bool) | address (a : IntAddr)
  deriving DecidableEq

mutual
/-- `AbiType` (`abi/ty.rs:286-332`) -/
inductive Ty
  | uint (n : Nat) | int (n : Nat) | varuint (n : Nat) | varint (n : Nat) | bool | cell | address | bytes | fixedBytes (n : Nat) | string | token
  | tuple (items : Tys)
  | array (t : Ty)
  | fixedArray (t : Ty) (n : Nat)
  | map (k : PTy) (t : Ty)
  | optional (t : Ty)
  | ref (t : Ty)
/-- A list of `NamedAbiType`. -/
inductive Tys
  | nil
  | cons (name : String) (t : Ty) (rest : Tys)
end

mutual
/-- `AbiValue` (`abi/value/mod.rs:123-166`); the two forms of `Optional` are `absent` and `present`. -/
inductive Val
  | uint (n v : Nat)
  | int (n : Nat) (x : Int)
  | varuint (n v : Nat)
  | varint (n : Nat) (x : Int)
  | bool (b : Bool)
  | cell (c : Cell)
  | address (a : IntAddr)
  | bytes (d : List Byte)
  | fixedBytes (d : List Byte)
  | string (d : List Byte)
  | token (v : Nat)
  | tuple (items : Items)
  | array (t : Ty) (vs : Elems)
  | fixedArray (t : Ty) (vs : Elems)
  | map (k : PTy) (t : Ty) (es : Entries)
  | absent (t : Ty)
  | present (t : Ty) (v : Val)
  | ref (v : Val)
/-- A list of `NamedAbiValue`. -/
inductive Items
  | nil
  | cons (name : String) (v : Val) (rest : Items)
/-- A list of values. -/
inductive Elems
  | nil
  | cons (v : Val) (rest : Elems)
/-- The entries of a map. -/
inductive Entries
  | nil
  | cons (k : PVal) (v : Val) (rest : Entries)
end

def Elems.length : Elems → Nat
  | .nil => 0
  | .cons _ r => r.length + 1
def Elems.isEmpty : Elems → Bool
  | .nil => true
  | .cons .. => false
def Entries.isEmpty : Entries → Bool
  | .nil => true
  | .cons .. => false

mutual
/-- `abi/value/mod.rs:217-242` `get_type` -/
def Val.type : Val → Ty
  | .uint n _ => .uint n
  | .int n _ => .int n
  | .varuint n _ => .varuint n
  | .varint n _ => .varint n
  | .bool _ => .bool
  | .cell _ => .cell
  | .address _ => .address
  | .bytes _ => .bytes
  | .fixedBytes d => .fixedBytes d.length
  | .string _ => .string
  | .token _ => .token
  | .tuple items => .tuple items.types
  | .array t _ => .array t
  | .fixedArray t vs => .fixedArray t vs.length
  | .map k t _ => .map k t
  | .absent t => .optional t
  | .present t _ => .optional t
  | .ref v => .ref v.type
def Items.types : Items → Tys
  | .nil => .nil
  | .cons n v r => .cons n v.type r.types
end

/-! ### Sizes -/

/-- `8 - (n - 1).leading_zeros()`: the bits of the length of a variable-length integer. -/
def lenBits (n : Nat) : Nat := Big.bitLen (n - 1)

/-- A value of a type of this size is stored in place within an optional (`abi/ty.rs:384-386`). -/
def Size.small (z : Size) : Bool := decide (z.bits < 1023 ∧ z.refs < 4)

mutual
/-- `abi/ty.rs:354-412` `max_size`; `IntAddr::BITS_MAX` is 591, `Tokens::MAX_BITS` is 124. -/
def Ty.max : Ty → Size
  | .uint n => ⟨n, 0⟩
  | .int n => ⟨n, 0⟩
  | .varuint n => ⟨lenBits n + (n - 1) * 8, 0⟩
  | .varint n => ⟨lenBits n + (n - 1) * 8, 0⟩
  | .bool => ⟨1, 0⟩
  | .cell => ⟨0, 1⟩
  | .bytes => ⟨0, 1⟩
  | .fixedBytes _ => ⟨0, 1⟩
  | .string => ⟨0, 1⟩
  | .ref _ => ⟨0, 1⟩
  | .address => ⟨591, 0⟩
  | .token => ⟨124, 0⟩
  | .array _ => ⟨33, 1⟩
  | .fixedArray _ _ => ⟨1, 1⟩
  | .map _ _ => ⟨1, 1⟩
  | .optional t => if t.max.small then ⟨1, 0⟩ + t.max else ⟨1, 1⟩
  | .tuple items => items.max
def Tys.max : Tys → Size
  | .nil => ⟨0, 0⟩
  | .cons _ t r => t.max + r.max
end

mutual
/-- `abi/value/ser.rs:113-176` `compute_exact_size_short` (for a tuple also `compute_exact_size_full`). -/
def Val.exact : Val → Size
  | .uint n _ => ⟨n, 0⟩
  | .int n _ => ⟨n, 0⟩
  | .varuint n v => ⟨lenBits n + Nat.max 8 (8 * ((Big.bitLen v + 7) / 8)), 0⟩
  | .varint n x => ⟨lenBits n + Nat.max 8 (8 * ((Big.bitLen x.natAbs + 7) / 8)), 0⟩
  | .bool _ => ⟨1, 0⟩
  | .cell _ => ⟨0, 1⟩
  | .bytes _ => ⟨0, 1⟩
  | .fixedBytes _ => ⟨0, 1⟩
  | .string _ => ⟨0, 1⟩
  | .ref _ => ⟨0, 1⟩
  | .address a => ⟨a.bitLen, 0⟩
  | .token v => ⟨(VarKind.tokens.bitLen v).getD 124, 0⟩
  | .array _ vs => ⟨33, if vs.isEmpty then 0 else 1⟩
  | .fixedArray _ vs => ⟨1, if vs.isEmpty then 0 else 1⟩
  | .map _ _ es => ⟨1, if es.isEmpty then 0 else 1⟩
  | .absent _ => ⟨1, 0⟩
  | .present t v => if t.max.small then ⟨1, 0⟩ + v.exact else ⟨1, 1⟩
  | .tuple items => items.exact
def Items.exact : Items → Size
  | .nil => ⟨0, 0⟩
  | .cons _ v r => v.exact + r.exact
end

mutual
/-- `abi/value/ser.rs:178-223` `compute_max_size_short` (for a tuple also `compute_max_size_full`). -/
def Val.maxSize : Val → Size
  | .uint n _ => ⟨n, 0⟩
  | .int n _ => ⟨n, 0⟩
  | .varuint n _ => ⟨lenBits n + (n - 1) * 8, 0⟩
  | .varint n _ => ⟨lenBits n + (n - 1) * 8, 0⟩
  | .bool _ => ⟨1, 0⟩
  | .cell _ => ⟨0, 1⟩
  | .bytes _ => ⟨0, 1⟩
  | .fixedBytes _ => ⟨0, 1⟩
  | .string _ => ⟨0, 1⟩
  | .ref _ => ⟨0, 1⟩
  | .address _ => ⟨591, 0⟩
  | .token _ => ⟨124, 0⟩
  | .array _ _ => ⟨33, 1⟩
  | .fixedArray _ _ => ⟨1, 1⟩
  | .map _ _ _ => ⟨1, 1⟩
  | .absent t => if t.max.small then ⟨1 + t.max.bits, t.max.refs⟩ else ⟨1, 1⟩
  | .present t _ => if t.max.small then ⟨1 + t.max.bits, t.max.refs⟩ else ⟨1, 1⟩
  | .tuple items => items.maxSize
def Items.maxSize : Items → Size
  | .nil => ⟨0, 0⟩
  | .cons _ v r => v.maxSize + r.maxSize
end

/-- `abi/value/ser.rs:83-89` `compute_size_full` -/
def Val.size (ver : Ver) (v : Val) : Size := if ver.useMax then v.maxSize else v.exact

/-! ### The serializer -/

/-- `AbiSerializer` (`abi/value/ser.rs:226-231`); the last builder comes first. -/
structure Ser where
  current : Size
  remaining : Size
  stack : List (CellB Cell)

/-- `abi/value/ser.rs:234-241` `new` followed by `reserve_value` of a value of this size. -/
def Ser.start (z : Size) : Ser := ⟨⟨0, 0⟩, z, []⟩

/-- Whether the value goes into the current builder (`abi/value/ser.rs:307-318`). -/
def inPlace (ver : Ver) (avail rest z : Size) : Bool :=
  if z.bits > avail.bits || z.refs > avail.refs then false
  else if z.refs > 0 && z.refs == avail.refs then
    ver.major != 1 && rest.refs == 0 && decide (rest.bits + z.bits ≤ avail.bits)
  else true

/-- `abi/value/ser.rs:296-324` `require_builder`; `Size::MAX - self.current` is checked in debug builds. -/
def Ser.require (ver : Ver) (z : Size) (s : Ser) : Except Err Ser :=
  let rest : Size := ⟨s.remaining.bits - z.bits, s.remaining.refs - z.refs⟩
  let stack := match s.stack with | [] => [CellB.new] | st => st
  if s.current.bits > 1023 || s.current.refs > 4 then .error .panic
  else if inPlace ver ⟨1023 - s.current.bits, 4 - s.current.refs⟩ rest z then .ok ⟨s.current + z, rest, stack⟩
  else .ok ⟨z, rest, CellB.new :: stack⟩

/-- A store into the builder that `require_builder` returns. -/
def put (ver : Ver) (z : Size) (w : Wr Cell Unit) (s : Ser) : Except Err Ser :=
  s.require ver z >>= fun s =>
    match s.stack with
    | [] => .error .panic
    | b :: bs => match w b with
      | (.error e, _) => .error e
      | (.ok _, b') => .ok { s with stack := b' :: bs }

/-- `build_ext` -/
def build (acc : Cell → Bool) (b : CellB Cell) : Except Err Cell := buildSl acc ⟨b.inner.bits, b.refs⟩

/-- The loop of `finalize` (`abi/value/ser.rs:270-276`). -/
def nest (acc : Cell → Bool) : CellB Cell → List (CellB Cell) → Except Err (CellB Cell)
  | result, [] => .ok result
  | result, b :: bs => build acc result >>= fun c =>
    match (Wr.ref c : Wr Cell Unit) b with
    | (.error e, _) => .error e
    | (.ok _, b') => nest acc b' bs

/-- `abi/value/ser.rs:267-276` `finalize` (and 280-294 `take_finalize`, after which the serializer is as new). -/
def finalize (acc : Cell → Bool) (s : Ser) : Except Err (CellB Cell) :=
  match s.stack with
  | [] => .ok .new
  | b :: bs => nest acc b bs

/-- `abi/value/ser.rs:651-687` `to_signed_bytes_be`: only negative numbers get a sign bit. -/
def signedBytesBe (x : Int) : List Byte := if x < 0 then (Big.toSignedBytesLe x).reverse else (Big.toBytesLe x.natAbs).reverse

/-- `abi/value/ser.rs:400-423` `write_varint` -/
def writeVarint (ver : Ver) (n : Nat) (x : Int) (s : Ser) : Except Err Ser :=
  let bytes := signedBytesBe x
  if bytes.length > n - 1 then .error .intOverflow
  else put ver ⟨lenBits n + (if ver.useMax then (n - 1) * 8 else bytes.length * 8), 0⟩
    (Wr.small bytes.length (lenBits n) >>= fun _ => Wr.raw bytes (bytes.length * 8)) s

/-- The loop of `write_bytes` (`abi/value/ser.rs:473-486`). -/
def bytesGo (acc : Cell → Bool) : Nat → Nat → List Byte → CellB Cell → Except Err (CellB Cell)
  | 0, _, _, b => .ok b
  | fuel + 1, per, data, b =>
    if data.length = 0 then .ok b
    else
      let len := data.length - per
      (if b.inner.bits.length > 0 then
        build acc b >>= fun c => match (Wr.ref c : Wr Cell Unit) .new with
          | (.error e, _) => .error e
          | (.ok _, b') => .ok b'
       else .ok b) >>= fun b =>
      match (Wr.raw (data.drop len) (per * 8) : Wr Cell Unit) b with
      | (.error e, _) => .error e
      | (.ok _, b') => bytesGo acc fuel (Nat.min 127 len) (data.take len) b'

/-- `abi/value/ser.rs:459-490` `write_bytes`: the cell. -/
def bytesCell (acc : Cell → Bool) (ver : Ver) (data : List Byte) : Except Err Cell :=
  let per := if ver.major > 1 then (if data.length % 127 = 0 then 127 else data.length % 127) else Nat.min 127 data.length
  bytesGo acc data.length per data .new >>= build acc

/-- `abi/value/ser.rs:689-695` `fits_into_dict_leaf` -/
def fitsLeaf (keyBits valueBits : Nat) : Bool := decide (12 + keyBits + valueBits ≤ 1023)

/-- `InlineOrRef` (`abi/value/ser.rs:697-709`) -/
def leafValue (acc : Cell → Bool) (inl : Bool) (b : CellB Cell) : Except Err Sl :=
  if inl then .ok ⟨b.inner.bits, b.refs⟩ else build acc b >>= fun c => .ok ⟨[], [c]⟩

/-- `abi/value/ser.rs:714-723` -/
def PVal.store : PVal → Wr Cell Unit
  | .uint n v => Big.storeU v n false
  | .int n x => Big.storeI x n true
  | .bool b => Wr.bit b
  | .address a => a.store

/-- `dict_insert` in mode `Set`; the flag is not used. -/
def setLeaf (acc : Cell → Bool) (d : Option Cell) (key : Bits) (n : Nat) (v : Sl) : Except Err (Option Cell) :=
  match dictInsert acc d key n v .set with
  | (.error e, _) => .error e
  | (.ok _, d') => .ok d'

/-- A value in a serializer of its own: `reserve_value`, `write_value`, `finalize`. -/
def child (acc : Cell → Bool) (z : Size) (w : Ser → Except Err Ser) : Except Err (CellB Cell) := w (Ser.start z) >>= finalize acc

/-- The size of an optional (`abi/value/ser.rs:591-601`). -/
def optMax (t : Ty) : Size := if t.max.small then ⟨1 + t.max.bits, t.max.refs⟩ else ⟨1, 1⟩

/-- What is stored for an optional that is present (`abi/value/ser.rs:620-625`). -/
def storePresent (acc : Cell → Bool) (t : Ty) (b : CellB Cell) : Except Err (Wr Cell Unit) :=
  if t.max.small then .ok (Wr.bit true >>= fun _ => Wr.builder b)
  else build acc b >>= fun c => .ok (Wr.bit true >>= fun _ => Wr.ref c)

mutual
/-- `abi/value/ser.rs:354-377` `write_value`, with `write_uint`, … `write_ref`. -/
def write (acc : Cell → Bool) (ver : Ver) : Val → Ser → Except Err Ser
  | .uint n v, s => put ver ⟨n, 0⟩ (Big.storeU v n false) s
  | .int n x, s => put ver ⟨n, 0⟩ (Big.storeI x n true) s
  | .varuint n v, s => writeVarint ver n v s
  | .varint n x, s => writeVarint ver n x s
  | .bool b, s => put ver ⟨1, 0⟩ (Wr.bit b) s
  | .cell c, s => put ver ⟨0, 1⟩ (Wr.ref c) s
  | .address a, s => put ver ⟨if ver.useMax then 591 else a.bitLen, 0⟩ a.store s
  | .token v, s => put ver ⟨if ver.useMax then 124 else (VarKind.tokens.bitLen v).getD 124, 0⟩ (Tlb.tokens.store v) s
  | .bytes d, s => bytesCell acc ver d >>= fun c => put ver ⟨0, 1⟩ (Wr.ref c) s
  | .fixedBytes d, s => bytesCell acc ver d >>= fun c => put ver ⟨0, 1⟩ (Wr.ref c) s
  | .string d, s => bytesCell acc ver d >>= fun c => put ver ⟨0, 1⟩ (Wr.ref c) s
  | .tuple items, s => writeItems acc ver items s
  | .array t vs, s => writeElems acc ver (fitsLeaf 32 t.max.bits) vs 0 none >>= fun d =>
      put ver ⟨33, if ver.useMax then 1 else if vs.isEmpty then 0 else 1⟩ (Wr.u32 vs.length >>= fun _ => Tlb.dict.store d) s
  | .fixedArray t vs, s => writeElems acc ver (fitsLeaf 32 t.max.bits) vs 0 none >>= fun d =>
      put ver ⟨2, if ver.useMax then 1 else if vs.isEmpty then 0 else 1⟩ (Tlb.dict.store d) s
  | .map k t es, s => writeEntries acc ver (fitsLeaf k.bits t.max.bits) k.bits es none >>= fun d =>
      put ver ⟨1, 1⟩ (Tlb.dict.store d) s
  | .absent t, s => put ver (if ver.useMax then optMax t else ⟨1, 0⟩) (Wr.bit false) s
  | .present t v, s => child acc (v.size ver) (write acc ver v) >>= fun b => storePresent acc t b >>= fun w =>
      put ver (if ver.useMax then optMax t else if t.max.small then ⟨1 + b.inner.bits.length, b.refs.length⟩ else ⟨1, 1⟩) w s
  | .ref v, s => child acc (v.size ver) (write acc ver v) >>= fun b => build acc b >>= fun c => put ver ⟨0, 1⟩ (Wr.ref c) s
/-- `abi/value/ser.rs:379-388` `write_tuple` -/
def writeItems (acc : Cell → Bool) (ver : Ver) : Items → Ser → Except Err Ser
  | .nil, s => .ok s
  | .cons _ v r, s => write acc ver v s >>= fun s => writeItems acc ver r s
/-- The loop of `write_array` (`abi/value/ser.rs:513-530`). -/
def writeElems (acc : Cell → Bool) (ver : Ver) (inl : Bool) : Elems → Nat → Option Cell → Except Err (Option Cell)
  | .nil, _, d => .ok d
  | .cons v r, i, d => child acc (v.size ver) (write acc ver v) >>= fun b => leafValue acc inl b >>= fun l =>
      setLeaf acc d (natBits 32 i) 32 l >>= fun d => writeElems acc ver inl r (i + 1) d
/-- The loop of `write_map` (`abi/value/ser.rs:551-575`). -/
def writeEntries (acc : Cell → Bool) (ver : Ver) (inl : Bool) (n : Nat) : Entries → Option Cell → Except Err (Option Cell)
  | .nil, d => .ok d
  | .cons k v r, d => (k.store).toSl >>= fun key =>
      child acc (v.size ver) (write acc ver v) >>= fun b => leafValue acc inl b >>= fun l =>
      setLeaf acc d key.bits n l >>= fun d => writeEntries acc ver inl n r d
end

/-- `abi/value/ser.rs:69-80` `make_cell` -/
def encode (acc : Cell → Bool) (ver : Ver) (v : Val) : Except Err Cell := child acc (v.size ver) (write acc ver v) >>= build acc

/-! ### The decoder -/

/-- `abi/value/de.rs:312-331` `preload_bits` -/
def preload (n : Nat) : Rd Cell Unit := fun s =>
  if n = 0 then (.ok (), s)
  else if s.range.sizeBits = 0 then
    match Tlb.childSlice s with
    | (.error e, s') => (.error e, s')
    | (.ok t, s') => if s'.range.sizeRefs = 0 then (.ok (), t) else (.error .invalidData, s')
  else if s.range.sizeBits < n then (.error .cellUnderflow, s)
  else (.ok (), s)

/-- The condition of `load_cell` (`abi/value/de.rs:417-420`). -/
def mustJump (ver : Ver) (last : Bool) (s : CSlice Cell) : Bool :=
  s.range.sizeRefs == 1 && (ver.major == 1 && s.refs.length == 4 || decide (ver.major > 1) && !last && s.range.sizeBits == 0)

/-- `abi/value/de.rs:416-424` `load_cell` -/
def loadCell (ver : Ver) (last : Bool) : Rd Cell Cell := fun s =>
  if mustJump ver last s then
    match Tlb.childSlice s with
    | (.error e, s') => (.error e, s')
    | (.ok t, _) => Rd.ref t
  else Rd.ref s

/-- The loop of `load_bytes_raw` (`abi/value/de.rs:430-440`). -/
def readBytes : Cell → Except Err (List Byte)
  | .mk _ bits refs =>
    if bits.length % 8 ≠ 0 then .error .invalidData
    else match refs with
      | [] => .ok (packBytes bits)
      | c :: _ => readBytes c >>= fun r => .ok (packBytes bits ++ r)

/-- A result that does not depend on the slice. -/
def give {α : Type} (r : Except Err α) : Rd Cell α := fun s => (r, s)

/-- `abi/value/de.rs:426-441` `load_bytes_raw` -/
def loadBytes (ver : Ver) (last : Bool) : Rd Cell (List Byte) := loadCell ver last >>= fun c => give (readBytes c)

def isCont (b : Byte) : Bool := decide (0x80 ≤ b.toNat ∧ b.toNat ≤ 0xbf)

/-- `String::from_utf8`: the well-formed byte sequences of the Unicode standard (table 3-7). -/
def utf8 : List Byte → Bool
  | [] => true
  | a :: r1 =>
    let x := a.toNat
    if x ≤ 0x7f then utf8 r1
    else match r1 with
      | [] => false
      | b :: r2 =>
        if 0xc2 ≤ x ∧ x ≤ 0xdf then isCont b && utf8 r2
        else match r2 with
          | [] => false
          | c :: r3 =>
            let y := b.toNat
            if 0xe0 ≤ x ∧ x ≤ 0xef then
              decide ((if x = 0xe0 then 0xa0 else 0x80) ≤ y ∧ y ≤ (if x = 0xed then 0x9f else 0xbf)) && isCont c && utf8 r3
            else match r3 with
              | [] => false
              | d :: r4 =>
                if 0xf0 ≤ x ∧ x ≤ 0xf4 then
                  decide ((if x = 0xf0 then 0x90 else 0x80) ≤ y ∧ y ≤ (if x = 0xf4 then 0x8f else 0xbf)) && isCont c && isCont d && utf8 r4
                else false

/-- `abi/value/de.rs:395-414` `load_varuint_raw`: the bytes, high byte first. -/
def loadVarRaw (n : Nat) : Rd Cell (List Byte) :=
  preload (lenBits n) >>= fun _ => Rd.small (lenBits n) >>= fun k => preload (k * 8) >>= fun _ => Rd.raw k (k * 8)

/-- `abi/value/de.rs:110-116` `check_remaining` -/
def checkRemaining (part : Bool) (s : CSlice Cell) : Except Err Unit :=
  if part || s.range.isDataEmpty && s.range.isRefsEmpty then .ok () else .error .invalidData

/-- A value that has to take up its slice: `load_ext` with `last`, then `check_remaining`. -/
def whole {α : Type} (part : Bool) (ld : Rd Cell α) (s : CSlice Cell) : Except Err α :=
  match ld s with
  | (.error e, _) => .error e
  | (.ok v, s') => checkRemaining part s' >>= fun _ => .ok v

/-- The loop of `load_array_raw` (`abi/value/de.rs:480-485`). -/
def loadValues (part : Bool) (ld : Rd Cell Val) : Nat → RawValues → Except Err Elems
  | 0, _ => .ok .nil
  | k + 1, it => match it.next with
    | (none, _) => .ok .nil
    | (some (.error e), _) => .error e
    | (some (.ok sl), it') => whole part ld sl.reader >>= fun v => loadValues part ld k it' >>= fun r => .ok (.cons v r)

/-- `abi/value/de.rs:469-488` `load_array_raw` -/
def loadArray (part : Bool) (ld : Rd Cell Val) (len : Nat) : Rd Cell Elems :=
  preload 1 >>= fun _ => Tlb.dict.load >>= fun d => give (loadValues part ld len (RawValues.new d 32 false false))

/-- `abi/value/de.rs:240-251` `PlainAbiValue::load` -/
def PTy.load : PTy → Rd Cell PVal
  | .uint n => Big.loadU ((n + 7) / 8) n >>= fun v => Pure.pure (.uint n v)
  | .int n => Big.loadI ((n + 7) / 8) n true >>= fun x => Pure.pure (.int n x)
  | .bool => Rd.bit >>= fun b => Pure.pure (.bool b)
  | .address => IntAddr.load >>= fun a => Pure.pure (.address a)

/-- `BTreeMap::insert` -/
def Entries.insert (k : PVal) (v : Val) : Entries → Entries
  | .nil => .cons k v .nil
  | .cons k' v' r => if k' = k then .cons k v r else .cons k' v' (r.insert k v)

/-- The loop of `load_map` (`abi/value/de.rs:529-540`). -/
def loadEntries (k : PTy) (ld : Rd Cell Val) : Nat → RawIter → Entries → Except Err Entries
  | 0, _, m => .ok m
  | fuel + 1, it, m => match it.next with
    | (none, _) => .ok m
    | (some (.error e), _) => .error e
    | (some (.ok (key, sl)), it') =>
      (k.load (Sl.reader ⟨key, []⟩)).1 >>= fun key => (ld sl.reader).1 >>= fun v => loadEntries k ld fuel it' (m.insert key v)

/-- `abi/value/de.rs:516-543` `load_map`; there are at most as many entries as keys. -/
def loadMap (k : PTy) (ld : Rd Cell Val) : Rd Cell Entries :=
  preload 1 >>= fun _ => Tlb.dict.load >>= fun d => give (loadEntries k ld (2 ^ k.bits + 1) (RawIter.new d k.bits false false) .nil)

/-- `abi/value/de.rs:572-583` `load_ref`, also the last part of `load_optional`. -/
def loadInside (ver : Ver) (part last : Bool) (ld : Rd Cell Val) : Rd Cell Val :=
  loadCell ver last >>= fun c => give (asSlice c >>= fun sl => whole part ld sl.reader)

def failIf {α : Type} (c : Bool) (v : α) : Rd Cell α := give (if c then .error .invalidData else .ok v)

mutual
/-- `abi/value/de.rs:176-234` `load_ext` -/
def load (ver : Ver) (part : Bool) : Ty → Bool → Rd Cell Val
  | .uint n, _ => preload n >>= fun _ => Big.loadU ((n + 7) / 8) n >>= fun v => Pure.pure (.uint n v)
  | .int n, _ => preload n >>= fun _ => Big.loadI ((n + 7) / 8) n true >>= fun x => Pure.pure (.int n x)
  | .varuint n, _ => loadVarRaw n >>= fun b => Pure.pure (.varuint n (natOfBits (bytesToBits b)))
  | .varint n, _ => loadVarRaw n >>= fun b => Pure.pure (.varint n (Big.sint (bytesToBits b)))
  | .bool, _ => preload 1 >>= fun _ => Rd.bit >>= fun b => Pure.pure (.bool b)
  | .cell, last => loadCell ver last >>= fun c => Pure.pure (.cell c)
  | .address, _ => preload 1 >>= fun _ => IntAddr.load >>= fun a => Pure.pure (.address a)
  | .bytes, last => loadBytes ver last >>= fun d => Pure.pure (.bytes d)
  | .fixedBytes n, last => loadBytes ver last >>= fun d => failIf (d.length != n) (.fixedBytes d)
  | .string, last => loadBytes ver last >>= fun d => failIf (!utf8 d) (.string d)
  | .token, _ => preload 1 >>= fun _ => Tlb.tokens.load >>= fun v => Pure.pure (.token v)
  | .tuple ts, last => loadItems ver part ts last >>= fun l => Pure.pure (.tuple l)
  | .array t, _ => preload 32 >>= fun _ => Rd.u32 >>= fun len => loadArray part (load ver part t true) len >>= fun l => Pure.pure (.array t l)
  | .fixedArray t n, _ => loadArray part (load ver part t true) n >>= fun l => failIf (l.length != n) (.fixedArray t l)
  | .map k t, _ => loadMap k (load ver part t true) >>= fun m => Pure.pure (.map k t m)
  | .optional t, last => preload 1 >>= fun _ => Rd.bit >>= fun b =>
      if b then
        (if t.max.small then load ver part t last else loadInside ver part last (load ver part t true)) >>= fun v => Pure.pure (.present t v)
      else Pure.pure (.absent t)
  | .ref t, last => loadInside ver part last (load ver part t true) >>= fun v => Pure.pure (.ref v)
/-- `abi/value/de.rs:45-65` `load_tuple_ext`: only the last item can be the last value. -/
def loadItems (ver : Ver) (part : Bool) : Tys → Bool → Rd Cell Items
  | .nil, _ => Pure.pure .nil
  | .cons name t r, last =>
    load ver part t (last && (match r with | .nil => true | .cons .. => false)) >>= fun v =>
      loadItems ver part r last >>= fun l => Pure.pure (.cons name v l)
end

/-- `abi/value/de.rs:162-166` `load` of the slice of a cell (`load_partial` when `part`). -/
def decode (ver : Ver) (part : Bool) (t : Ty) (c : Cell) : Except Err Val :=
  asSlice c >>= fun sl => whole part (load ver part t true) sl.reader

end Abi
end Verif
