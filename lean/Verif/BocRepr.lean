import Verif.BocProps
import Verif.BocDeProps
import Verif.Text
import Verif.Tlb
/-
`boc/mod.rs`: BOCs as text (`Boc::encode_hex`, `encode_base64`, `decode_hex`, `decode_base64`), the serde forms of a cell
(`cell/mod.rs:389-398`, `boc/serde.rs`) and `BocRepr`, which turns a value into the bytes of a BOC and back.
Text is a list of characters; the input of the decoders is any such list (bytes that are not ASCII are characters of no alphabet).
Also the encoder with `rayon` (`boc/ser.rs:255-289`), whose chunks are encoded in any order, each into its own slot; the other
variants with `rayon` differ from the ones here in using this encoder only.
-/
set_option linter.unusedVariables false
namespace Verif
namespace Boc
open Text

/-! ### From contents to cells -/

mutual
/-- The cells that the empty context makes for a tree: children first, each through `CellBuilder::build_ext`
(`cell/builder.rs:494-571`, here `CellB.build`). Contents that no builder can hold are refused as the stores refuse them. -/
def finish (H : Hasher) : Cell → Except Err CCell
  | .mk e b rs =>
    match finishList H rs with
    | .error x => .error x
    | .ok cs => if b.length ≤ 1023 ∧ cs.length ≤ 4 then (builderOf e b cs).build H else .error .cellOverflow
def finishList (H : Hasher) : List Cell → Except Err (List CCell)
  | [] => .ok []
  | c :: cs =>
    match finish H c with
    | .error x => .error x
    | .ok a =>
      match finishList H cs with
      | .error x => .error x
      | .ok as => .ok (a :: as)
end

/-- What the empty context accepts: the `acc` of the codecs and of the dictionaries when the context is `Cell::empty_context()`. -/
def emptyContext (H : Hasher) (c : Cell) : Bool :=
  match finish H c with
  | .ok _ => true
  | .error _ => false

/-! ### The encoder with `rayon` -/

/-- `boc/ser.rs:271-279`: the chunks are encoded by tasks that end in the order `order`; `collect_into_vec` keeps the result of the
`i`-th chunk at index `i`. -/
def fillSlots (f : List CCell → List Byte) (chunks : List (List CCell)) (order : List Nat) : List (Option (List Byte)) :=
  order.foldl (fun slots i => slots.set i (chunks[i]?.map f)) (List.replicate chunks.length none)

/-- `boc/ser.rs:255-289` `encode_rayon` into an empty target; `collect_into_vec` returns when every slot is filled (`none`: it
never does). The size of a chunk (5000) is a parameter. -/
def Writer.encodeRayon (w : Writer) (chunkSize : Nat) (order : List Nat) : Option (List Byte) :=
  let cells : Option (List Byte) :=
    if w.cells.length < chunkSize * 2 then some (w.cellsBytes w.stats.refSize w.cells)
    else
      let slots := fillSlots (w.cellsBytes w.stats.refSize) (rchunks chunkSize w.cells.length w.cells) order
      if slots.all Option.isSome then some (slots.flatMap fun s => s.getD []) else none
  cells.map fun cells =>
    let body := w.header ++ cells
    body ++ if w.crc then leBytes (crc32c body) else []

/-! ### Text -/

/-- `boc/mod.rs:91-98` `Boc::encode_hex` -/
def encodeHexText (c : CCell) : List Char := encodeHex hexLower (encode c)
/-- `boc/mod.rs:100-108` `Boc::encode_base64` (standard alphabet with padding, `util.rs`) -/
def encodeBase64Text (c : CCell) : List Char := b64Encode b64std (encode c)

/-- `boc/mod.rs:204-214` `Boc::decode_hex` -/
def decodeHexText (H : Hasher) (t : List Char) : Except BocErr CCell :=
  match decodeHex t with
  | some data => decode H data
  | none => .error .unknownBocTag
/-- `boc/mod.rs:216-228` `Boc::decode_base64` -/
def decodeBase64Text (H : Hasher) (t : List Char) : Except BocErr CCell :=
  match b64Decode b64std t with
  | some data => decode H data
  | none => .error .unknownBocTag

/-! ### serde -/

/-- What a serializer or deserializer holds: text in readable formats, bytes in the others. -/
inductive Serde where
  | text (t : List Char)
  | bytes (b : List Byte)
  deriving DecidableEq

/-- The errors of `boc/serde.rs`: both become `Error::custom`. -/
inductive SerdeErr where
  | invalidBase64
  | boc (e : BocErr)
  deriving DecidableEq

/-- `cell/mod.rs:389-398` `Serialize for DynCell`, `boc/serde.rs:72-84` -/
def serialize (readable : Bool) (c : CCell) : Serde :=
  if readable then .text (b64Encode b64std (encode c)) else .bytes (encode c)

/-- `boc/serde.rs:338-397` `borrow_cow_bytes` takes text as its bytes. Here text is bytes of which each is one character
(the BOCs of a readable format are ASCII). -/
def Serde.asText : Serde → List Char
  | .text t => t
  | .bytes b => b.map fun x => Char.ofNat x.toNat
/-- The same as bytes. -/
def Serde.asBytes : Serde → List Byte
  | .text t => t.map fun x => BitVec.ofNat 8 x.toNat
  | .bytes b => b

/-- `boc/serde.rs:198-219` `DeserializeAsBoc for Cell` -/
def deserialize (H : Hasher) (readable : Bool) (s : Serde) : Except SerdeErr CCell :=
  let boc : Except SerdeErr (List Byte) :=
    if readable then
      match b64Decode b64std s.asText with
      | some b => .ok b
      | none => .error .invalidBase64
    else .ok s.asBytes
  match boc with
  | .error e => .error e
  | .ok b =>
    match decode H b with
    | .ok c => .ok c
    | .error e => .error (.boc e)

/-! ### `BocRepr` -/

/-- `boc/mod.rs:547-557` `BocReprError` -/
inductive ReprErr where
  | invalidBoc (e : BocErr)
  | invalidData (e : Err)
  deriving DecidableEq

/-- `boc/mod.rs:458-460` the cell, if there is one, as a BOC. -/
def encoded : Except Err CCell → Except Err (List Byte)
  | .ok c => .ok (encode c)
  | .error e => .error e

/-- `boc/mod.rs:448-463` `BocRepr::encode_ext` (and `encode`) in the empty context. -/
def reprEncode {α : Type} (H : Hasher) (T : Tlb α) (v : α) : Except Err (List Byte) :=
  match (T.store v).toSl with
  | .error e => .error e
  | .ok b => encoded (finish H (.mk false b.bits b.refs))

/-- `boc/mod.rs:488-502` `BocRepr::decode_ext` (and `decode`): `parse` (`cell/mod.rs:351-353`) does not ask for the end of the cell. -/
def reprDecode {α : Type} (H : Hasher) (T : Tlb α) (data : List Byte) : Except ReprErr α :=
  match decode H data with
  | .error e => .error (.invalidBoc e)
  | .ok c =>
    match Tlb.lazyLoad T c.tree with
    | .ok v => .ok v
    | .error e => .error (.invalidData e)

/-- `boc/mod.rs:325-333` `BocRepr::encode_hex` -/
def reprEncodeHex {α : Type} (H : Hasher) (T : Tlb α) (v : α) : Except Err (List Char) :=
  match reprEncode H T v with
  | .ok b => .ok (encodeHex hexLower b)
  | .error e => .error e
/-- `boc/mod.rs:335-344` `BocRepr::encode_base64` -/
def reprEncodeBase64 {α : Type} (H : Hasher) (T : Tlb α) (v : α) : Except Err (List Char) :=
  match reprEncode H T v with
  | .ok b => .ok (b64Encode b64std b)
  | .error e => .error e

/-- `boc/mod.rs:391-409` `BocRepr::decode_hex` -/
def reprDecodeHex {α : Type} (H : Hasher) (T : Tlb α) (t : List Char) : Except ReprErr α :=
  match decodeHex t with
  | some data => reprDecode H T data
  | none => .error (.invalidBoc .unknownBocTag)
/-- `boc/mod.rs:411-430` `BocRepr::decode_base64` -/
def reprDecodeBase64 {α : Type} (H : Hasher) (T : Tlb α) (t : List Char) : Except ReprErr α :=
  match b64Decode b64std t with
  | some data => reprDecode H T data
  | none => .error (.invalidBoc .unknownBocTag)

end Boc
end Verif
