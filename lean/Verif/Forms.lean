import Verif.BocRepr
import Verif.AddrText
import Verif.TextProps
import Verif.V248Text
import Verif.VsetCodec
import Verif.Message
import Verif.ConfigDict
import Verif.Currency
/-
How values look in formats of `serde`: the hand-written implementations and the derived ones of messages, block identifiers and validators.
A format is taken for a faithful carrier of the data model of `serde`: what is given to a serializer is what the deserializer gets.
A readable format calls `visit_str` for text (some visitors also take text as bytes; this is not modelled). Which error is returned
is not modelled.
-/
set_option linter.unusedVariables false
namespace Verif
namespace Form

/-- Values of the data model of `serde`. Structures are maps from the names of their fields; `Some` is transparent. -/
inductive SV where
  | null
  | bool (b : Bool)
  | num (n : Int)
  | str (t : List Char)
  | bytes (b : List Byte)
  | seq (l : List SV)
  | map (l : List (SV × SV))

end Form

/-- `Serialize` and `Deserialize`; the flag is `is_human_readable`. -/
structure Form (α : Type) where
  ser : Bool → α → Option Form.SV
  de : Bool → Form.SV → Option α

namespace Form
open Text

/-! ### Primitive types -/

/-- `bool` -/
def bool : Form Bool where
  ser _ b := some (.bool b)
  de _ x := match x with
    | .bool b => some b
    | _ => none

/-- Unsigned integers up to `max`. -/
def nat (max : Nat) : Form Nat where
  ser _ n := some (.num n)
  de _ x := match x with
    | .num n => if 0 ≤ n ∧ n ≤ max then some n.toNat else none
    | _ => none

/-- Signed integers from `-half` to `half - 1`. -/
def int (half : Nat) : Form Int where
  ser _ n := some (.num n)
  de _ x := match x with
    | .num n => if -(half : Int) ≤ n ∧ n < half then some n else none
    | _ => none

/-- `Option<T>` -/
def opt {α : Type} (F : Form α) : Form (Option α) where
  ser r v := match v with
    | none => some .null
    | some v => F.ser r v
  de r x := match x with
    | .null => some none
    | x => (F.de r x).map some

/-- `Vec<T>` -/
def vec {α : Type} (F : Form α) : Form (List α) where
  ser r l := (l.mapM (F.ser r)).map .seq
  de r x := match x with
    | .seq l => l.mapM (F.de r)
    | _ => none

/-- `(A, B)` -/
def pair {α β : Type} (A : Form α) (B : Form β) : Form (α × β) where
  ser r v := match A.ser r v.1, B.ser r v.2 with
    | some a, some b => some (.seq [a, b])
    | _, _ => none
  de r x := match x with
    | .seq [a, b] => match A.de r a, B.de r b with
      | some a, some b => some (a, b)
      | _, _ => none
    | _ => none

/-! ### Numbers, hashes, addresses, shards -/

/-- `num/mod.rs:12-50` `VarUint24`, `VarUint56`; `num/mod.rs:554-612` `Tokens`, whose text is a string of digits in readable formats. -/
def varint (k : VarKind) : Form Nat where
  ser r v := if k = .tokens ∧ r = true then some (.str (Nat.toDigits 10 v)) else some (.num v)
  de r x :=
    let v : Option Nat :=
      if k = .tokens ∧ r = true then
        match x with
        | .str t => parseUint 10 (2 ^ 128 - 1) t
        | _ => none
      else (nat (2 ^ (8 * k.size) - 1)).de r x
    match v with
    | some v => if k.isValid v then some v else none
    | none => none

/-- `num/varuint248.rs:345-397` `VarUint248`: the text of the number, or its two words. -/
def v248 : Form V248 where
  ser r v :=
    if r then
      match v.display with
      | .ok t => some (.str t)
      | .error _ => none
    else (pair (nat (2 ^ 128 - 1)) (nat (2 ^ 128 - 1))).ser r (v.hi, v.lo)
  de r x :=
    if r then
      match x with
      | .str t => (V248.fromStrRadix 10 t).toOption
      | _ => none
    else ((pair (nat (2 ^ 128 - 1)) (nat (2 ^ 128 - 1))).de r x).map fun p => ⟨p.1, p.2⟩

/-- `num/mod.rs:1001-1024` `SplitDepth` -/
def splitDepth : Form Nat where
  ser r v := (nat 255).ser r v
  de r x := match (nat 255).de r x with
    | some v => (splitDepthNew v).toOption
    | none => none

/-- `cell/mod.rs:891-963` `HashBytes` -/
def hash : Form (List Byte) where
  ser r h := if r then some (.str (encodeHex hexLower h)) else some (.bytes h)
  de r x :=
    if r then
      match x with
      | .str t => decodeToSlice 32 t
      | _ => none
    else
      match x with
      | .bytes b => if b.length = 32 then some b else none
      | _ => none

/-- `models/block/block_id.rs:528-582` `ShardIdent` -/
def shard : Form ShardIdent where
  ser r s := if r then some (.str s.display) else (pair (int (2 ^ 31)) (nat (2 ^ 64 - 1))).ser r (s.workchain, s.pfx.toNat)
  de r x :=
    if r then
      match x with
      | .str t => ShardIdent.fromStr t
      | _ => none
    else
      match (pair (int (2 ^ 31)) (nat (2 ^ 64 - 1))).de r x with
      | some (w, p) => ShardIdent.new w (BitVec.ofNat 64 p)
      | none => none

/-- `models/message/address.rs:535-580` `StdAddr` -/
def stdAddr : Form StdAddr where
  ser r a := if r then some (.str a.display) else (pair (int (2 ^ 7)) hash).ser r (a.workchain, a.address)
  de r x :=
    if r then
      match x with
      | .str t => (StdAddr.fromStr t).toOption
      | _ => none
    else ((pair (int (2 ^ 7)) hash).de r x).map fun p => ⟨none, p.1, p.2⟩

/-- `models/message/address.rs:181-208` `IntAddr` -/
def intAddr : Form IntAddr where
  ser r a := match a with
    | .std a => stdAddr.ser r a
    | .var _ => some (.str "varaddr".toList)
  de r x := (stdAddr.de r x).map .std

/-- A byte as a number (`Vec<u8>` is a sequence of numbers). -/
def byte : Form Byte where
  ser r b := (nat 255).ser r b.toNat
  de r x := ((nat 255).de r x).map (BitVec.ofNat 8)

/-- `models/message/address.rs:910-948` `ExtAddr` -/
def extAddr : Form ExtAddr where
  ser r a := if r then some (.str a.display) else (pair (nat (2 ^ 16 - 1)) (vec byte)).ser r (a.len, a.data)
  de r x :=
    if r then
      match x with
      | .str t => (ExtAddr.fromStr t).toOption
      | _ => none
    else
      match (pair (nat (2 ^ 16 - 1)) (vec byte)).de r x with
      | some (n, d) => ExtAddr.new n d
      | none => none

/-! ### Cells -/

/-- A cell is a BOC: base64 text or bytes (`boc/serde.rs`, here `Boc.serialize` and `Boc.deserialize`). Cells are known by their trees;
`Boc.finish` makes the cell of a tree. -/
def cell (H : Hasher) : Form Cell where
  ser r c := match Boc.finish H c with
    | .ok c => match Boc.serialize r c with
      | .text t => some (.str t)
      | .bytes b => some (.bytes b)
    | .error _ => none
  de r x :=
    let x : Option Boc.Serde := match x with
      | .str t => some (.text t)
      | .bytes b => some (.bytes b)
      | _ => none
    match x with
    | some x => (Boc.deserialize H r x).toOption.map CCell.tree
    | none => none

/-- A value as the BOC of a cell (`BocRepr::serialize`, `BocRepr::deserialize`, `boc/mod.rs:519-545`) in formats that are not readable. -/
def repr {α : Type} (H : Hasher) (T : Tlb α) : Form α where
  ser _ v := (Boc.reprEncode H T v).toOption.map .bytes
  de _ x := match x with
    | .bytes b => (Boc.reprDecode H T b).toOption
    | _ => none

/-- `cell/lazy.rs:215-268` `Lazy<T, false>`: readable formats show the value. -/
def lazy {α : Type} (H : Hasher) (T : Tlb α) (F : Form α) : Form Cell where
  ser r c :=
    if r then
      match Tlb.lazyLoad T c with
      | .ok v => F.ser r v
      | .error _ => none
    else (cell H).ser r c
  de r x :=
    if r then
      match F.de r x with
      | some v => (Tlb.lazyNew (Boc.emptyContext H) T v).toOption
      | none => none
    else
      match (cell H).de r x with
      | some c => if c.exotic then none else some c
      | none => none

/-! ### Structures -/

/-- The fields of a map: name and value. -/
abbrev Entries := List (List Char × SV)

/-- What a derived `Deserialize` finds under a name: an error if the field is given twice, otherwise the value, if there is one. -/
def pick (n : List Char) (l : Entries) : Option (Option SV) :=
  match l.filter (fun e => e.1 == n) with
  | [] => some none
  | [e] => some (some e.2)
  | _ => none

/-- Some fields of a structure (derived `Serialize` and `Deserialize`). -/
structure Fields (α : Type) where
  names : List (List Char)
  ser : Bool → α → Option Entries
  de : Bool → Entries → Option α

/-- A field that must be there. -/
def field {α : Type} (n : List Char) (F : Form α) : Fields α where
  names := [n]
  ser r v := (F.ser r v).map fun x => [(n, x)]
  de r l := match pick n l with
    | some (some x) => F.de r x
    | _ => none

/-- A field that may be missing: `#[serde(default)]`, or a plain `Option<T>` with `none`. -/
def fieldOr {α : Type} (n : List Char) (F : Form α) (v : α) : Fields α where
  names := [n]
  ser r v := (F.ser r v).map fun x => [(n, x)]
  de r l := match pick n l with
    | some (some x) => F.de r x
    | some none => some v
    | none => none

/-- `#[serde(default, skip_serializing_if = "Option::is_none")]` -/
def fieldSkip {α : Type} (n : List Char) (F : Form α) : Fields (Option α) where
  names := [n]
  ser r v := match v with
    | none => some []
    | some v => (F.ser r v).map fun x => [(n, x)]
  de r l := match pick n l with
    | some (some x) => F.opt.de r x
    | some none => some none
    | none => none

/-- Fields of two kinds. -/
def Fields.and {α β : Type} (A : Fields α) (B : Fields β) : Fields (α × β) where
  names := A.names ++ B.names
  ser r v := match A.ser r v.1, B.ser r v.2 with
    | some a, some b => some (a ++ b)
    | _, _ => none
  de r l := match A.de r l, B.de r l with
    | some a, some b => some (a, b)
    | _, _ => none

/-- The same fields of another structure. -/
def Fields.as {α β : Type} (A : Fields α) (f : α → β) (g : β → α) : Fields β where
  names := A.names
  ser r v := A.ser r (g v)
  de r l := (A.de r l).map f

/-- A map whose keys are names. -/
def namesOf : List (SV × SV) → Option Entries
  | [] => some []
  | (.str n, x) :: l => (namesOf l).map fun l => (n, x) :: l
  | _ => none

/-- A structure with these fields, read from a map; fields of other names are ignored. -/
def struct {α : Type} (A : Fields α) : Form α where
  ser r v := (A.ser r v).map fun l => .map (l.map fun e => (.str e.1, e.2))
  de r x := match x with
    | .map l => match namesOf l with
      | some l => A.de r l
      | none => none
    | _ => none

/-- `models/block/block_id.rs:121-128` `BlockIdShort` -/
def blockIdShort : Form (ShardIdent × Nat) :=
  struct ((field "shard".toList shard).and (field "seqno".toList (nat (2 ^ 32 - 1))))

/-- `models/block/block_id.rs:8-19` `BlockId` -/
def blockId : Form ShardIdent.BlockId :=
  struct (((field "shard".toList shard).and ((field "seqno".toList (nat (2 ^ 32 - 1))).and
    ((field "root_hash".toList hash).and (field "file_hash".toList hash)))).as
    (fun p => ⟨p.1, p.2.1, p.2.2.1, p.2.2.2⟩) (fun b => (b.shard, b.seqno, b.rootHash, b.fileHash)))

/-! ### Dictionaries -/

/-- The entries of a map, in their order. -/
def readMap {κ β : Type} (K : Form κ) (V : κ → Form β) (r : Bool) : List (SV × SV) → Option (List (κ × β))
  | [] => some []
  | (a, b) :: l => match K.de r a with
    | none => none
    | some k => match (V k).de r b with
      | none => none
      | some v => (readMap K V r l).map fun es => (k, v) :: es

/-- The entries as a map. -/
def writeMap {κ β : Type} (K : Form κ) (V : κ → Form β) (r : Bool) : List (Except Err (κ × β)) → Option (List (SV × SV))
  | [] => some []
  | .error _ :: _ => none
  | .ok (k, v) :: es => match K.ser r k with
    | none => none
    | some a => match (V k).ser r v with
      | none => none
      | some b => (writeMap K V r es).map fun l => (a, b) :: l

/-- What is in a hash map after all entries were inserted: of equal keys the last one. The order is that of the last insertions; the order
in which the map is iterated over is given by a `Shuffle`. -/
def lastWins {κ β : Type} [DecidableEq κ] (l : List (κ × β)) : List (κ × β) := l.foldl (fun m e => m.filter (fun x => x.1 ≠ e.1) ++ [e]) []

/-- The order in which a hash map yields its entries. -/
def Shuffle := (γ : Type) → List γ → List γ

/-- `Dict::set_ext` for each entry. -/
def setAll {κ β : Type} (T : DictType κ β) (acc : Cell → Bool) : Option Cell → List (κ × β) → Option (Option Cell)
  | d, [] => some d
  | d, (k, v) :: es => match T.insert acc d k v .set with
    | (.ok _, d') => setAll T acc d' es
    | (.error _, _) => none

/-- `dict/typed.rs:960-1012` `Dict<K, V>`; `models/transaction/mod.rs:128-173` `serde_out_msgs` with the form of a message for the values.
The dictionary is its root. -/
def dict {κ β : Type} [DecidableEq κ] (H : Hasher) (sh : Shuffle) (T : DictType κ β) (K : Form κ) (V : Form β) : Form (Option Cell) where
  ser r d := if r then (writeMap K (fun _ => V) r (T.entries d)).map .map else (repr H Tlb.dict).ser r d
  de r x :=
    if r then
      match x with
      | .map l => match readMap K (fun _ => V) r l with
        | some es => setAll T (Boc.emptyContext H) none (sh _ (lastWins es))
        | none => none
      | _ => none
    else (repr H Tlb.dict).de r x

/-- A dictionary without values. -/
def keysType {κ : Type} (k : KeyType κ) : DictType κ Unit := ⟨k, fun _ => pure (), pure ()⟩

/-- The keys that an iterator yields. -/
def keysOf {κ β : Type} : List (Except Err (κ × β)) → Option (List κ)
  | [] => some []
  | .error _ :: _ => none
  | .ok (k, _) :: es => (keysOf es).map (k :: ·)

/-- `models/config/mod.rs:723-757` `NonEmptyDict<Dict<u32, ()>>` (with `nonEmpty`), `models/config/mod.rs:1137-1175` `HashBytesList`: a
sequence of keys, in readable formats and others. -/
def keys {κ : Type} (H : Hasher) (nonEmpty : Bool) (k : KeyType κ) (K : Form κ) : Form (Option Cell) where
  ser r d := match keysOf ((keysType k).entries d) with
    | some ks => (vec K).ser r ks
    | none => none
  de r x := match (vec K).de r x with
    | some ks => if nonEmpty && ks.isEmpty then none else setAll (keysType k) (Boc.emptyContext H) none (ks.map fun k => (k, ()))
    | none => none

/-- `models/config/mod.rs:799-905` `BlockchainConfigParams`: a map from identifiers; the known parameters are shown as values (`P` gives
their forms: parse the cell and build it again), the others as BOCs. The entries are set in the order of the map. -/
def config (H : Hasher) (P : Nat → Option (Form Cell)) : Form (Option Cell) where
  ser r d := if r then (writeMap (nat (2 ^ 32 - 1)) (fun id => (P id).getD (cell H)) r (Config.params.entries d)).map .map else (repr H Tlb.dict).ser r d
  de r x :=
    if r then
      match x with
      | .map l => match readMap (nat (2 ^ 32 - 1)) (fun id => (P id).getD (cell H)) r l with
        | some es => setAll Config.params (Boc.emptyContext H) none es
        | none => none
      | _ => none
    else (repr H Tlb.dict).de r x

/-! ### Currencies and messages -/

/-- `models/currency.rs:11-19`, `180-184` `CurrencyCollection` -/
def currency (H : Hasher) (sh : Shuffle) : Form Currency :=
  struct (((field "tokens".toList (varint .tokens)).and (field "other".toList (dict H sh coins (nat (2 ^ 32 - 1)) v248))).as
    (fun p => ⟨p.1, p.2⟩) (fun c => (c.tokens, c.other)))

/-- `models/message/mod.rs:832-858` `IntMsgInfo` -/
def intInfo (H : Hasher) (sh : Shuffle) : Fields (IntInfo IntAddr) :=
  ((field "ihr_disabled".toList bool).and ((field "bounce".toList bool).and ((field "bounced".toList bool).and
    ((field "src".toList intAddr).and ((field "dst".toList intAddr).and ((field "value".toList (currency H sh)).and
    ((field "ihr_fee".toList (varint .tokens)).and ((field "fwd_fee".toList (varint .tokens)).and
    ((field "created_lt".toList (nat (2 ^ 64 - 1))).and (field "created_at".toList (nat (2 ^ 32 - 1)))))))))))).as
    (fun p => ⟨⟨p.1, p.2.1, p.2.2.1⟩, p.2.2.2.1, p.2.2.2.2.1, p.2.2.2.2.2.1, p.2.2.2.2.2.2.1, p.2.2.2.2.2.2.2.1, p.2.2.2.2.2.2.2.2.1, p.2.2.2.2.2.2.2.2.2⟩)
    (fun i => (i.flags.ihrDisabled, i.flags.bounce, i.flags.bounced, i.src, i.dst, i.value, i.ihrFee, i.fwdFee, i.createdLt, i.createdAt))

/-- `models/message/mod.rs:1024-1040` `ExtInMsgInfo` -/
def extInInfo : Fields ExtInInfo :=
  ((fieldSkip "src".toList extAddr).and ((field "dst".toList intAddr).and (field "import_fee".toList (varint .tokens)))).as
    (fun p => ⟨p.1, p.2.1, p.2.2⟩) (fun i => (i.src, i.dst, i.importFee))

/-- `models/message/mod.rs:1080-1096` `ExtOutMsgInfo` -/
def extOutInfo : Fields (ExtOutInfo IntAddr) :=
  ((field "src".toList intAddr).and ((fieldSkip "dst".toList extAddr).and
    ((field "created_lt".toList (nat (2 ^ 64 - 1))).and (field "created_at".toList (nat (2 ^ 32 - 1)))))).as
    (fun p => ⟨p.1, p.2.1, p.2.2.1, p.2.2.2⟩) (fun i => (i.src, i.dst, i.createdLt, i.createdAt))

/-- `#[serde(tag = "ty")]`: the name of the variant is one more field. -/
def tagged (ty : String) (l : Option Entries) : Option SV := l.map fun l => .map (((("ty".toList, .str ty.toList) :: l)).map fun e => (.str e.1, e.2))

/-- `models/message/mod.rs:696-707` `MsgInfo`. The contents of such an enum are buffered, and read from the buffer as if the format were
readable (`serde`'s `ContentDeserializer`). -/
def msgInfo (H : Hasher) (sh : Shuffle) : Form MsgInfo where
  ser r v := match v with
    | .int i => tagged "Int" ((intInfo H sh).ser r i)
    | .extIn i => tagged "ExtIn" (extInInfo.ser r i)
    | .extOut i => tagged "ExtOut" (extOutInfo.ser r i)
  de r x := match x with
    | .map l => match namesOf l with
      | some l => match pick "ty".toList l with
        | some (some (.str t)) =>
          if t = "Int".toList then ((intInfo H sh).de true l).map .int
          else if t = "ExtIn".toList then (extInInfo.de true l).map .extIn
          else if t = "ExtOut".toList then (extOutInfo.de true l).map .extOut
          else none
        | _ => none
      | none => none
    | _ => none

/-- `models/account/mod.rs:485-494` `SpecialFlags` -/
def specialFlags : Form SpecialFlags :=
  struct (((field "tick".toList bool).and (field "tock".toList bool)).as (fun p => ⟨p.1, p.2⟩) (fun f => (f.tick, f.tock)))

/-- `models/account/mod.rs:519-529` `SimpleLib` -/
def lib (H : Hasher) : Form SimpleLib :=
  struct (((field "public".toList bool).and (field "root".toList (cell H))).as (fun p => ⟨p.1, p.2⟩) (fun f => (f.isPublic, f.root)))

/-- `Dict<HashBytes, SimpleLib>` -/
def libsType : DictType (List Byte) SimpleLib := ⟨Key.hash, simpleLib.store, simpleLib.load⟩

/-- `models/account/mod.rs:389-405` `StateInit` -/
def stateInit (H : Hasher) (sh : Shuffle) : Form StateInit :=
  struct (((fieldOr "split_depth".toList splitDepth.opt none).and ((fieldOr "special".toList specialFlags.opt none).and
    ((field "code".toList (cell H).opt).and ((field "data".toList (cell H).opt).and
    (field "libraries".toList (dict H sh libsType hash (lib H))))))).as
    (fun p => ⟨p.1, p.2.1, p.2.2.1, p.2.2.2.1, p.2.2.2.2⟩) (fun i => (i.splitDepth, i.special, i.code, i.data, i.libraries)))

/-- `models/message/mod.rs:384-392` `MessageLayout` -/
def layout : Form Layout :=
  struct (((field "init_to_cell".toList bool).and (field "body_to_cell".toList bool)).as (fun p => ⟨p.1, p.2⟩) (fun l => (l.initToCell, l.bodyToCell)))

/-- `models/message/mod.rs:72-86` `BodySerializer`: the body is stored into a builder of its own, which is built. -/
def bodyCell {B : Type} (H : Hasher) (BK : BodyKind B) (b : B) : Option Cell :=
  match (BK.store false b).toSl with
  | .ok s => (buildSl (Boc.emptyContext H) s).toOption
  | .error _ => none

/-- The fields that `models/message/mod.rs:89-93` writes and `:108-117` reads; `Cell::default()` is the empty cell. -/
def messageFields {I : Type} (H : Hasher) (sh : Shuffle) (info : Form I) : Fields (I × Option StateInit × Cell × Option Layout) :=
  (field "info".toList info).and ((fieldOr "init".toList (stateInit H sh).opt none).and
    ((fieldOr "body".toList (cell H) (.mk false [] [])).and (fieldOr "layout".toList layout.opt none)))

/-- `models/message/mod.rs:63-99` `Serialize for BaseMessage` in readable formats. -/
def messageSer {I B : Type} (H : Hasher) (sh : Shuffle) (info : Form I) (BK : BodyKind B) (m : Msg I B) : Option SV :=
  match bodyCell H BK m.body with
  | some c => (struct (messageFields H sh info)).ser true (m.info, m.init, c, m.layout)
  | none => none

/-- `models/message/mod.rs:100-130` `Deserialize for BaseMessage` in readable formats: the body is the whole cell. -/
def messageDe {I : Type} (H : Hasher) (sh : Shuffle) (info : Form I) (x : SV) : Option (Msg I (SliceRange × Cell)) :=
  ((struct (messageFields H sh info)).de true x).map fun p => ⟨p.1, p.2.1, (fullRange p.2.2.1, p.2.2.1), p.2.2.2⟩

/-- `models/transaction/mod.rs:82-110` `serde_in_msg` in readable formats: the message in the cell is shown, and a cell is built of it again. -/
def inMsgSer (H : Hasher) (sh : Shuffle) (c : Cell) : Option SV :=
  if c.exotic then none
  else match (Msg.load fullKind (sliceBody (Boc.emptyContext H)) (Sl.reader ⟨c.bits, c.refs⟩)).1 with
    | .ok m => messageSer H sh (msgInfo H sh) (sliceBody (Boc.emptyContext H)) m
    | .error _ => none
@[inherit_doc inMsgSer] def inMsgDe (H : Hasher) (sh : Shuffle) (x : SV) : Option Cell :=
  match messageDe H sh (msgInfo H sh) x with
  | some m =>
    match (m.store (Boc.emptyContext H) fullKind (partsBody (Boc.emptyContext H) (Boc.emptyContext H))).toSl with
    | .ok s => (buildSl (Boc.emptyContext H) s).toOption
    | .error _ => none
  | none => none

/-! ### Validators -/

/-- `models/config/params.rs:1380-1396` `ValidatorDescription`; the weight of the previous ones is skipped. -/
def validator : Form Vset.Validator :=
  struct (((field "public_key".toList hash).and ((field "weight".toList (nat (2 ^ 64 - 1))).and
    ((fieldOr "adnl_addr".toList hash.opt none).and (fieldOr "mc_seqno_since".toList (nat (2 ^ 32 - 1)) 0)))).as
    (fun p => ⟨p.1, p.2.1, p.2.2.1, p.2.2.2, 0⟩) (fun v => (v.publicKey, v.weight, v.adnl, v.mcSeqnoSince)))

/-- `NonZeroU16` -/
def nonZeroU16 : Form Nat where
  ser r v := (nat (2 ^ 16 - 1)).ser r v
  de r x := match (nat (2 ^ 16 - 1)).de r x with
    | some 0 => none
    | v => v

/-- `ValidatorSet` derives `Serialize` (`models/config/params.rs:1064-1079`); `ValidatorSetHelper` (`:1339-1347`) derives `Deserialize`. -/
def vsetFields : Fields Vset.ValidatorSet :=
  ((field "utime_since".toList (nat (2 ^ 32 - 1))).and ((field "utime_until".toList (nat (2 ^ 32 - 1))).and
    ((field "main".toList nonZeroU16).and ((fieldOr "total_weight".toList (nat (2 ^ 64 - 1)) 0).and
    (field "list".toList (vec validator)))))).as
    (fun p => ⟨p.1, p.2.1, p.2.2.1, p.2.2.2.1, p.2.2.2.2⟩) (fun s => (s.utimeSince, s.utimeUntil, s.main, s.totalWeight, s.list))

/-- `models/config/params.rs:1361-1367`: the loop that adds up the weights, `w` so far. -/
def addUp : Nat → List Vset.Validator → Option (List Vset.Validator × Nat)
  | w, [] => some ([], w)
  | w, v :: vs =>
    if w + v.weight < 2 ^ 64 then
      match addUp (w + v.weight) vs with
      | some (vs, total) => some ({ v with prevWeight := w } :: vs, total)
      | none => none
    else none

/-- `models/config/params.rs:1334-1378` `ValidatorSet` -/
def vset : Form Vset.ValidatorSet where
  ser := (struct vsetFields).ser
  de r x := match (struct vsetFields).de r x with
    | none => none
    | some p =>
      if p.list = [] then none
      else match addUp 0 p.list with
        | none => none
        | some (l, total) => if p.totalWeight > 0 ∧ p.totalWeight ≠ total then none else some { p with list := l, totalWeight := total }

end Form
end Verif
