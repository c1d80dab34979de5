import Verif.AbiRound
/-!
# Message bodies of contracts

Functions and events of a contract (`abi/contract.rs`): bodies of internal and external messages, what is signed, how a signature is filled in.

Simplifications: ids, times and keys are given as numbers and bytes; ids that are computed from a signature take the first four bytes of its hash as a
number; the current time is an argument; all errors that exist only in the ABI are `invalidData`.
-/
set_option linter.unusedVariables false
namespace Verif
namespace Abi

deriving instance DecidableEq for Ty, Tys

/-! ### Types of values -/

mutual
/-- `abi/value/mod.rs:191-214` `has_type`: the elements of arrays, maps and optionals are not looked at. -/
def hasType : Val → Ty → Bool
  | .uint n _, .uint t => n == t
  | .int n _, .int t => n == t
  | .varuint n _, .varuint t => n == t
  | .varint n _, .varint t => n == t
  | .fixedBytes d, .fixedBytes n => d.length == n
  | .tuple items, .tuple ts => haveTypes items ts
  | .array ty _, .array t => decide (ty = t)
  | .fixedArray ty vs, .fixedArray t n => vs.length == n && decide (ty = t)
  | .map k ty _, .map k' t => decide (k = k') && decide (ty = t)
  | .absent ty, .optional t => decide (ty = t)
  | .present ty _, .optional t => decide (ty = t)
  | .ref v, .ref t => hasType v t
  | .bool _, .bool => true
  | .cell _, .cell => true
  | .address _, .address => true
  | .bytes _, .bytes => true
  | .string _, .string => true
  | .token _, .token => true
  | _, _ => false
/-- `abi/value/mod.rs:39-45` `have_types` -/
def haveTypes : Items → Tys → Bool
  | .nil, .nil => true
  | .cons _ v r, .cons _ t ts => hasType v t && haveTypes r ts
  | _, _ => false
end

/-! ### Functions -/

/-- `AbiHeaderType` (`abi/ty.rs`) -/
inductive Hdr
  | time | expire | pubkey
  deriving DecidableEq

/-- `Function` (`abi/contract.rs:379-397`) -/
structure Func where
  ver : Ver
  headers : List Hdr
  name : String
  inputs : Tys
  outputs : Tys
  inputId : Nat
  outputId : Nat

/-- `Event` (`abi/contract.rs:928-937`) -/
structure Event where
  ver : Ver
  name : String
  inputs : Tys
  id : Nat

/-- `abi/contract.rs:848-860` (and 313-322): the ids of a function, from an explicit one or from the hash of the signature (`INPUT_ID_MASK` is `0x7fffffff`). -/
def funcIds (explicit : Option Nat) (hash : Nat) : Nat × Nat :=
  match explicit with
  | some id => (id, id)
  | none => (hash &&& 0x7fffffff, hash ||| 0x80000000)

/-- `abi/contract.rs:1027-1033` (and 340-346): the id of an event. -/
def eventId (explicit : Option Nat) (hash : Nat) : Nat :=
  match explicit with
  | some id => id
  | none => hash &&& 0x7fffffff

/-- `abi/contract.rs:426-443` `encode_internal_msg_body` -/
def encodeBody (acc : Cell → Bool) (ver : Ver) (id : Nat) (tokens : Items) : Except Err (CellB Cell) :=
  write acc ver (.uint 32 id) (Ser.start ((Val.uint 32 id).size ver + (Val.tuple tokens).size ver)) >>= fun s =>
  writeItems acc ver tokens s >>= finalize acc

/-- The check of an id (`abi/contract.rs:497-500`, 562-565, 597-600, 980-983). -/
def checkId (id expected : Nat) : Rd Cell Unit := Prog.check (id == expected) .invalidData

/-- `abi/contract.rs:556-575`, 591-610, 974-993: `decode_internal_input_ext`, `decode_output_ext`. -/
def decodeBody (ver : Ver) (part : Bool) (id : Nat) (tys : Tys) (s : CSlice Cell) : Except Err Items :=
  whole part (Rd.u32 >>= fun x => checkId x id >>= fun _ => loadItems ver part tys true) s

/-- `abi/contract.rs:518-521` `encode_internal_input` -/
def Func.encodeInternal (acc : Cell → Bool) (f : Func) (tokens : Items) : Except Err (CellB Cell) :=
  if haveTypes tokens f.inputs then encodeBody acc f.ver f.inputId tokens else .error .invalidData
def Func.decodeInternal (f : Func) (part : Bool) (s : CSlice Cell) : Except Err Items := decodeBody f.ver part f.inputId f.inputs s

/-- `abi/contract.rs:578-581` `encode_output` -/
def Func.encodeOutput (acc : Cell → Bool) (f : Func) (tokens : Items) : Except Err (CellB Cell) :=
  if haveTypes tokens f.outputs then encodeBody acc f.ver f.outputId tokens else .error .invalidData
def Func.decodeOutput (f : Func) (part : Bool) (s : CSlice Cell) : Except Err Items := decodeBody f.ver part f.outputId f.outputs s

/-- `abi/contract.rs:961-964` -/
def Event.encodeInternal (acc : Cell → Bool) (f : Event) (tokens : Items) : Except Err (CellB Cell) :=
  if haveTypes tokens f.inputs then encodeBody acc f.ver f.id tokens else .error .invalidData
def Event.decodeInternal (f : Event) (part : Bool) (s : CSlice Cell) : Except Err Items := decodeBody f.ver part f.id f.inputs s

/-! ### External messages -/

/-- The values of headers (`ExternalInput`, `abi/contract.rs:626-633`). -/
structure Head where
  time : Nat
  expire : Nat
  pubkey : Option (List Byte)

/-- `abi/contract.rs:741-744`: the time of expiration that is used; the sum is checked in debug builds. -/
def expireAt (time : Nat) (explicit : Option Nat) : Except Err Nat :=
  match explicit with
  | some e => .ok e
  | none => if time / 1000 % 2 ^ 32 + 60 < 2 ^ 32 then .ok (time / 1000 % 2 ^ 32 + 60) else .error .panic

/-- The bits that a header asks for (`abi/value/ser.rs:251-265` `reserve_headers`, 326-352 `write_header_value`). -/
def Hdr.size (ver : Ver) (hasKey : Bool) : Hdr → Nat
  | .time => 64
  | .expire => 32
  | .pubkey => 1 + if ver.useMax || hasKey then 256 else 0

/-- What is stored for a header (`abi/value/ser.rs:326-352`). -/
def Hdr.store (h : Head) : Hdr → Wr Cell Unit
  | .time => Wr.u64 h.time
  | .expire => Wr.u32 h.expire
  | .pubkey => match h.pubkey with
    | none => Wr.bit false
    | some k => Wr.bit true >>= fun _ => Wr.raw k 256

/-- `abi/value/ser.rs:326-352` `write_header_value`, in the loop of `abi/contract.rs:752-760`. -/
def writeHeaders (ver : Ver) (h : Head) : List Hdr → Ser → Except Err Ser
  | [], s => .ok s
  | x :: r, s => put ver ⟨x.size ver h.pubkey.isSome, 0⟩ (x.store h) s >>= writeHeaders ver h r

/-- `self.abi_version >= AbiVersion::V2_3` -/
def Ver.addressSigned (v : Ver) : Bool := decide (v.major > 2 ∨ v.major = 2 ∧ v.minor ≥ 3)

/-- The offset of a payload (`abi/contract.rs:714-727`). -/
def payloadOffset (ver : Ver) : Size :=
  if ver.major = 1 then ⟨0, 1⟩ else if ver.addressSigned then ⟨591, 0⟩ else ⟨513, 0⟩

/-- The size that is reserved for headers. -/
def headersSize (ver : Ver) (h : Head) (l : List Hdr) : Size := ⟨(l.map (Hdr.size ver h.pubkey.isSome)).sum, 0⟩

/-- What stands for a missing signature (`abi/contract.rs:739-746`). -/
def noSignature (ver : Ver) : Val := if ver.major = 1 then .cell (.mk false [] []) else .bool false

/-- `abi/contract.rs:694-767` `build_payload`: headers, id and arguments; `signed` is `reserve_signature`. -/
def Func.payload (acc : Cell → Bool) (f : Func) (tokens : Items) (h : Head) (signed : Bool) : Except Err Cell :=
  if haveTypes tokens f.inputs then
    let id := Val.uint 32 f.inputId
    let res := headersSize f.ver h f.headers + (id.size f.ver + (Val.tuple tokens).size f.ver)
    let start : Ser := ⟨payloadOffset f.ver, if signed then res else (noSignature f.ver).size f.ver + res, []⟩
    (if signed then .ok start else write acc f.ver (noSignature f.ver) start) >>= fun s =>
    writeHeaders f.ver h f.headers s >>= fun s =>
    write acc f.ver id s >>= fun s =>
    writeItems acc f.ver tokens s >>= finalize acc >>= build acc
  else .error .invalidData

/-- `abi/contract.rs:668-679`: the cell whose hash is signed. -/
def toSign (acc : Cell → Bool) (ver : Ver) (addr : Option StdAddr) (payload : Cell) : Except Err Cell :=
  if ver.addressSigned then
    match addr with
    | none => .error .invalidData
    | some a => asSlice payload >>= fun sl => (a.store >>= fun _ => Wr.slice sl.reader : Wr Cell Unit).toSl >>= buildSl acc
  else .ok payload

/-- `abi/contract.rs:1198-1221` `fill_signature`: in version 1 the payload is not stored. -/
def fillSignature (acc : Cell → Bool) (ver : Ver) (payload : Cell) (signature : Option (List Byte)) : Except Err Cell :=
  if ver.major = 1 then
    (match signature with
     | some sig => (Wr.raw sig 512 : Wr Cell Unit).toSl >>= buildSl acc
     | none => .ok (.mk false [] [])) >>= fun c => (Wr.ref c : Wr Cell Unit).toSl >>= buildSl acc
  else
    asSlice payload >>= fun sl =>
    ((match signature with
      | some sig => Wr.bit true >>= fun _ => Wr.raw sig 512
      | none => Wr.bit false) >>= fun _ => Wr.slice sl.reader : Wr Cell Unit).toSl >>= buildSl acc

/-- `abi/value/de.rs:263-282` `AbiHeader::skip` -/
def Hdr.skip : Hdr → Rd Cell Unit
  | .time => preload 64 >>= fun _ => Rd.skip 64 0
  | .expire => preload 32 >>= fun _ => Rd.skip 32 0
  | .pubkey => preload 1 >>= fun _ => Rd.bit >>= fun b => if b then preload 256 >>= fun _ => Rd.skip 256 0 else Pure.pure ()

/-- `abi/value/de.rs:255-260` `skip_all` -/
def skipAll : List Hdr → Rd Cell Unit
  | [] => Pure.pure ()
  | h :: r => h.skip >>= fun _ => skipAll r

/-- The signature in front of a body from version 2 on (`abi/contract.rs:492-494`). -/
def skipSignature : Rd Cell Unit := Rd.bit >>= fun b => if b then Rd.skip 512 0 else Pure.pure ()

/-- The prefix of the body of an external message (`abi/contract.rs:480-500`); in version 1 the id comes first. -/
def externalHead (f : Func) : Rd Cell Nat :=
  if f.ver.major = 1 then Rd.u32 >>= fun id => Rd.ref >>= fun _ => skipAll f.headers >>= fun _ => Pure.pure id
  else skipSignature >>= fun _ => skipAll f.headers >>= fun _ => Rd.u32

/-- `abi/contract.rs:474-515` `decode_external_input_ext` -/
def Func.decodeExternal (f : Func) (part : Bool) (s : CSlice Cell) : Except Err Items :=
  whole part (externalHead f >>= fun x => checkId x f.inputId >>= fun _ => loadItems f.ver part f.inputs true) s

/-! ### Conditions of the theorems -/

mutual
/-- The value with the names of the type. -/
def Val.named : Val → Ty → Val
  | .tuple items, .tuple ts => .tuple (items.named ts)
  | .ref v, .ref t => .ref (v.named t)
  | v, _ => v
def Items.named : Items → Tys → Items
  | .cons _ v r, .cons n t ts => .cons n (v.named t) (r.named ts)
  | l, _ => l
end

/-- The values of headers are of their types. -/
structure Head.Ok (h : Head) : Prop where
  time : h.time < 2 ^ 64
  expire : h.expire < 2 ^ 32
  pubkey : ∀ k, h.pubkey = some k → k.length = 32

/-- There is room for headers and id in the first cell, whatever the signature. -/
def Func.Room (f : Func) (h : Head) : Prop := (payloadOffset f.ver).bits + 1 + (headersSize f.ver h f.headers).bits + 32 ≤ 1023

/-- The arguments can be spread over cells: as in `Regular`, with the rest of the body. -/
def Func.Regular (f : Func) (h : Head) (tokens : Items) : Prop :=
  f.ver.useMax = true ∨ tokens.noEmptyMap = true ∨
    ((payloadOffset f.ver).bits + 1 + (headersSize f.ver h f.headers).bits + 32 + f.inputs.max.bits + f.inputs.fixed ≤ 1023 ∧ f.inputs.max.refs ≤ 3)

end Abi
end Verif
