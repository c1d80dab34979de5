import Verif.AbiContractProps
import Verif.MessageProps
import Verif.CellInj
/-!
# Calls of contracts as messages

`ExternalInput`, `UnsignedBody` and `UnsignedExternalMessage` (`abi/contract.rs`), signatures with an id (`abi/signature.rs`) and calls by internal messages.
Keys and signatures are abstract: signing is a function from bytes to bytes. The clock (`now_ms`) is an argument.
-/
set_option linter.unusedVariables false
namespace Verif
namespace Abi

/-- `abi/contract.rs:626-633` `ExternalInput`: a call that is being prepared. -/
structure Call where
  func : Func
  tokens : Items
  time : Option Nat
  expireAt : Option Nat
  pubkey : Option (List Byte)
  address : Option StdAddr

/-- `abi/contract.rs:452-464` `encode_external` -/
def Func.call (f : Func) (tokens : Items) : Call := ⟨f, tokens, none, none, none, none⟩
/-- `abi/contract.rs:771-780` `set_time`, `with_time` -/
def Call.withTime (c : Call) (t : Nat) : Call := { c with time := some t }
/-- `abi/contract.rs:784-793` `set_expire_at`, `with_expire_at` -/
def Call.withExpireAt (c : Call) (t : Nat) : Call := { c with expireAt := some t }
/-- `abi/contract.rs:797-806` `set_pubkey`, `with_pubkey` -/
def Call.withPubkey (c : Call) (k : List Byte) : Call := { c with pubkey := some k }
/-- `abi/contract.rs:810-819` `set_address`, `with_address` -/
def Call.withAddress (c : Call) (a : StdAddr) : Call := { c with address := some a }

/-- `abi/contract.rs:741-744`, `746-753`: the values of the headers at the time `now`. -/
def Call.head (now : Nat) (c : Call) : Except Err Head :=
  Verif.Abi.expireAt (c.time.getD now) c.expireAt >>= fun e => .ok ⟨c.time.getD now, e, c.pubkey⟩

/-- `abi/contract.rs:694-767` `build_payload`: the time of expiration and the payload. -/
def Call.payload (acc : Cell → Bool) (now : Nat) (c : Call) (signed : Bool) : Except Err (Nat × Cell) :=
  if haveTypes c.tokens c.func.inputs then
    c.head now >>= fun h => c.func.payload acc c.tokens h signed >>= fun p => .ok (h.expire, p)
  else .error .invalidData

/-- `abi/contract.rs:1154-1163` `UnsignedBody` -/
structure Unsigned where
  ver : Ver
  payload : Cell
  hash : Hash
  expire : Nat

/-- `abi/contract.rs:665-687` `build_input_ext` -/
def Call.inputExt (H : Hasher) (acc : Cell → Bool) (now : Nat) (c : Call) (address : Option StdAddr) : Except Err Unsigned :=
  c.payload acc now true >>= fun p => toSign acc c.func.ver address p.2 >>= fun s => .ok ⟨c.func.ver, p.2, s.reprHash H, p.1⟩

/-- `abi/contract.rs:661-663` `build_input` -/
def Call.input (H : Hasher) (acc : Cell → Bool) (now : Nat) (c : Call) : Except Err Unsigned := c.inputExt H acc now c.address

/-- `abi/contract.rs:1071-1078` `UnsignedExternalMessage` -/
structure UnsignedMsg where
  dst : StdAddr
  body : Unsigned
  init : Option StateInit

/-- `abi/contract.rs:1168-1174` `with_dst` -/
def Unsigned.withDst (u : Unsigned) (dst : StdAddr) : UnsignedMsg := ⟨dst, u, none⟩
/-- `abi/contract.rs:1082-1090` `set_state_init`, `with_state_init` -/
def UnsignedMsg.setInit (u : UnsignedMsg) (init : Option StateInit) : UnsignedMsg := { u with init := init }

/-- `abi/contract.rs:637-639` `build_message` -/
def Call.message (H : Hasher) (acc : Cell → Bool) (now : Nat) (c : Call) (address : StdAddr) : Except Err UnsignedMsg :=
  c.inputExt H acc now (some address) >>= fun u => .ok (u.withDst address)

/-- An external message with a cell as its body (`ExtInMsgInfo::default`, `models/message/mod.rs:1027-1040`; `From<Cell> for CellSliceParts`). -/
def extInMsg (dst : StdAddr) (init : Option StateInit) (body : Cell) : Msg MsgInfo (SliceRange × Cell) :=
  ⟨.extIn ⟨none, .std dst, 0⟩, init, (fullRange body, body), none⟩

/-- `abi/contract.rs:644-658` `build_message_without_signature` -/
def Call.messageUnsigned (acc : Cell → Bool) (now : Nat) (c : Call) (address : StdAddr) : Except Err (Nat × Msg MsgInfo (SliceRange × Cell)) :=
  c.payload acc now false >>= fun p => .ok (p.1, extInMsg address none p.2)

/-- `abi/contract.rs:1198-1221` `UnsignedBody::fill_signature` -/
def Unsigned.fill (acc : Cell → Bool) (u : Unsigned) (sig : Option (List Byte)) : Except Err Cell := fillSignature acc u.ver u.payload sig

/-- `abi/contract.rs:1125-1151` `UnsignedExternalMessage::fill_signature`, `into_signed`, `with_signature` -/
def UnsignedMsg.fill (acc : Cell → Bool) (u : UnsignedMsg) (sig : Option (List Byte)) : Except Err (Msg MsgInfo (SliceRange × Cell)) :=
  u.body.fill acc sig >>= fun c => .ok (extInMsg u.dst u.init c)

/-- `abi/contract.rs:1115-1117` `with_fake_signature` -/
def UnsignedMsg.fillFake (acc : Cell → Bool) (u : UnsignedMsg) : Except Err (Msg MsgInfo (SliceRange × Cell)) := u.fill acc (some (List.replicate 64 0))

/-- `i32::to_be_bytes` -/
def i32be (i : Int) : List Byte := [24, 16, 8, 0].map fun k => BitVec.ofNat 8 (i32ToU32 i >>> k)

/-- `abi/signature.rs:16-26` `extend_signature_with_id` -/
def extendWithId (data : List Byte) : Option Int → List Byte
  | some id => i32be id ++ data
  | none => data

/-- `abi/contract.rs:1099-1107`, `abi/signature.rs:6-13`: `sign`, with `key` for the signing. -/
def UnsignedMsg.sign (acc : Cell → Bool) (u : UnsignedMsg) (key : List Byte → List Byte) (id : Option Int) : Except Err (Msg MsgInfo (SliceRange × Cell)) :=
  u.fill acc (some (key (extendWithId u.body.hash id)))

/-- `abi/contract.rs:524-546` `encode_internal_message` (defaults: `models/message/mod.rs:956-971`). -/
def Func.internalMessage (acc : Cell → Bool) (f : Func) (tokens : Items) (dst : IntAddr) (value : Nat) (bounce : Bool) (init : Option StateInit) :
    Except Err (Msg RelaxedMsgInfo (SliceRange × Cell)) :=
  f.encodeInternal acc tokens >>= fun b => build acc b >>= fun c =>
    .ok ⟨.int ⟨⟨true, bounce, false⟩, none, dst, ⟨value, none⟩, 0, 0, 0, 0⟩, init, (fullRange c, c), none⟩

end Abi
end Verif
