import Verif.TlbMore
import Verif.Message
/-
Message envelopes, inbound and outbound messages (`models/message/envelope.rs`, `in_message.rs`, `out_message.rs`).
-/
set_option linter.unusedVariables false
set_option linter.unusedSimpArgs false
namespace Verif

/-! ### Model -/

/-- `models/message/envelope.rs:119-122` `IntermediateAddrRegular`: the number of bits of the destination, validated with `is_valid`. -/
def regularAddr : Tlb Nat := Tlb.u8.validated fun n => decide (n ≤ 96)

/-- `models/message/envelope.rs:157-170` `IntermediateAddrSimple`, here `SimpleAddr` -/
structure SimpleAddr where
  workchain : Int
  addressPrefix : Nat
  deriving DecidableEq, Repr

/-- `SimpleAddr` derives `Store` and `Load`. -/
def simpleAddr : Tlb SimpleAddr where
  ok a := Tlb.i8.ok a.workchain ∧ Tlb.u64.ok a.addressPrefix
  store a := Tlb.i8.store a.workchain >>= fun _ => Tlb.u64.store a.addressPrefix
  load :=
    Tlb.i8.load >>= fun workchain =>
    Tlb.u64.load >>= fun addressPrefix =>
    pure ⟨workchain, addressPrefix⟩
  R a := Tlb.i8.R a.workchain ⬝ Tlb.u64.R a.addressPrefix
  enc a := Tlb.i8.enc a.workchain ++ (Tlb.u64.enc a.addressPrefix)

/-- `models/message/envelope.rs:173-182` `IntermediateAddrExt`, here `WideAddr` -/
structure WideAddr where
  workchain : Int
  addressPrefix : Nat
  deriving DecidableEq, Repr

/-- `WideAddr` derives `Store` and `Load`. -/
def wideAddr : Tlb WideAddr where
  ok a := Tlb.i32.ok a.workchain ∧ Tlb.u64.ok a.addressPrefix
  store a := Tlb.i32.store a.workchain >>= fun _ => Tlb.u64.store a.addressPrefix
  load :=
    Tlb.i32.load >>= fun workchain =>
    Tlb.u64.load >>= fun addressPrefix =>
    pure ⟨workchain, addressPrefix⟩
  R a := Tlb.i32.R a.workchain ⬝ Tlb.u64.R a.addressPrefix
  enc a := Tlb.i32.enc a.workchain ++ (Tlb.u64.enc a.addressPrefix)

/-- `models/message/envelope.rs:12-19` `IntermediateAddr` -/
inductive InterAddr where
  | regular (destBits : Nat)
  | simple (addr : SimpleAddr)
  | ext (addr : WideAddr)
  deriving DecidableEq, Repr

/-- `models/message/envelope.rs:79-113` `Store`, `Load` -/
def interAddr : Tlb InterAddr where
  ok | .regular n => regularAddr.ok n
     | .simple a => simpleAddr.ok a
     | .ext a => wideAddr.ok a
  store | .regular n => Wr.bit false >>= fun _ => regularAddr.store n
        | .simple a => Wr.small 2 2 >>= fun _ => simpleAddr.store a
        | .ext a => Wr.small 3 2 >>= fun _ => wideAddr.store a
  load := Rd.bit >>= fun b => if b then Rd.bit >>= fun b => if b then wideAddr.load >>= fun a => pure (.ext a) else simpleAddr.load >>= fun a => pure (.simple a)
    else regularAddr.load >>= fun n => pure (.regular n)
  R | .regular n => Enc.Lit [false] ⬝ regularAddr.R n
    | .simple a => Enc.Lit [true, false] ⬝ simpleAddr.R a
    | .ext a => Enc.Lit [true, true] ⬝ wideAddr.R a
  enc | .regular n => Enc.bits [false] ++ regularAddr.enc n
      | .simple a => Enc.bits [true, false] ++ simpleAddr.enc a
      | .ext a => Enc.bits [true, true] ++ wideAddr.enc a

/-- `models/message/envelope.rs:185-198` `MsgEnvelope`; the lazily loaded message is its cell -/
structure MsgEnvelope where
  curAddr : InterAddr
  nwideAddr : InterAddr
  fwdFeeRemaining : Nat
  message : Cell

/-- `MsgEnvelope` derives `Store` and `Load`. -/
def msgEnvelope : Tlb MsgEnvelope where
  ok a := interAddr.ok a.curAddr ∧ interAddr.ok a.nwideAddr ∧ Tlb.tokens.ok a.fwdFeeRemaining ∧ (Tlb.lazy false).ok a.message
  store a := Wr.small 4 4 >>= fun _ => interAddr.store a.curAddr >>= fun _ => interAddr.store a.nwideAddr >>= fun _ => Tlb.tokens.store a.fwdFeeRemaining >>= fun _ => (Tlb.lazy false).store a.message
  load :=
    Rd.small 4 >>= fun u => Prog.check (decide (u = 4)) .invalidTag >>= fun _ =>
    interAddr.load >>= fun curAddr =>
    interAddr.load >>= fun nwideAddr =>
    Tlb.tokens.load >>= fun fwdFeeRemaining =>
    (Tlb.lazy false).load >>= fun message =>
    pure ⟨curAddr, nwideAddr, fwdFeeRemaining, message⟩
  R a := Enc.Lit (natBits 4 4) ⬝ interAddr.R a.curAddr ⬝ interAddr.R a.nwideAddr ⬝ Tlb.tokens.R a.fwdFeeRemaining ⬝ (Tlb.lazy false).R a.message
  enc a := Enc.bits (natBits 4 4) ++ (interAddr.enc a.curAddr ++ (interAddr.enc a.nwideAddr ++ (Tlb.tokens.enc a.fwdFeeRemaining ++ ((Tlb.lazy false).enc a.message))))

/-- `models/message/in_message.rs:247-257` `InMsgExternal` -/
structure InMsgExternal where
  inMsg : Cell
  transaction : Cell

/-- `InMsgExternal` derives `Store` and `Load`. -/
def inMsgExternal : Tlb InMsgExternal where
  ok a := (Tlb.lazy false).ok a.inMsg ∧ (Tlb.lazy false).ok a.transaction
  store a := (Tlb.lazy false).store a.inMsg >>= fun _ => (Tlb.lazy false).store a.transaction
  load :=
    (Tlb.lazy false).load >>= fun inMsg =>
    (Tlb.lazy false).load >>= fun transaction =>
    pure ⟨inMsg, transaction⟩
  R a := (Tlb.lazy false).R a.inMsg ⬝ (Tlb.lazy false).R a.transaction
  enc a := (Tlb.lazy false).enc a.inMsg ++ ((Tlb.lazy false).enc a.transaction)

/-- `models/message/in_message.rs:286-296` `InMsgFinal` -/
structure InMsgFinal where
  inMsgEnvelope : Cell
  transaction : Cell
  fwdFee : Nat

/-- `InMsgFinal` derives `Store` and `Load`. -/
def inMsgFinal : Tlb InMsgFinal where
  ok a := (Tlb.lazy false).ok a.inMsgEnvelope ∧ (Tlb.lazy false).ok a.transaction ∧ Tlb.tokens.ok a.fwdFee
  store a := (Tlb.lazy false).store a.inMsgEnvelope >>= fun _ => (Tlb.lazy false).store a.transaction >>= fun _ => Tlb.tokens.store a.fwdFee
  load :=
    (Tlb.lazy false).load >>= fun inMsgEnvelope =>
    (Tlb.lazy false).load >>= fun transaction =>
    Tlb.tokens.load >>= fun fwdFee =>
    pure ⟨inMsgEnvelope, transaction, fwdFee⟩
  R a := (Tlb.lazy false).R a.inMsgEnvelope ⬝ (Tlb.lazy false).R a.transaction ⬝ Tlb.tokens.R a.fwdFee
  enc a := (Tlb.lazy false).enc a.inMsgEnvelope ++ ((Tlb.lazy false).enc a.transaction ++ (Tlb.tokens.enc a.fwdFee))

/-- `models/message/in_message.rs:344-353` `InMsgTransit` -/
structure InMsgTransit where
  inMsgEnvelope : Cell
  outMsgEnvelope : Cell
  transitFee : Nat

/-- `InMsgTransit` derives `Store` and `Load`. -/
def inMsgTransit : Tlb InMsgTransit where
  ok a := (Tlb.lazy false).ok a.inMsgEnvelope ∧ (Tlb.lazy false).ok a.outMsgEnvelope ∧ Tlb.tokens.ok a.transitFee
  store a := (Tlb.lazy false).store a.inMsgEnvelope >>= fun _ => (Tlb.lazy false).store a.outMsgEnvelope >>= fun _ => Tlb.tokens.store a.transitFee
  load :=
    (Tlb.lazy false).load >>= fun inMsgEnvelope =>
    (Tlb.lazy false).load >>= fun outMsgEnvelope =>
    Tlb.tokens.load >>= fun transitFee =>
    pure ⟨inMsgEnvelope, outMsgEnvelope, transitFee⟩
  R a := (Tlb.lazy false).R a.inMsgEnvelope ⬝ (Tlb.lazy false).R a.outMsgEnvelope ⬝ Tlb.tokens.R a.transitFee
  enc a := (Tlb.lazy false).enc a.inMsgEnvelope ++ ((Tlb.lazy false).enc a.outMsgEnvelope ++ (Tlb.tokens.enc a.transitFee))

/-- `models/message/in_message.rs:42-54` `InMsg` -/
inductive InMsg where
  | external (v : InMsgExternal)
  | immediate (v : InMsgFinal)
  | final (v : InMsgFinal)
  | transit (v : InMsgTransit)

/-- `models/message/in_message.rs:211-244` `Store`, `Load` -/
def inMsg : Tlb InMsg where
  ok | .external v => inMsgExternal.ok v
     | .immediate v => inMsgFinal.ok v
     | .final v => inMsgFinal.ok v
     | .transit v => inMsgTransit.ok v
  store | .external v => Wr.small 0 3 >>= fun _ => inMsgExternal.store v
        | .immediate v => Wr.small 3 3 >>= fun _ => inMsgFinal.store v
        | .final v => Wr.small 4 3 >>= fun _ => inMsgFinal.store v
        | .transit v => Wr.small 5 3 >>= fun _ => inMsgTransit.store v
  load := Rd.small 3 >>= fun t =>
    if t = 0 then inMsgExternal.load >>= fun v => pure (.external v) else
    if t = 3 then inMsgFinal.load >>= fun v => pure (.immediate v) else
    if t = 4 then inMsgFinal.load >>= fun v => pure (.final v) else
    if t = 5 then inMsgTransit.load >>= fun v => pure (.transit v) else
    Prog.fail .invalidTag
  R | .external v => Enc.Lit [false, false, false] ⬝ inMsgExternal.R v
    | .immediate v => Enc.Lit [false, true, true] ⬝ inMsgFinal.R v
    | .final v => Enc.Lit [true, false, false] ⬝ inMsgFinal.R v
    | .transit v => Enc.Lit [true, false, true] ⬝ inMsgTransit.R v
  enc | .external v => Enc.bits [false, false, false] ++ inMsgExternal.enc v
      | .immediate v => Enc.bits [false, true, true] ++ inMsgFinal.enc v
      | .final v => Enc.bits [true, false, false] ++ inMsgFinal.enc v
      | .transit v => Enc.bits [true, false, true] ++ inMsgTransit.enc v

/-- `models/message/out_message.rs:9-16` `EnqueuedMsg` -/
structure EnqueuedMsg where
  enqueuedLt : Nat
  outMsgEnvelope : Cell

/-- `EnqueuedMsg` derives `Store` and `Load`. -/
def enqueuedMsg : Tlb EnqueuedMsg where
  ok a := Tlb.u64.ok a.enqueuedLt ∧ (Tlb.lazy false).ok a.outMsgEnvelope
  store a := Tlb.u64.store a.enqueuedLt >>= fun _ => (Tlb.lazy false).store a.outMsgEnvelope
  load :=
    Tlb.u64.load >>= fun enqueuedLt =>
    (Tlb.lazy false).load >>= fun outMsgEnvelope =>
    pure ⟨enqueuedLt, outMsgEnvelope⟩
  R a := Tlb.u64.R a.enqueuedLt ⬝ (Tlb.lazy false).R a.outMsgEnvelope
  enc a := Tlb.u64.enc a.enqueuedLt ++ ((Tlb.lazy false).enc a.outMsgEnvelope)

/-- `models/message/out_message.rs:220-230` `OutMsgExternal` -/
structure OutMsgExternal where
  outMsg : Cell
  transaction : Cell

/-- `OutMsgExternal` derives `Store` and `Load`. -/
def outMsgExternal : Tlb OutMsgExternal where
  ok a := (Tlb.lazy false).ok a.outMsg ∧ (Tlb.lazy false).ok a.transaction
  store a := (Tlb.lazy false).store a.outMsg >>= fun _ => (Tlb.lazy false).store a.transaction
  load :=
    (Tlb.lazy false).load >>= fun outMsg =>
    (Tlb.lazy false).load >>= fun transaction =>
    pure ⟨outMsg, transaction⟩
  R a := (Tlb.lazy false).R a.outMsg ⬝ (Tlb.lazy false).R a.transaction
  enc a := (Tlb.lazy false).enc a.outMsg ++ ((Tlb.lazy false).enc a.transaction)

/-- `models/message/out_message.rs:259-269` `OutMsgImmediate` -/
structure OutMsgImmediate where
  outMsgEnvelope : Cell
  transaction : Cell
  reimport : Cell

/-- `OutMsgImmediate` derives `Store` and `Load`. -/
def outMsgImmediate : Tlb OutMsgImmediate where
  ok a := (Tlb.lazy false).ok a.outMsgEnvelope ∧ (Tlb.lazy false).ok a.transaction ∧ (Tlb.lazy false).ok a.reimport
  store a := (Tlb.lazy false).store a.outMsgEnvelope >>= fun _ => (Tlb.lazy false).store a.transaction >>= fun _ => (Tlb.lazy false).store a.reimport
  load :=
    (Tlb.lazy false).load >>= fun outMsgEnvelope =>
    (Tlb.lazy false).load >>= fun transaction =>
    (Tlb.lazy false).load >>= fun reimport =>
    pure ⟨outMsgEnvelope, transaction, reimport⟩
  R a := (Tlb.lazy false).R a.outMsgEnvelope ⬝ (Tlb.lazy false).R a.transaction ⬝ (Tlb.lazy false).R a.reimport
  enc a := (Tlb.lazy false).enc a.outMsgEnvelope ++ ((Tlb.lazy false).enc a.transaction ++ ((Tlb.lazy false).enc a.reimport))

/-- `models/message/out_message.rs:313-321` `OutMsgNew` -/
structure OutMsgNew where
  outMsgEnvelope : Cell
  transaction : Cell

/-- `OutMsgNew` derives `Store` and `Load`. -/
def outMsgNew : Tlb OutMsgNew where
  ok a := (Tlb.lazy false).ok a.outMsgEnvelope ∧ (Tlb.lazy false).ok a.transaction
  store a := (Tlb.lazy false).store a.outMsgEnvelope >>= fun _ => (Tlb.lazy false).store a.transaction
  load :=
    (Tlb.lazy false).load >>= fun outMsgEnvelope =>
    (Tlb.lazy false).load >>= fun transaction =>
    pure ⟨outMsgEnvelope, transaction⟩
  R a := (Tlb.lazy false).R a.outMsgEnvelope ⬝ (Tlb.lazy false).R a.transaction
  enc a := (Tlb.lazy false).enc a.outMsgEnvelope ++ ((Tlb.lazy false).enc a.transaction)

/-- `models/message/out_message.rs:360-367` `OutMsgDequeueImmediate` -/
structure OutMsgDequeueImmediate where
  outMsgEnvelope : Cell
  reimport : Cell

/-- `OutMsgDequeueImmediate` derives `Store` and `Load`. -/
def outMsgDequeueImmediate : Tlb OutMsgDequeueImmediate where
  ok a := (Tlb.lazy false).ok a.outMsgEnvelope ∧ (Tlb.lazy false).ok a.reimport
  store a := (Tlb.lazy false).store a.outMsgEnvelope >>= fun _ => (Tlb.lazy false).store a.reimport
  load :=
    (Tlb.lazy false).load >>= fun outMsgEnvelope =>
    (Tlb.lazy false).load >>= fun reimport =>
    pure ⟨outMsgEnvelope, reimport⟩
  R a := (Tlb.lazy false).R a.outMsgEnvelope ⬝ (Tlb.lazy false).R a.reimport
  enc a := (Tlb.lazy false).enc a.outMsgEnvelope ++ ((Tlb.lazy false).enc a.reimport)

/-- `models/message/out_message.rs:405-416` `OutMsgDequeueShort` -/
structure OutMsgDequeueShort where
  msgEnvHash : List Byte
  nextWorkchain : Int
  nwideAddrPfx : Nat
  importBlockLt : Nat
  deriving DecidableEq, Repr

/-- `OutMsgDequeueShort` derives `Store` and `Load`. -/
def outMsgDequeueShort : Tlb OutMsgDequeueShort where
  ok a := Tlb.hash.ok a.msgEnvHash ∧ Tlb.i32.ok a.nextWorkchain ∧ Tlb.u64.ok a.nwideAddrPfx ∧ Tlb.u64.ok a.importBlockLt
  store a := Tlb.hash.store a.msgEnvHash >>= fun _ => Tlb.i32.store a.nextWorkchain >>= fun _ => Tlb.u64.store a.nwideAddrPfx >>= fun _ => Tlb.u64.store a.importBlockLt
  load :=
    Tlb.hash.load >>= fun msgEnvHash =>
    Tlb.i32.load >>= fun nextWorkchain =>
    Tlb.u64.load >>= fun nwideAddrPfx =>
    Tlb.u64.load >>= fun importBlockLt =>
    pure ⟨msgEnvHash, nextWorkchain, nwideAddrPfx, importBlockLt⟩
  R a := Tlb.hash.R a.msgEnvHash ⬝ Tlb.i32.R a.nextWorkchain ⬝ Tlb.u64.R a.nwideAddrPfx ⬝ Tlb.u64.R a.importBlockLt
  enc a := Tlb.hash.enc a.msgEnvHash ++ (Tlb.i32.enc a.nextWorkchain ++ (Tlb.u64.enc a.nwideAddrPfx ++ (Tlb.u64.enc a.importBlockLt)))

/-- `models/message/out_message.rs:48-63` `OutMsg` -/
inductive OutMsg where
  | external (v : OutMsgExternal)
  | new (v : OutMsgNew)
  | immediate (v : OutMsgImmediate)
  | dequeueImmediate (v : OutMsgDequeueImmediate)
  | dequeueShort (v : OutMsgDequeueShort)

/-- `models/message/out_message.rs:175-217` `Store`, `Load` -/
def outMsg : Tlb OutMsg where
  ok | .external v => outMsgExternal.ok v
     | .new v => outMsgNew.ok v
     | .immediate v => outMsgImmediate.ok v
     | .dequeueImmediate v => outMsgDequeueImmediate.ok v
     | .dequeueShort v => outMsgDequeueShort.ok v
  store | .external v => Wr.small 0 3 >>= fun _ => outMsgExternal.store v
        | .new v => Wr.small 1 3 >>= fun _ => outMsgNew.store v
        | .immediate v => Wr.small 2 3 >>= fun _ => outMsgImmediate.store v
        | .dequeueImmediate v => Wr.small 4 3 >>= fun _ => outMsgDequeueImmediate.store v
        | .dequeueShort v => Wr.small 13 4 >>= fun _ => outMsgDequeueShort.store v
  load := Rd.small 3 >>= fun t =>
    if t = 0 then outMsgExternal.load >>= fun v => pure (.external v) else
    if t = 1 then outMsgNew.load >>= fun v => pure (.new v) else
    if t = 2 then outMsgImmediate.load >>= fun v => pure (.immediate v) else
    if t = 4 then outMsgDequeueImmediate.load >>= fun v => pure (.dequeueImmediate v) else
    if t = 6 then Rd.bit >>= fun b => if b then outMsgDequeueShort.load >>= fun v => pure (.dequeueShort v) else Prog.fail .invalidTag else
    Prog.fail .invalidTag
  R | .external v => Enc.Lit [false, false, false] ⬝ outMsgExternal.R v
    | .new v => Enc.Lit [false, false, true] ⬝ outMsgNew.R v
    | .immediate v => Enc.Lit [false, true, false] ⬝ outMsgImmediate.R v
    | .dequeueImmediate v => Enc.Lit [true, false, false] ⬝ outMsgDequeueImmediate.R v
    | .dequeueShort v => Enc.Lit [true, true, false, true] ⬝ outMsgDequeueShort.R v
  enc | .external v => Enc.bits [false, false, false] ++ outMsgExternal.enc v
      | .new v => Enc.bits [false, false, true] ++ outMsgNew.enc v
      | .immediate v => Enc.bits [false, true, false] ++ outMsgImmediate.enc v
      | .dequeueImmediate v => Enc.bits [true, false, false] ++ outMsgDequeueImmediate.enc v
      | .dequeueShort v => Enc.bits [true, true, false, true] ++ outMsgDequeueShort.enc v

/-! ### Soundness of the parts -/

theorem regularAddr_sound : regularAddr.Sound := Tlb.u8_sound.validated _

theorem simpleAddr_sound : (simpleAddr).Sound :=
  (Tlb.i8_sound.pair Tlb.u64_sound).struct (fun p => ⟨p.1, p.2⟩) (fun a => (a.workchain, a.addressPrefix))
    (fun _ => rfl) (fun _ => rfl) (by unfold simpleAddr; tlb_more) (fun _ h => h) (fun _ _ => rfl) (fun _ _ => Iff.rfl) (fun _ _ => rfl)

theorem wideAddr_sound : (wideAddr).Sound :=
  (Tlb.i32_sound.pair Tlb.u64_sound).struct (fun p => ⟨p.1, p.2⟩) (fun a => (a.workchain, a.addressPrefix))
    (fun _ => rfl) (fun _ => rfl) (by unfold wideAddr; tlb_more) (fun _ h => h) (fun _ _ => rfl) (fun _ _ => Iff.rfl) (fun _ _ => rfl)

theorem interAddr_sound : interAddr.Sound where
  st := ⟨fun v h => by
      cases v with
      | regular n => exact (Wr.writes_bit false).writes.seq (regularAddr_sound.st.writes n h)
      | simple a => exact (Wr.writes_small 2 (n := 2) (by decide)).writes.seq (simpleAddr_sound.st.writes a h)
      | ext a => exact (Wr.writes_small 3 (n := 2) (by decide)).writes.seq (wideAddr_sound.st.writes a h),
    fun v h => by
      cases v with
      | regular n => exact ⟨_, _, rfl, regularAddr_sound.st.canon n h, rfl⟩
      | simple a => exact ⟨_, _, rfl, simpleAddr_sound.st.canon a h, rfl⟩
      | ext a => exact ⟨_, _, rfl, wideAddr_sound.st.canon a h, rfl⟩⟩
  ld := ((regularAddr_sound.ld.map InterAddr.regular).alt ((simpleAddr_sound.ld.map InterAddr.simple).alt (wideAddr_sound.ld.map InterAddr.ext))).iff fun v e => by
      cases v <;> simp only [interAddr] <;> tlb_alt

theorem msgEnvelope_sound : (msgEnvelope).Sound :=
  ((interAddr_sound.pair (interAddr_sound.pair (Tlb.tokens_sound.pair (Tlb.lazy_sound false)))).tagged (n := 4) (t := 4) (by unfold Tlb.TagWidth; omega) (by decide)).struct (fun p => ⟨p.1, p.2.1, p.2.2.1, p.2.2.2⟩) (fun a => (a.curAddr, a.nwideAddr, a.fwdFeeRemaining, a.message))
    (fun _ => rfl) (fun _ => rfl) (by unfold msgEnvelope; tlb_more) (fun _ h => h) (fun _ _ => rfl) (fun _ _ => Iff.rfl) (fun _ _ => rfl)

theorem inMsgExternal_sound : (inMsgExternal).Sound :=
  ((Tlb.lazy_sound false).pair (Tlb.lazy_sound false)).struct (fun p => ⟨p.1, p.2⟩) (fun a => (a.inMsg, a.transaction))
    (fun _ => rfl) (fun _ => rfl) (by unfold inMsgExternal; tlb_more) (fun _ h => h) (fun _ _ => rfl) (fun _ _ => Iff.rfl) (fun _ _ => rfl)

theorem inMsgFinal_sound : (inMsgFinal).Sound :=
  ((Tlb.lazy_sound false).pair ((Tlb.lazy_sound false).pair Tlb.tokens_sound)).struct (fun p => ⟨p.1, p.2.1, p.2.2⟩) (fun a => (a.inMsgEnvelope, a.transaction, a.fwdFee))
    (fun _ => rfl) (fun _ => rfl) (by unfold inMsgFinal; tlb_more) (fun _ h => h) (fun _ _ => rfl) (fun _ _ => Iff.rfl) (fun _ _ => rfl)

theorem inMsgTransit_sound : (inMsgTransit).Sound :=
  ((Tlb.lazy_sound false).pair ((Tlb.lazy_sound false).pair Tlb.tokens_sound)).struct (fun p => ⟨p.1, p.2.1, p.2.2⟩) (fun a => (a.inMsgEnvelope, a.outMsgEnvelope, a.transitFee))
    (fun _ => rfl) (fun _ => rfl) (by unfold inMsgTransit; tlb_more) (fun _ h => h) (fun _ _ => rfl) (fun _ _ => Iff.rfl) (fun _ _ => rfl)

theorem inMsg_sound : (inMsg).Sound where
  st := ⟨fun v h => by
      cases v with
      | external v => exact (Wr.writes_small 0 (n := 3) (by decide)).writes.seq (inMsgExternal_sound.st.writes v h)
      | immediate v => exact (Wr.writes_small 3 (n := 3) (by decide)).writes.seq (inMsgFinal_sound.st.writes v h)
      | final v => exact (Wr.writes_small 4 (n := 3) (by decide)).writes.seq (inMsgFinal_sound.st.writes v h)
      | transit v => exact (Wr.writes_small 5 (n := 3) (by decide)).writes.seq (inMsgTransit_sound.st.writes v h),
    fun v h => by
      cases v with
      | external v => exact ⟨_, _, rfl, inMsgExternal_sound.st.canon v h, rfl⟩
      | immediate v => exact ⟨_, _, rfl, inMsgFinal_sound.st.canon v h, rfl⟩
      | final v => exact ⟨_, _, rfl, inMsgFinal_sound.st.canon v h, rfl⟩
      | transit v => exact ⟨_, _, rfl, inMsgTransit_sound.st.canon v h, rfl⟩⟩
  ld := (Loads.switch (Loads.ofTakes (Rd.takes_small (n := 3) (by decide)))
      (fun v => match v with
        | .external _ => 0
        | .immediate _ => 3
        | .final _ => 4
        | .transit _ => 5)
      (fun v => match v with
        | .external v => inMsgExternal.R v
        | .immediate v => inMsgFinal.R v
        | .final v => inMsgFinal.R v
        | .transit v => inMsgTransit.R v) (by intro v; cases v <;> simp)
      (fun t ht => by
        by_cases h0 : t = 0
        · rw [if_pos h0]; subst h0
          exact (inMsgExternal_sound.ld.map InMsg.external).iff fun v e => by cases v <;> simp
        rw [if_neg h0]
        by_cases h1 : t = 3
        · rw [if_pos h1]; subst h1
          exact (inMsgFinal_sound.ld.map InMsg.immediate).iff fun v e => by cases v <;> simp
        rw [if_neg h1]
        by_cases h2 : t = 4
        · rw [if_pos h2]; subst h2
          exact (inMsgFinal_sound.ld.map InMsg.final).iff fun v e => by cases v <;> simp
        rw [if_neg h2]
        by_cases h3 : t = 5
        · rw [if_pos h3]; subst h3
          exact (inMsgTransit_sound.ld.map InMsg.transit).iff fun v e => by cases v <;> simp
        rw [if_neg h3]
        exact Loads.nothing (by decide) (by decide) fun v e => by cases v <;> simp <;> omega)).iff fun v e => by
    cases v with
    | external v => dsimp only; show (Enc.Lit [false, false, false] ⬝ inMsgExternal.R v) e ↔ (Enc.Lit [false, false, false] ⬝ inMsgExternal.R v) e; exact Iff.rfl
    | immediate v => dsimp only; show (Enc.Lit [false, true, true] ⬝ inMsgFinal.R v) e ↔ (Enc.Lit [false, true, true] ⬝ inMsgFinal.R v) e; exact Iff.rfl
    | final v => dsimp only; show (Enc.Lit [true, false, false] ⬝ inMsgFinal.R v) e ↔ (Enc.Lit [true, false, false] ⬝ inMsgFinal.R v) e; exact Iff.rfl
    | transit v => dsimp only; show (Enc.Lit [true, false, true] ⬝ inMsgTransit.R v) e ↔ (Enc.Lit [true, false, true] ⬝ inMsgTransit.R v) e; exact Iff.rfl

theorem enqueuedMsg_sound : (enqueuedMsg).Sound :=
  (Tlb.u64_sound.pair (Tlb.lazy_sound false)).struct (fun p => ⟨p.1, p.2⟩) (fun a => (a.enqueuedLt, a.outMsgEnvelope))
    (fun _ => rfl) (fun _ => rfl) (by unfold enqueuedMsg; tlb_more) (fun _ h => h) (fun _ _ => rfl) (fun _ _ => Iff.rfl) (fun _ _ => rfl)

theorem outMsgExternal_sound : (outMsgExternal).Sound :=
  ((Tlb.lazy_sound false).pair (Tlb.lazy_sound false)).struct (fun p => ⟨p.1, p.2⟩) (fun a => (a.outMsg, a.transaction))
    (fun _ => rfl) (fun _ => rfl) (by unfold outMsgExternal; tlb_more) (fun _ h => h) (fun _ _ => rfl) (fun _ _ => Iff.rfl) (fun _ _ => rfl)

theorem outMsgImmediate_sound : (outMsgImmediate).Sound :=
  ((Tlb.lazy_sound false).pair ((Tlb.lazy_sound false).pair (Tlb.lazy_sound false))).struct (fun p => ⟨p.1, p.2.1, p.2.2⟩) (fun a => (a.outMsgEnvelope, a.transaction, a.reimport))
    (fun _ => rfl) (fun _ => rfl) (by unfold outMsgImmediate; tlb_more) (fun _ h => h) (fun _ _ => rfl) (fun _ _ => Iff.rfl) (fun _ _ => rfl)

theorem outMsgNew_sound : (outMsgNew).Sound :=
  ((Tlb.lazy_sound false).pair (Tlb.lazy_sound false)).struct (fun p => ⟨p.1, p.2⟩) (fun a => (a.outMsgEnvelope, a.transaction))
    (fun _ => rfl) (fun _ => rfl) (by unfold outMsgNew; tlb_more) (fun _ h => h) (fun _ _ => rfl) (fun _ _ => Iff.rfl) (fun _ _ => rfl)

theorem outMsgDequeueImmediate_sound : (outMsgDequeueImmediate).Sound :=
  ((Tlb.lazy_sound false).pair (Tlb.lazy_sound false)).struct (fun p => ⟨p.1, p.2⟩) (fun a => (a.outMsgEnvelope, a.reimport))
    (fun _ => rfl) (fun _ => rfl) (by unfold outMsgDequeueImmediate; tlb_more) (fun _ h => h) (fun _ _ => rfl) (fun _ _ => Iff.rfl) (fun _ _ => rfl)

theorem outMsgDequeueShort_sound : (outMsgDequeueShort).Sound :=
  (Tlb.hash_sound.pair (Tlb.i32_sound.pair (Tlb.u64_sound.pair Tlb.u64_sound))).struct (fun p => ⟨p.1, p.2.1, p.2.2.1, p.2.2.2⟩) (fun a => (a.msgEnvHash, a.nextWorkchain, a.nwideAddrPfx, a.importBlockLt))
    (fun _ => rfl) (fun _ => rfl) (by unfold outMsgDequeueShort; tlb_more) (fun _ h => h) (fun _ _ => rfl) (fun _ _ => Iff.rfl) (fun _ _ => rfl)

theorem outMsg_sound : (outMsg).Sound where
  st := ⟨fun v h => by
      cases v with
      | external v => exact (Wr.writes_small 0 (n := 3) (by decide)).writes.seq (outMsgExternal_sound.st.writes v h)
      | new v => exact (Wr.writes_small 1 (n := 3) (by decide)).writes.seq (outMsgNew_sound.st.writes v h)
      | immediate v => exact (Wr.writes_small 2 (n := 3) (by decide)).writes.seq (outMsgImmediate_sound.st.writes v h)
      | dequeueImmediate v => exact (Wr.writes_small 4 (n := 3) (by decide)).writes.seq (outMsgDequeueImmediate_sound.st.writes v h)
      | dequeueShort v => exact (Wr.writes_small 13 (n := 4) (by decide)).writes.seq (outMsgDequeueShort_sound.st.writes v h),
    fun v h => by
      cases v with
      | external v => exact ⟨_, _, rfl, outMsgExternal_sound.st.canon v h, rfl⟩
      | new v => exact ⟨_, _, rfl, outMsgNew_sound.st.canon v h, rfl⟩
      | immediate v => exact ⟨_, _, rfl, outMsgImmediate_sound.st.canon v h, rfl⟩
      | dequeueImmediate v => exact ⟨_, _, rfl, outMsgDequeueImmediate_sound.st.canon v h, rfl⟩
      | dequeueShort v => exact ⟨_, _, rfl, outMsgDequeueShort_sound.st.canon v h, rfl⟩⟩
  ld := (Loads.switch (Loads.ofTakes (Rd.takes_small (n := 3) (by decide)))
      (fun v => match v with
        | .external _ => 0
        | .new _ => 1
        | .immediate _ => 2
        | .dequeueImmediate _ => 4
        | .dequeueShort _ => 6)
      (fun v => match v with
        | .external v => outMsgExternal.R v
        | .new v => outMsgNew.R v
        | .immediate v => outMsgImmediate.R v
        | .dequeueImmediate v => outMsgDequeueImmediate.R v
        | .dequeueShort v => Enc.Lit [true] ⬝ outMsgDequeueShort.R v) (by intro v; cases v <;> simp)
      (fun t ht => by
        by_cases h0 : t = 0
        · rw [if_pos h0]; subst h0
          exact (outMsgExternal_sound.ld.map OutMsg.external).iff fun v e => by cases v <;> simp
        rw [if_neg h0]
        by_cases h1 : t = 1
        · rw [if_pos h1]; subst h1
          exact (outMsgNew_sound.ld.map OutMsg.new).iff fun v e => by cases v <;> simp
        rw [if_neg h1]
        by_cases h2 : t = 2
        · rw [if_pos h2]; subst h2
          exact (outMsgImmediate_sound.ld.map OutMsg.immediate).iff fun v e => by cases v <;> simp
        rw [if_neg h2]
        by_cases h3 : t = 4
        · rw [if_pos h3]; subst h3
          exact (outMsgDequeueImmediate_sound.ld.map OutMsg.dequeueImmediate).iff fun v e => by cases v <;> simp
        rw [if_neg h3]
        by_cases h4 : t = 6
        · rw [if_pos h4]; subst h4
          exact ((Loads.fail (by decide) (by decide)).alt (outMsgDequeueShort_sound.ld.map OutMsg.dequeueShort)).iff fun v e => by cases v <;> tlb_alt
        rw [if_neg h4]
        exact Loads.nothing (by decide) (by decide) fun v e => by cases v <;> simp <;> omega)).iff fun v e => by
    cases v with
    | external v => dsimp only; show (Enc.Lit [false, false, false] ⬝ outMsgExternal.R v) e ↔ (Enc.Lit [false, false, false] ⬝ outMsgExternal.R v) e; exact Iff.rfl
    | new v => dsimp only; show (Enc.Lit [false, false, true] ⬝ outMsgNew.R v) e ↔ (Enc.Lit [false, false, true] ⬝ outMsgNew.R v) e; exact Iff.rfl
    | immediate v => dsimp only; show (Enc.Lit [false, true, false] ⬝ outMsgImmediate.R v) e ↔ (Enc.Lit [false, true, false] ⬝ outMsgImmediate.R v) e; exact Iff.rfl
    | dequeueImmediate v => dsimp only; show (Enc.Lit [true, false, false] ⬝ outMsgDequeueImmediate.R v) e ↔ (Enc.Lit [true, false, false] ⬝ outMsgDequeueImmediate.R v) e; exact Iff.rfl
    | dequeueShort v => dsimp only; show (Enc.Lit [true, true, false] ⬝ Enc.Lit [true] ⬝ outMsgDequeueShort.R v) e ↔ (Enc.Lit [true, true, false, true] ⬝ outMsgDequeueShort.R v) e; exact lit_lit

end Verif
