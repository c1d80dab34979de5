import Verif.Account
import Verif.AddrText
/-
Messages (`models/message/mod.rs`): the headers, the layout of the parts, `Store` and `Load`.
-/
set_option linter.unusedVariables false
set_option linter.unusedSimpArgs false
namespace Verif

/-! ### Model: headers -/

/-- `models/message/mod.rs:1189-1225` `store_ext_addr`, `load_ext_addr`: `addr_none$00` or `addr_extern$01 len:(## 9) bits`. -/
def extAddrRest : Rd Cell (Option ExtAddr) := Rd.bit >>= fun b => if !b then pure none else
  smallLoad 9 >>= fun n => Rd.checkedRaw n >>= fun d => pure (some ⟨n, d⟩)

def extAddr : Tlb (Option ExtAddr) where
  ok | none => True
     | some a => a.len ≤ 511 ∧ HoldsBits a.data a.len
  store | none => Wr.zeros 2
        | some a => do Wr.needs (2 + 9 + a.len) 0; Wr.bit false; Wr.bit true; smallStore 9 a.len; Wr.raw a.data a.len
  load := Rd.bit >>= fun b => if b then Prog.fail .invalidTag else extAddrRest
  R | none => Enc.Lit [false, false]
    | some a => fun e => (a.len ≤ 511 ∧ HoldsBits a.data a.len) ∧ e = Enc.bits ([false, true] ++ (natBits 9 a.len ++ firstBits a.data a.len))
  enc | none => Enc.bits [false, false]
      | some a => Enc.bits ([false, true] ++ (natBits 9 a.len ++ firstBits a.data a.len))

/-- `address.rs:875-877` -/
def ExtAddr.bitLen (a : ExtAddr) : Nat := 9 + a.len
/-- `models/message/mod.rs:1182-1187` `compute_ext_addr_bit_len` -/
def extAddrLen : Option ExtAddr → Nat
  | some a => 2 + a.bitLen
  | none => 2

/-- `models/message/mod.rs:1227-1232` `compute_opt_int_addr_bit_len` -/
def optIntAddrLen : Option IntAddr → Nat
  | some a => a.bitLen
  | none => 2

/-- `slice.get_bit(0)` and the rest of `load_opt_int_addr` (`models/message/mod.rs:1245-1253`). -/
def optIntAddrLoad : Rd Cell (Option IntAddr) := fun s =>
  match s.getBit 0 with
  | .error e => (.error e, s)
  | .ok true => (IntAddr.load >>= fun a => pure (some a)) s
  | .ok false => (Rd.small 2 >>= fun t => Prog.check (decide (t = 0)) .invalidTag >>= fun _ => pure none) s

/-- `models/message/mod.rs:1234-1253` `store_opt_int_addr`, `load_opt_int_addr`: `addr_none$00` or an address. -/
def optIntAddr : Tlb (Option IntAddr) where
  ok | none => True
     | some a => Tlb.intAddr.ok a
  store | none => Wr.zeros 2
        | some a => Tlb.intAddr.store a
  load := optIntAddrLoad
  R | none => Enc.Lit [false, false]
    | some a => Tlb.intAddr.R a
  enc | none => Enc.bits [false, false]
      | some a => Tlb.intAddr.enc a

/-- The three flags of internal messages (`models/message/mod.rs:896-898`, `911-915`). -/
structure MsgFlags where
  ihrDisabled : Bool
  bounce : Bool
  bounced : Bool
  deriving DecidableEq, Repr

def msgFlags : Tlb MsgFlags where
  ok _ := True
  store a := Wr.small (a.ihrDisabled.toNat <<< 2 ||| a.bounce.toNat <<< 1 ||| a.bounced.toNat) 3
  load := Rd.small 3 >>= fun v => pure ⟨decide (v &&& 4 ≠ 0), decide (v &&& 2 ≠ 0), decide (v &&& 1 ≠ 0)⟩
  R a := Enc.Lit [a.ihrDisabled, a.bounce, a.bounced]
  enc a := Enc.bits [a.ihrDisabled, a.bounce, a.bounced]

/-- `IntMsgInfo` and `RelaxedIntMsgInfo` (`models/message/mod.rs:835-858`, `931-954`), with the type of the source address as a parameter;
the flags are one field here. -/
structure IntInfo (S : Type) where
  flags : MsgFlags
  src : S
  dst : IntAddr
  value : Currency
  ihrFee : Nat
  fwdFee : Nat
  createdLt : Nat
  createdAt : Nat

/-- `models/message/mod.rs:890-925`, `986-1021` `Store`, `Load` (without the tag). -/
def intInfo {S : Type} (src : Tlb S) : Tlb (IntInfo S) where
  ok a := msgFlags.ok a.flags ∧ src.ok a.src ∧ Tlb.intAddr.ok a.dst ∧ Tlb.currency.ok a.value ∧ Tlb.tokens.ok a.ihrFee ∧ Tlb.tokens.ok a.fwdFee ∧
    Tlb.u64.ok a.createdLt ∧ Tlb.u32.ok a.createdAt
  store a := do
    msgFlags.store a.flags
    src.store a.src
    Tlb.intAddr.store a.dst
    Tlb.currency.store a.value
    Tlb.tokens.store a.ihrFee
    Tlb.tokens.store a.fwdFee
    Tlb.u64.store a.createdLt
    Tlb.u32.store a.createdAt
  load := do
    let flags ← msgFlags.load
    let src ← src.load
    let dst ← Tlb.intAddr.load
    let value ← Tlb.currency.load
    let ihrFee ← Tlb.tokens.load
    let fwdFee ← Tlb.tokens.load
    let createdLt ← Tlb.u64.load
    let createdAt ← Tlb.u32.load
    pure ⟨flags, src, dst, value, ihrFee, fwdFee, createdLt, createdAt⟩
  R a := msgFlags.R a.flags ⬝ src.R a.src ⬝ Tlb.intAddr.R a.dst ⬝ Tlb.currency.R a.value ⬝ Tlb.tokens.R a.ihrFee ⬝ Tlb.tokens.R a.fwdFee ⬝
    Tlb.u64.R a.createdLt ⬝ Tlb.u32.R a.createdAt
  enc a := msgFlags.enc a.flags ++ (src.enc a.src ++ (Tlb.intAddr.enc a.dst ++ (Tlb.currency.enc a.value ++ (Tlb.tokens.enc a.ihrFee ++
    (Tlb.tokens.enc a.fwdFee ++ (Tlb.u64.enc a.createdLt ++ Tlb.u32.enc a.createdAt))))))

/-- `models/message/mod.rs:879-887`, `975-983` `bit_len`: three bits for the flags, none for the tag. -/
def IntInfo.bitLen {S : Type} (srcLen : S → Nat) (a : IntInfo S) : Nat :=
  3 + srcLen a.src + a.dst.bitLen + a.value.bitLen + VarKind.tokens.unwrapBitLen a.ihrFee + VarKind.tokens.unwrapBitLen a.fwdFee + 64 + 32

/-- `models/message/mod.rs:1027-1040` `ExtInMsgInfo` -/
structure ExtInInfo where
  src : Option ExtAddr
  dst : IntAddr
  importFee : Nat

/-- `models/message/mod.rs:1044-1048` -/
def ExtInInfo.bitLen (a : ExtInInfo) : Nat := 2 + extAddrLen a.src + a.dst.bitLen + VarKind.tokens.unwrapBitLen a.importFee

/-- `models/message/mod.rs:1051-1077` `Store`, `Load` (without the tag). -/
def extIn : Tlb ExtInInfo where
  ok a := extAddr.ok a.src ∧ Tlb.intAddr.ok a.dst ∧ Tlb.tokens.ok a.importFee
  store a := do
    Prog.check (VarKind.tokens.isValid a.importFee) .invalidData
    Wr.needs a.bitLen 0
    extAddr.store a.src
    Tlb.intAddr.store a.dst
    Tlb.tokens.store a.importFee
  load := do
    let src ← extAddr.load
    let dst ← Tlb.intAddr.load
    let importFee ← Tlb.tokens.load
    pure ⟨src, dst, importFee⟩
  R a := extAddr.R a.src ⬝ Tlb.intAddr.R a.dst ⬝ Tlb.tokens.R a.importFee
  enc a := extAddr.enc a.src ++ (Tlb.intAddr.enc a.dst ++ Tlb.tokens.enc a.importFee)

/-- `ExtOutMsgInfo`, `RelaxedExtOutMsgInfo` (`models/message/mod.rs:1083-1096`, `1136-1149`). -/
structure ExtOutInfo (S : Type) where
  src : S
  dst : Option ExtAddr
  createdLt : Nat
  createdAt : Nat

/-- `models/message/mod.rs:1100-1102`, `1153-1155` -/
def ExtOutInfo.bitLen {S : Type} (srcLen : S → Nat) (a : ExtOutInfo S) : Nat := 2 + srcLen a.src + extAddrLen a.dst + 64 + 32

/-- `models/message/mod.rs:1105-1130`, `1158-1180` `Store`, `Load` (without the tag); `guard` is the capacity check, which only the
finished kind has. -/
def extOut {S : Type} (src : Tlb S) (guard : ExtOutInfo S → Wr Cell Unit) : Tlb (ExtOutInfo S) where
  ok a := src.ok a.src ∧ extAddr.ok a.dst ∧ Tlb.u64.ok a.createdLt ∧ Tlb.u32.ok a.createdAt
  store a := do
    guard a
    src.store a.src
    extAddr.store a.dst
    Tlb.u64.store a.createdLt
    Tlb.u32.store a.createdAt
  load := do
    let src ← src.load
    let dst ← extAddr.load
    let createdLt ← Tlb.u64.load
    let createdAt ← Tlb.u32.load
    pure ⟨src, dst, createdLt, createdAt⟩
  R a := src.R a.src ⬝ extAddr.R a.dst ⬝ Tlb.u64.R a.createdLt ⬝ Tlb.u32.R a.createdAt
  enc a := src.enc a.src ++ (extAddr.enc a.dst ++ (Tlb.u64.enc a.createdLt ++ Tlb.u32.enc a.createdAt))

/-- `ExtOutMsgInfo` -/
def extOutFull : Tlb (ExtOutInfo IntAddr) := extOut Tlb.intAddr fun a => Wr.needs (a.bitLen IntAddr.bitLen) 0
/-- `RelaxedExtOutMsgInfo` -/
def extOutRelaxed : Tlb (ExtOutInfo (Option IntAddr)) := extOut optIntAddr fun _ => pure ()

/-- `models/message/mod.rs:700-707` `MsgInfo` -/
inductive MsgInfo where
  | int (i : IntInfo IntAddr)
  | extIn (i : ExtInInfo)
  | extOut (i : ExtOutInfo IntAddr)

/-- `models/message/mod.rs:766-808` `Store`, `Load` -/
def msgInfo : Tlb MsgInfo where
  ok | .int i => (intInfo Tlb.intAddr).ok i
     | .extIn i => Verif.extIn.ok i
     | .extOut i => extOutFull.ok i
  store | .int i => do Wr.bit false; (intInfo Tlb.intAddr).store i
        | .extIn i => do Wr.small 2 2; Verif.extIn.store i
        | .extOut i => do Wr.small 3 2; extOutFull.store i
  load := Rd.bit >>= fun b => if !b then (intInfo Tlb.intAddr).load >>= fun i => pure (.int i)
    else Rd.bit >>= fun b => if !b then Verif.extIn.load >>= fun i => pure (.extIn i) else extOutFull.load >>= fun i => pure (.extOut i)
  R | .int i => Enc.Lit [false] ⬝ (intInfo Tlb.intAddr).R i
    | .extIn i => Enc.Lit [true, false] ⬝ Verif.extIn.R i
    | .extOut i => Enc.Lit [true, true] ⬝ extOutFull.R i
  enc | .int i => Enc.bits [false] ++ (intInfo Tlb.intAddr).enc i
      | .extIn i => Enc.bits [true, false] ++ Verif.extIn.enc i
      | .extOut i => Enc.bits [true, true] ++ extOutFull.enc i

/-- `models/message/mod.rs:735-764` `exact_size`: bits and references. -/
def MsgInfo.size : MsgInfo → Nat × Nat
  | .int i => (i.bitLen IntAddr.bitLen, i.value.other.isSome.toNat)
  | .extIn i => (i.bitLen, 0)
  | .extOut i => (i.bitLen IntAddr.bitLen, 0)

/-- `models/message/mod.rs:524-529` `RelaxedMsgInfo` -/
inductive RelaxedMsgInfo where
  | int (i : IntInfo (Option IntAddr))
  | extOut (i : ExtOutInfo (Option IntAddr))

/-- `models/message/mod.rs:607-645` `Store`, `Load` -/
def relaxedInfo : Tlb RelaxedMsgInfo where
  ok | .int i => (intInfo optIntAddr).ok i
     | .extOut i => extOutRelaxed.ok i
  store | .int i => do Wr.bit false; (intInfo optIntAddr).store i
        | .extOut i => do Wr.small 3 2; extOutRelaxed.store i
  load := Rd.bit >>= fun b => if !b then (intInfo optIntAddr).load >>= fun i => pure (.int i)
    else Rd.bit >>= fun b => if b then extOutRelaxed.load >>= fun i => pure (.extOut i) else Prog.fail .invalidTag
  R | .int i => Enc.Lit [false] ⬝ (intInfo optIntAddr).R i
    | .extOut i => Enc.Lit [true, true] ⬝ extOutRelaxed.R i
  enc | .int i => Enc.bits [false] ++ (intInfo optIntAddr).enc i
      | .extOut i => Enc.bits [true, true] ++ extOutRelaxed.enc i

/-- `models/message/mod.rs:533-606` `exact_size` -/
def RelaxedMsgInfo.size : RelaxedMsgInfo → Nat × Nat
  | .int i => (i.bitLen optIntAddrLen, i.value.other.isSome.toNat)
  | .extOut i => (i.bitLen optIntAddrLen, 0)

/-! ### Model: layout -/

/-- `models/message/mod.rs:387-392` -/
structure Layout where
  initToCell : Bool
  bodyToCell : Bool
  deriving DecidableEq, Repr

namespace Layout

/-- `DetailedMessageLayout::compute` (`models/message/mod.rs:504-520`): the sizes of the header with its flag bits, and of the init.
The sums are `u16` and `u8` in the code; those of real messages are far below the limits. -/
def detailed (info : Nat × Nat) : Option StateInit → (Nat × Nat) × (Nat × Nat)
  | some s => ((info.1 + 2 + 1, info.2), (s.bitLen, s.refCount))
  | none => ((info.1 + 2, info.2), (0, 0))

/-- `models/message/mod.rs:405-431` `compute_full_size` -/
def fullSize (l : Layout) (info : Nat × Nat) (init : Option StateInit) (body : Nat × Nat) : Nat × Nat :=
  let d := detailed info init
  let t := if l.initToCell then (d.1.1, d.1.2 + 1) else (d.1.1 + d.2.1, d.1.2 + d.2.2)
  if l.bodyToCell then (t.1, t.2 + 1) else (t.1 + body.1, t.2 + body.2)

/-- `models/message/mod.rs:436-494` `compute` -/
def compute (info : Nat × Nat) (init : Option StateInit) (body : Nat × Nat) : Layout × (Nat × Nat) :=
  let d := detailed info init
  if d.1.1 + d.2.1 + body.1 ≤ 1023 ∧ d.1.2 + d.2.2 + body.2 ≤ 4 then (⟨false, false⟩, (d.1.1 + d.2.1 + body.1, d.1.2 + d.2.2 + body.2))
  else if d.1.1 + d.2.1 ≤ 1023 ∧ d.1.2 + d.2.2 < 4 then (⟨false, true⟩, (d.1.1 + d.2.1, d.1.2 + d.2.2 + 1))
  else if d.1.1 + body.1 ≤ 1023 ∧ d.1.2 + body.2 < 4 then (⟨true, false⟩, (d.1.1 + body.1, d.1.2 + body.2 + 1))
  else (⟨true, true⟩, (d.1.1, d.1.2 + 2))

end Layout

/-! ### Model: messages -/

/-- The kinds of headers: `MsgInfo`, `RelaxedMsgInfo`. -/
structure InfoKind (I : Type) where
  tlb : Tlb I
  size : I → Nat × Nat

def fullKind : InfoKind MsgInfo := ⟨msgInfo, MsgInfo.size⟩
def relaxedKind : InfoKind RelaxedMsgInfo := ⟨relaxedInfo, RelaxedMsgInfo.size⟩

/-- `SliceOrCell::store_only_value_into` (`models/message/mod.rs:332-347`). -/
def sliceOrCell (acc : Cell → Bool) (toCell : Bool) (w : Wr Cell Unit) : Wr Cell Unit := if toCell then Tlb.childStore acc w else w

/-- The kinds of bodies: `CellSlice` and `CellSliceParts`. -/
structure BodyKind (B : Type) where
  /-- `exact_size` -/
  size : B → Nat × Nat
  /-- `StoreBody` -/
  store : Bool → B → Wr Cell Unit
  /-- `LoadBody` -/
  load : Bool → Rd Cell B

/-- `models/message/mod.rs:263-276`, `302-310` for `CellSlice`. -/
def sliceBody (acc : Cell → Bool) : BodyKind (CSlice Cell) where
  size b := (b.range.sizeBits, b.range.sizeRefs)
  store toCell b := sliceOrCell acc toCell (Wr.slice b)
  load fromCell := if fromCell then Tlb.childSlice else fun s => (.ok s.loadRemaining.1, s.loadRemaining.2)

/-- `CellSliceRange::full` (`cell/slice.rs:255-266`). -/
def fullRange (c : Cell) : SliceRange := ⟨0, c.bits.length, 0, c.refs.length⟩

/-- `CellSliceRange::apply` (`cell/slice.rs:273-300`). -/
def applyRange (r : SliceRange) (c : Cell) : Except Err (CSlice Cell) :=
  if c.exotic then .error .unexpectedExoticCell
  else
    let be := min r.bitsEnd c.bits.length
    let re := min r.refsEnd c.refs.length
    .ok ⟨packBytes c.bits, c.refs, ⟨min r.bitsStart be, be, min r.refsStart re, re⟩⟩

/-- `models/message/mod.rs:278-296`, `312-324` for `CellSliceParts`; `acc0` is the context of `CellBuilder::build`. -/
def partsBody (acc acc0 : Cell → Bool) : BodyKind (SliceRange × Cell) where
  size b := (b.1.sizeBits, b.1.sizeRefs)
  store toCell b :=
    if toCell && decide (b.1 = fullRange b.2) then Wr.ref b.2
    else match applyRange b.1 b.2 with
      | .error e => Prog.fail e
      | .ok s => sliceOrCell acc toCell (Wr.slice s)
  load fromCell :=
    if fromCell then Rd.ref >>= fun c => pure (fullRange c, c)
    else fun s => match (Wr.slice s.loadRemaining.1).toSl >>= buildSl acc0 with
      | .error e => (.error e, s.loadRemaining.2)
      | .ok c => (.ok (fullRange c, c), s.loadRemaining.2)

/-- `models/message/mod.rs:52-61` `BaseMessage` -/
structure Msg (I B : Type) where
  info : I
  init : Option StateInit
  body : B
  layout : Option Layout

section
variable {I B : Type}

/-- The layout to store with and the size that is required (`models/message/mod.rs:185-193`). -/
def Msg.plan (K : InfoKind I) (BK : BodyKind B) (m : Msg I B) : Layout × (Nat × Nat) :=
  match m.layout with
  | some l => (l, l.fullSize (K.size m.info) m.init (BK.size m.body))
  | none => Layout.compute (K.size m.info) m.init (BK.size m.body)

/-- The init part (`models/message/mod.rs:205-215`, `350-376`). -/
def placed {α : Type} (acc : Cell → Bool) (A : Tlb α) : Tlb (Bool × α) where
  ok v := if v.1 then (A.child acc).ok v.2 else A.ok v.2
  store v := do Wr.bit v.1; sliceOrCell acc v.1 (A.store v.2)
  load := Rd.bit >>= fun c => (if c then Tlb.childLoad A.load else A.load) >>= fun v => pure (c, v)
  R v := Enc.Lit [v.1] ⬝ (if v.1 then (A.child acc).R v.2 else A.R v.2)
  enc v := Enc.bits [v.1] ++ (if v.1 then (A.child acc).enc v.2 else A.enc v.2)

/-- `models/message/mod.rs:201-219`: what is stored after the capacity check. -/
def Msg.storeParts (acc : Cell → Bool) (K : InfoKind I) (BK : BodyKind B) (m : Msg I B) (l : Layout) : Wr Cell Unit := do
  K.tlb.store m.info
  (placed acc stateInit).opt.store (m.init.map fun s => (l.initToCell, s))
  Wr.bit l.bodyToCell
  BK.store l.bodyToCell m.body

/-- `models/message/mod.rs:175-221` `Store for BaseMessage` -/
def Msg.store (acc : Cell → Bool) (K : InfoKind I) (BK : BodyKind B) (m : Msg I B) : Wr Cell Unit :=
  Wr.needs (m.plan K BK).2.1 (m.plan K BK).2.2 >>= fun _ => m.storeParts acc K BK (m.plan K BK).1

/-- `models/message/mod.rs:235-238` -/
def initOf : Option (Bool × StateInit) → Option StateInit × Bool
  | some (c, s) => (some s, c)
  | none => (none, false)

/-- `models/message/mod.rs:223-252` `Load for BaseMessage` -/
def Msg.load (K : InfoKind I) (BK : BodyKind B) : Rd Cell (Msg I B) := do
  let info ← K.tlb.load
  let init ← (placed (fun _ => true) stateInit).opt.load
  let bodyToCell ← Rd.bit
  let body ← BK.load bodyToCell
  pure ⟨info, (initOf init).1, body, some ⟨(initOf init).2, bodyToCell⟩⟩

end

end Verif
