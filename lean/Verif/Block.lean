import Verif.TlbDep
import Verif.ConfigParams
/-
Blocks (`models/block/mod.rs`, `models/block/block_extra.rs`, `models/block/block_proof.rs`, without the feature `tycho`): headers, value flows,
contents, proofs.
-/
set_option linter.unusedVariables false
set_option linter.unusedSimpArgs false
namespace Verif

/-! ### Model -/

/-- `models/global_version.rs:285-294` `GlobalVersion` -/
structure GlobalVersion where
  version : Nat
  capabilities : Nat
  deriving DecidableEq, Repr

/-- `GlobalVersion` derives `Store` and `Load`. -/
def globalVersion : Tlb GlobalVersion where
  ok a := Tlb.u32.ok a.version ∧ Tlb.u64.ok a.capabilities
  store a := Wr.u8 0xc4 >>= fun _ => Tlb.u32.store a.version >>= fun _ => Tlb.u64.store a.capabilities
  load :=
    Rd.u8 >>= fun u => Prog.check (decide (u = 0xc4)) .invalidTag >>= fun _ =>
    Tlb.u32.load >>= fun version =>
    Tlb.u64.load >>= fun capabilities =>
    pure ⟨version, capabilities⟩
  R a := Enc.Lit (natBits 8 0xc4) ⬝ Tlb.u32.R a.version ⬝ Tlb.u64.R a.capabilities
  enc a := Enc.bits (natBits 8 0xc4) ++ (Tlb.u32.enc a.version ++ (Tlb.u64.enc a.capabilities))

/-- `models/block/mod.rs:560-572` `BlockRef` -/
structure BlockRef where
  endLt : Nat
  seqno : Nat
  rootHash : List Byte
  fileHash : List Byte
  deriving DecidableEq, Repr

/-- `BlockRef` derives `Store` and `Load`. -/
def blockRef : Tlb BlockRef where
  ok a := Tlb.u64.ok a.endLt ∧ Tlb.u32.ok a.seqno ∧ Tlb.hash.ok a.rootHash ∧ Tlb.hash.ok a.fileHash
  store a := Tlb.u64.store a.endLt >>= fun _ => Tlb.u32.store a.seqno >>= fun _ => Tlb.hash.store a.rootHash >>= fun _ => Tlb.hash.store a.fileHash
  load :=
    Tlb.u64.load >>= fun endLt =>
    Tlb.u32.load >>= fun seqno =>
    Tlb.hash.load >>= fun rootHash =>
    Tlb.hash.load >>= fun fileHash =>
    pure ⟨endLt, seqno, rootHash, fileHash⟩
  R a := Tlb.u64.R a.endLt ⬝ Tlb.u32.R a.seqno ⬝ Tlb.hash.R a.rootHash ⬝ Tlb.hash.R a.fileHash
  enc a := Tlb.u64.enc a.endLt ++ (Tlb.u32.enc a.seqno ++ (Tlb.hash.enc a.rootHash ++ (Tlb.hash.enc a.fileHash)))

/-- `models/block/mod.rs:576-583` `as_block_id` -/
def BlockRef.asBlockId (r : BlockRef) (shard : ShardIdent) : ShardIdent.BlockId := ⟨shard, r.seqno, r.rootHash, r.fileHash⟩

/-- `models/block/mod.rs:500-518` `PrevBlockRef` -/
inductive PrevBlockRef where
  | single (r : BlockRef)
  | afterMerge (left right : BlockRef)
  deriving DecidableEq, Repr

/-- `models/block/mod.rs:548-558` `Store` -/
def PrevBlockRef.store (acc : Cell → Bool) : PrevBlockRef → Wr Cell Unit
  | .single r => blockRef.store r
  | .afterMerge l r => (blockRef.child acc).store l >>= fun _ => (blockRef.child acc).store r

/-- The part of `models/block/mod.rs:536-545` behind `as_slice`. -/
def PrevBlockRef.load (merge : Bool) : Rd Cell PrevBlockRef :=
  match merge with
  | true => Tlb.childLoad blockRef.load >>= fun l => Tlb.childLoad blockRef.load >>= fun r => pure (.afterMerge l r)
  | false => blockRef.load >>= fun r => pure (.single r)

/-- The flag that `load_from_cell` needs. -/
def PrevBlockRef.isMerge : PrevBlockRef → Bool
  | .single _ => false
  | .afterMerge .. => true

/-- What `models/block/mod.rs:536-558` write and read, if the block is after a merge or not. -/
def prevBlockRef (acc : Cell → Bool) (merge : Bool) : Tlb PrevBlockRef where
  ok v := v.isMerge = merge ∧ match v with
    | .single r => blockRef.ok r
    | .afterMerge l r => (blockRef.child acc).ok l ∧ (blockRef.child acc).ok r
  store := PrevBlockRef.store acc
  load := PrevBlockRef.load merge
  R v e := v.isMerge = merge ∧ (match v with
    | .single r => blockRef.R r
    | .afterMerge l r => (blockRef.child acc).R l ⬝ (blockRef.child acc).R r) e
  enc
    | .single r => blockRef.enc r
    | .afterMerge l r => (blockRef.child acc).enc l ++ (blockRef.child acc).enc r

/-- `models/block/mod.rs:536-546` `load_from_cell` -/
def PrevBlockRef.loadFromCell (c : Cell) (merge : Bool) : Except Err PrevBlockRef := Tlb.parseAs (PrevBlockRef.load merge) c

/-- The word of flags of a block header, `models/block/mod.rs:330-337`: whether there is a reference to the masterchain, six flags, whether there is a
reference to a previous vertical block; and the byte of further flags. -/
structure InfoBits where
  master : Bool
  afterMerge : Bool
  beforeSplit : Bool
  afterSplit : Bool
  wantSplit : Bool
  wantMerge : Bool
  keyBlock : Bool
  vert : Bool
  flags : Nat
  deriving DecidableEq, Repr

/-- `models/block/mod.rs:330-337` `packed_flags` -/
def InfoBits.packed (b : InfoBits) : Nat :=
  (b.master.toNat <<< 7) ||| (b.afterMerge.toNat <<< 6) ||| (b.beforeSplit.toNat <<< 5) ||| (b.afterSplit.toNat <<< 4) |||
    (b.wantSplit.toNat <<< 3) ||| (b.wantMerge.toNat <<< 2) ||| (b.keyBlock.toNat <<< 1) ||| b.vert.toNat

/-- `models/block/mod.rs:415`, `423`, `435-440` -/
def InfoBits.unpack (p flags : Nat) : InfoBits :=
  ⟨decide (p &&& 0x80 ≠ 0), decide (p &&& 0x40 ≠ 0), decide (p &&& 0x20 ≠ 0), decide (p &&& 0x10 ≠ 0), decide (p &&& 8 ≠ 0), decide (p &&& 4 ≠ 0),
    decide (p &&& 2 ≠ 0), decide (p &&& 1 ≠ 0), flags⟩

/-- `models/block/mod.rs:345`, `391`: two bytes, big-endian. -/
def infoBits : Tlb InfoBits where
  ok b := b.flags < 2 ^ 8
  store b := Wr.u16 (b.packed * 2 ^ 8 + b.flags)
  load := Rd.u16 >>= fun v => pure (InfoBits.unpack (v / 2 ^ 8) (v % 2 ^ 8))
  R b := Enc.Lit [b.master, b.afterMerge, b.beforeSplit, b.afterSplit, b.wantSplit, b.wantMerge, b.keyBlock, b.vert] ⬝ Tlb.u8.R b.flags
  enc b := Enc.bits [b.master, b.afterMerge, b.beforeSplit, b.afterSplit, b.wantSplit, b.wantMerge, b.keyBlock, b.vert] ++ Tlb.u8.enc b.flags

/-- `models/block/mod.rs:177-214` the fields of `BlockInfo` before the software version, here `InfoHead` -/
structure InfoHead where
  version : Nat
  bits : InfoBits
  seqno : Nat
  vertSeqno : Nat
  shard : ShardIdent
  genUtime : Nat
  startLt : Nat
  endLt : Nat
  genValidatorListHashShort : Nat
  genCatchainSeqno : Nat
  minRefMcSeqno : Nat
  prevKeyBlockSeqno : Nat

/-- `InfoHead` is written as in `models/block/mod.rs:339-357` and read as in `:379-409`. -/
def infoHead : Tlb InfoHead where
  ok a := Tlb.u32.ok a.version ∧ infoBits.ok a.bits ∧ Tlb.nz32.ok a.seqno ∧ Tlb.u32.ok a.vertSeqno ∧ Tlb.shardIdent.ok a.shard ∧ Tlb.u32.ok a.genUtime ∧ Tlb.u64.ok a.startLt ∧ Tlb.u64.ok a.endLt ∧ Tlb.u32.ok a.genValidatorListHashShort ∧ Tlb.u32.ok a.genCatchainSeqno ∧ Tlb.u32.ok a.minRefMcSeqno ∧ Tlb.u32.ok a.prevKeyBlockSeqno
  store a := Wr.u32 0x9bc7a987 >>= fun _ => Tlb.u32.store a.version >>= fun _ => infoBits.store a.bits >>= fun _ => Tlb.nz32.store a.seqno >>= fun _ => Tlb.u32.store a.vertSeqno >>= fun _ => Tlb.shardIdent.store a.shard >>= fun _ => Tlb.u32.store a.genUtime >>= fun _ => Tlb.u64.store a.startLt >>= fun _ => Tlb.u64.store a.endLt >>= fun _ => Tlb.u32.store a.genValidatorListHashShort >>= fun _ => Tlb.u32.store a.genCatchainSeqno >>= fun _ => Tlb.u32.store a.minRefMcSeqno >>= fun _ => Tlb.u32.store a.prevKeyBlockSeqno
  load :=
    Rd.u32 >>= fun u => Prog.check (decide (u = 0x9bc7a987)) .invalidTag >>= fun _ =>
    Tlb.u32.load >>= fun version =>
    infoBits.load >>= fun bits =>
    Tlb.nz32.load >>= fun seqno =>
    Tlb.u32.load >>= fun vertSeqno =>
    Tlb.shardIdent.load >>= fun shard =>
    Tlb.u32.load >>= fun genUtime =>
    Tlb.u64.load >>= fun startLt =>
    Tlb.u64.load >>= fun endLt =>
    Tlb.u32.load >>= fun genValidatorListHashShort =>
    Tlb.u32.load >>= fun genCatchainSeqno =>
    Tlb.u32.load >>= fun minRefMcSeqno =>
    Tlb.u32.load >>= fun prevKeyBlockSeqno =>
    pure ⟨version, bits, seqno, vertSeqno, shard, genUtime, startLt, endLt, genValidatorListHashShort, genCatchainSeqno, minRefMcSeqno, prevKeyBlockSeqno⟩
  R a := Enc.Lit (natBits 32 0x9bc7a987) ⬝ Tlb.u32.R a.version ⬝ infoBits.R a.bits ⬝ Tlb.nz32.R a.seqno ⬝ Tlb.u32.R a.vertSeqno ⬝ Tlb.shardIdent.R a.shard ⬝ Tlb.u32.R a.genUtime ⬝ Tlb.u64.R a.startLt ⬝ Tlb.u64.R a.endLt ⬝ Tlb.u32.R a.genValidatorListHashShort ⬝ Tlb.u32.R a.genCatchainSeqno ⬝ Tlb.u32.R a.minRefMcSeqno ⬝ Tlb.u32.R a.prevKeyBlockSeqno
  enc a := Enc.bits (natBits 32 0x9bc7a987) ++ (Tlb.u32.enc a.version ++ (infoBits.enc a.bits ++ (Tlb.nz32.enc a.seqno ++ (Tlb.u32.enc a.vertSeqno ++ (Tlb.shardIdent.enc a.shard ++ (Tlb.u32.enc a.genUtime ++ (Tlb.u64.enc a.startLt ++ (Tlb.u64.enc a.endLt ++ (Tlb.u32.enc a.genValidatorListHashShort ++ (Tlb.u32.enc a.genCatchainSeqno ++ (Tlb.u32.enc a.minRefMcSeqno ++ (Tlb.u32.enc a.prevKeyBlockSeqno))))))))))))

/-- `models/block/mod.rs:177-231` `BlockInfo` -/
structure BlockInfo where
  version : Nat
  afterMerge : Bool
  beforeSplit : Bool
  afterSplit : Bool
  wantSplit : Bool
  wantMerge : Bool
  keyBlock : Bool
  flags : Nat
  seqno : Nat
  vertSeqno : Nat
  shard : ShardIdent
  genUtime : Nat
  startLt : Nat
  endLt : Nat
  genValidatorListHashShort : Nat
  genCatchainSeqno : Nat
  minRefMcSeqno : Nat
  prevKeyBlockSeqno : Nat
  genSoftware : GlobalVersion
  masterRef : Option Cell
  prevRef : Cell
  prevVertRef : Option Cell

namespace BlockInfo

/-- `models/block/mod.rs:359`, `411`: `flags & FLAG_WITH_GEN_SOFTWARE != 0`. -/
def withSoftware (flags : Nat) : Bool := decide (flags &&& 1 ≠ 0)

/-- `GlobalVersion::default()` -/
def noSoftware : GlobalVersion := ⟨0, 0⟩

/-- The fields up to the software version, with the flags as they are written. -/
def head (v : BlockInfo) : InfoHead :=
  ⟨v.version, ⟨v.masterRef.isSome, v.afterMerge, v.beforeSplit, v.afterSplit, v.wantSplit, v.wantMerge, v.keyBlock, v.prevVertRef.isSome, v.flags⟩, v.seqno,
    v.vertSeqno, v.shard, v.genUtime, v.startLt, v.endLt, v.genValidatorListHashShort, v.genCatchainSeqno, v.minRefMcSeqno, v.prevKeyBlockSeqno⟩

/-- `models/block/mod.rs:433-458` -/
def make (h : InfoHead) (software : GlobalVersion) (masterRef : Option Cell) (prevRef : Cell) (prevVertRef : Option Cell) : BlockInfo :=
  ⟨h.version, h.bits.afterMerge, h.bits.beforeSplit, h.bits.afterSplit, h.bits.wantSplit, h.bits.wantMerge, h.bits.keyBlock, h.bits.flags, h.seqno, h.vertSeqno,
    h.shard, h.genUtime, h.startLt, h.endLt, h.genValidatorListHashShort, h.genCatchainSeqno, h.minRefMcSeqno, h.prevKeyBlockSeqno, software, masterRef, prevRef,
    prevVertRef⟩

/-- `models/block/mod.rs:429` -/
def vertOk (vertSeqno : Nat) (prevVertRef : Option Cell) : Bool := !decide (vertSeqno < prevVertRef.isSome.toNat)

/-- A reference that is written if it is there. -/
def storeRef : Option Cell → Wr Cell Unit
  | some c => Wr.ref c
  | none => pure ()

/-- A reference that is read if a flag says so. -/
def loadRef (c : Bool) : Rd Cell (Option Cell) :=
  if c then (Tlb.lazy false).load >>= fun r => pure (some r) else pure none

/-- `models/block/mod.rs:411-415` -/
def loadSoftware (flags : Nat) : Rd Cell GlobalVersion :=
  if withSoftware flags then globalVersion.load else pure noSoftware

/-- `models/block/mod.rs:324-375` `Store` -/
def store (v : BlockInfo) : Wr Cell Unit :=
  infoHead.store v.head >>= fun _ =>
  (if withSoftware v.flags then globalVersion.store v.genSoftware else pure ()) >>= fun _ =>
  storeRef v.masterRef >>= fun _ => Wr.ref v.prevRef >>= fun _ => storeRef v.prevVertRef

/-- `models/block/mod.rs:377-460` `Load` -/
def load : Rd Cell BlockInfo :=
  infoHead.load >>= fun h => loadSoftware h.bits.flags >>= fun software => loadRef h.bits.master >>= fun masterRef => Rd.ref >>= fun prevRef =>
  loadRef h.bits.vert >>= fun prevVertRef => Prog.check (vertOk h.vertSeqno prevVertRef) .invalidData >>= fun _ =>
  pure (make h software masterRef prevRef prevVertRef)

/-- The part behind the fixed fields. -/
abbrev Tail := Option GlobalVersion × Option Cell × Cell × Option Cell

/-- The part behind the fixed fields. -/
def tail (h : InfoHead) : Tlb Tail :=
  (globalVersion.cond (withSoftware h.bits.flags)).pair (((Tlb.lazy false).cond h.bits.master).pair (Tlb.cell.pair ((Tlb.lazy false).cond h.bits.vert)))

/-- All the parts. -/
def parts : Tlb (InfoHead × Tail) := (infoHead.dep tail).guarded fun p => vertOk p.1.vertSeqno p.2.2.2.2

/-- The parts of a header. -/
def split (v : BlockInfo) : InfoHead × Tail :=
  (v.head, (if withSoftware v.flags then some v.genSoftware else none), v.masterRef, v.prevRef, v.prevVertRef)

/-- The header of the parts. -/
def join (p : InfoHead × Tail) : BlockInfo := make p.1 (p.2.1.getD noSoftware) p.2.2.1 p.2.2.2.1 p.2.2.2.2

/-- The software version is the default one if it is not written. -/
def Reports (v : BlockInfo) : Prop := withSoftware v.flags = false → v.genSoftware = noSoftware

/-- `models/block/mod.rs:272-280` `set_gen_software` -/
def setGenSoftware (v : BlockInfo) : Option GlobalVersion → BlockInfo
  | some s => { v with genSoftware := s, flags := v.flags ||| 1 }
  | none => { v with genSoftware := noSoftware, flags := v.flags &&& 0xfe }

/-- `models/block/mod.rs:291-293` `load_prev_ref` -/
def loadPrevRef (v : BlockInfo) : Except Err PrevBlockRef := PrevBlockRef.loadFromCell v.prevRef v.afterMerge

/-- `models/block/mod.rs:296-321` `set_prev_ref`: the cell is built and unwrapped; the flag stays as it is. -/
def setPrevRef (acc : Cell → Bool) (v : BlockInfo) (p : PrevBlockRef) : Except Err BlockInfo :=
  match (PrevBlockRef.store acc p).toSl >>= buildSl acc with
  | .ok c => .ok { v with prevRef := c }
  | .error _ => .error .panic

end BlockInfo

/-- `models/block/mod.rs:324-460` -/
def blockInfo : Tlb BlockInfo where
  ok v := BlockInfo.parts.ok v.split ∧ v.Reports
  store := BlockInfo.store
  load := BlockInfo.load
  R v e := BlockInfo.parts.R v.split e ∧ v.Reports
  enc v := BlockInfo.parts.enc v.split

/-- Four amounts of money in a cell, `models/block/mod.rs:651-658`, `669-675`. -/
abbrev Four := Currency × Currency × Currency × Currency

@[inherit_doc Four] def four : Tlb Four := Tlb.currency.pair (Tlb.currency.pair (Tlb.currency.pair Tlb.currency))

/-- `models/block/mod.rs:586-613` `ValueFlow` -/
structure ValueFlow where
  fromPrevBlock : Currency
  toNextBlock : Currency
  imported : Currency
  exported : Currency
  feesCollected : Currency
  burned : Currency
  feesImported : Currency
  recovered : Currency
  created : Currency
  minted : Currency

namespace ValueFlow

/-- The amounts of the first cell. -/
def fst (v : ValueFlow) : Four := (v.fromPrevBlock, v.toNextBlock, v.imported, v.exported)

/-- The amounts of the second cell. -/
def snd (v : ValueFlow) : Four := (v.feesImported, v.recovered, v.created, v.minted)

/-- `models/block/mod.rs:699-711` -/
def make (fees burned : Currency) (p q : Four) : ValueFlow := ⟨p.1, p.2.1, p.2.2.1, p.2.2.2, fees, burned, q.1, q.2.1, q.2.2.1, q.2.2.2⟩

/-- `models/block/mod.rs:639-678` `Store` -/
def store (acc : Cell → Bool) (v : ValueFlow) : Wr Cell Unit :=
  Tlb.built acc (four.store v.fst) >>= fun c =>
  Wr.u32 (if v.burned.isZero then 0xb8e48dfb else 0x3ebf98b7) >>= fun _ => Wr.ref c >>= fun _ => Tlb.currency.store v.feesCollected >>= fun _ =>
  (if v.burned.isZero then pure () else Tlb.currency.store v.burned) >>= fun _ => (four.child acc).store v.snd

/-- `models/block/mod.rs:688-711`, behind the tag. The amounts in a cell are read together: nothing else is read between them. -/
def loadBody (withBurned : Bool) : Rd Cell ValueFlow :=
  Tlb.currency.load >>= fun fees => (if withBurned then Tlb.currency.load else pure Currency.zero) >>= fun burned =>
  Tlb.childSlice >>= fun t => Tlb.childSlice >>= fun u => Tlb.within four.load t >>= fun p => Tlb.within four.load u >>= fun q => pure (make fees burned p q)

/-- `models/block/mod.rs:680-713` `Load` -/
def load : Rd Cell ValueFlow :=
  Rd.u32 >>= fun t => if t = 0xb8e48dfb then loadBody false else if t = 0x3ebf98b7 then loadBody true else Prog.fail .invalidTag

/-- `models/block/mod.rs:620-636` `validate`. Dictionaries are compared by their roots. -/
def validate (acc : Cell → Bool) (v : ValueFlow) : Except Err (Currency × Currency) :=
  Currency.checkedAdd acc v.fromPrevBlock v.imported >>= fun a => Currency.checkedAdd acc a v.feesImported >>= fun a =>
  Currency.checkedAdd acc a v.created >>= fun a => Currency.checkedAdd acc a v.minted >>= fun a => Currency.checkedAdd acc a v.recovered >>= fun a =>
  Currency.checkedAdd acc v.toNextBlock v.exported >>= fun b => Currency.checkedAdd acc b v.feesCollected >>= fun b =>
  Currency.checkedAdd acc b v.burned >>= fun b => .ok (a, b)

end ValueFlow

/-- `models/block/mod.rs:639-713`. Amounts in the cell of the flow itself must be without extra currencies (see `C69_flow_extra`). -/
def valueFlow (acc : Cell → Bool) : Tlb ValueFlow where
  ok v := (four.child acc).ok v.fst ∧ (Tlb.currency.ok v.feesCollected ∧ v.feesCollected.other = none) ∧ (Tlb.currency.ok v.burned ∧ v.burned.other = none) ∧
    (four.child acc).ok v.snd
  store := ValueFlow.store acc
  load := ValueFlow.load
  R v e := (v.burned = Currency.zero ∧ (Enc.Lit (natBits 32 0xb8e48dfb) ⬝ Tlb.currency.R v.feesCollected ⬝ (four.child acc).R v.fst ⬝ (four.child acc).R v.snd) e) ∨
    (Enc.Lit (natBits 32 0x3ebf98b7) ⬝ Tlb.currency.R v.feesCollected ⬝ Tlb.currency.R v.burned ⬝ (four.child acc).R v.fst ⬝ (four.child acc).R v.snd) e
  enc v := Enc.bits (natBits 32 (if v.burned.isZero then 0xb8e48dfb else 0x3ebf98b7)) ++ ((four.child acc).enc v.fst ++ (Tlb.currency.enc v.feesCollected ++
    ((if v.burned.isZero then Enc.nil else Tlb.currency.enc v.burned) ++ (four.child acc).enc v.snd)))

/-- `models/block/block_extra.rs:14-30` `BlockExtra` -/
structure BlockExtra where
  inMsgDescription : Cell
  outMsgDescription : Cell
  accountBlocks : Cell
  randSeed : List Byte
  createdBy : List Byte
  custom : Option Cell

/-- `BlockExtra` is written and read as in `models/block/block_extra.rs:72-122`. -/
def blockExtra : Tlb BlockExtra where
  ok a := (Tlb.lazy false).ok a.inMsgDescription ∧ (Tlb.lazy false).ok a.outMsgDescription ∧ (Tlb.lazy false).ok a.accountBlocks ∧ Tlb.hash.ok a.randSeed ∧ Tlb.hash.ok a.createdBy ∧ ((Tlb.lazy false).opt).ok a.custom
  store a := Wr.u32 0x4a33f6fd >>= fun _ => (Tlb.lazy false).store a.inMsgDescription >>= fun _ => (Tlb.lazy false).store a.outMsgDescription >>= fun _ => (Tlb.lazy false).store a.accountBlocks >>= fun _ => Tlb.hash.store a.randSeed >>= fun _ => Tlb.hash.store a.createdBy >>= fun _ => ((Tlb.lazy false).opt).store a.custom
  load :=
    Rd.u32 >>= fun u => Prog.check (decide (u = 0x4a33f6fd)) .invalidTag >>= fun _ =>
    (Tlb.lazy false).load >>= fun inMsgDescription =>
    (Tlb.lazy false).load >>= fun outMsgDescription =>
    (Tlb.lazy false).load >>= fun accountBlocks =>
    Tlb.hash.load >>= fun randSeed =>
    Tlb.hash.load >>= fun createdBy =>
    ((Tlb.lazy false).opt).load >>= fun custom =>
    pure ⟨inMsgDescription, outMsgDescription, accountBlocks, randSeed, createdBy, custom⟩
  R a := Enc.Lit (natBits 32 0x4a33f6fd) ⬝ (Tlb.lazy false).R a.inMsgDescription ⬝ (Tlb.lazy false).R a.outMsgDescription ⬝ (Tlb.lazy false).R a.accountBlocks ⬝ Tlb.hash.R a.randSeed ⬝ Tlb.hash.R a.createdBy ⬝ ((Tlb.lazy false).opt).R a.custom
  enc a := Enc.bits (natBits 32 0x4a33f6fd) ++ ((Tlb.lazy false).enc a.inMsgDescription ++ ((Tlb.lazy false).enc a.outMsgDescription ++ ((Tlb.lazy false).enc a.accountBlocks ++ (Tlb.hash.enc a.randSeed ++ (Tlb.hash.enc a.createdBy ++ (((Tlb.lazy false).opt).enc a.custom))))))

/-- `models/block/block_extra.rs:442-486` `Signature`: a tag of four bits and 64 bytes. -/
def signature : Tlb (List Byte) := (Tlb.bytes 64).tagged 4 5

/-- `models/block/block_extra.rs:396-403` `BlockSignature` -/
structure BlockSignature where
  nodeIdShort : List Byte
  signature : List Byte
  deriving DecidableEq, Repr

/-- `BlockSignature` derives `Store` and `Load`. -/
def blockSignature : Tlb BlockSignature where
  ok a := Tlb.hash.ok a.nodeIdShort ∧ Verif.signature.ok a.signature
  store a := Tlb.hash.store a.nodeIdShort >>= fun _ => Verif.signature.store a.signature
  load :=
    Tlb.hash.load >>= fun nodeIdShort =>
    Verif.signature.load >>= fun signature =>
    pure ⟨nodeIdShort, signature⟩
  R a := Tlb.hash.R a.nodeIdShort ⬝ Verif.signature.R a.signature
  enc a := Tlb.hash.enc a.nodeIdShort ++ (Verif.signature.enc a.signature)

/-- `models/shard/shard_extra.rs:163-170` `ValidatorBaseInfo`, here `ValidatorBase` -/
structure ValidatorBase where
  listHashShort : Nat
  catchainSeqno : Nat
  deriving DecidableEq, Repr

/-- `ValidatorBase` derives `Store` and `Load`. -/
def validatorBase : Tlb ValidatorBase where
  ok a := Tlb.u32.ok a.listHashShort ∧ Tlb.u32.ok a.catchainSeqno
  store a := Tlb.u32.store a.listHashShort >>= fun _ => Tlb.u32.store a.catchainSeqno
  load :=
    Tlb.u32.load >>= fun listHashShort =>
    Tlb.u32.load >>= fun catchainSeqno =>
    pure ⟨listHashShort, catchainSeqno⟩
  R a := Tlb.u32.R a.listHashShort ⬝ Tlb.u32.R a.catchainSeqno
  enc a := Tlb.u32.enc a.listHashShort ++ (Tlb.u32.enc a.catchainSeqno)

/-- `models/block/block_proof.rs:75-92` `BlockSignatures` -/
structure BlockSignatures where
  validatorInfo : ValidatorBase
  signatureCount : Nat
  totalWeight : Nat
  signatures : Option Cell

/-- `BlockSignatures` derives `Store` and `Load`. -/
def blockSignatures : Tlb BlockSignatures where
  ok a := validatorBase.ok a.validatorInfo ∧ Tlb.u32.ok a.signatureCount ∧ Tlb.u64.ok a.totalWeight ∧ Tlb.dict.ok a.signatures
  store a := Wr.u8 0x11 >>= fun _ => validatorBase.store a.validatorInfo >>= fun _ => Tlb.u32.store a.signatureCount >>= fun _ => Tlb.u64.store a.totalWeight >>= fun _ => Tlb.dict.store a.signatures
  load :=
    Rd.u8 >>= fun u => Prog.check (decide (u = 0x11)) .invalidTag >>= fun _ =>
    validatorBase.load >>= fun validatorInfo =>
    Tlb.u32.load >>= fun signatureCount =>
    Tlb.u64.load >>= fun totalWeight =>
    Tlb.dict.load >>= fun signatures =>
    pure ⟨validatorInfo, signatureCount, totalWeight, signatures⟩
  R a := Enc.Lit (natBits 8 0x11) ⬝ validatorBase.R a.validatorInfo ⬝ Tlb.u32.R a.signatureCount ⬝ Tlb.u64.R a.totalWeight ⬝ Tlb.dict.R a.signatures
  enc a := Enc.bits (natBits 8 0x11) ++ (validatorBase.enc a.validatorInfo ++ (Tlb.u32.enc a.signatureCount ++ (Tlb.u64.enc a.totalWeight ++ (Tlb.dict.enc a.signatures))))

/-- `models/block/block_proof.rs:9-18` `BlockProof` -/
structure BlockProof where
  proofFor : ShardIdent.BlockId
  root : Cell
  signatures : Option BlockSignatures

/-- `models/block/block_proof.rs:24-73` `Store`, `Load` -/
def blockProof (acc : Cell → Bool) : Tlb BlockProof where
  ok v := Tlb.blockId.ok v.proofFor ∧ (blockSignatures.child acc).opt.ok v.signatures
  store v := Tlb.builtOpt acc blockSignatures.store v.signatures >>= fun c =>
    Wr.u8 0xc3 >>= fun _ => Tlb.blockId.store v.proofFor >>= fun _ => Wr.ref v.root >>= fun _ => Tlb.cell.opt.store c
  load := Rd.u8 >>= fun t => Prog.check (decide (t = 0xc3)) .invalidTag >>= fun _ => Tlb.blockId.load >>= fun proofFor => Rd.ref >>= fun root =>
    (Tlb.cell.opt.load >>= Tlb.parseOpt blockSignatures.load) >>= fun signatures => pure ⟨proofFor, root, signatures⟩
  R v := Enc.Lit (natBits 8 0xc3) ⬝ Tlb.blockId.R v.proofFor ⬝ Tlb.cell.R v.root ⬝ (blockSignatures.child acc).opt.R v.signatures
  enc v := Enc.bits (natBits 8 0xc3) ++ (Tlb.blockId.enc v.proofFor ++ (Enc.ref v.root ++ (blockSignatures.child acc).opt.enc v.signatures))

/-- `models/block/mod.rs:29-47` `Block` -/
structure Block where
  globalId : Int
  info : Cell
  valueFlow : Cell
  stateUpdate : Cell
  outMsgQueueUpdates : Option (Option Cell)
  extra : Cell

/-- The update of the state, and of the queue of messages. -/
def blockUpdates : Tlb (Cell × Option Cell) := (Tlb.lazy true).pair Tlb.dict

/-- `models/block/mod.rs:107-122`, `142-151`: the updates of the queue share a cell with the update of the state. -/
def stateUpdates (acc : Cell → Bool) (c : Bool) : Tlb (Cell × Option (Option Cell)) where
  ok v := match v.2 with
    | none => c = false ∧ (Tlb.lazy true).ok v.1
    | some d => c = true ∧ (blockUpdates.child acc).ok (v.1, d)
  store v := match v.2 with
    | none => (Tlb.lazy true).store v.1
    | some d => (blockUpdates.child acc).store (v.1, d)
  load := match c with
    | false => (Tlb.lazy true).load >>= fun u => pure (u, none)
    | true => (blockUpdates.child acc).load >>= fun p => pure (p.1, some p.2)
  R v e := match v.2 with
    | none => c = false ∧ (Tlb.lazy true).R v.1 e
    | some d => c = true ∧ (blockUpdates.child acc).R (v.1, d) e
  enc v := match v.2 with
    | none => (Tlb.lazy true).enc v.1
    | some d => (blockUpdates.child acc).enc (v.1, d)

/-- `models/block/mod.rs:104-125`, `138-162`: a block behind its tag. -/
def blockBody (acc : Cell → Bool) (c : Bool) : Tlb Block where
  ok v := Tlb.i32.ok v.globalId ∧ (Tlb.lazy false).ok v.info ∧ (Tlb.lazy false).ok v.valueFlow ∧ (stateUpdates acc c).ok (v.stateUpdate, v.outMsgQueueUpdates) ∧
    (Tlb.lazy false).ok v.extra
  store v := Tlb.i32.store v.globalId >>= fun _ => (Tlb.lazy false).store v.info >>= fun _ => (Tlb.lazy false).store v.valueFlow >>= fun _ =>
    (stateUpdates acc c).store (v.stateUpdate, v.outMsgQueueUpdates) >>= fun _ => (Tlb.lazy false).store v.extra
  load := Tlb.i32.load >>= fun globalId => (Tlb.lazy false).load >>= fun info => (Tlb.lazy false).load >>= fun valueFlow =>
    (stateUpdates acc c).load >>= fun u => (Tlb.lazy false).load >>= fun extra => pure ⟨globalId, info, valueFlow, u.1, u.2, extra⟩
  R v := Tlb.i32.R v.globalId ⬝ (Tlb.lazy false).R v.info ⬝ (Tlb.lazy false).R v.valueFlow ⬝ (stateUpdates acc c).R (v.stateUpdate, v.outMsgQueueUpdates) ⬝
    (Tlb.lazy false).R v.extra
  enc v := Tlb.i32.enc v.globalId ++ ((Tlb.lazy false).enc v.info ++ ((Tlb.lazy false).enc v.valueFlow ++
    ((stateUpdates acc c).enc (v.stateUpdate, v.outMsgQueueUpdates) ++ (Tlb.lazy false).enc v.extra)))

/-- `models/block/mod.rs:87-163` `Store`, `Load` -/
def block (acc : Cell → Bool) : Tlb Block where
  ok v := (blockBody acc v.outMsgQueueUpdates.isSome).ok v
  store v := Wr.u32 (if v.outMsgQueueUpdates.isNone then 0x11ef55aa else 0x11ef55bb) >>= fun _ => (blockBody acc v.outMsgQueueUpdates.isSome).store v
  load := Rd.u32 >>= fun t => if t = 0x11ef55aa then (blockBody acc false).load else if t = 0x11ef55bb then (blockBody acc true).load else Prog.fail .invalidTag
  R v e := (Enc.Lit (natBits 32 0x11ef55aa) ⬝ (blockBody acc false).R v) e ∨ (Enc.Lit (natBits 32 0x11ef55bb) ⬝ (blockBody acc true).R v) e
  enc v := Enc.bits (natBits 32 (if v.outMsgQueueUpdates.isNone then 0x11ef55aa else 0x11ef55bb)) ++ (blockBody acc v.outMsgQueueUpdates.isSome).enc v

/-- `models/block/mod.rs:78-84` `build_data_for_sign` -/
def dataForSign (b : ShardIdent.BlockId) : List Byte := [0x70, 0x6e, 0x0b, 0xc5] ++ b.rootHash ++ b.fileHash

/-- `models/config/mod.rs:17-24` `BlockchainConfig` -/
structure BlockchainConfig where
  address : List Byte
  params : Option Cell

/-- `BlockchainConfig` derives `Store` and `Load`. -/
def blockchainConfig : Tlb BlockchainConfig where
  ok a := Tlb.hash.ok a.address ∧ Tlb.mandatory.ok a.params
  store a := Tlb.hash.store a.address >>= fun _ => Tlb.mandatory.store a.params
  load :=
    Tlb.hash.load >>= fun address =>
    Tlb.mandatory.load >>= fun params =>
    pure ⟨address, params⟩
  R a := Tlb.hash.R a.address ⬝ Tlb.mandatory.R a.params
  enc a := Tlb.hash.enc a.address ++ (Tlb.mandatory.enc a.params)

/-- `models/block/block_extra.rs:369-376` `ShardFeeCreated`, here `ShardFee` -/
structure ShardFee where
  fees : Currency
  create : Currency

/-- `ShardFee` derives `Store` and `Load`. -/
def shardFee : Tlb ShardFee where
  ok a := Tlb.currency.ok a.fees ∧ Tlb.currency.ok a.create
  store a := Tlb.currency.store a.fees >>= fun _ => Tlb.currency.store a.create
  load :=
    Tlb.currency.load >>= fun fees =>
    Tlb.currency.load >>= fun create =>
    pure ⟨fees, create⟩
  R a := Tlb.currency.R a.fees ⬝ Tlb.currency.R a.create
  enc a := Tlb.currency.enc a.fees ++ (Tlb.currency.enc a.create)

/-- `models/block/block_extra.rs:207-223` `McBlockExtra`; the dictionary of fees with its total. -/
structure McBlockExtra where
  shards : Option Cell
  fees : Option Cell × ShardFee
  prevBlockSignatures : Option Cell
  recoverCreateMsg : Option Cell
  mintMsg : Option Cell
  config : Option BlockchainConfig

namespace McBlockExtra

/-- The contents of the child, `models/block/block_extra.rs:251-257`. -/
def inner : Tlb (Option Cell × Option Cell × Option Cell) := Tlb.dict.pair ((Tlb.lazy false).opt.pair (Tlb.lazy false).opt)

/-- `models/block/block_extra.rs:245-271` `Store` -/
def store (acc : Cell → Bool) (v : McBlockExtra) : Wr Cell Unit :=
  Tlb.built acc (inner.store (v.prevBlockSignatures, v.recoverCreateMsg, v.mintMsg)) >>= fun c =>
  Wr.u16 0xcca5 >>= fun _ => Wr.bit v.config.isSome >>= fun _ => Tlb.dict.store v.shards >>= fun _ => (shardFee.augDict).store v.fees >>= fun _ => Wr.ref c >>= fun _ =>
  match v.config with
  | some c => blockchainConfig.store c
  | none => pure ()

/-- `models/block/block_extra.rs:273-306` `Load` -/
def load : Rd Cell McBlockExtra :=
  Rd.u16 >>= fun t => Prog.check (decide (t = 0xcca5)) .invalidTag >>= fun _ => Rd.bit >>= fun withConfig => Tlb.dict.load >>= fun shards =>
  (shardFee.augDict).load >>= fun fees => Tlb.childSlice >>= fun cont => (blockchainConfig.cond withConfig).load >>= fun config =>
  Tlb.within inner.load cont >>= fun i => pure ⟨shards, fees, i.1, i.2.1, i.2.2, config⟩

end McBlockExtra

/-- `models/block/block_extra.rs:245-306` -/
def mcBlockExtra (acc : Cell → Bool) : Tlb McBlockExtra where
  ok v := (shardFee.augDict).ok v.fees ∧ (McBlockExtra.inner.child acc).ok (v.prevBlockSignatures, v.recoverCreateMsg, v.mintMsg) ∧
    ∀ c, v.config = some c → blockchainConfig.ok c
  store := McBlockExtra.store acc
  load := McBlockExtra.load
  R v := Enc.Lit (natBits 16 0xcca5) ⬝ Tlb.bool.R v.config.isSome ⬝ Tlb.dict.R v.shards ⬝ (shardFee.augDict).R v.fees ⬝
    (McBlockExtra.inner.child acc).R (v.prevBlockSignatures, v.recoverCreateMsg, v.mintMsg) ⬝ (blockchainConfig.cond v.config.isSome).R v.config
  enc v := Enc.bits (natBits 16 0xcca5) ++ (Tlb.bool.enc v.config.isSome ++ (Tlb.dict.enc v.shards ++ ((shardFee.augDict).enc v.fees ++
    ((McBlockExtra.inner.child acc).enc (v.prevBlockSignatures, v.recoverCreateMsg, v.mintMsg) ++ (blockchainConfig.cond v.config.isSome).enc v.config))))

/-! ### Soundness of the parts -/

theorem globalVersion_sound : (globalVersion).Sound :=
  ((Tlb.u32_sound.pair Tlb.u64_sound).tagged (n := 8) (t := 0xc4) (by unfold Tlb.TagWidth; omega) (by decide)).struct (fun p => ⟨p.1, p.2⟩) (fun a => (a.version, a.capabilities))
    (fun _ => rfl) (fun _ => rfl) (by unfold globalVersion; tlb_more) (fun _ h => h) (fun _ _ => rfl) (fun _ _ => Iff.rfl) (fun _ _ => rfl)

theorem blockRef_sound : (blockRef).Sound :=
  (Tlb.u64_sound.pair (Tlb.u32_sound.pair (Tlb.hash_sound.pair Tlb.hash_sound))).struct (fun p => ⟨p.1, p.2.1, p.2.2.1, p.2.2.2⟩) (fun a => (a.endLt, a.seqno, a.rootHash, a.fileHash))
    (fun _ => rfl) (fun _ => rfl) (by unfold blockRef; tlb_more) (fun _ h => h) (fun _ _ => rfl) (fun _ _ => Iff.rfl) (fun _ _ => rfl)

theorem prevBlockRef_sound (acc : Cell → Bool) (merge : Bool) : (prevBlockRef acc merge).Sound where
  st := ⟨fun v h => match v, h with
      | .single r, h => blockRef_sound.st.writes r h.2
      | .afterMerge l r, h => ((blockRef_sound.child acc).st.writes l h.2.1).seq ((blockRef_sound.child acc).st.writes r h.2.2),
    fun v h => match v, h with
      | .single r, h => ⟨h.1, blockRef_sound.st.canon r h.2⟩
      | .afterMerge l r, h => ⟨h.1, _, _, (blockRef_sound.child acc).st.canon l h.2.1, (blockRef_sound.child acc).st.canon r h.2.2, rfl⟩⟩
  ld := by
    cases merge with
    | true =>
      have h := ((blockRef_sound.child acc).pair (blockRef_sound.child acc)).ld.map (fun p => PrevBlockRef.afterMerge p.1 p.2)
      simp only [Tlb.pair, pairLoad, Prog.bind_assoc', Prog.pure_bind'] at h
      exact h.iff fun v e => by
        cases v with
        | single r => exact ⟨(by rintro ⟨p, h, _⟩; cases h), (by rintro ⟨h, _⟩; cases h)⟩
        | afterMerge l r => exact ⟨(by rintro ⟨p, h, h'⟩; cases h; exact ⟨rfl, h'⟩), (by rintro ⟨_, h⟩; exact ⟨(l, r), rfl, h⟩)⟩
    | false =>
      exact (blockRef_sound.ld.map PrevBlockRef.single).iff fun v e => by
        cases v with
        | single r => exact ⟨(by rintro ⟨p, h, h'⟩; cases h; exact ⟨rfl, h'⟩), (by rintro ⟨_, h⟩; exact ⟨r, rfl, h⟩)⟩
        | afterMerge l r => exact ⟨(by rintro ⟨p, h, _⟩; cases h), (by rintro ⟨h, _⟩; cases h)⟩

theorem infoBits_unpack : ∀ p, p < 2 ^ 8 → ∀ f, natBits 8 p = [(InfoBits.unpack p f).master, (InfoBits.unpack p f).afterMerge, (InfoBits.unpack p f).beforeSplit,
    (InfoBits.unpack p f).afterSplit, (InfoBits.unpack p f).wantSplit, (InfoBits.unpack p f).wantMerge, (InfoBits.unpack p f).keyBlock, (InfoBits.unpack p f).vert] := by
  have h : ∀ p, p < 2 ^ 8 → natBits 8 p = [decide (p &&& 0x80 ≠ 0), decide (p &&& 0x40 ≠ 0), decide (p &&& 0x20 ≠ 0), decide (p &&& 0x10 ≠ 0),
    decide (p &&& 8 ≠ 0), decide (p &&& 4 ≠ 0), decide (p &&& 2 ≠ 0), decide (p &&& 1 ≠ 0)] := by decide +kernel
  exact fun p hp f => h p hp

theorem infoBits_pack : ∀ b : InfoBits, b.packed < 2 ^ 8 ∧ natBits 8 b.packed = [b.master, b.afterMerge, b.beforeSplit, b.afterSplit, b.wantSplit, b.wantMerge,
    b.keyBlock, b.vert] ∧ InfoBits.unpack b.packed b.flags = b := by
  have h : ∀ m am bs as ws wm kb v : Bool, InfoBits.packed ⟨m, am, bs, as, ws, wm, kb, v, 0⟩ < 2 ^ 8 ∧
    natBits 8 (InfoBits.packed ⟨m, am, bs, as, ws, wm, kb, v, 0⟩) = [m, am, bs, as, ws, wm, kb, v] ∧
    InfoBits.unpack (InfoBits.packed ⟨m, am, bs, as, ws, wm, kb, v, 0⟩) 0 = ⟨m, am, bs, as, ws, wm, kb, v, 0⟩ := by decide +kernel
  rintro ⟨m, am, bs, as, ws, wm, kb, v, f⟩
  obtain ⟨h1, h2, h3⟩ := h m am bs as ws wm kb v
  refine ⟨h1, h2, ?_⟩
  have := congrArg (fun b : InfoBits => { b with flags := f }) h3
  exact this

theorem infoBits_enc (b : InfoBits) (h : b.flags < 2 ^ 8) : Enc.bits (natBits 16 (b.packed * 2 ^ 8 + b.flags)) = infoBits.enc b := by
  rw [show (16 : Nat) = 8 + 8 from rfl, natBits_split 8 8, ← Enc.bits_append]
  have e : (b.packed * 2 ^ 8 + b.flags) / 2 ^ 8 = b.packed := by omega
  rw [e, (infoBits_pack b).2.1, show natBits 8 (b.packed * 2 ^ 8 + b.flags) = natBits 8 b.flags from by
    rw [← Wr.natBits_mod (w := 8) (k := 8) (v := b.packed * 2 ^ 8 + b.flags) (Nat.le_refl _)]
    rw [show (b.packed * 2 ^ 8 + b.flags) % 2 ^ 8 = b.flags by omega]]
  rfl

theorem infoBits_sound : infoBits.Sound where
  st := ⟨fun b h => by
      have h : b.flags < 2 ^ 8 := h
      have hp := (infoBits_pack b).1
      have := (Wr.writes_u16 (ρ := Cell) (v := b.packed * 2 ^ 8 + b.flags) (by omega)).writes
      rw [infoBits_enc b h] at this
      exact this, fun b h => ⟨_, _, rfl, Tlb.u8_sound.st.canon _ h, rfl⟩⟩
  ld := ((Loads.ofTakes (Rd.takes_u16 (ρ := Cell))).map fun v => InfoBits.unpack (v / 2 ^ 8) (v % 2 ^ 8)).iff fun b e => by
    constructor
    · rintro ⟨v, rfl, hv, rfl⟩
      have hd : v / 2 ^ 8 < 2 ^ 8 := by omega
      have hm : v % 2 ^ 8 < 2 ^ 8 := by omega
      have he := infoBits_enc (InfoBits.unpack (v / 2 ^ 8) (v % 2 ^ 8)) hm
      have hq : (InfoBits.unpack (v / 2 ^ 8) (v % 2 ^ 8)).packed = v / 2 ^ 8 := by
        have h1 := infoBits_unpack _ hd (v % 2 ^ 8)
        rw [← (infoBits_pack (InfoBits.unpack (v / 2 ^ 8) (v % 2 ^ 8))).2.1] at h1
        exact (natBits_inj hd (infoBits_pack _).1 h1).symm
      rw [hq, show (InfoBits.unpack (v / 2 ^ 8) (v % 2 ^ 8)).flags = v % 2 ^ 8 from rfl, show v / 2 ^ 8 * 2 ^ 8 + v % 2 ^ 8 = v by omega] at he
      rw [he]
      exact ⟨_, _, rfl, ⟨hm, rfl⟩, rfl⟩
    · rintro ⟨e1, e2, h1, ⟨h2, rfl⟩, rfl⟩
      have h2 : b.flags < 2 ^ 8 := h2
      obtain ⟨p1, p2, p3⟩ := infoBits_pack b
      refine ⟨b.packed * 2 ^ 8 + b.flags, ?_, by omega, ?_⟩
      · rw [show (b.packed * 2 ^ 8 + b.flags) / 2 ^ 8 = b.packed by omega, show (b.packed * 2 ^ 8 + b.flags) % 2 ^ 8 = b.flags by omega, p3]
      · rw [infoBits_enc b h2, show e1 = _ from h1]
        rfl

theorem infoHead_sound : (infoHead).Sound :=
  ((Tlb.u32_sound.pair (infoBits_sound.pair (Tlb.nz32_sound.pair (Tlb.u32_sound.pair (Tlb.shardIdent_sound.pair (Tlb.u32_sound.pair (Tlb.u64_sound.pair (Tlb.u64_sound.pair (Tlb.u32_sound.pair (Tlb.u32_sound.pair (Tlb.u32_sound.pair Tlb.u32_sound))))))))))).tagged (n := 32) (t := 0x9bc7a987) (by unfold Tlb.TagWidth; omega) (by decide)).struct (fun p => ⟨p.1, p.2.1, p.2.2.1, p.2.2.2.1, p.2.2.2.2.1, p.2.2.2.2.2.1, p.2.2.2.2.2.2.1, p.2.2.2.2.2.2.2.1, p.2.2.2.2.2.2.2.2.1, p.2.2.2.2.2.2.2.2.2.1, p.2.2.2.2.2.2.2.2.2.2.1, p.2.2.2.2.2.2.2.2.2.2.2⟩) (fun a => (a.version, a.bits, a.seqno, a.vertSeqno, a.shard, a.genUtime, a.startLt, a.endLt, a.genValidatorListHashShort, a.genCatchainSeqno, a.minRefMcSeqno, a.prevKeyBlockSeqno))
    (fun _ => rfl) (fun _ => rfl) (by unfold infoHead; tlb_more) (fun _ h => h) (fun _ _ => rfl) (fun _ _ => Iff.rfl) (fun _ _ => rfl)

theorem bind_pure' {σ α : Type} (p : Prog σ α) : (p >>= fun a => pure a) = p := by
  funext s
  show (match p s with
    | (.ok a, s') => ((.ok a : Except Err α), s')
    | (.error e, s') => (.error e, s')) = p s
  rcases p s with ⟨_ | _, _⟩ <;> rfl

namespace BlockInfo

theorem parts_sound : parts.Sound :=
  (infoHead_sound.dep fun h => (globalVersion_sound.cond _).pair (((Tlb.lazy_sound false).cond _).pair (Tlb.cell_sound.pair ((Tlb.lazy_sound false).cond _)))).guarded _

theorem split_join {p : InfoHead × Tail} {e : Enc Cell} (h : parts.R p e) : split (join p) = p ∧ Reports (join p) := by
  obtain ⟨⟨ver, ⟨m, am, bs, as, ws, wm, kb, vt, fl⟩, seq, vs, sh, gu, sl, el, gv, gc, mr, pk⟩, s, mref, pref, pv⟩ := p
  obtain ⟨⟨e1, e2, h1, ⟨e3, e4, hs, ⟨e5, e6, hm, ⟨e7, e8, hp, hv, _⟩, _⟩, _⟩, _⟩, _⟩ := h
  have hs' : s.isSome = withSoftware fl := by cases s with
    | none => exact hs.1.symm
    | some a => exact hs.1.symm
  have hm' : mref.isSome = m := by cases mref with
    | none => exact hm.1.symm
    | some a => exact hm.1.symm
  have hv' : pv.isSome = vt := by cases pv with
    | none => exact hv.1.symm
    | some a => exact hv.1.symm
  constructor
  · unfold split join head make
    dsimp only
    rw [hm', hv']
    cases s with
    | none => rw [if_neg (by rw [← hs']; decide)]
    | some a => have hs2 : withSoftware fl = true := hs'.symm; rw [if_pos hs2]; rfl
  · intro hw
    have hw : withSoftware fl = false := hw
    rw [hw] at hs'
    cases s with
    | none => rfl
    | some a => cases hs'

theorem join_split {v : BlockInfo} (h : v.Reports) : join (split v) = v := by
  unfold split join head make
  dsimp only
  by_cases hw : withSoftware v.flags = true
  · rw [if_pos hw]; rfl
  · rw [if_neg hw]
    have := h (by simpa using hw)
    cases v
    dsimp only at *
    rw [this]; rfl

theorem storeRef_cond (c : Bool) (o : Option Cell) : storeRef o = ((Tlb.lazy false).cond c).store o := by cases o <;> rfl

theorem store_split (v : BlockInfo) : store v = parts.store v.split := by
  unfold store
  show _ = infoHead.store v.head >>= fun _ => (tail v.head).store v.split.2
  congr 1
  funext _
  unfold tail split
  simp only [Tlb.pair, pairStore]
  rw [storeRef_cond v.head.bits.master, storeRef_cond v.head.bits.vert]
  by_cases hw : withSoftware v.flags = true
  · rw [if_pos hw, if_pos hw]; rfl
  · rw [if_neg hw, if_neg hw]; rfl

theorem load_parts : load = parts.load >>= fun p => pure (join p) := by
  unfold load
  show _ = (((infoHead.load >>= fun a => (tail a).load >>= fun b => pure (a, b)) >>= fun v => Prog.check (vertOk v.1.vertSeqno v.2.2.2.2) .invalidData >>= fun _ => pure v) >>=
    fun p => pure (join p))
  simp only [tail, Tlb.pair, pairLoad, Prog.bind_assoc', Prog.pure_bind']
  congr 1
  funext h
  have hs : loadSoftware h.bits.flags = (globalVersion.cond (withSoftware h.bits.flags)).load >>= fun s => pure (s.getD noSoftware) := by
    unfold loadSoftware
    cases withSoftware h.bits.flags with
    | true => rw [if_pos rfl]; simp only [Tlb.cond, Prog.bind_assoc', Prog.pure_bind', Option.getD_some]; exact (bind_pure' _).symm
    | false => rw [if_neg (by decide)]; rfl
  have hr : ∀ c, loadRef c = ((Tlb.lazy false).cond c).load := by
    intro c
    unfold loadRef
    cases c <;> rfl
  rw [hs, hr, hr]
  simp only [Prog.bind_assoc', Prog.pure_bind']
  rfl

end BlockInfo

theorem blockInfo_sound : blockInfo.Sound :=
  BlockInfo.parts_sound.structOn BlockInfo.join BlockInfo.split BlockInfo.load_parts (fun _ h => h.1) (fun v _ => BlockInfo.store_split v) (fun _ _ => rfl)
    (fun _ h => BlockInfo.join_split h.2)
    (fun v e => ⟨by rintro ⟨p, rfl, h⟩; obtain ⟨h1, h2⟩ := BlockInfo.split_join h; exact ⟨by rw [h1]; exact h, h2⟩,
      fun h => ⟨_, (BlockInfo.join_split h.2).symm, h.1⟩⟩)

theorem four_sound : four.Sound := Tlb.currency_sound.pair (Tlb.currency_sound.pair (Tlb.currency_sound.pair Tlb.currency_sound))

namespace ValueFlow

theorem isZero_iff (c : Currency) : c.isZero = true ↔ c = Currency.zero := by
  obtain ⟨t, o⟩ := c
  unfold Currency.isZero Currency.zero
  cases o <;> simp

theorem plain_enc {c : Currency} (h : c.other = none) : ∃ b, Tlb.currency.enc c = Enc.bits b := by
  obtain ⟨t, o⟩ := c
  obtain rfl : o = none := h
  exact ⟨_, Enc.bits_append _ _⟩

theorem ref_comm (c : Cell) (b : Bits) (x : Enc Cell) : Enc.ref c ++ (Enc.bits b ++ x) = Enc.bits b ++ (Enc.ref c ++ x) := by
  obtain ⟨x1, x2⟩ := x
  show (([] ++ (b ++ x1) : Bits), ([c] ++ ([] ++ x2) : List Cell)) = ((b ++ ([] ++ x1) : Bits), ([] ++ ([c] ++ x2) : List Cell))
  simp

theorem kids (acc : Cell → Bool) (c : Bool) : Loads (loadBody c) (fun v e => match c with
    | false => v.burned = Currency.zero ∧ (Tlb.currency.R v.feesCollected ⬝ (four.child acc).R v.fst ⬝ (four.child acc).R v.snd) e
    | true => (Tlb.currency.R v.feesCollected ⬝ Tlb.currency.R v.burned ⬝ (four.child acc).R v.fst ⬝ (four.child acc).R v.snd) e) := by
  cases c with
  | false =>
    have h := (Tlb.currency_sound.ld.pair (four_sound.twoChildren four_sound acc)).map (fun p => make p.1 Currency.zero p.2.1 p.2.2)
    simp only [pairLoad, Prog.bind_assoc', Prog.pure_bind'] at h
    exact Loads.iff h fun v e => ⟨by rintro ⟨p, rfl, h⟩; exact ⟨rfl, h⟩, by
      rintro ⟨h1, h⟩
      refine ⟨(v.feesCollected, v.fst, v.snd), ?_, h⟩
      cases v
      dsimp only at h1
      rw [h1]; rfl⟩
  | true =>
    have h := (Tlb.currency_sound.ld.pair (Tlb.currency_sound.ld.pair (four_sound.twoChildren four_sound acc))).map (fun p => make p.1 p.2.1 p.2.2.1 p.2.2.2)
    simp only [pairLoad, Prog.bind_assoc', Prog.pure_bind'] at h
    exact Loads.iff h fun v e => ⟨by rintro ⟨p, rfl, h⟩; exact h, fun h => ⟨(v.feesCollected, v.burned, v.fst, v.snd), rfl, h⟩⟩

theorem store_run {acc : Cell → Bool} {v : ValueFlow} (h : (four.child acc).ok v.fst) : store acc v =
    (Wr.u32 (if v.burned.isZero then 0xb8e48dfb else 0x3ebf98b7) >>= fun _ => Wr.ref (Tlb.cellOf (four.enc v.fst)) >>= fun _ => Tlb.currency.store v.feesCollected >>= fun _ =>
      (if v.burned.isZero then pure () else Tlb.currency.store v.burned) >>= fun _ => (four.child acc).store v.snd) := by
  unfold store
  exact four_sound.built h _

end ValueFlow

theorem valueFlow_sound (acc : Cell → Bool) : (valueFlow acc).Sound where
  st := ⟨fun v h => by
      show Writes (ValueFlow.store acc v) _
      rw [ValueFlow.store_run h.1]
      refine (Wr.writes_u32 (by split <;> decide)).writes.seq ((Wr.writes_ref _).writes.seq ((Tlb.currency_sound.st.writes _ h.2.1.1).seq (Writes.seq ?_
        ((four_sound.child acc).st.writes _ h.2.2.2))))
      cases v.burned.isZero with
      | true => exact Writes.pure
      | false => exact Tlb.currency_sound.st.writes _ h.2.2.1.1,
    fun v h => by
      obtain ⟨b1, hb1⟩ := ValueFlow.plain_enc h.2.1.2
      obtain ⟨b2, hb2⟩ := ValueFlow.plain_enc h.2.2.1.2
      have c1 := Tlb.currency_sound.st.canon _ h.2.1.1
      have c2 := Tlb.currency_sound.st.canon _ h.2.2.1.1
      have k1 := (four_sound.child acc).st.canon _ h.1
      have k2 := (four_sound.child acc).st.canon _ h.2.2.2
      have er : (four.child acc).enc v.fst = Enc.ref (Tlb.cellOf (four.enc v.fst)) := rfl
      show (v.burned = Currency.zero ∧ _) ∨ _
      cases hz : v.burned.isZero with
      | true =>
        refine .inl ⟨(ValueFlow.isZero_iff _).1 hz, _, _, rfl, ⟨_, _, c1, ⟨_, _, k1, k2, rfl⟩, rfl⟩, ?_⟩
        show Enc.bits (natBits 32 (if v.burned.isZero then 0xb8e48dfb else 0x3ebf98b7)) ++ ((four.child acc).enc v.fst ++ (Tlb.currency.enc v.feesCollected ++
          ((if v.burned.isZero then Enc.nil else Tlb.currency.enc v.burned) ++ (four.child acc).enc v.snd))) = _
        rw [hz, if_pos rfl, if_pos rfl, er, hb1, ValueFlow.ref_comm, Enc.nil_append]
      | false =>
        refine .inr ⟨_, _, rfl, ⟨_, _, c1, ⟨_, _, c2, ⟨_, _, k1, k2, rfl⟩, rfl⟩, rfl⟩, ?_⟩
        show Enc.bits (natBits 32 (if v.burned.isZero then 0xb8e48dfb else 0x3ebf98b7)) ++ ((four.child acc).enc v.fst ++ (Tlb.currency.enc v.feesCollected ++
          ((if v.burned.isZero then Enc.nil else Tlb.currency.enc v.burned) ++ (four.child acc).enc v.snd))) = _
        rw [hz, if_neg (by decide), if_neg (by decide), er, hb1, hb2, ValueFlow.ref_comm, ValueFlow.ref_comm]⟩
  ld := (Loads.twoTags (Rd.takes_u32 (ρ := Cell)) (by decide) (by decide) (by decide) (ValueFlow.kids acc false) (ValueFlow.kids acc true)).iff fun v e => by
    dsimp only
    rw [Enc.then_and]
    exact Iff.rfl

theorem blockExtra_sound : (blockExtra).Sound :=
  (((Tlb.lazy_sound false).pair ((Tlb.lazy_sound false).pair ((Tlb.lazy_sound false).pair (Tlb.hash_sound.pair (Tlb.hash_sound.pair (Tlb.lazy_sound false).opt))))).tagged (n := 32) (t := 0x4a33f6fd) (by unfold Tlb.TagWidth; omega) (by decide)).struct (fun p => ⟨p.1, p.2.1, p.2.2.1, p.2.2.2.1, p.2.2.2.2.1, p.2.2.2.2.2⟩) (fun a => (a.inMsgDescription, a.outMsgDescription, a.accountBlocks, a.randSeed, a.createdBy, a.custom))
    (fun _ => rfl) (fun _ => rfl) (by unfold blockExtra; tlb_more) (fun _ h => h) (fun _ _ => rfl) (fun _ _ => Iff.rfl) (fun _ _ => rfl)

theorem signature_sound : signature.Sound := (Tlb.bytes_sound (by decide)).tagged (by unfold Tlb.TagWidth; omega) (by decide)

theorem blockSignature_sound : (blockSignature).Sound :=
  (Tlb.hash_sound.pair Verif.signature_sound).struct (fun p => ⟨p.1, p.2⟩) (fun a => (a.nodeIdShort, a.signature))
    (fun _ => rfl) (fun _ => rfl) (by unfold blockSignature; tlb_more) (fun _ h => h) (fun _ _ => rfl) (fun _ _ => Iff.rfl) (fun _ _ => rfl)

theorem validatorBase_sound : (validatorBase).Sound :=
  (Tlb.u32_sound.pair Tlb.u32_sound).struct (fun p => ⟨p.1, p.2⟩) (fun a => (a.listHashShort, a.catchainSeqno))
    (fun _ => rfl) (fun _ => rfl) (by unfold validatorBase; tlb_more) (fun _ h => h) (fun _ _ => rfl) (fun _ _ => Iff.rfl) (fun _ _ => rfl)

theorem blockSignatures_sound : (blockSignatures).Sound :=
  ((validatorBase_sound.pair (Tlb.u32_sound.pair (Tlb.u64_sound.pair Tlb.dict_sound))).tagged (n := 8) (t := 0x11) (by unfold Tlb.TagWidth; omega) (by decide)).struct (fun p => ⟨p.1, p.2.1, p.2.2.1, p.2.2.2⟩) (fun a => (a.validatorInfo, a.signatureCount, a.totalWeight, a.signatures))
    (fun _ => rfl) (fun _ => rfl) (by unfold blockSignatures; tlb_more) (fun _ h => h) (fun _ _ => rfl) (fun _ _ => Iff.rfl) (fun _ _ => rfl)

theorem blockProof_sound (acc : Cell → Bool) : (blockProof acc).Sound :=
  ((Tlb.blockId_sound.pair (Tlb.cell_sound.pair (blockSignatures_sound.optCell acc))).tagged (n := 8) (t := 0xc3) (by unfold Tlb.TagWidth; omega) (by decide)).structOn
    (fun p => ⟨p.1, p.2.1, p.2.2⟩) (fun v => (v.proofFor, v.root, v.signatures)) (by unfold blockProof Tlb.optCell; dsimp only; tlb_more; rfl) (fun v h => ⟨h.1, trivial, h.2⟩)
    (fun v h => by
      show (Tlb.builtOpt acc blockSignatures.store v.signatures >>= fun c =>
        Wr.u8 0xc3 >>= fun _ => Tlb.blockId.store v.proofFor >>= fun _ => Wr.ref v.root >>= fun _ => Tlb.cell.opt.store c) = _
      rw [blockSignatures_sound.builtOpt h.2]
      rfl) (fun _ _ => rfl) (fun _ _ => rfl)
    (fun v e => ⟨by rintro ⟨p, rfl, h⟩; exact h, fun h => ⟨(v.proofFor, v.root, v.signatures), rfl, h⟩⟩)

theorem blockUpdates_sound : blockUpdates.Sound := (Tlb.lazy_sound true).pair Tlb.dict_sound

theorem stateUpdates_sound (acc : Cell → Bool) (c : Bool) : (stateUpdates acc c).Sound where
  st := ⟨fun v h => by
      obtain ⟨u, o⟩ := v
      cases o with
      | none => exact (Tlb.lazy_sound true).st.writes u h.2
      | some d => exact (blockUpdates_sound.child acc).st.writes (u, d) h.2,
    fun v h => by
      obtain ⟨u, o⟩ := v
      cases o with
      | none => exact ⟨h.1, (Tlb.lazy_sound true).st.canon u h.2⟩
      | some d => exact ⟨h.1, (blockUpdates_sound.child acc).st.canon (u, d) h.2⟩⟩
  ld := by
    cases c with
    | false =>
      exact ((Tlb.lazy_sound true).ld.map fun u => (u, none)).iff fun v e => by
        obtain ⟨u, o⟩ := v
        cases o with
        | none => exact ⟨(by rintro ⟨p, h, h'⟩; cases h; exact ⟨rfl, h'⟩), fun h => ⟨u, rfl, h.2⟩⟩
        | some d => exact ⟨(by rintro ⟨p, h, h'⟩; cases h), (by rintro ⟨h, _⟩; cases h)⟩
    | true =>
      exact ((blockUpdates_sound.child acc).ld.map fun p => (p.1, some p.2)).iff fun v e => by
        obtain ⟨u, o⟩ := v
        cases o with
        | none => exact ⟨(by rintro ⟨p, h, h'⟩; cases h), (by rintro ⟨h, _⟩; cases h)⟩
        | some d => exact ⟨(by rintro ⟨p, h, h'⟩; cases h; exact ⟨rfl, h'⟩), fun h => ⟨(u, d), rfl, h.2⟩⟩

theorem blockBody_sound (acc : Cell → Bool) (c : Bool) : (blockBody acc c).Sound :=
  (Tlb.i32_sound.pair ((Tlb.lazy_sound false).pair ((Tlb.lazy_sound false).pair ((stateUpdates_sound acc c).pair (Tlb.lazy_sound false))))).structOn
    (fun p => ⟨p.1, p.2.1, p.2.2.1, p.2.2.2.1.1, p.2.2.2.1.2, p.2.2.2.2⟩) (fun v => (v.globalId, v.info, v.valueFlow, (v.stateUpdate, v.outMsgQueueUpdates), v.extra))
    (by unfold blockBody; tlb_more) (fun _ h => h) (fun _ _ => rfl) (fun _ _ => rfl) (fun _ _ => rfl)
    (fun v e => ⟨by rintro ⟨p, rfl, h⟩; exact h, fun h => ⟨(v.globalId, v.info, v.valueFlow, (v.stateUpdate, v.outMsgQueueUpdates), v.extra), rfl, h⟩⟩)

theorem block_sound (acc : Cell → Bool) : (block acc).Sound where
  st := ⟨fun v h => (Wr.writes_u32 (by split <;> decide)).writes.seq ((blockBody_sound acc _).st.writes v h),
    fun v h => by
      have hc := (blockBody_sound acc _).st.canon v h
      show _ ∨ _
      dsimp only [block]
      cases ho : v.outMsgQueueUpdates with
      | none => rw [ho] at hc; exact .inl ⟨_, _, rfl, hc, rfl⟩
      | some d => rw [ho] at hc; exact .inr ⟨_, _, rfl, hc, rfl⟩⟩
  ld := Loads.twoTags (Rd.takes_u32 (ρ := Cell)) (by decide) (by decide) (by decide) (blockBody_sound acc false).ld (blockBody_sound acc true).ld

theorem blockchainConfig_sound : (blockchainConfig).Sound :=
  (Tlb.hash_sound.pair Tlb.mandatory_sound).struct (fun p => ⟨p.1, p.2⟩) (fun a => (a.address, a.params))
    (fun _ => rfl) (fun _ => rfl) (by unfold blockchainConfig; tlb_more) (fun _ h => h) (fun _ _ => rfl) (fun _ _ => Iff.rfl) (fun _ _ => rfl)

theorem shardFee_sound : (shardFee).Sound :=
  (Tlb.currency_sound.pair Tlb.currency_sound).struct (fun p => ⟨p.1, p.2⟩) (fun a => (a.fees, a.create))
    (fun _ => rfl) (fun _ => rfl) (by unfold shardFee; tlb_more) (fun _ h => h) (fun _ _ => rfl) (fun _ _ => Iff.rfl) (fun _ _ => rfl)

theorem Tlb.dict_ok (d : Option Cell) : Tlb.dict.ok d := by cases d <;> trivial

namespace McBlockExtra

theorem inner_sound : inner.Sound := Tlb.dict_sound.pair ((Tlb.lazy_sound false).opt.pair (Tlb.lazy_sound false).opt)

/-- The parts, one after the other. -/
def parts (acc : Cell → Bool) := (Tlb.bool.dep fun w => Tlb.dict.pair (shardFee.augDict.pair (Tlb.later acc inner (blockchainConfig.cond w)))).tagged 16 0xcca5

theorem parts_sound (acc : Cell → Bool) : (parts acc).Sound :=
  (Tlb.bool_sound.dep fun w => Tlb.dict_sound.pair (shardFee_sound.augDict.pair (inner_sound.later (blockchainConfig_sound.cond w) acc))).tagged
    (by unfold Tlb.TagWidth; omega) (by decide)

end McBlockExtra

theorem mcBlockExtra_sound (acc : Cell → Bool) : (mcBlockExtra acc).Sound :=
  (McBlockExtra.parts_sound acc).structOn (fun p => ⟨p.2.1, p.2.2.1, p.2.2.2.1.1, p.2.2.2.1.2.1, p.2.2.2.1.2.2, p.2.2.2.2⟩)
    (fun v => (v.config.isSome, v.shards, v.fees, (v.prevBlockSignatures, v.recoverCreateMsg, v.mintMsg), v.config))
    (by unfold mcBlockExtra McBlockExtra.load McBlockExtra.parts Tlb.later Tlb.dep; dsimp only; tlb_more; rfl)
    (fun v h => ⟨trivial, Tlb.dict_ok v.shards, h.1, h.2.1, rfl, h.2.2⟩)
    (fun v h => by
      show McBlockExtra.store acc v = _
      unfold McBlockExtra.store
      rw [McBlockExtra.inner_sound.built h.2.1]
      have e : ∀ o : Option BlockchainConfig, (match o with
          | some c => blockchainConfig.store c
          | none => pure ()) = (blockchainConfig.cond v.config.isSome).store o := fun o => by cases o <;> rfl
      unfold McBlockExtra.parts
      simp only [Tlb.tagged, Tlb.tagWr, Tlb.dep, Tlb.pair, pairStore, Tlb.later, e]
      rfl) (fun _ _ => rfl) (fun _ _ => rfl)
    (fun v e => by
      constructor
      · rintro ⟨⟨w, s, f, i, c⟩, rfl, e1, e2, h1, ⟨e3, e4, h3, ⟨e5, e6, h5, ⟨e7, e8, h7, ⟨e9, e10, h9, h10, r5⟩, r4⟩, r3⟩, r2⟩, r1⟩
        have hw : c.isSome = w := by
          cases c with
          | none => exact h10.1.symm
          | some a => exact h10.1.symm
        subst hw
        exact ⟨e1, e2, h1, ⟨e3, e4, h3, ⟨e5, e6, h5, ⟨e7, e8, h7, ⟨e9, e10, h9, h10, r5⟩, r4⟩, r3⟩, r2⟩, r1⟩
      · intro h
        exact ⟨(v.config.isSome, v.shards, v.fees, (v.prevBlockSignatures, v.recoverCreateMsg, v.mintMsg), v.config), rfl, h⟩)

end Verif
