import Verif.BlockProps
import Verif.ShardDescr
import Verif.ShardState
/-
Blocks with the feature `tycho` (`models/block/mod.rs`, `models/block/block_extra.rs`, `models/block/block_proof.rs`,
`models/block/shard_hashes.rs`): what differs from `Verif.Block` and `Verif.ShardDescr`.
-/
set_option linter.unusedVariables false
set_option linter.unusedSimpArgs false
namespace Verif.Tycho

/-! ### Model -/

/-- The fixed fields of a header, with the milliseconds of the time. -/
structure MsHead where
  head : InfoHead
  ms : Nat

/-- `models/block/mod.rs:344-357` and `:390-409`: the fixed fields behind the tag; the milliseconds are in the newer form only. -/
def msHead (ms : Bool) : Tlb MsHead where
  ok a := Tlb.u32.ok a.head.version ∧ infoBits.ok a.head.bits ∧ Tlb.nz32.ok a.head.seqno ∧ Tlb.u32.ok a.head.vertSeqno ∧ Tlb.shardIdent.ok a.head.shard ∧
    Tlb.u32.ok a.head.genUtime ∧ (msField ms).ok a.ms ∧ Tlb.u64.ok a.head.startLt ∧ Tlb.u64.ok a.head.endLt ∧ Tlb.u32.ok a.head.genValidatorListHashShort ∧
    Tlb.u32.ok a.head.genCatchainSeqno ∧ Tlb.u32.ok a.head.minRefMcSeqno ∧ Tlb.u32.ok a.head.prevKeyBlockSeqno
  store a := Tlb.u32.store a.head.version >>= fun _ => infoBits.store a.head.bits >>= fun _ => Tlb.nz32.store a.head.seqno >>= fun _ =>
    Tlb.u32.store a.head.vertSeqno >>= fun _ => Tlb.shardIdent.store a.head.shard >>= fun _ => Tlb.u32.store a.head.genUtime >>= fun _ =>
    (msField ms).store a.ms >>= fun _ => Tlb.u64.store a.head.startLt >>= fun _ => Tlb.u64.store a.head.endLt >>= fun _ =>
    Tlb.u32.store a.head.genValidatorListHashShort >>= fun _ => Tlb.u32.store a.head.genCatchainSeqno >>= fun _ =>
    Tlb.u32.store a.head.minRefMcSeqno >>= fun _ => Tlb.u32.store a.head.prevKeyBlockSeqno
  load :=
    Tlb.u32.load >>= fun version => infoBits.load >>= fun bits => Tlb.nz32.load >>= fun seqno => Tlb.u32.load >>= fun vertSeqno =>
    Tlb.shardIdent.load >>= fun shard => Tlb.u32.load >>= fun genUtime => (msField ms).load >>= fun ms => Tlb.u64.load >>= fun startLt =>
    Tlb.u64.load >>= fun endLt => Tlb.u32.load >>= fun genValidatorListHashShort => Tlb.u32.load >>= fun genCatchainSeqno =>
    Tlb.u32.load >>= fun minRefMcSeqno => Tlb.u32.load >>= fun prevKeyBlockSeqno =>
    pure ⟨⟨version, bits, seqno, vertSeqno, shard, genUtime, startLt, endLt, genValidatorListHashShort, genCatchainSeqno, minRefMcSeqno, prevKeyBlockSeqno⟩, ms⟩
  R a := Tlb.u32.R a.head.version ⬝ infoBits.R a.head.bits ⬝ Tlb.nz32.R a.head.seqno ⬝ Tlb.u32.R a.head.vertSeqno ⬝ Tlb.shardIdent.R a.head.shard ⬝
    Tlb.u32.R a.head.genUtime ⬝ (msField ms).R a.ms ⬝ Tlb.u64.R a.head.startLt ⬝ Tlb.u64.R a.head.endLt ⬝ Tlb.u32.R a.head.genValidatorListHashShort ⬝
    Tlb.u32.R a.head.genCatchainSeqno ⬝ Tlb.u32.R a.head.minRefMcSeqno ⬝ Tlb.u32.R a.head.prevKeyBlockSeqno
  enc a := Tlb.u32.enc a.head.version ++ (infoBits.enc a.head.bits ++ (Tlb.nz32.enc a.head.seqno ++ (Tlb.u32.enc a.head.vertSeqno ++
    (Tlb.shardIdent.enc a.head.shard ++ (Tlb.u32.enc a.head.genUtime ++ ((msField ms).enc a.ms ++ (Tlb.u64.enc a.head.startLt ++
    (Tlb.u64.enc a.head.endLt ++ (Tlb.u32.enc a.head.genValidatorListHashShort ++ (Tlb.u32.enc a.head.genCatchainSeqno ++
    (Tlb.u32.enc a.head.minRefMcSeqno ++ (Tlb.u32.enc a.head.prevKeyBlockSeqno))))))))))))

/-- `models/block/mod.rs:177-231` `BlockInfo` with `gen_utime_ms`; the other fields are those of `Verif.BlockInfo`. -/
structure BlockInfo where
  info : Verif.BlockInfo
  genUtimeMs : Nat

namespace BlockInfo

/-- `models/block/mod.rs:324-375` `Store`, with the tag `TAG_V2` -/
def store (v : BlockInfo) : Wr Cell Unit :=
  Wr.u32 0x9bc7a988 >>= fun _ => (msHead true).store ⟨v.info.head, v.genUtimeMs⟩ >>= fun _ =>
  (if BlockInfo.withSoftware v.info.flags then globalVersion.store v.info.genSoftware else pure ()) >>= fun _ =>
  BlockInfo.storeRef v.info.masterRef >>= fun _ => Wr.ref v.info.prevRef >>= fun _ => BlockInfo.storeRef v.info.prevVertRef

/-- `models/block/mod.rs:390-460`, behind the tag. -/
def loadBody (ms : Bool) : Rd Cell BlockInfo :=
  (msHead ms).load >>= fun h => BlockInfo.loadSoftware h.head.bits.flags >>= fun software => BlockInfo.loadRef h.head.bits.master >>= fun masterRef =>
  Rd.ref >>= fun prevRef => BlockInfo.loadRef h.head.bits.vert >>= fun prevVertRef =>
  Prog.check (BlockInfo.vertOk h.head.vertSeqno prevVertRef) .invalidData >>= fun _ =>
  pure ⟨Verif.BlockInfo.make h.head software masterRef prevRef prevVertRef, h.ms⟩

/-- `models/block/mod.rs:377-460` `Load`: both forms are read. -/
def load : Rd Cell BlockInfo :=
  Rd.u32 >>= fun t => if t = 0x9bc7a987 then loadBody false else if t = 0x9bc7a988 then loadBody true else Prog.fail .invalidTag

/-- All the parts behind the tag. -/
def parts (ms : Bool) : Tlb (MsHead × BlockInfo.Tail) :=
  ((msHead ms).dep fun h => BlockInfo.tail h.head).guarded fun p => BlockInfo.vertOk p.1.head.vertSeqno p.2.2.2.2

/-- The parts of a header. -/
def split (v : BlockInfo) : MsHead × BlockInfo.Tail := (⟨v.info.head, v.genUtimeMs⟩, v.info.split.2)

/-- The header of the parts. -/
def join (p : MsHead × BlockInfo.Tail) : BlockInfo := ⟨Verif.BlockInfo.join (p.1.head, p.2), p.1.ms⟩

/-- A header behind its tag. -/
def body (ms : Bool) : Tlb BlockInfo where
  ok v := (parts ms).ok v.split ∧ v.info.Reports
  store v := (parts ms).store v.split
  load := loadBody ms
  R v e := (parts ms).R v.split e ∧ v.info.Reports
  enc v := (parts ms).enc v.split

end BlockInfo

/-- `models/block/mod.rs:324-460` -/
def blockInfo : Tlb BlockInfo where
  ok v := (BlockInfo.body true).ok v
  store := BlockInfo.store
  load := BlockInfo.load
  R v e := (Enc.Lit (natBits 32 0x9bc7a987) ⬝ (BlockInfo.body false).R v) e ∨ (Enc.Lit (natBits 32 0x9bc7a988) ⬝ (BlockInfo.body true).R v) e
  enc v := Enc.bits (natBits 32 0x9bc7a988) ++ (BlockInfo.body true).enc v

/-- `models/block/block_extra.rs:83-88`, `105-121`: `BlockExtra` behind its tag. -/
def extraBody : Tlb BlockExtra where
  ok a := (Tlb.lazy false).ok a.inMsgDescription ∧ (Tlb.lazy false).ok a.outMsgDescription ∧ (Tlb.lazy false).ok a.accountBlocks ∧ Tlb.hash.ok a.randSeed ∧
    Tlb.hash.ok a.createdBy ∧ ((Tlb.lazy false).opt).ok a.custom
  store a := (Tlb.lazy false).store a.inMsgDescription >>= fun _ => (Tlb.lazy false).store a.outMsgDescription >>= fun _ =>
    (Tlb.lazy false).store a.accountBlocks >>= fun _ => Tlb.hash.store a.randSeed >>= fun _ => Tlb.hash.store a.createdBy >>= fun _ =>
    ((Tlb.lazy false).opt).store a.custom
  load :=
    (Tlb.lazy false).load >>= fun inMsgDescription => (Tlb.lazy false).load >>= fun outMsgDescription => (Tlb.lazy false).load >>= fun accountBlocks =>
    Tlb.hash.load >>= fun randSeed => Tlb.hash.load >>= fun createdBy => ((Tlb.lazy false).opt).load >>= fun custom =>
    pure ⟨inMsgDescription, outMsgDescription, accountBlocks, randSeed, createdBy, custom⟩
  R a := (Tlb.lazy false).R a.inMsgDescription ⬝ (Tlb.lazy false).R a.outMsgDescription ⬝ (Tlb.lazy false).R a.accountBlocks ⬝ Tlb.hash.R a.randSeed ⬝
    Tlb.hash.R a.createdBy ⬝ ((Tlb.lazy false).opt).R a.custom
  enc a := (Tlb.lazy false).enc a.inMsgDescription ++ ((Tlb.lazy false).enc a.outMsgDescription ++ ((Tlb.lazy false).enc a.accountBlocks ++
    (Tlb.hash.enc a.randSeed ++ (Tlb.hash.enc a.createdBy ++ (((Tlb.lazy false).opt).enc a.custom)))))

/-- `models/block/block_extra.rs:72-122`: stored with the tag `TAG_V2`, both tags are read. -/
def blockExtra : Tlb BlockExtra where
  ok v := extraBody.ok v
  store v := Wr.u32 0x4a33f6fc >>= fun _ => extraBody.store v
  load := Rd.u32 >>= fun t => Prog.check (!(decide (t ≠ 0x4a33f6fd) && decide (t ≠ 0x4a33f6fc))) .invalidTag >>= fun _ => extraBody.load
  R v e := (Enc.Lit (natBits 32 0x4a33f6fd) ⬝ extraBody.R v) e ∨ (Enc.Lit (natBits 32 0x4a33f6fc) ⬝ extraBody.R v) e
  enc v := Enc.bits (natBits 32 0x4a33f6fc) ++ extraBody.enc v

/-- `models/block/block_proof.rs:75-92` `BlockSignatures` with `consensus_info` -/
structure BlockSignatures where
  validatorInfo : ValidatorBase
  consensusInfo : ConsensusInfo
  signatureCount : Nat
  totalWeight : Nat
  signatures : Option Cell

/-- `BlockSignatures` derives `Store` and `Load`. -/
def blockSignatures : Tlb BlockSignatures where
  ok a := validatorBase.ok a.validatorInfo ∧ consensusInfo.ok a.consensusInfo ∧ Tlb.u32.ok a.signatureCount ∧ Tlb.u64.ok a.totalWeight ∧ Tlb.dict.ok a.signatures
  store a := Wr.u8 0x12 >>= fun _ => validatorBase.store a.validatorInfo >>= fun _ => consensusInfo.store a.consensusInfo >>= fun _ =>
    Tlb.u32.store a.signatureCount >>= fun _ => Tlb.u64.store a.totalWeight >>= fun _ => Tlb.dict.store a.signatures
  load :=
    Rd.u8 >>= fun u => Prog.check (decide (u = 0x12)) .invalidTag >>= fun _ =>
    validatorBase.load >>= fun validatorInfo => consensusInfo.load >>= fun consensusInfo => Tlb.u32.load >>= fun signatureCount =>
    Tlb.u64.load >>= fun totalWeight => Tlb.dict.load >>= fun signatures =>
    pure ⟨validatorInfo, consensusInfo, signatureCount, totalWeight, signatures⟩
  R a := Enc.Lit (natBits 8 0x12) ⬝ validatorBase.R a.validatorInfo ⬝ consensusInfo.R a.consensusInfo ⬝ Tlb.u32.R a.signatureCount ⬝
    Tlb.u64.R a.totalWeight ⬝ Tlb.dict.R a.signatures
  enc a := Enc.bits (natBits 8 0x12) ++ (validatorBase.enc a.validatorInfo ++ (consensusInfo.enc a.consensusInfo ++ (Tlb.u32.enc a.signatureCount ++
    (Tlb.u64.enc a.totalWeight ++ (Tlb.dict.enc a.signatures)))))

/-- `models/block/block_proof.rs:9-18` `BlockProof` -/
structure BlockProof where
  proofFor : ShardIdent.BlockId
  root : Cell
  signatures : Option BlockSignatures

/-- `models/block/block_proof.rs:24-73` `Store`, `Load` -/
def blockProof (acc : Cell → Bool) : Tlb BlockProof where
  ok v := Tlb.blockId.ok v.proofFor ∧ (blockSignatures.child acc).opt.ok v.signatures
  store v := Tlb.builtOpt acc blockSignatures.store v.signatures >>= fun c =>
    Wr.u8 0xc3 >>= fun _ => Tlb.blockId.store v.proofFor >>= fun _ => Wr.ref v.root >>= fun _ => Tlb.cell.opt.store c
  load := Rd.u8 >>= fun t => Prog.check (decide (t = 0xc3)) .invalidTag >>= fun _ => Tlb.blockId.load >>= fun proofFor => Rd.ref >>= fun root =>
    (Tlb.cell.opt.load >>= Tlb.parseOpt blockSignatures.load) >>= fun signatures => pure ⟨proofFor, root, signatures⟩
  R v := Enc.Lit (natBits 8 0xc3) ⬝ Tlb.blockId.R v.proofFor ⬝ Tlb.cell.R v.root ⬝ (blockSignatures.child acc).opt.R v.signatures
  enc v := Enc.bits (natBits 8 0xc3) ++ (Tlb.blockId.enc v.proofFor ++ (Enc.ref v.root ++ (blockSignatures.child acc).opt.enc v.signatures))

/-- `models/block/mod.rs:714-725` `OutMsgQueueUpdates` -/
structure QueueUpdates where
  diffHash : List Byte
  tailLen : Nat

/-- `OutMsgQueueUpdates` derives `Store` and `Load`. -/
def queueUpdates : Tlb QueueUpdates where
  ok a := Tlb.hash.ok a.diffHash ∧ Tlb.u32.ok a.tailLen
  store a := Wr.small 1 4 >>= fun _ => Tlb.hash.store a.diffHash >>= fun _ => Tlb.u32.store a.tailLen
  load := Rd.small 4 >>= fun u => Prog.check (decide (u = 1)) .invalidTag >>= fun _ => Tlb.hash.load >>= fun diffHash => Tlb.u32.load >>= fun tailLen =>
    pure ⟨diffHash, tailLen⟩
  R a := Enc.Lit (natBits 4 1) ⬝ Tlb.hash.R a.diffHash ⬝ Tlb.u32.R a.tailLen
  enc a := Enc.bits (natBits 4 1) ++ (Tlb.hash.enc a.diffHash ++ Tlb.u32.enc a.tailLen)

/-- `models/block/mod.rs:29-47` `Block` -/
structure Block where
  globalId : Int
  info : Cell
  valueFlow : Cell
  stateUpdate : Cell
  outMsgQueueUpdates : QueueUpdates
  extra : Cell

/-- `models/block/mod.rs:113-119`, `157-161`: the cell with the updates. -/
def updates : Tlb (Cell × QueueUpdates) := (Tlb.lazy true).pair queueUpdates

/-- `models/block/mod.rs:87-173` `Store`, `Load`: always with the tag `TAG_V2`. -/
def block (acc : Cell → Bool) : Tlb Block where
  ok v := Tlb.i32.ok v.globalId ∧ (Tlb.lazy false).ok v.info ∧ (Tlb.lazy false).ok v.valueFlow ∧ (updates.child acc).ok (v.stateUpdate, v.outMsgQueueUpdates) ∧
    (Tlb.lazy false).ok v.extra
  store v := Wr.u32 0x11ef55bb >>= fun _ => Tlb.i32.store v.globalId >>= fun _ => (Tlb.lazy false).store v.info >>= fun _ =>
    (Tlb.lazy false).store v.valueFlow >>= fun _ => (updates.child acc).store (v.stateUpdate, v.outMsgQueueUpdates) >>= fun _ => (Tlb.lazy false).store v.extra
  load := Rd.u32 >>= fun t => Prog.check (decide (t = 0x11ef55bb)) .invalidTag >>= fun _ => Tlb.i32.load >>= fun globalId =>
    (Tlb.lazy false).load >>= fun info => (Tlb.lazy false).load >>= fun valueFlow => (updates.child acc).load >>= fun u => (Tlb.lazy false).load >>= fun extra =>
    pure ⟨globalId, info, valueFlow, u.1, u.2, extra⟩
  R v := Enc.Lit (natBits 32 0x11ef55bb) ⬝ Tlb.i32.R v.globalId ⬝ (Tlb.lazy false).R v.info ⬝ (Tlb.lazy false).R v.valueFlow ⬝
    (updates.child acc).R (v.stateUpdate, v.outMsgQueueUpdates) ⬝ (Tlb.lazy false).R v.extra
  enc v := Enc.bits (natBits 32 0x11ef55bb) ++ (Tlb.i32.enc v.globalId ++ ((Tlb.lazy false).enc v.info ++ ((Tlb.lazy false).enc v.valueFlow ++
    ((updates.child acc).enc (v.stateUpdate, v.outMsgQueueUpdates) ++ (Tlb.lazy false).enc v.extra))))

/-- `models/block/shard_hashes.rs:425-455`, the flags of `ShardDescription`. -/
structure ShardFlags where
  beforeSplit : Bool
  beforeMerge : Bool
  wantSplit : Bool
  wantMerge : Bool
  nxCcUpdated : Bool
  topScBlockUpdated : Bool
  deriving DecidableEq, Repr

/-- `models/block/shard_hashes.rs:487-493` -/
def ShardFlags.byte (f : ShardFlags) : Nat :=
  (f.beforeSplit.toNat <<< 7) ||| (f.beforeMerge.toNat <<< 6) ||| (f.wantSplit.toNat <<< 5) ||| (f.wantMerge.toNat <<< 4) ||| (f.nxCcUpdated.toNat <<< 3) |||
    (f.topScBlockUpdated.toNat <<< 2)

/-- `models/block/shard_hashes.rs:574-580` -/
def ShardFlags.ofByte (v : Nat) : ShardFlags :=
  ⟨decide (v &&& 0x80 ≠ 0), decide (v &&& 0x40 ≠ 0), decide (v &&& 0x20 ≠ 0), decide (v &&& 0x10 ≠ 0), decide (v &&& 8 ≠ 0), decide (v &&& 4 ≠ 0)⟩

/-- `models/block/shard_hashes.rs:502`, `539-542` -/
def shardFlags : Tlb ShardFlags where
  ok _ := True
  store f := Wr.u8 f.byte
  load := Rd.u8 >>= fun v => Prog.check (decide (v &&& 3 = 0)) .invalidData >>= fun _ => pure (ShardFlags.ofByte v)
  R f e := e = Enc.bits [f.beforeSplit, f.beforeMerge, f.wantSplit, f.wantMerge, f.nxCcUpdated, f.topScBlockUpdated, false, false]
  enc f := Enc.bits [f.beforeSplit, f.beforeMerge, f.wantSplit, f.wantMerge, f.nxCcUpdated, f.topScBlockUpdated, false, false]

/-- `models/block/shard_hashes.rs:417-462` the fields of `ShardDescription` up to `split_merge_at`. -/
structure ShardTip where
  seqno : Nat
  regMcSeqno : Nat
  startLt : Nat
  endLt : Nat
  rootHash : List Byte
  fileHash : List Byte
  flags : ShardFlags
  nextCatchainSeqno : Nat
  extProcessedToAnchorId : Nat
  minRefMcSeqno : Nat
  genUtime : Nat
  splitMergeAt : Option FutureSplitMerge
  deriving DecidableEq, Repr

/-- `ShardTip` is written and read as in `models/block/shard_hashes.rs:496-510` and `:532-551`. -/
def shardTip : Tlb ShardTip where
  ok a := Tlb.u32.ok a.seqno ∧ Tlb.u32.ok a.regMcSeqno ∧ Tlb.u64.ok a.startLt ∧ Tlb.u64.ok a.endLt ∧ Tlb.hash.ok a.rootHash ∧ Tlb.hash.ok a.fileHash ∧
    shardFlags.ok a.flags ∧ Tlb.u32.ok a.nextCatchainSeqno ∧ Tlb.u32.ok a.extProcessedToAnchorId ∧ Tlb.u32.ok a.minRefMcSeqno ∧ Tlb.u32.ok a.genUtime ∧
    futureSplitMerge.opt.ok a.splitMergeAt
  store a := Tlb.u32.store a.seqno >>= fun _ => Tlb.u32.store a.regMcSeqno >>= fun _ => Tlb.u64.store a.startLt >>= fun _ => Tlb.u64.store a.endLt >>= fun _ =>
    Tlb.hash.store a.rootHash >>= fun _ => Tlb.hash.store a.fileHash >>= fun _ => shardFlags.store a.flags >>= fun _ =>
    Tlb.u32.store a.nextCatchainSeqno >>= fun _ => Tlb.u32.store a.extProcessedToAnchorId >>= fun _ => Tlb.u32.store a.minRefMcSeqno >>= fun _ =>
    Tlb.u32.store a.genUtime >>= fun _ => futureSplitMerge.opt.store a.splitMergeAt
  load :=
    Tlb.u32.load >>= fun seqno => Tlb.u32.load >>= fun regMcSeqno => Tlb.u64.load >>= fun startLt => Tlb.u64.load >>= fun endLt =>
    Tlb.hash.load >>= fun rootHash => Tlb.hash.load >>= fun fileHash => shardFlags.load >>= fun flags => Tlb.u32.load >>= fun nextCatchainSeqno =>
    Tlb.u32.load >>= fun extProcessedToAnchorId => Tlb.u32.load >>= fun minRefMcSeqno => Tlb.u32.load >>= fun genUtime =>
    futureSplitMerge.opt.load >>= fun splitMergeAt =>
    pure ⟨seqno, regMcSeqno, startLt, endLt, rootHash, fileHash, flags, nextCatchainSeqno, extProcessedToAnchorId, minRefMcSeqno, genUtime, splitMergeAt⟩
  R a := Tlb.u32.R a.seqno ⬝ Tlb.u32.R a.regMcSeqno ⬝ Tlb.u64.R a.startLt ⬝ Tlb.u64.R a.endLt ⬝ Tlb.hash.R a.rootHash ⬝ Tlb.hash.R a.fileHash ⬝
    shardFlags.R a.flags ⬝ Tlb.u32.R a.nextCatchainSeqno ⬝ Tlb.u32.R a.extProcessedToAnchorId ⬝ Tlb.u32.R a.minRefMcSeqno ⬝ Tlb.u32.R a.genUtime ⬝
    futureSplitMerge.opt.R a.splitMergeAt
  enc a := Tlb.u32.enc a.seqno ++ (Tlb.u32.enc a.regMcSeqno ++ (Tlb.u64.enc a.startLt ++ (Tlb.u64.enc a.endLt ++ (Tlb.hash.enc a.rootHash ++
    (Tlb.hash.enc a.fileHash ++ (shardFlags.enc a.flags ++ (Tlb.u32.enc a.nextCatchainSeqno ++ (Tlb.u32.enc a.extProcessedToAnchorId ++
    (Tlb.u32.enc a.minRefMcSeqno ++ (Tlb.u32.enc a.genUtime ++ (futureSplitMerge.opt.enc a.splitMergeAt)))))))))))

/-- `models/block/shard_hashes.rs:417-462` `ShardDescription`; the fields before the currencies are grouped in `tip`. -/
structure ShardDescription where
  tip : ShardTip
  feesCollected : Currency
  fundsCreated : Currency

/-- `models/block/shard_hashes.rs:481-521` `Store`, `523-593` `Load`: with the tag `0xb` the currencies follow in the same cell. -/
def shardDescription (acc : Cell → Bool) : Tlb ShardDescription where
  ok d := shardTip.ok d.tip ∧ (shardFunds.child acc).ok (d.feesCollected, d.fundsCreated)
  store d := Wr.small 0xa 4 >>= fun _ => shardTip.store d.tip >>= fun _ => (shardFunds.child acc).store (d.feesCollected, d.fundsCreated)
  load := Rd.small 4 >>= fun t =>
    if t = 0xa then shardTip.load >>= fun tip => (shardFunds.child acc).load >>= fun c => pure ⟨tip, c.1, c.2⟩
    else if t = 0xb then shardTip.load >>= fun tip => shardFunds.load >>= fun c => pure ⟨tip, c.1, c.2⟩
    else Prog.fail .invalidTag
  R d e := (Enc.Lit (natBits 4 0xa) ⬝ shardTip.R d.tip ⬝ (shardFunds.child acc).R (d.feesCollected, d.fundsCreated)) e ∨
    (Enc.Lit (natBits 4 0xb) ⬝ shardTip.R d.tip ⬝ shardFunds.R (d.feesCollected, d.fundsCreated)) e
  enc d := Enc.bits (natBits 4 0xa) ++ (shardTip.enc d.tip ++ (shardFunds.child acc).enc (d.feesCollected, d.fundsCreated))

/-! ### Soundness of the parts -/

theorem msHead_sound (ms : Bool) : (msHead ms).Sound :=
  (Tlb.u32_sound.pair (infoBits_sound.pair (Tlb.nz32_sound.pair (Tlb.u32_sound.pair (Tlb.shardIdent_sound.pair (Tlb.u32_sound.pair ((msField_sound ms).pair (Tlb.u64_sound.pair (Tlb.u64_sound.pair (Tlb.u32_sound.pair (Tlb.u32_sound.pair (Tlb.u32_sound.pair Tlb.u32_sound)))))))))))).struct (fun p => ⟨⟨p.1, p.2.1, p.2.2.1, p.2.2.2.1, p.2.2.2.2.1, p.2.2.2.2.2.1, p.2.2.2.2.2.2.2.1, p.2.2.2.2.2.2.2.2.1, p.2.2.2.2.2.2.2.2.2.1, p.2.2.2.2.2.2.2.2.2.2.1, p.2.2.2.2.2.2.2.2.2.2.2.1, p.2.2.2.2.2.2.2.2.2.2.2.2⟩, p.2.2.2.2.2.2.1⟩)
    (fun a => (a.head.version, a.head.bits, a.head.seqno, a.head.vertSeqno, a.head.shard, a.head.genUtime, a.ms, a.head.startLt, a.head.endLt, a.head.genValidatorListHashShort, a.head.genCatchainSeqno, a.head.minRefMcSeqno, a.head.prevKeyBlockSeqno))
    (fun _ => rfl) (fun _ => rfl) (by unfold msHead; tlb_more) (fun _ h => h) (fun _ _ => rfl) (fun _ _ => Iff.rfl) (fun _ _ => rfl)

namespace BlockInfo

theorem parts_sound (ms : Bool) : (parts ms).Sound :=
  ((msHead_sound ms).dep fun h => (globalVersion_sound.cond _).pair (((Tlb.lazy_sound false).cond _).pair (Tlb.cell_sound.pair ((Tlb.lazy_sound false).cond _)))).guarded _

theorem split_join {ms : Bool} {p : MsHead × BlockInfo.Tail} {e : Enc Cell} (h : (parts ms).R p e) : split (join p) = p ∧ (join p).info.Reports := by
  obtain ⟨⟨⟨ver, ⟨m, am, bs, as, ws, wm, kb, vt, fl⟩, seq, vs, sh, gu, sl, el, gv, gc, mr, pk⟩, mil⟩, s, mref, pref, pv⟩ := p
  obtain ⟨⟨e1, e2, h1, ⟨e3, e4, hs, ⟨e5, e6, hm, ⟨e7, e8, hp, hv, _⟩, _⟩, _⟩, _⟩, _⟩ := h
  have hs' : s.isSome = BlockInfo.withSoftware fl := by cases s with
    | none => exact hs.1.symm
    | some a => exact hs.1.symm
  have hm' : mref.isSome = m := by cases mref with
    | none => exact hm.1.symm
    | some a => exact hm.1.symm
  have hv' : pv.isSome = vt := by cases pv with
    | none => exact hv.1.symm
    | some a => exact hv.1.symm
  constructor
  · unfold split join Verif.BlockInfo.split Verif.BlockInfo.join Verif.BlockInfo.head Verif.BlockInfo.make
    dsimp only
    rw [hm', hv']
    cases s with
    | none => rw [if_neg (by rw [← hs']; decide)]
    | some a => have hs2 : BlockInfo.withSoftware fl = true := hs'.symm; rw [if_pos hs2]; rfl
  · intro hw
    have hw : BlockInfo.withSoftware fl = false := hw
    rw [hw] at hs'
    cases s with
    | none => rfl
    | some a => cases hs'

theorem join_split {v : BlockInfo} (h : v.info.Reports) : join (split v) = v := by
  have : join (split v) = ⟨Verif.BlockInfo.join v.info.split, v.genUtimeMs⟩ := rfl
  rw [this, Verif.BlockInfo.join_split h]

theorem load_parts (ms : Bool) : loadBody ms = (parts ms).load >>= fun p => pure (join p) := by
  unfold loadBody
  show _ = ((((msHead ms).load >>= fun a => (BlockInfo.tail a.head).load >>= fun b => pure (a, b)) >>= fun v =>
    Prog.check (BlockInfo.vertOk v.1.head.vertSeqno v.2.2.2.2) .invalidData >>= fun _ => pure v) >>= fun p => pure (join p))
  simp only [BlockInfo.tail, Tlb.pair, pairLoad, Prog.bind_assoc', Prog.pure_bind']
  congr 1
  funext h
  have hs : BlockInfo.loadSoftware h.head.bits.flags = (globalVersion.cond (BlockInfo.withSoftware h.head.bits.flags)).load >>= fun s => pure (s.getD BlockInfo.noSoftware) := by
    unfold BlockInfo.loadSoftware
    cases BlockInfo.withSoftware h.head.bits.flags with
    | true => rw [if_pos rfl]; simp only [Tlb.cond, Prog.bind_assoc', Prog.pure_bind', Option.getD_some]; exact (bind_pure' _).symm
    | false => rw [if_neg (by decide)]; rfl
  have hr : ∀ c, BlockInfo.loadRef c = ((Tlb.lazy false).cond c).load := by
    intro c
    unfold BlockInfo.loadRef
    cases c <;> rfl
  rw [hs, hr, hr]
  simp only [Prog.bind_assoc', Prog.pure_bind']
  rfl

theorem body_sound (ms : Bool) : (body ms).Sound :=
  (parts_sound ms).structOn join split (load_parts ms) (fun _ h => h.1) (fun v _ => rfl) (fun _ _ => rfl)
    (fun _ h => join_split h.2)
    (fun v e => ⟨by rintro ⟨p, rfl, h⟩; obtain ⟨h1, h2⟩ := split_join h; exact ⟨by rw [h1]; exact h, h2⟩,
      fun h => ⟨_, (join_split h.2).symm, h.1⟩⟩)

theorem store_split (v : BlockInfo) : store v = Wr.u32 0x9bc7a988 >>= fun _ => (parts true).store v.split := by
  unfold store
  congr 1
  funext _
  show _ = (msHead true).store ⟨v.info.head, v.genUtimeMs⟩ >>= fun _ => (BlockInfo.tail v.info.head).store v.info.split.2
  congr 1
  funext _
  unfold BlockInfo.tail Verif.BlockInfo.split
  simp only [Tlb.pair, pairStore]
  rw [Verif.BlockInfo.storeRef_cond v.info.head.bits.master, Verif.BlockInfo.storeRef_cond v.info.head.bits.vert]
  by_cases hw : BlockInfo.withSoftware v.info.flags = true
  · rw [if_pos hw, if_pos hw]; rfl
  · rw [if_neg hw, if_neg hw]; rfl

end BlockInfo

theorem blockInfo_sound : blockInfo.Sound where
  st := ⟨fun v h => by
      show Writes (BlockInfo.store v) _
      rw [BlockInfo.store_split]
      exact (Wr.writes_u32 (by decide)).writes.seq ((BlockInfo.body_sound true).st.writes v h),
    fun v h => .inr ⟨_, _, rfl, (BlockInfo.body_sound true).st.canon v h, rfl⟩⟩
  ld := Loads.twoTags (Rd.takes_u32 (ρ := Cell)) (by decide) (by decide) (by decide) (BlockInfo.body_sound false).ld (BlockInfo.body_sound true).ld

theorem extraBody_sound : extraBody.Sound :=
  ((Tlb.lazy_sound false).pair ((Tlb.lazy_sound false).pair ((Tlb.lazy_sound false).pair (Tlb.hash_sound.pair (Tlb.hash_sound.pair (Tlb.lazy_sound false).opt))))).struct
    (fun p => ⟨p.1, p.2.1, p.2.2.1, p.2.2.2.1, p.2.2.2.2.1, p.2.2.2.2.2⟩) (fun a => (a.inMsgDescription, a.outMsgDescription, a.accountBlocks, a.randSeed, a.createdBy, a.custom))
    (fun _ => rfl) (fun _ => rfl) (by unfold extraBody; tlb_more) (fun _ h => h) (fun _ _ => rfl) (fun _ _ => Iff.rfl) (fun _ _ => rfl)

theorem extra_load : blockExtra.load =
    Rd.u32 >>= fun t => if t = 0x4a33f6fd then extraBody.load else if t = 0x4a33f6fc then extraBody.load else Prog.fail .invalidTag := by
  show (Rd.u32 >>= fun t => _) = _
  congr 1
  funext t
  by_cases h1 : t = 0x4a33f6fd
  · rw [if_pos h1, h1]; rfl
  · by_cases h2 : t = 0x4a33f6fc
    · rw [if_neg h1, if_pos h2, h2]; rfl
    · rw [if_neg h1, if_neg h2]
      have : (!(decide (t ≠ 0x4a33f6fd) && decide (t ≠ 0x4a33f6fc))) = false := by simp [h1, h2]
      rw [this]; rfl

theorem blockExtra_sound : blockExtra.Sound where
  st := ⟨fun v h => (Wr.writes_u32 (by decide)).writes.seq (extraBody_sound.st.writes v h), fun v h => .inr ⟨_, _, rfl, extraBody_sound.st.canon v h, rfl⟩⟩
  ld := by
    rw [extra_load]
    exact Loads.twoTags (Rd.takes_u32 (ρ := Cell)) (by decide) (by decide) (by decide) extraBody_sound.ld extraBody_sound.ld

theorem blockSignatures_sound : blockSignatures.Sound :=
  ((validatorBase_sound.pair (consensusInfo_sound.pair (Tlb.u32_sound.pair (Tlb.u64_sound.pair Tlb.dict_sound)))).tagged (n := 8) (t := 0x12) (by unfold Tlb.TagWidth; omega) (by decide)).struct
    (fun p => ⟨p.1, p.2.1, p.2.2.1, p.2.2.2.1, p.2.2.2.2⟩) (fun a => (a.validatorInfo, a.consensusInfo, a.signatureCount, a.totalWeight, a.signatures))
    (fun _ => rfl) (fun _ => rfl) (by unfold blockSignatures; tlb_more) (fun _ h => h) (fun _ _ => rfl) (fun _ _ => Iff.rfl) (fun _ _ => rfl)

theorem blockProof_sound (acc : Cell → Bool) : (blockProof acc).Sound :=
  ((Tlb.blockId_sound.pair (Tlb.cell_sound.pair (blockSignatures_sound.optCell acc))).tagged (n := 8) (t := 0xc3) (by unfold Tlb.TagWidth; omega) (by decide)).structOn
    (fun p => ⟨p.1, p.2.1, p.2.2⟩) (fun v => (v.proofFor, v.root, v.signatures)) (by unfold blockProof Tlb.optCell; dsimp only; tlb_more; rfl) (fun v h => ⟨h.1, trivial, h.2⟩)
    (fun v h => by
      show (Tlb.builtOpt acc blockSignatures.store v.signatures >>= fun c =>
        Wr.u8 0xc3 >>= fun _ => Tlb.blockId.store v.proofFor >>= fun _ => Wr.ref v.root >>= fun _ => Tlb.cell.opt.store c) = _
      rw [blockSignatures_sound.builtOpt h.2]
      rfl) (fun _ _ => rfl) (fun _ _ => rfl)
    (fun v e => ⟨by rintro ⟨p, rfl, h⟩; exact h, fun h => ⟨(v.proofFor, v.root, v.signatures), rfl, h⟩⟩)

theorem queueUpdates_sound : queueUpdates.Sound :=
  ((Tlb.hash_sound.pair Tlb.u32_sound).tagged (n := 4) (t := 1) (by unfold Tlb.TagWidth; omega) (by decide)).struct
    (fun p => ⟨p.1, p.2⟩) (fun a => (a.diffHash, a.tailLen))
    (fun _ => rfl) (fun _ => rfl) (by unfold queueUpdates; tlb_more) (fun _ h => h) (fun _ _ => rfl) (fun _ _ => Iff.rfl) (fun _ _ => rfl)

theorem updates_sound : updates.Sound := (Tlb.lazy_sound true).pair queueUpdates_sound

theorem block_sound (acc : Cell → Bool) : (block acc).Sound :=
  ((Tlb.i32_sound.pair ((Tlb.lazy_sound false).pair ((Tlb.lazy_sound false).pair ((updates_sound.child acc).pair (Tlb.lazy_sound false))))).tagged
    (n := 32) (t := 0x11ef55bb) (by unfold Tlb.TagWidth; omega) (by decide)).structOn
    (fun p => ⟨p.1, p.2.1, p.2.2.1, p.2.2.2.1.1, p.2.2.2.1.2, p.2.2.2.2⟩) (fun v => (v.globalId, v.info, v.valueFlow, (v.stateUpdate, v.outMsgQueueUpdates), v.extra))
    (by unfold block; tlb_more) (fun _ h => h) (fun _ _ => rfl) (fun _ _ => rfl) (fun _ _ => rfl)
    (fun v e => ⟨by rintro ⟨p, rfl, h⟩; exact h, fun h => ⟨(v.globalId, v.info, v.valueFlow, (v.stateUpdate, v.outMsgQueueUpdates), v.extra), rfl, h⟩⟩)

theorem flagBits : ∀ v, v < 2 ^ 8 → v &&& 3 = 0 → natBits 8 v = [(ShardFlags.ofByte v).beforeSplit, (ShardFlags.ofByte v).beforeMerge, (ShardFlags.ofByte v).wantSplit,
    (ShardFlags.ofByte v).wantMerge, (ShardFlags.ofByte v).nxCcUpdated, (ShardFlags.ofByte v).topScBlockUpdated, false, false] := by decide +kernel

theorem flagByte : ∀ a b c d e x : Bool, ShardFlags.byte ⟨a, b, c, d, e, x⟩ < 2 ^ 8 ∧ ShardFlags.byte ⟨a, b, c, d, e, x⟩ &&& 3 = 0 ∧
    natBits 8 (ShardFlags.byte ⟨a, b, c, d, e, x⟩) = [a, b, c, d, e, x, false, false] ∧
    ShardFlags.ofByte (ShardFlags.byte ⟨a, b, c, d, e, x⟩) = ⟨a, b, c, d, e, x⟩ := by decide +kernel

theorem flags_loads : Loads shardFlags.load (fun f e => ∃ v, f = ShardFlags.ofByte v ∧ (v < 2 ^ 8 ∧ e = Enc.bits (natBits 8 v)) ∧ decide (v &&& 3 = 0) = true) := by
  have h := ((Loads.ofTakes (Rd.takes_u8 (ρ := Cell))).check (fun v => decide (v &&& 3 = 0)) (x := .invalidData) (by decide) (by decide)).map ShardFlags.ofByte
  simp only [Prog.bind_assoc', Prog.pure_bind'] at h
  exact h

theorem shardFlags_sound : shardFlags.Sound where
  st := ⟨fun v _ => by
      obtain ⟨a, b, c, d, e, x⟩ := v
      have := (Wr.writes_u8 (ρ := Cell) (flagByte a b c d e x).1).writes
      rw [(flagByte a b c d e x).2.2.1] at this
      exact this, fun v _ => rfl⟩
  ld := flags_loads.iff fun f e => by
    constructor
    · rintro ⟨v, rfl, ⟨h, rfl⟩, h3⟩
      show Enc.bits (natBits 8 v) = Enc.bits _
      rw [flagBits v h (by simpa using h3)]
    · intro he
      obtain ⟨a, b, c, d, e', x⟩ := f
      obtain ⟨h1, h2, h3, h4⟩ := flagByte a b c d e' x
      exact ⟨_, h4.symm, ⟨h1, by rw [h3]; exact he⟩, by simpa using h2⟩

theorem shardTip_sound : shardTip.Sound :=
  (Tlb.u32_sound.pair (Tlb.u32_sound.pair (Tlb.u64_sound.pair (Tlb.u64_sound.pair (Tlb.hash_sound.pair (Tlb.hash_sound.pair (shardFlags_sound.pair (Tlb.u32_sound.pair (Tlb.u32_sound.pair (Tlb.u32_sound.pair (Tlb.u32_sound.pair futureSplitMerge_sound.opt))))))))))).struct (fun p => ⟨p.1, p.2.1, p.2.2.1, p.2.2.2.1, p.2.2.2.2.1, p.2.2.2.2.2.1, p.2.2.2.2.2.2.1, p.2.2.2.2.2.2.2.1, p.2.2.2.2.2.2.2.2.1, p.2.2.2.2.2.2.2.2.2.1, p.2.2.2.2.2.2.2.2.2.2.1, p.2.2.2.2.2.2.2.2.2.2.2⟩) (fun a => (a.seqno, a.regMcSeqno, a.startLt, a.endLt, a.rootHash, a.fileHash, a.flags, a.nextCatchainSeqno, a.extProcessedToAnchorId, a.minRefMcSeqno, a.genUtime, a.splitMergeAt))
    (fun _ => rfl) (fun _ => rfl) (by unfold shardTip; tlb_more) (fun _ h => h) (fun _ _ => rfl) (fun _ _ => Iff.rfl) (fun _ _ => rfl)

/-- Two parts, then a record of them. -/
theorem tip_then {lf : Rd Cell (Currency × Currency)} {Rf : Currency × Currency → Enc Cell → Prop} (hf : Loads lf Rf) :
    Loads (shardTip.load >>= fun tip => lf >>= fun c => pure (⟨tip, c.1, c.2⟩ : ShardDescription))
      (fun d => shardTip.R d.tip ⬝ Rf (d.feesCollected, d.fundsCreated)) :=
  (shardTip_sound.ld.bind (R := fun t d e => d.tip = t ∧ Rf (d.feesCollected, d.fundsCreated) e) (fun t _ _ => (hf.map fun c => (⟨t, c.1, c.2⟩ : ShardDescription)).iff fun d e =>
    ⟨by rintro ⟨c, rfl, h⟩; exact ⟨rfl, h⟩, by rintro ⟨rfl, h⟩; exact ⟨_, rfl, h⟩⟩)).iff fun d e =>
    ⟨by rintro ⟨t, e1, e2, h1, ⟨rfl, h2⟩, rfl⟩; exact ⟨e1, e2, h1, h2, rfl⟩, by rintro ⟨e1, e2, h1, h2, rfl⟩; exact ⟨_, e1, e2, h1, ⟨rfl, h2⟩, rfl⟩⟩

theorem shardDescription_sound (acc : Cell → Bool) : (shardDescription acc).Sound where
  st := ⟨fun d h => (Wr.writes_small 0xa (n := 4) (by decide)).writes.seq ((shardTip_sound.st.writes _ h.1).seq ((shardFunds_sound.child acc).st.writes _ h.2)),
    fun d h => Or.inl ⟨_, _, rfl, ⟨_, _, shardTip_sound.st.canon _ h.1, (shardFunds_sound.child acc).st.canon _ h.2, rfl⟩, rfl⟩⟩
  ld := Loads.twoTags (Rd.takes_small (n := 4) (by decide)) (by decide) (by decide) (by decide) (tip_then (shardFunds_sound.child acc).ld) (tip_then shardFunds_sound.ld)

end Verif.Tycho
