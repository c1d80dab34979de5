import Verif.AugRoot
/-
Shard states (`models/shard/mod.rs`, `models/shard/shard_extra.rs`). The feature `tycho` is a parameter where it changes the layout.
-/
set_option linter.unusedVariables false
set_option linter.unusedSimpArgs false
namespace Verif

/-! ### Model -/
/-- A Tlb whose values are images of those of another one. -/
def Tlb.image {α β : Type} (T : Tlb α) (f : α → β) (g : β → α) : Tlb β where
  ok v := T.ok (g v) ∧ f (g v) = v
  store v := T.store (g v)
  load := T.load >>= fun a => pure (f a)
  R v e := ∃ a, v = f a ∧ T.R a e
  enc v := T.enc (g v)

/-- A field that is not there, with the value zero. -/
def Tlb.absent : Tlb Nat where
  ok v := v = 0
  store _ := pure ()
  load := pure 0
  R v e := v = 0 ∧ e = Enc.nil
  enc _ := Enc.nil

/-- `models/shard/mod.rs:272-273`, `324-329`: the milliseconds of the time, in the newer form only. -/
def msField : Bool → Tlb Nat
  | true => Tlb.u16
  | false => Tlb.absent

/-- `models/shard/mod.rs:113-161` the fields of `ShardStateUnsplit` from `global_id` to `min_ref_mc_seqno`, here `StateHead` -/
structure StateHead where
  globalId : Int
  shard : ShardIdent
  seqno : Nat
  vertSeqno : Nat
  genUtime : Nat
  genUtimeMs : Nat
  genLt : Nat
  minRefMcSeqno : Nat

/-- `StateHead` is written and read as in `models/shard/mod.rs:266-278` and `:316-330`. -/
def stateHead (ms : Bool) : Tlb StateHead where
  ok a := Tlb.i32.ok a.globalId ∧ Tlb.shardIdent.ok a.shard ∧ Tlb.u32.ok a.seqno ∧ Tlb.u32.ok a.vertSeqno ∧ Tlb.u32.ok a.genUtime ∧ (msField ms).ok a.genUtimeMs ∧ Tlb.u64.ok a.genLt ∧ Tlb.u32.ok a.minRefMcSeqno
  store a := Tlb.i32.store a.globalId >>= fun _ => Tlb.shardIdent.store a.shard >>= fun _ => Tlb.u32.store a.seqno >>= fun _ => Tlb.u32.store a.vertSeqno >>= fun _ => Tlb.u32.store a.genUtime >>= fun _ => (msField ms).store a.genUtimeMs >>= fun _ => Tlb.u64.store a.genLt >>= fun _ => Tlb.u32.store a.minRefMcSeqno
  load :=
    Tlb.i32.load >>= fun globalId =>
    Tlb.shardIdent.load >>= fun shard =>
    Tlb.u32.load >>= fun seqno =>
    Tlb.u32.load >>= fun vertSeqno =>
    Tlb.u32.load >>= fun genUtime =>
    (msField ms).load >>= fun genUtimeMs =>
    Tlb.u64.load >>= fun genLt =>
    Tlb.u32.load >>= fun minRefMcSeqno =>
    pure ⟨globalId, shard, seqno, vertSeqno, genUtime, genUtimeMs, genLt, minRefMcSeqno⟩
  R a := Tlb.i32.R a.globalId ⬝ Tlb.shardIdent.R a.shard ⬝ Tlb.u32.R a.seqno ⬝ Tlb.u32.R a.vertSeqno ⬝ Tlb.u32.R a.genUtime ⬝ (msField ms).R a.genUtimeMs ⬝ Tlb.u64.R a.genLt ⬝ Tlb.u32.R a.minRefMcSeqno
  enc a := Tlb.i32.enc a.globalId ++ (Tlb.shardIdent.enc a.shard ++ (Tlb.u32.enc a.seqno ++ (Tlb.u32.enc a.vertSeqno ++ (Tlb.u32.enc a.genUtime ++ ((msField ms).enc a.genUtimeMs ++ (Tlb.u64.enc a.genLt ++ (Tlb.u32.enc a.minRefMcSeqno)))))))

/-- `models/shard/mod.rs:113-161` the fields of `ShardStateUnsplit` in the child cell, here `StateTotals` -/
structure StateTotals where
  overloadHistory : Nat
  underloadHistory : Nat
  totalBalance : Currency
  totalValidatorFees : Currency
  libraries : Option Cell
  masterRef : Option BlockRef

/-- `StateTotals` is written and read as in `models/shard/mod.rs:250-259` and `:333-338`. -/
def stateTotals : Tlb StateTotals where
  ok a := Tlb.u64.ok a.overloadHistory ∧ Tlb.u64.ok a.underloadHistory ∧ Tlb.currency.ok a.totalBalance ∧ Tlb.currency.ok a.totalValidatorFees ∧ Tlb.dict.ok a.libraries ∧ blockRef.opt.ok a.masterRef
  store a := Tlb.u64.store a.overloadHistory >>= fun _ => Tlb.u64.store a.underloadHistory >>= fun _ => Tlb.currency.store a.totalBalance >>= fun _ => Tlb.currency.store a.totalValidatorFees >>= fun _ => Tlb.dict.store a.libraries >>= fun _ => blockRef.opt.store a.masterRef
  load :=
    Tlb.u64.load >>= fun overloadHistory =>
    Tlb.u64.load >>= fun underloadHistory =>
    Tlb.currency.load >>= fun totalBalance =>
    Tlb.currency.load >>= fun totalValidatorFees =>
    Tlb.dict.load >>= fun libraries =>
    blockRef.opt.load >>= fun masterRef =>
    pure ⟨overloadHistory, underloadHistory, totalBalance, totalValidatorFees, libraries, masterRef⟩
  R a := Tlb.u64.R a.overloadHistory ⬝ Tlb.u64.R a.underloadHistory ⬝ Tlb.currency.R a.totalBalance ⬝ Tlb.currency.R a.totalValidatorFees ⬝ Tlb.dict.R a.libraries ⬝ blockRef.opt.R a.masterRef
  enc a := Tlb.u64.enc a.overloadHistory ++ (Tlb.u64.enc a.underloadHistory ++ (Tlb.currency.enc a.totalBalance ++ (Tlb.currency.enc a.totalValidatorFees ++ (Tlb.dict.enc a.libraries ++ (blockRef.opt.enc a.masterRef)))))

/-- `models/shard/mod.rs:113-161` `ShardStateUnsplit`; the fields are grouped as they are stored. `queue` is `out_msg_queue_info`, or `processed_upto` with `tycho`. -/
structure ShardStateUnsplit where
  head : StateHead
  queue : Cell
  beforeSplit : Bool
  accounts : Cell
  totals : StateTotals
  custom : Option Cell

namespace ShardStateUnsplit

/-- The first reference: any cell, or a lazily loaded value. -/
def queueTlb : Bool → Tlb Cell
  | true => Tlb.lazy false
  | false => Tlb.cell

/-- `models/shard/mod.rs:266-286` behind the tag, `child` is built before. -/
def storeBody (tycho ms : Bool) (child : Cell) (v : ShardStateUnsplit) : Wr Cell Unit :=
  (stateHead ms).store v.head >>= fun _ => (queueTlb tycho).store v.queue >>= fun _ => Wr.bit v.beforeSplit >>= fun _ =>
  Wr.ref v.accounts >>= fun _ => Wr.ref child >>= fun _ => (Tlb.lazy false).opt.store v.custom

/-- `models/shard/mod.rs:304-346` behind the tag. -/
def loadBody (tycho ms : Bool) : Rd Cell ShardStateUnsplit :=
  (queueTlb tycho).load >>= fun queue => (Tlb.lazy false).load >>= fun accounts => Tlb.childSlice >>= fun t =>
  (stateHead ms).load >>= fun head => Rd.bit >>= fun beforeSplit => Tlb.within stateTotals.load t >>= fun totals =>
  (Tlb.lazy false).opt.load >>= fun custom => pure ⟨head, queue, beforeSplit, accounts, totals, custom⟩

/-- `models/shard/mod.rs:244-289` `Store` -/
def store (tycho : Bool) (acc : Cell → Bool) (v : ShardStateUnsplit) : Wr Cell Unit :=
  Tlb.built acc (stateTotals.store v.totals) >>= fun child => Wr.u32 (if tycho then 0x9023aeee else 0x9023afe2) >>= fun _ => storeBody tycho tycho child v

/-- `models/shard/mod.rs:291-347` `Load`: with `tycho` the older form is read also. -/
def load (tycho : Bool) : Rd Cell ShardStateUnsplit :=
  Rd.u32 >>= fun t => if t = 0x9023afe2 then loadBody tycho false else if t = 0x9023aeee then (if tycho then loadBody tycho true else Prog.fail .invalidTag) else Prog.fail .invalidTag

end ShardStateUnsplit

/-- The fields behind the tag, the references in front of the bits (which does not change what is in the cell). -/
def stateBody (tycho ms : Bool) (acc : Cell → Bool) : Tlb ShardStateUnsplit where
  ok v := (ShardStateUnsplit.queueTlb tycho).ok v.queue ∧ (Tlb.lazy false).ok v.accounts ∧ (stateTotals.child acc).ok v.totals ∧ (stateHead ms).ok v.head ∧ (Tlb.lazy false).opt.ok v.custom
  store v := ShardStateUnsplit.storeBody tycho ms (Tlb.cellOf (stateTotals.enc v.totals)) v
  load := ShardStateUnsplit.loadBody tycho ms
  R v := (ShardStateUnsplit.queueTlb tycho).R v.queue ⬝ (Tlb.lazy false).R v.accounts ⬝ ((stateTotals.child acc).R v.totals ⬝ (stateHead ms).R v.head ⬝ Tlb.bool.R v.beforeSplit) ⬝
    (Tlb.lazy false).opt.R v.custom
  enc v := Enc.ref v.queue ++ (Enc.ref v.accounts ++ ((Enc.ref (Tlb.cellOf (stateTotals.enc v.totals)) ++ ((stateHead ms).enc v.head ++ Tlb.bool.enc v.beforeSplit)) ++
    (Tlb.lazy false).opt.enc v.custom))

/-- `models/shard/mod.rs:244-347` -/
def shardStateUnsplit (tycho : Bool) (acc : Cell → Bool) : Tlb ShardStateUnsplit where
  ok v := (stateBody tycho tycho acc).ok v
  store := ShardStateUnsplit.store tycho acc
  load := ShardStateUnsplit.load tycho
  R v e := (Enc.Lit (natBits 32 0x9023afe2) ⬝ (stateBody tycho false acc).R v) e ∨ (tycho = true ∧ (Enc.Lit (natBits 32 0x9023aeee) ⬝ (stateBody tycho true acc).R v) e)
  enc v := Enc.bits (natBits 32 (if tycho then 0x9023aeee else 0x9023afe2)) ++ (stateBody tycho tycho acc).enc v

/-- `models/shard/mod.rs:349-357` `ShardStateSplit` -/
structure ShardStateSplit where
  left : Cell
  right : Cell

/-- `ShardStateSplit` derives `Store` and `Load`. -/
def shardStateSplit : Tlb ShardStateSplit where
  ok a := (Tlb.lazy false).ok a.left ∧ (Tlb.lazy false).ok a.right
  store a := Wr.u32 0x5f327da5 >>= fun _ => (Tlb.lazy false).store a.left >>= fun _ => (Tlb.lazy false).store a.right
  load :=
    Rd.u32 >>= fun u => Prog.check (decide (u = 0x5f327da5)) .invalidTag >>= fun _ =>
    (Tlb.lazy false).load >>= fun left =>
    (Tlb.lazy false).load >>= fun right =>
    pure ⟨left, right⟩
  R a := Enc.Lit (natBits 32 0x5f327da5) ⬝ (Tlb.lazy false).R a.left ⬝ (Tlb.lazy false).R a.right
  enc a := Enc.bits (natBits 32 0x5f327da5) ++ ((Tlb.lazy false).enc a.left ++ ((Tlb.lazy false).enc a.right))

/-- `models/shard/mod.rs:25-32` `ShardState` -/
inductive ShardState where
  | unsplit (v : ShardStateUnsplit)
  | split (v : ShardStateSplit)

/-- `slice.get_bit(0)` -/
def firstBit : Rd Cell Bool := fun s =>
  match s.bits with
  | [] => (.error .cellUnderflow, s)
  | b :: _ => (.ok b, s)

/-- `models/shard/mod.rs:34-62` `Store`, `Load` -/
def shardState (tycho : Bool) (acc : Cell → Bool) : Tlb ShardState where
  ok
    | .unsplit v => (shardStateUnsplit tycho acc).ok v
    | .split v => shardStateSplit.ok v
  store
    | .unsplit v => (shardStateUnsplit tycho acc).store v
    | .split v => shardStateSplit.store v
  load := firstBit >>= fun b => match b with
    | true => (shardStateUnsplit tycho acc).load >>= fun v => pure (.unsplit v)
    | false => shardStateSplit.load >>= fun v => pure (.split v)
  R
    | .unsplit v => (shardStateUnsplit tycho acc).R v
    | .split v => shardStateSplit.R v
  enc
    | .unsplit v => (shardStateUnsplit tycho acc).enc v
    | .split v => shardStateSplit.enc v

/-- `models/shard/shard_extra.rs:150-160` `ValidatorInfo` -/
structure ValidatorInfo where
  listHashShort : Nat
  catchainSeqno : Nat
  nxCcUpdated : Bool
  deriving DecidableEq, Repr

/-- `ValidatorInfo` derives `Store` and `Load`. -/
def validatorInfo : Tlb ValidatorInfo where
  ok a := Tlb.u32.ok a.listHashShort ∧ Tlb.u32.ok a.catchainSeqno ∧ Tlb.bool.ok a.nxCcUpdated
  store a := Tlb.u32.store a.listHashShort >>= fun _ => Tlb.u32.store a.catchainSeqno >>= fun _ => Tlb.bool.store a.nxCcUpdated
  load :=
    Tlb.u32.load >>= fun listHashShort =>
    Tlb.u32.load >>= fun catchainSeqno =>
    Tlb.bool.load >>= fun nxCcUpdated =>
    pure ⟨listHashShort, catchainSeqno, nxCcUpdated⟩
  R a := Tlb.u32.R a.listHashShort ⬝ Tlb.u32.R a.catchainSeqno ⬝ Tlb.bool.R a.nxCcUpdated
  enc a := Tlb.u32.enc a.listHashShort ++ (Tlb.u32.enc a.catchainSeqno ++ (Tlb.bool.enc a.nxCcUpdated))

/-- `models/shard/shard_extra.rs:198-218` `GenesisInfo` -/
structure GenesisInfo where
  startRound : Nat
  genesisMillis : Nat
  deriving DecidableEq, Repr

/-- `GenesisInfo` derives `Store` and `Load`. -/
def genesisInfo : Tlb GenesisInfo where
  ok a := Tlb.u32.ok a.startRound ∧ Tlb.u64.ok a.genesisMillis
  store a := Tlb.u32.store a.startRound >>= fun _ => Tlb.u64.store a.genesisMillis
  load :=
    Tlb.u32.load >>= fun startRound =>
    Tlb.u64.load >>= fun genesisMillis =>
    pure ⟨startRound, genesisMillis⟩
  R a := Tlb.u32.R a.startRound ⬝ Tlb.u64.R a.genesisMillis
  enc a := Tlb.u32.enc a.startRound ++ (Tlb.u64.enc a.genesisMillis)

/-- `models/shard/shard_extra.rs:171-196` `ConsensusInfo` -/
structure ConsensusInfo where
  vsetSwitchRound : Nat
  prevVsetSwitchRound : Nat
  genesisInfo : GenesisInfo
  prevShuffleMcValidators : Bool
  deriving DecidableEq, Repr

/-- `ConsensusInfo` derives `Store` and `Load`. -/
def consensusInfo : Tlb ConsensusInfo where
  ok a := Tlb.u32.ok a.vsetSwitchRound ∧ Tlb.u32.ok a.prevVsetSwitchRound ∧ genesisInfo.ok a.genesisInfo ∧ Tlb.bool.ok a.prevShuffleMcValidators
  store a := Tlb.u32.store a.vsetSwitchRound >>= fun _ => Tlb.u32.store a.prevVsetSwitchRound >>= fun _ => genesisInfo.store a.genesisInfo >>= fun _ => Tlb.bool.store a.prevShuffleMcValidators
  load :=
    Tlb.u32.load >>= fun vsetSwitchRound =>
    Tlb.u32.load >>= fun prevVsetSwitchRound =>
    genesisInfo.load >>= fun genesisInfo =>
    Tlb.bool.load >>= fun prevShuffleMcValidators =>
    pure ⟨vsetSwitchRound, prevVsetSwitchRound, genesisInfo, prevShuffleMcValidators⟩
  R a := Tlb.u32.R a.vsetSwitchRound ⬝ Tlb.u32.R a.prevVsetSwitchRound ⬝ genesisInfo.R a.genesisInfo ⬝ Tlb.bool.R a.prevShuffleMcValidators
  enc a := Tlb.u32.enc a.vsetSwitchRound ++ (Tlb.u32.enc a.prevVsetSwitchRound ++ (genesisInfo.enc a.genesisInfo ++ (Tlb.bool.enc a.prevShuffleMcValidators)))

/-- `models/shard/shard_extra.rs:254-261` `KeyMaxLt` -/
structure KeyMaxLt where
  hasKeyBlock : Bool
  maxEndLt : Nat
  deriving DecidableEq, Repr

/-- `KeyMaxLt` derives `Store` and `Load`. -/
def keyMaxLt : Tlb KeyMaxLt where
  ok a := Tlb.bool.ok a.hasKeyBlock ∧ Tlb.u64.ok a.maxEndLt
  store a := Tlb.bool.store a.hasKeyBlock >>= fun _ => Tlb.u64.store a.maxEndLt
  load :=
    Tlb.bool.load >>= fun hasKeyBlock =>
    Tlb.u64.load >>= fun maxEndLt =>
    pure ⟨hasKeyBlock, maxEndLt⟩
  R a := Tlb.bool.R a.hasKeyBlock ⬝ Tlb.u64.R a.maxEndLt
  enc a := Tlb.bool.enc a.hasKeyBlock ++ (Tlb.u64.enc a.maxEndLt)

/-- `models/shard/shard_extra.rs:245-252` `KeyBlockRef` -/
structure KeyBlockRef where
  isKeyBlock : Bool
  blockRef : BlockRef
  deriving DecidableEq, Repr

/-- `KeyBlockRef` derives `Store` and `Load`. -/
def keyBlockRef : Tlb KeyBlockRef where
  ok a := Tlb.bool.ok a.isKeyBlock ∧ Verif.blockRef.ok a.blockRef
  store a := Tlb.bool.store a.isKeyBlock >>= fun _ => Verif.blockRef.store a.blockRef
  load :=
    Tlb.bool.load >>= fun isKeyBlock =>
    Verif.blockRef.load >>= fun blockRef =>
    pure ⟨isKeyBlock, blockRef⟩
  R a := Tlb.bool.R a.isKeyBlock ⬝ Verif.blockRef.R a.blockRef
  enc a := Tlb.bool.enc a.isKeyBlock ++ (Verif.blockRef.enc a.blockRef)

/-- `models/shard/shard_extra.rs:290-301` `BlockCounters` -/
structure BlockCounters where
  updatedAt : Nat
  total : Nat
  cnt2048 : Nat
  cnt65536 : Nat
  deriving DecidableEq, Repr

/-- `BlockCounters` derives `Store` and `Load`. -/
def blockCounters : Tlb BlockCounters where
  ok a := Tlb.u32.ok a.updatedAt ∧ Tlb.u64.ok a.total ∧ Tlb.u64.ok a.cnt2048 ∧ Tlb.u64.ok a.cnt65536
  store a := Tlb.u32.store a.updatedAt >>= fun _ => Tlb.u64.store a.total >>= fun _ => Tlb.u64.store a.cnt2048 >>= fun _ => Tlb.u64.store a.cnt65536
  load :=
    Tlb.u32.load >>= fun updatedAt =>
    Tlb.u64.load >>= fun total =>
    Tlb.u64.load >>= fun cnt2048 =>
    Tlb.u64.load >>= fun cnt65536 =>
    pure ⟨updatedAt, total, cnt2048, cnt65536⟩
  R a := Tlb.u32.R a.updatedAt ⬝ Tlb.u64.R a.total ⬝ Tlb.u64.R a.cnt2048 ⬝ Tlb.u64.R a.cnt65536
  enc a := Tlb.u32.enc a.updatedAt ++ (Tlb.u64.enc a.total ++ (Tlb.u64.enc a.cnt2048 ++ (Tlb.u64.enc a.cnt65536)))

/-- `models/shard/shard_extra.rs:280-288` `CreatorStats` -/
structure CreatorStats where
  mcBlocks : BlockCounters
  shardBlocks : BlockCounters
  deriving DecidableEq, Repr

/-- `CreatorStats` derives `Store` and `Load`. -/
def creatorStats : Tlb CreatorStats where
  ok a := blockCounters.ok a.mcBlocks ∧ blockCounters.ok a.shardBlocks
  store a := Wr.small 4 4 >>= fun _ => blockCounters.store a.mcBlocks >>= fun _ => blockCounters.store a.shardBlocks
  load :=
    Rd.small 4 >>= fun u => Prog.check (decide (u = 4)) .invalidTag >>= fun _ =>
    blockCounters.load >>= fun mcBlocks =>
    blockCounters.load >>= fun shardBlocks =>
    pure ⟨mcBlocks, shardBlocks⟩
  R a := Enc.Lit (natBits 4 4) ⬝ blockCounters.R a.mcBlocks ⬝ blockCounters.R a.shardBlocks
  enc a := Enc.bits (natBits 4 4) ++ (blockCounters.enc a.mcBlocks ++ (blockCounters.enc a.shardBlocks))

/-- `models/shard/shard_extra.rs:221-224` `overrides` -/
def GenesisInfo.overrides (a b : GenesisInfo) : Bool := decide (a.startRound ≥ b.startRound) && decide (a.genesisMillis > b.genesisMillis)

/-- `models/shard/shard_extra.rs:228-237` `ZEROSTATE` -/
def ConsensusInfo.zerostate : ConsensusInfo := ⟨0, 0, ⟨0, 0⟩, false⟩

/-- `models/shard/shard_extra.rs:27-50` `McStateExtra`; without `tycho` there is no `consensus_info`, here it is `ZEROSTATE` then. -/
structure McStateExtra where
  shards : Option Cell
  config : BlockchainConfig
  validatorInfo : ValidatorInfo
  consensusInfo : ConsensusInfo
  prevBlocks : Option Cell × KeyMaxLt
  afterKeyBlock : Bool
  lastKeyBlock : Option BlockRef
  blockCreateStats : Option (Option Cell)
  globalBalance : Currency

namespace McStateExtra

/-- The flags and the fields they decide about. -/
abbrev Inner := Nat × ValidatorInfo × (Option Cell × KeyMaxLt) × Bool × Option BlockRef × Option (Option Cell) × Option ConsensusInfo

/-- `models/shard/shard_extra.rs:115-122`: the reserved bits of the flags. -/
def flagsOk (tycho : Bool) (flags : Nat) : Bool := decide (flags / 2 ^ (if tycho then 3 else 2) = 0)

/-- The contents of the child, `models/shard/shard_extra.rs:73-92`, `113-145`. (`consensus_info` is read behind the balance of the outer cell, which matters only if
both cannot be read.) -/
def inner (tycho : Bool) : Tlb Inner :=
  (Tlb.u16.guarded (flagsOk tycho)).dep fun flags => Verif.validatorInfo.pair (keyMaxLt.augDict.pair (Tlb.bool.pair (blockRef.opt.pair
    (((Tlb.dict.tagged 8 0x17).cond (decide (flags &&& 1 ≠ 0))).pair (Verif.consensusInfo.cond (tycho && decide (flags &&& 4 ≠ 0)))))))

/-- `models/shard/shard_extra.rs:63-71` -/
def flags (tycho : Bool) (v : McStateExtra) : Nat :=
  v.blockCreateStats.isSome.toNat ||| (if tycho then (decide (v.consensusInfo ≠ .zerostate)).toNat <<< 2 else 0)

/-- What goes into the child. -/
def toInner (tycho : Bool) (v : McStateExtra) : Inner :=
  (v.flags tycho, v.validatorInfo, v.prevBlocks, v.afterKeyBlock, v.lastKeyBlock, v.blockCreateStats,
    if tycho = true ∧ v.consensusInfo ≠ .zerostate then some v.consensusInfo else none)

/-- `models/shard/shard_extra.rs:124-146` -/
def make (shards : Option Cell) (config : BlockchainConfig) (i : Inner) (balance : Currency) : McStateExtra :=
  ⟨shards, config, i.2.1, i.2.2.2.2.2.2.getD .zerostate, i.2.2.1, i.2.2.2.1, i.2.2.2.2.1, i.2.2.2.2.2.1, balance⟩

/-- `models/shard/shard_extra.rs:57-100` `Store` -/
def store (tycho : Bool) (acc : Cell → Bool) (v : McStateExtra) : Wr Cell Unit :=
  Tlb.built acc ((inner tycho).store (v.toInner tycho)) >>= fun cell => Wr.u16 0xcc26 >>= fun _ => Tlb.dict.store v.shards >>= fun _ =>
  blockchainConfig.store v.config >>= fun _ => Wr.ref cell >>= fun _ => Tlb.currency.store v.globalBalance

/-- `models/shard/shard_extra.rs:102-148` `Load` -/
def load (tycho : Bool) : Rd Cell McStateExtra :=
  Rd.u16 >>= fun t => Prog.check (decide (t = 0xcc26)) .invalidTag >>= fun _ => Tlb.dict.load >>= fun shards => blockchainConfig.load >>= fun config =>
  Tlb.childLoad (inner tycho).load >>= fun i => Tlb.currency.load >>= fun balance => pure (make shards config i balance)

/-- All the parts. -/
def parts (tycho : Bool) (acc : Cell → Bool) := (Tlb.dict.pair (blockchainConfig.pair (((inner tycho).child acc).pair Tlb.currency))).tagged 16 0xcc26

/-- The parts of an extra. -/
def split (tycho : Bool) (v : McStateExtra) : Option Cell × BlockchainConfig × Inner × Currency := (v.shards, v.config, v.toInner tycho, v.globalBalance)

/-- The extra of the parts. -/
def join (p : Option Cell × BlockchainConfig × Inner × Currency) : McStateExtra := make p.1 p.2.1 p.2.2.1 p.2.2.2

end McStateExtra

/-- `models/shard/shard_extra.rs:57-148` -/
def mcStateExtra (tycho : Bool) (acc : Cell → Bool) : Tlb McStateExtra where
  ok v := (McStateExtra.parts tycho acc).ok (v.split tycho) ∧ McStateExtra.join (v.split tycho) = v
  store := McStateExtra.store tycho acc
  load := McStateExtra.load tycho
  R v e := ∃ p, v = McStateExtra.join p ∧ (McStateExtra.parts tycho acc).R p e
  enc v := (McStateExtra.parts tycho acc).enc (v.split tycho)

/-- `models/shard/mod.rs:359-366` `LibDescr` -/
structure LibDescr where
  lib : Cell
  publishers : Option Cell

/-- `models/shard/mod.rs:368-377` `Store` -/
def LibDescr.store (v : LibDescr) : Wr Cell Unit :=
  Wr.small 0 2 >>= fun _ => Wr.ref v.lib >>= fun _ => match v.publishers with
    | some c => Wr.slice (Sl.reader ⟨c.bits, c.refs⟩)
    | none => Prog.fail .invalidData

/-- `models/shard/mod.rs:379-389` `Load` -/
def LibDescr.load (acc : Cell → Bool) : Rd Cell LibDescr :=
  Rd.small 2 >>= fun t => Prog.check (decide (t = 0)) .invalidTag >>= fun _ => Rd.ref >>= fun lib => rootInPlace acc 256 >>= fun c => pure ⟨lib, some c⟩

/-- A pair (`cell/mod.rs` `Store`, `Load` for tuples) of an anchor and an offset. -/
def anchorAt : Tlb (Nat × Nat) := Tlb.u32.pair Tlb.u64

/-- `models/shard/mod.rs:563-570` `ShardRange` -/
structure ShardRange where
  lo : Nat
  hi : Nat
  deriving DecidableEq, Repr

/-- `ShardRange` derives `Store` and `Load`. -/
def shardRange : Tlb ShardRange where
  ok a := Tlb.u64.ok a.lo ∧ Tlb.u64.ok a.hi
  store a := Wr.u8 0 >>= fun _ => Tlb.u64.store a.lo >>= fun _ => Tlb.u64.store a.hi
  load :=
    Rd.u8 >>= fun u => Prog.check (decide (u = 0)) .invalidTag >>= fun _ =>
    Tlb.u64.load >>= fun lo =>
    Tlb.u64.load >>= fun hi =>
    pure ⟨lo, hi⟩
  R a := Enc.Lit (natBits 8 0) ⬝ Tlb.u64.R a.lo ⬝ Tlb.u64.R a.hi
  enc a := Enc.bits (natBits 8 0) ++ (Tlb.u64.enc a.lo ++ (Tlb.u64.enc a.hi))

/-- `models/shard/mod.rs:537-550` `InternalsRange` -/
structure InternalsRange where
  skipOffset : Nat
  processedOffset : Nat
  shards : Option Cell

/-- `InternalsRange` derives `Store` and `Load`. -/
def internalsRange : Tlb InternalsRange where
  ok a := Tlb.u32.ok a.skipOffset ∧ Tlb.u32.ok a.processedOffset ∧ Tlb.dict.ok a.shards
  store a := Wr.u8 0 >>= fun _ => Tlb.u32.store a.skipOffset >>= fun _ => Tlb.u32.store a.processedOffset >>= fun _ => Tlb.dict.store a.shards
  load :=
    Rd.u8 >>= fun u => Prog.check (decide (u = 0)) .invalidTag >>= fun _ =>
    Tlb.u32.load >>= fun skipOffset =>
    Tlb.u32.load >>= fun processedOffset =>
    Tlb.dict.load >>= fun shards =>
    pure ⟨skipOffset, processedOffset, shards⟩
  R a := Enc.Lit (natBits 8 0) ⬝ Tlb.u32.R a.skipOffset ⬝ Tlb.u32.R a.processedOffset ⬝ Tlb.dict.R a.shards
  enc a := Enc.bits (natBits 8 0) ++ (Tlb.u32.enc a.skipOffset ++ (Tlb.u32.enc a.processedOffset ++ (Tlb.dict.enc a.shards)))

/-- `models/shard/mod.rs:513-523` `InternalsProcessedUpto` -/
structure InternalsProcessedUpto where
  processedTo : Option Cell
  ranges : Option Cell

/-- `InternalsProcessedUpto` derives `Store` and `Load`. -/
def internalsProcessedUpto : Tlb InternalsProcessedUpto where
  ok a := Tlb.dict.ok a.processedTo ∧ Tlb.dict.ok a.ranges
  store a := Wr.u8 0 >>= fun _ => Tlb.dict.store a.processedTo >>= fun _ => Tlb.dict.store a.ranges
  load :=
    Rd.u8 >>= fun u => Prog.check (decide (u = 0)) .invalidTag >>= fun _ =>
    Tlb.dict.load >>= fun processedTo =>
    Tlb.dict.load >>= fun ranges =>
    pure ⟨processedTo, ranges⟩
  R a := Enc.Lit (natBits 8 0) ⬝ Tlb.dict.R a.processedTo ⬝ Tlb.dict.R a.ranges
  enc a := Enc.bits (natBits 8 0) ++ (Tlb.dict.enc a.processedTo ++ (Tlb.dict.enc a.ranges))

/-- `models/shard/mod.rs:480-498` `ExternalsRange` -/
structure ExternalsRange where
  lo : Nat × Nat
  hi : Nat × Nat
  chainTime : Nat
  skipOffset : Nat
  processedOffset : Nat
  deriving DecidableEq, Repr

/-- `ExternalsRange` derives `Store` and `Load`. -/
def externalsRange : Tlb ExternalsRange where
  ok a := anchorAt.ok a.lo ∧ anchorAt.ok a.hi ∧ Tlb.u64.ok a.chainTime ∧ Tlb.u32.ok a.skipOffset ∧ Tlb.u32.ok a.processedOffset
  store a := Wr.u8 0 >>= fun _ => anchorAt.store a.lo >>= fun _ => anchorAt.store a.hi >>= fun _ => Tlb.u64.store a.chainTime >>= fun _ => Tlb.u32.store a.skipOffset >>= fun _ => Tlb.u32.store a.processedOffset
  load :=
    Rd.u8 >>= fun u => Prog.check (decide (u = 0)) .invalidTag >>= fun _ =>
    anchorAt.load >>= fun lo =>
    anchorAt.load >>= fun hi =>
    Tlb.u64.load >>= fun chainTime =>
    Tlb.u32.load >>= fun skipOffset =>
    Tlb.u32.load >>= fun processedOffset =>
    pure ⟨lo, hi, chainTime, skipOffset, processedOffset⟩
  R a := Enc.Lit (natBits 8 0) ⬝ anchorAt.R a.lo ⬝ anchorAt.R a.hi ⬝ Tlb.u64.R a.chainTime ⬝ Tlb.u32.R a.skipOffset ⬝ Tlb.u32.R a.processedOffset
  enc a := Enc.bits (natBits 8 0) ++ (anchorAt.enc a.lo ++ (anchorAt.enc a.hi ++ (Tlb.u64.enc a.chainTime ++ (Tlb.u32.enc a.skipOffset ++ (Tlb.u32.enc a.processedOffset)))))

/-- `models/shard/mod.rs:452-462` `ExternalsProcessedUpto` -/
structure ExternalsProcessedUpto where
  processedTo : Nat × Nat
  ranges : Option Cell

/-- `ExternalsProcessedUpto` derives `Store` and `Load`. -/
def externalsProcessedUpto : Tlb ExternalsProcessedUpto where
  ok a := anchorAt.ok a.processedTo ∧ Tlb.dict.ok a.ranges
  store a := Wr.u8 0 >>= fun _ => anchorAt.store a.processedTo >>= fun _ => Tlb.dict.store a.ranges
  load :=
    Rd.u8 >>= fun u => Prog.check (decide (u = 0)) .invalidTag >>= fun _ =>
    anchorAt.load >>= fun processedTo =>
    Tlb.dict.load >>= fun ranges =>
    pure ⟨processedTo, ranges⟩
  R a := Enc.Lit (natBits 8 0) ⬝ anchorAt.R a.processedTo ⬝ Tlb.dict.R a.ranges
  enc a := Enc.bits (natBits 8 0) ++ (anchorAt.enc a.processedTo ++ (Tlb.dict.enc a.ranges))

/-- `models/shard/mod.rs:428-436` `ProcessedUptoPartition` -/
structure ProcessedUptoPartition where
  externals : ExternalsProcessedUpto
  internals : InternalsProcessedUpto

/-- `ProcessedUptoPartition` derives `Store` and `Load`. -/
def processedUptoPartition : Tlb ProcessedUptoPartition where
  ok a := externalsProcessedUpto.ok a.externals ∧ internalsProcessedUpto.ok a.internals
  store a := Wr.u8 0 >>= fun _ => externalsProcessedUpto.store a.externals >>= fun _ => internalsProcessedUpto.store a.internals
  load :=
    Rd.u8 >>= fun u => Prog.check (decide (u = 0)) .invalidTag >>= fun _ =>
    externalsProcessedUpto.load >>= fun externals =>
    internalsProcessedUpto.load >>= fun internals =>
    pure ⟨externals, internals⟩
  R a := Enc.Lit (natBits 8 0) ⬝ externalsProcessedUpto.R a.externals ⬝ internalsProcessedUpto.R a.internals
  enc a := Enc.bits (natBits 8 0) ++ (externalsProcessedUpto.enc a.externals ++ (internalsProcessedUpto.enc a.internals))

/-- `models/shard/mod.rs:403-415` `ProcessedUptoInfo` -/
structure ProcessedUptoInfo where
  partitions : Option Cell
  msgsExecParams : Option Cell

/-- `ProcessedUptoInfo` derives `Store` and `Load`. -/
def processedUptoInfo : Tlb ProcessedUptoInfo where
  ok a := Tlb.dict.ok a.partitions ∧ ((Tlb.lazy false).opt).ok a.msgsExecParams
  store a := Wr.u8 0 >>= fun _ => Tlb.dict.store a.partitions >>= fun _ => ((Tlb.lazy false).opt).store a.msgsExecParams
  load :=
    Rd.u8 >>= fun u => Prog.check (decide (u = 0)) .invalidTag >>= fun _ =>
    Tlb.dict.load >>= fun partitions =>
    ((Tlb.lazy false).opt).load >>= fun msgsExecParams =>
    pure ⟨partitions, msgsExecParams⟩
  R a := Enc.Lit (natBits 8 0) ⬝ Tlb.dict.R a.partitions ⬝ ((Tlb.lazy false).opt).R a.msgsExecParams
  enc a := Enc.bits (natBits 8 0) ++ (Tlb.dict.enc a.partitions ++ (((Tlb.lazy false).opt).enc a.msgsExecParams))

/-- `models/shard/mod.rs:227-241` `set_custom` -/
def ShardStateUnsplit.setCustom (tycho : Bool) (acc : Cell → Bool) (v : ShardStateUnsplit) : Option McStateExtra → Except Err ShardStateUnsplit
  | none => .ok { v with custom := none }
  | some x => (Tlb.lazyNew acc (mcStateExtra tycho acc) x).map fun c => { v with custom := some c }

/-- `models/shard/mod.rs:216-225` `load_custom` -/
def ShardStateUnsplit.loadCustom (tycho : Bool) (acc : Cell → Bool) (v : ShardStateUnsplit) : Except Err (Option McStateExtra) :=
  match v.custom with
  | none => .ok none
  | some c => (Tlb.lazyLoad (mcStateExtra tycho acc) c).map some

/-! ### Soundness of the parts -/

theorem Tlb.Sound.image {α β : Type} {T : Tlb α} (h : T.Sound) (f : α → β) (g : β → α) : (T.image f g).Sound :=
  h.structOn f g rfl (fun _ h => h.1) (fun _ _ => rfl) (fun _ _ => rfl) (fun _ h => h.2) (fun _ _ => Iff.rfl)

theorem Tlb.absent_sound : Tlb.absent.Sound :=
  ⟨⟨fun _ _ => Writes.pure, fun _ h => ⟨h, rfl⟩⟩, Loads.pure 0⟩

theorem msField_sound : ∀ ms, (msField ms).Sound
  | true => Tlb.u16_sound
  | false => Tlb.absent_sound

theorem stateHead_sound (ms : Bool) : (stateHead ms).Sound :=
  (Tlb.i32_sound.pair (Tlb.shardIdent_sound.pair (Tlb.u32_sound.pair (Tlb.u32_sound.pair (Tlb.u32_sound.pair ((msField_sound ms).pair (Tlb.u64_sound.pair Tlb.u32_sound))))))).struct (fun p => ⟨p.1, p.2.1, p.2.2.1, p.2.2.2.1, p.2.2.2.2.1, p.2.2.2.2.2.1, p.2.2.2.2.2.2.1, p.2.2.2.2.2.2.2⟩) (fun a => (a.globalId, a.shard, a.seqno, a.vertSeqno, a.genUtime, a.genUtimeMs, a.genLt, a.minRefMcSeqno))
    (fun _ => rfl) (fun _ => rfl) (by unfold stateHead; tlb_more) (fun _ h => h) (fun _ _ => rfl) (fun _ _ => Iff.rfl) (fun _ _ => rfl)

theorem stateTotals_sound : (stateTotals).Sound :=
  (Tlb.u64_sound.pair (Tlb.u64_sound.pair (Tlb.currency_sound.pair (Tlb.currency_sound.pair (Tlb.dict_sound.pair blockRef_sound.opt))))).struct (fun p => ⟨p.1, p.2.1, p.2.2.1, p.2.2.2.1, p.2.2.2.2.1, p.2.2.2.2.2⟩) (fun a => (a.overloadHistory, a.underloadHistory, a.totalBalance, a.totalValidatorFees, a.libraries, a.masterRef))
    (fun _ => rfl) (fun _ => rfl) (by unfold stateTotals; tlb_more) (fun _ h => h) (fun _ _ => rfl) (fun _ _ => Iff.rfl) (fun _ _ => rfl)

namespace ShardStateUnsplit

theorem queueTlb_sound : ∀ tycho, (queueTlb tycho).Sound
  | true => Tlb.lazy_sound false
  | false => Tlb.cell_sound

theorem queueTlb_enc (tycho : Bool) (c : Cell) : (queueTlb tycho).enc c = Enc.ref c := by cases tycho <;> rfl

theorem head_refs (ms : Bool) (h : StateHead) : ((stateHead ms).enc h).2 = [] := by cases ms <;> rfl

end ShardStateUnsplit

theorem stateBody_sound (tycho ms : Bool) (acc : Cell → Bool) : (stateBody tycho ms acc).Sound where
  st := ⟨fun v h => by
      have e : (stateBody tycho ms acc).enc v = (stateHead ms).enc v.head ++ ((ShardStateUnsplit.queueTlb tycho).enc v.queue ++ (Enc.bits [v.beforeSplit] ++ (Enc.ref v.accounts ++
          (Enc.ref (Tlb.cellOf (stateTotals.enc v.totals)) ++ (Tlb.lazy false).opt.enc v.custom)))) := by
        rw [ShardStateUnsplit.queueTlb_enc]
        have hr := ShardStateUnsplit.head_refs ms v.head
        obtain ⟨⟨hb, hr'⟩, he⟩ : ∃ p, (stateHead ms).enc v.head = p := ⟨_, rfl⟩
        have hr : hr' = [] := by rw [he] at hr; exact hr
        subst hr
        show Enc.ref v.queue ++ (Enc.ref v.accounts ++ ((Enc.ref (Tlb.cellOf (stateTotals.enc v.totals)) ++ ((stateHead ms).enc v.head ++ Tlb.bool.enc v.beforeSplit)) ++
          (Tlb.lazy false).opt.enc v.custom)) = _
        rw [he]
        refine Prod.ext ?_ ?_
        · show [] ++ ([] ++ (([] ++ (hb ++ [v.beforeSplit])) ++ ((Tlb.lazy false).opt.enc v.custom).1)) = hb ++ ([] ++ ([v.beforeSplit] ++ ([] ++ ([] ++ ((Tlb.lazy false).opt.enc v.custom).1))))
          simp
        · rfl
      rw [e]
      show Writes (ShardStateUnsplit.storeBody tycho ms _ v) _
      unfold ShardStateUnsplit.storeBody
      exact ((stateHead_sound ms).st.writes v.head h.2.2.2.1).seq (((ShardStateUnsplit.queueTlb_sound tycho).st.writes v.queue h.1).seq ((Wr.writes_bit (ρ := Cell) v.beforeSplit).writes.seq
        ((Wr.writes_ref v.accounts).writes.seq ((Wr.writes_ref (Tlb.cellOf (stateTotals.enc v.totals))).writes.seq ((Tlb.lazy_sound false).opt.st.writes v.custom h.2.2.2.2))))),
    fun v h => ⟨_, _, by have := (ShardStateUnsplit.queueTlb_sound tycho).st.canon _ h.1; rw [ShardStateUnsplit.queueTlb_enc] at this; exact this,
      ⟨_, _, (Tlb.lazy_sound false).st.canon _ h.2.1, ⟨_, _, ⟨_, _, (stateTotals_sound.child acc).st.canon _ h.2.2.1,
        ⟨_, _, (stateHead_sound ms).st.canon _ h.2.2.2.1, Tlb.bool_sound.st.canon _ trivial, rfl⟩, rfl⟩, (Tlb.lazy_sound false).opt.st.canon _ h.2.2.2.2, rfl⟩, rfl⟩, rfl⟩⟩
  ld := by
    have h := ((ShardStateUnsplit.queueTlb_sound tycho).ld.pair ((Tlb.lazy_sound false).ld.pair ((stateTotals_sound.laterLoads acc ((stateHead_sound ms).pair Tlb.bool_sound).ld).pair
      (Tlb.lazy_sound false).opt.ld))).map fun p => (⟨p.2.2.1.2.1, p.1, p.2.2.1.2.2, p.2.1, p.2.2.1.1, p.2.2.2⟩ : ShardStateUnsplit)
    simp only [Tlb.pair, pairLoad, Prog.bind_assoc', Prog.pure_bind'] at h
    exact Loads.iff h fun v e => ⟨by rintro ⟨p, rfl, h⟩; exact h, fun h => ⟨(v.queue, v.accounts, (v.totals, (v.head, v.beforeSplit)), v.custom), rfl, h⟩⟩

theorem shardStateUnsplit_sound (tycho : Bool) (acc : Cell → Bool) : (shardStateUnsplit tycho acc).Sound where
  st := ⟨fun v h => by
      show Writes (ShardStateUnsplit.store tycho acc v) _
      unfold ShardStateUnsplit.store
      rw [stateTotals_sound.built h.2.2.1]
      exact (Wr.writes_u32 (by split <;> decide)).writes.seq ((stateBody_sound tycho tycho acc).st.writes v h),
    fun v h => by
      have hc := (stateBody_sound tycho tycho acc).st.canon v h
      cases tycho with
      | false => exact .inl ⟨_, _, rfl, hc, rfl⟩
      | true => exact .inr ⟨rfl, _, _, rfl, hc, rfl⟩⟩
  ld := by
    have h1 : Loads (if tycho then ShardStateUnsplit.loadBody tycho true else Prog.fail .invalidTag) (fun v e => tycho = true ∧ (stateBody tycho true acc).R v e) := by
      cases tycho with
      | false => exact (Loads.fail (by decide) (by decide)).iff fun v e => ⟨fun h => h.elim, fun h => (by cases h.1)⟩
      | true => exact (stateBody_sound true true acc).ld.iff fun v e => ⟨fun h => ⟨rfl, h⟩, fun h => h.2⟩
    exact (Loads.twoTags (Rd.takes_u32 (ρ := Cell)) (by decide) (by decide) (by decide) (stateBody_sound tycho false acc).ld h1).iff fun v e => by
      refine or_congr Iff.rfl ⟨?_, ?_⟩
      · rintro ⟨e1, e2, h1, ⟨h2, h3⟩, rfl⟩; exact ⟨h2, e1, e2, h1, h3, rfl⟩
      · rintro ⟨h2, e1, e2, h1, h3, rfl⟩; exact ⟨e1, e2, h1, ⟨h2, h3⟩, rfl⟩

theorem shardStateSplit_sound : (shardStateSplit).Sound :=
  (((Tlb.lazy_sound false).pair (Tlb.lazy_sound false)).tagged (n := 32) (t := 0x5f327da5) (by unfold Tlb.TagWidth; omega) (by decide)).struct (fun p => ⟨p.1, p.2⟩) (fun a => (a.left, a.right))
    (fun _ => rfl) (fun _ => rfl) (by unfold shardStateSplit; tlb_more) (fun _ h => h) (fun _ _ => rfl) (fun _ _ => Iff.rfl) (fun _ _ => rfl)

/-- Looking at the first bit to choose between loaders of encodings that begin with different bits. -/
theorem Loads.firstBit {α : Type} {l0 l1 : Rd Cell α} {R0 R1 : α → Enc Cell → Prop} (h0 : Loads l0 R0) (h1 : Loads l1 R1) (b0 : ∀ v e, R0 v e → ∃ t, e.1 = false :: t)
    (b1 : ∀ v e, R1 v e → ∃ t, e.1 = true :: t) :
    Loads (Verif.firstBit >>= fun b => match b with | true => l1 | false => l0) (fun v e => R1 v e ∨ R0 v e) := by
  have run : ∀ {s : CSlice Cell} {b : Bool} {t : Bits}, s.bits = b :: t → (Verif.firstBit >>= fun b => match b with | true => l1 | false => l0) s = (if b then l1 else l0) s := by
    intro s b t hb
    have : Verif.firstBit s = (.ok b, s) := by unfold Verif.firstBit; rw [hb]
    rw [Prog.bind_ok this]
    cases b <;> rfl
  have none : ∀ {s : CSlice Cell}, s.bits = [] → (Verif.firstBit >>= fun b => match b with | true => l1 | false => l0) s = (.error .cellUnderflow, s) := by
    intro s hb
    exact Prog.bind_err (by unfold Verif.firstBit; rw [hb])
  refine ⟨?_, ?_, ?_⟩
  · rintro v e (h | h) s rest hs hc
    · obtain ⟨t, ht⟩ := b1 v e h
      have hb : s.bits = true :: (t ++ rest.1) := by have : s.bits = e.1 ++ rest.1 := congrArg Prod.fst hc; rw [this, ht]; rfl
      rw [run hb]
      exact h1.reads v e h s rest hs hc
    · obtain ⟨t, ht⟩ := b0 v e h
      have hb : s.bits = false :: (t ++ rest.1) := by have : s.bits = e.1 ++ rest.1 := congrArg Prod.fst hc; rw [this, ht]; rfl
      rw [run hb]
      exact h0.reads v e h s rest hs hc
  · intro s s' v hs hp
    cases hb : s.bits with
    | nil => rw [none hb] at hp; cases hp
    | cons b t =>
      rw [run hb] at hp
      cases b with
      | true => obtain ⟨e, h, h'⟩ := h1.exact s s' v hs hp; exact ⟨e, .inl h, h'⟩
      | false => obtain ⟨e, h, h'⟩ := h0.exact s s' v hs hp; exact ⟨e, .inr h, h'⟩
  · intro s hs
    cases hb : s.bits with
    | nil => rw [none hb]; exact ⟨hs, ⟨Enc.nil, (Enc.nil_append _).symm⟩, (by intro h; cases h), (by intro h; cases h)⟩
    | cons b t =>
      rw [run hb]
      cases b with
      | true => exact h1.safe s hs
      | false => exact h0.safe s hs

theorem shardStateUnsplit_first {tycho : Bool} {acc : Cell → Bool} {v : ShardStateUnsplit} {e : Enc Cell} (h : (shardStateUnsplit tycho acc).R v e) : ∃ t, e.1 = true :: t := by
  rcases h with ⟨e1, e2, h1, _, rfl⟩ | ⟨_, e1, e2, h1, _, rfl⟩
  · rw [show e1 = _ from h1]; exact ⟨_, rfl⟩
  · rw [show e1 = _ from h1]; exact ⟨_, rfl⟩

theorem shardStateSplit_first {v : ShardStateSplit} {e : Enc Cell} (h : shardStateSplit.R v e) : ∃ t, e.1 = false :: t := by
  obtain ⟨e1, e2, h1, _, rfl⟩ := h
  rw [show e1 = _ from h1]
  exact ⟨_, rfl⟩

theorem shardState_sound (tycho : Bool) (acc : Cell → Bool) : (shardState tycho acc).Sound where
  st := ⟨fun v h => match v, h with
      | .unsplit v, h => (shardStateUnsplit_sound tycho acc).st.writes v h
      | .split v, h => shardStateSplit_sound.st.writes v h, fun v h => match v, h with
      | .unsplit v, h => (shardStateUnsplit_sound tycho acc).st.canon v h
      | .split v, h => shardStateSplit_sound.st.canon v h⟩
  ld := by
    have h := Loads.firstBit (shardStateSplit_sound.ld.map ShardState.split) ((shardStateUnsplit_sound tycho acc).ld.map ShardState.unsplit)
      (by rintro v e ⟨a, _, h⟩; exact shardStateSplit_first h) (by rintro v e ⟨a, _, h⟩; exact shardStateUnsplit_first h)
    refine Loads.iff h fun v e => ?_
    cases v with
    | unsplit v => exact ⟨(by rintro (⟨a, h, h'⟩ | ⟨a, h, _⟩) <;> cases h; exact h'), fun h => .inl ⟨v, rfl, h⟩⟩
    | split v => exact ⟨(by rintro (⟨a, h, _⟩ | ⟨a, h, h'⟩) <;> cases h; exact h'), fun h => .inr ⟨v, rfl, h⟩⟩

theorem validatorInfo_sound : (validatorInfo).Sound :=
  (Tlb.u32_sound.pair (Tlb.u32_sound.pair Tlb.bool_sound)).struct (fun p => ⟨p.1, p.2.1, p.2.2⟩) (fun a => (a.listHashShort, a.catchainSeqno, a.nxCcUpdated))
    (fun _ => rfl) (fun _ => rfl) (by unfold validatorInfo; tlb_more) (fun _ h => h) (fun _ _ => rfl) (fun _ _ => Iff.rfl) (fun _ _ => rfl)

theorem genesisInfo_sound : (genesisInfo).Sound :=
  (Tlb.u32_sound.pair Tlb.u64_sound).struct (fun p => ⟨p.1, p.2⟩) (fun a => (a.startRound, a.genesisMillis))
    (fun _ => rfl) (fun _ => rfl) (by unfold genesisInfo; tlb_more) (fun _ h => h) (fun _ _ => rfl) (fun _ _ => Iff.rfl) (fun _ _ => rfl)

theorem consensusInfo_sound : (consensusInfo).Sound :=
  (Tlb.u32_sound.pair (Tlb.u32_sound.pair (genesisInfo_sound.pair Tlb.bool_sound))).struct (fun p => ⟨p.1, p.2.1, p.2.2.1, p.2.2.2⟩) (fun a => (a.vsetSwitchRound, a.prevVsetSwitchRound, a.genesisInfo, a.prevShuffleMcValidators))
    (fun _ => rfl) (fun _ => rfl) (by unfold consensusInfo; tlb_more) (fun _ h => h) (fun _ _ => rfl) (fun _ _ => Iff.rfl) (fun _ _ => rfl)

theorem keyMaxLt_sound : (keyMaxLt).Sound :=
  (Tlb.bool_sound.pair Tlb.u64_sound).struct (fun p => ⟨p.1, p.2⟩) (fun a => (a.hasKeyBlock, a.maxEndLt))
    (fun _ => rfl) (fun _ => rfl) (by unfold keyMaxLt; tlb_more) (fun _ h => h) (fun _ _ => rfl) (fun _ _ => Iff.rfl) (fun _ _ => rfl)

theorem keyBlockRef_sound : (keyBlockRef).Sound :=
  (Tlb.bool_sound.pair Verif.blockRef_sound).struct (fun p => ⟨p.1, p.2⟩) (fun a => (a.isKeyBlock, a.blockRef))
    (fun _ => rfl) (fun _ => rfl) (by unfold keyBlockRef; tlb_more) (fun _ h => h) (fun _ _ => rfl) (fun _ _ => Iff.rfl) (fun _ _ => rfl)

theorem blockCounters_sound : (blockCounters).Sound :=
  (Tlb.u32_sound.pair (Tlb.u64_sound.pair (Tlb.u64_sound.pair Tlb.u64_sound))).struct (fun p => ⟨p.1, p.2.1, p.2.2.1, p.2.2.2⟩) (fun a => (a.updatedAt, a.total, a.cnt2048, a.cnt65536))
    (fun _ => rfl) (fun _ => rfl) (by unfold blockCounters; tlb_more) (fun _ h => h) (fun _ _ => rfl) (fun _ _ => Iff.rfl) (fun _ _ => rfl)

theorem creatorStats_sound : (creatorStats).Sound :=
  ((blockCounters_sound.pair blockCounters_sound).tagged (n := 4) (t := 4) (by unfold Tlb.TagWidth; omega) (by decide)).struct (fun p => ⟨p.1, p.2⟩) (fun a => (a.mcBlocks, a.shardBlocks))
    (fun _ => rfl) (fun _ => rfl) (by unfold creatorStats; tlb_more) (fun _ h => h) (fun _ _ => rfl) (fun _ _ => Iff.rfl) (fun _ _ => rfl)

theorem Tlb.childStore_built (acc : Cell → Bool) (w : Wr Cell Unit) : Tlb.childStore acc w = (Tlb.built acc w >>= Wr.ref) := by
  funext b
  cases h : w.toSl >>= buildSl acc with
  | error e =>
    have h1 : Tlb.built acc w b = (.error e, b) := by unfold Tlb.built; rw [h]
    rw [Prog.bind_err h1]
    unfold Tlb.childStore
    rw [h]
  | ok c =>
    have h1 : Tlb.built acc w b = (.ok c, b) := by unfold Tlb.built; rw [h]
    rw [Prog.bind_ok h1]
    unfold Tlb.childStore
    rw [h]

theorem Tlb.Sound.child_store {α : Type} {A : Tlb α} (h : A.Sound) {acc : Cell → Bool} {v : α} (hv : (A.child acc).ok v) : (A.child acc).store v = Wr.ref (Tlb.cellOf (A.enc v)) :=
  (Tlb.childStore_built acc _).trans (h.built hv Wr.ref)

namespace McStateExtra

theorem inner_sound (tycho : Bool) : (inner tycho).Sound :=
  (Tlb.u16_sound.guarded _).dep fun flags => Verif.validatorInfo_sound.pair (keyMaxLt_sound.augDict.pair (Tlb.bool_sound.pair (blockRef_sound.opt.pair
    (((Tlb.dict_sound.tagged (n := 8) (t := 0x17) (Or.inr (Or.inl ⟨by decide, by decide⟩)) (by decide)).cond _).pair (consensusInfo_sound.cond _)))))

theorem parts_sound (tycho : Bool) (acc : Cell → Bool) : (parts tycho acc).Sound :=
  (Tlb.dict_sound.pair (blockchainConfig_sound.pair (((inner_sound tycho).child acc).pair Tlb.currency_sound))).tagged (n := 16) (t := 0xcc26) (Or.inr (Or.inr (Or.inl rfl))) (by decide)

theorem load_parts (tycho : Bool) (acc : Cell → Bool) : load tycho = (parts tycho acc).load >>= fun p => pure (join p) := by
  unfold load parts
  tlb_more
  rfl

end McStateExtra

theorem mcStateExtra_sound (tycho : Bool) (acc : Cell → Bool) : (mcStateExtra tycho acc).Sound :=
  (McStateExtra.parts_sound tycho acc).structOn McStateExtra.join (McStateExtra.split tycho) (McStateExtra.load_parts tycho acc) (fun _ h => h.1)
    (fun v h => by
      show McStateExtra.store tycho acc v = _
      unfold McStateExtra.store
      have hi : ((McStateExtra.inner tycho).child acc).ok (v.toInner tycho) := h.1.2.2.1
      rw [(McStateExtra.inner_sound tycho).built hi]
      unfold McStateExtra.parts
      simp only [Tlb.tagged, Tlb.tagWr, Tlb.pair, pairStore]
      have hr : ((McStateExtra.inner tycho).child acc).store (McStateExtra.split tycho v).2.2.1 = Wr.ref (Tlb.cellOf ((McStateExtra.inner tycho).enc (v.toInner tycho))) :=
        (McStateExtra.inner_sound tycho).child_store hi
      rw [hr]
      rfl) (fun _ _ => rfl) (fun _ h => h.2) (fun _ _ => Iff.rfl)

theorem anchorAt_sound : anchorAt.Sound := Tlb.u32_sound.pair Tlb.u64_sound

theorem shardRange_sound : (shardRange).Sound :=
  ((Tlb.u64_sound.pair Tlb.u64_sound).tagged (n := 8) (t := 0) (by unfold Tlb.TagWidth; omega) (by decide)).struct (fun p => ⟨p.1, p.2⟩) (fun a => (a.lo, a.hi))
    (fun _ => rfl) (fun _ => rfl) (by unfold shardRange; tlb_more) (fun _ h => h) (fun _ _ => rfl) (fun _ _ => Iff.rfl) (fun _ _ => rfl)

theorem internalsRange_sound : (internalsRange).Sound :=
  ((Tlb.u32_sound.pair (Tlb.u32_sound.pair Tlb.dict_sound)).tagged (n := 8) (t := 0) (by unfold Tlb.TagWidth; omega) (by decide)).struct (fun p => ⟨p.1, p.2.1, p.2.2⟩) (fun a => (a.skipOffset, a.processedOffset, a.shards))
    (fun _ => rfl) (fun _ => rfl) (by unfold internalsRange; tlb_more) (fun _ h => h) (fun _ _ => rfl) (fun _ _ => Iff.rfl) (fun _ _ => rfl)

theorem internalsProcessedUpto_sound : (internalsProcessedUpto).Sound :=
  ((Tlb.dict_sound.pair Tlb.dict_sound).tagged (n := 8) (t := 0) (by unfold Tlb.TagWidth; omega) (by decide)).struct (fun p => ⟨p.1, p.2⟩) (fun a => (a.processedTo, a.ranges))
    (fun _ => rfl) (fun _ => rfl) (by unfold internalsProcessedUpto; tlb_more) (fun _ h => h) (fun _ _ => rfl) (fun _ _ => Iff.rfl) (fun _ _ => rfl)

theorem externalsRange_sound : (externalsRange).Sound :=
  ((anchorAt_sound.pair (anchorAt_sound.pair (Tlb.u64_sound.pair (Tlb.u32_sound.pair Tlb.u32_sound)))).tagged (n := 8) (t := 0) (by unfold Tlb.TagWidth; omega) (by decide)).struct (fun p => ⟨p.1, p.2.1, p.2.2.1, p.2.2.2.1, p.2.2.2.2⟩) (fun a => (a.lo, a.hi, a.chainTime, a.skipOffset, a.processedOffset))
    (fun _ => rfl) (fun _ => rfl) (by unfold externalsRange; tlb_more) (fun _ h => h) (fun _ _ => rfl) (fun _ _ => Iff.rfl) (fun _ _ => rfl)

theorem externalsProcessedUpto_sound : (externalsProcessedUpto).Sound :=
  ((anchorAt_sound.pair Tlb.dict_sound).tagged (n := 8) (t := 0) (by unfold Tlb.TagWidth; omega) (by decide)).struct (fun p => ⟨p.1, p.2⟩) (fun a => (a.processedTo, a.ranges))
    (fun _ => rfl) (fun _ => rfl) (by unfold externalsProcessedUpto; tlb_more) (fun _ h => h) (fun _ _ => rfl) (fun _ _ => Iff.rfl) (fun _ _ => rfl)

theorem processedUptoPartition_sound : (processedUptoPartition).Sound :=
  ((externalsProcessedUpto_sound.pair internalsProcessedUpto_sound).tagged (n := 8) (t := 0) (by unfold Tlb.TagWidth; omega) (by decide)).struct (fun p => ⟨p.1, p.2⟩) (fun a => (a.externals, a.internals))
    (fun _ => rfl) (fun _ => rfl) (by unfold processedUptoPartition; tlb_more) (fun _ h => h) (fun _ _ => rfl) (fun _ _ => Iff.rfl) (fun _ _ => rfl)

theorem processedUptoInfo_sound : (processedUptoInfo).Sound :=
  ((Tlb.dict_sound.pair (Tlb.lazy_sound false).opt).tagged (n := 8) (t := 0) (by unfold Tlb.TagWidth; omega) (by decide)).struct (fun p => ⟨p.1, p.2⟩) (fun a => (a.partitions, a.msgsExecParams))
    (fun _ => rfl) (fun _ => rfl) (by unfold processedUptoInfo; tlb_more) (fun _ h => h) (fun _ _ => rfl) (fun _ _ => Iff.rfl) (fun _ _ => rfl)

end Verif
