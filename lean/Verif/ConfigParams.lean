import Verif.TlbMore
import Verif.Fees
/-
Configuration parameters (`models/config/params.rs`, without the feature `tycho`), except the validator set.
-/
set_option linter.unusedVariables false
set_option linter.unusedSimpArgs false
namespace Verif

/-! ### Model -/

namespace Tlb

/-- `NonZeroU8`, `NonZeroU16`, `NonZeroU32` (`cell/slice.rs:173-193`, `cell/builder.rs:123-134`): zero is not a value of these types, and is
refused when loading. -/
def nonZero (A : Tlb Nat) : Tlb Nat where
  ok v := A.ok v ∧ v ≠ 0
  store := A.store
  load := A.load >>= fun v => Prog.check (decide (v ≠ 0)) .invalidData >>= fun _ => pure v
  R v e := A.R v e ∧ v ≠ 0
  enc := A.enc

/-- `NonZeroU8`, `NonZeroU16`, `NonZeroU32` -/
def nz8 : Tlb Nat := nonZero u8
@[inherit_doc nz8] def nz16 : Tlb Nat := nonZero u16
@[inherit_doc nz8] def nz32 : Tlb Nat := nonZero u32

end Tlb

/-- `BurningConfig` derives `Store` and `Load` (`models/config/params.rs:12-23`); the check follows. -/
def burningRaw : Tlb BurningConfig where
  ok a := Tlb.hash.opt.ok a.blackhole ∧ Tlb.u32.ok a.num ∧ Tlb.nz32.ok a.denom
  store a := Wr.u8 0x01 >>= fun _ => Tlb.hash.opt.store a.blackhole >>= fun _ => Tlb.u32.store a.num >>= fun _ => Tlb.nz32.store a.denom
  load :=
    Rd.u8 >>= fun u => Prog.check (decide (u = 0x01)) .invalidTag >>= fun _ =>
    Tlb.hash.opt.load >>= fun blackhole =>
    Tlb.u32.load >>= fun num =>
    Tlb.nz32.load >>= fun denom =>
    pure ⟨blackhole, num, denom⟩
  R a := Enc.Lit (natBits 8 0x01) ⬝ Tlb.hash.opt.R a.blackhole ⬝ Tlb.u32.R a.num ⬝ Tlb.nz32.R a.denom
  enc a := Enc.bits (natBits 8 0x01) ++ (Tlb.hash.opt.enc a.blackhole ++ (Tlb.u32.enc a.num ++ (Tlb.nz32.enc a.denom)))

/-- `models/config/params.rs:15` `validate_with = "Self::is_valid"` -/
def burningConfig : Tlb BurningConfig := burningRaw.validated BurningConfig.isValid

/-- `models/config/params.rs:65-74` `MintOnceConfig` -/
structure MintOnceConfig where
  mintAt : Nat
  delta : Currency

/-- `MintOnceConfig` derives `Store` and `Load`. -/
def mintOnce : Tlb MintOnceConfig where
  ok a := Tlb.u32.ok a.mintAt ∧ Tlb.currency.ok a.delta
  store a := Wr.u8 0x01 >>= fun _ => Tlb.u32.store a.mintAt >>= fun _ => Tlb.currency.store a.delta
  load :=
    Rd.u8 >>= fun u => Prog.check (decide (u = 0x01)) .invalidTag >>= fun _ =>
    Tlb.u32.load >>= fun mintAt =>
    Tlb.currency.load >>= fun delta =>
    pure ⟨mintAt, delta⟩
  R a := Enc.Lit (natBits 8 0x01) ⬝ Tlb.u32.R a.mintAt ⬝ Tlb.currency.R a.delta
  enc a := Enc.bits (natBits 8 0x01) ++ (Tlb.u32.enc a.mintAt ++ (Tlb.currency.enc a.delta))

/-- `models/config/params.rs:87-109` `ConfigProposalSetup`, here `ProposalSetup` -/
structure ProposalSetup where
  minTotalRounds : Nat
  maxTotalRounds : Nat
  minWins : Nat
  maxLosses : Nat
  minStoreSec : Nat
  maxStoreSec : Nat
  bitPrice : Nat
  cellPrice : Nat
  deriving DecidableEq, Repr

/-- `ProposalSetup` derives `Store` and `Load`. -/
def proposalSetup : Tlb ProposalSetup where
  ok a := Tlb.u8.ok a.minTotalRounds ∧ Tlb.u8.ok a.maxTotalRounds ∧ Tlb.u8.ok a.minWins ∧ Tlb.u8.ok a.maxLosses ∧ Tlb.u32.ok a.minStoreSec ∧ Tlb.u32.ok a.maxStoreSec ∧ Tlb.u32.ok a.bitPrice ∧ Tlb.u32.ok a.cellPrice
  store a := Wr.u8 0x36 >>= fun _ => Tlb.u8.store a.minTotalRounds >>= fun _ => Tlb.u8.store a.maxTotalRounds >>= fun _ => Tlb.u8.store a.minWins >>= fun _ => Tlb.u8.store a.maxLosses >>= fun _ => Tlb.u32.store a.minStoreSec >>= fun _ => Tlb.u32.store a.maxStoreSec >>= fun _ => Tlb.u32.store a.bitPrice >>= fun _ => Tlb.u32.store a.cellPrice
  load :=
    Rd.u8 >>= fun u => Prog.check (decide (u = 0x36)) .invalidTag >>= fun _ =>
    Tlb.u8.load >>= fun minTotalRounds =>
    Tlb.u8.load >>= fun maxTotalRounds =>
    Tlb.u8.load >>= fun minWins =>
    Tlb.u8.load >>= fun maxLosses =>
    Tlb.u32.load >>= fun minStoreSec =>
    Tlb.u32.load >>= fun maxStoreSec =>
    Tlb.u32.load >>= fun bitPrice =>
    Tlb.u32.load >>= fun cellPrice =>
    pure ⟨minTotalRounds, maxTotalRounds, minWins, maxLosses, minStoreSec, maxStoreSec, bitPrice, cellPrice⟩
  R a := Enc.Lit (natBits 8 0x36) ⬝ Tlb.u8.R a.minTotalRounds ⬝ Tlb.u8.R a.maxTotalRounds ⬝ Tlb.u8.R a.minWins ⬝ Tlb.u8.R a.maxLosses ⬝ Tlb.u32.R a.minStoreSec ⬝ Tlb.u32.R a.maxStoreSec ⬝ Tlb.u32.R a.bitPrice ⬝ Tlb.u32.R a.cellPrice
  enc a := Enc.bits (natBits 8 0x36) ++ (Tlb.u8.enc a.minTotalRounds ++ (Tlb.u8.enc a.maxTotalRounds ++ (Tlb.u8.enc a.minWins ++ (Tlb.u8.enc a.maxLosses ++ (Tlb.u32.enc a.minStoreSec ++ (Tlb.u32.enc a.maxStoreSec ++ (Tlb.u32.enc a.bitPrice ++ (Tlb.u32.enc a.cellPrice))))))))

/-- `models/config/params.rs:76-85` `ConfigVotingSetup`, here `VotingSetup` -/
structure VotingSetup where
  normalParams : Cell
  criticalParams : Cell

/-- `VotingSetup` derives `Store` and `Load`. -/
def votingSetup : Tlb VotingSetup where
  ok a := (Tlb.lazy false).ok a.normalParams ∧ (Tlb.lazy false).ok a.criticalParams
  store a := Wr.u8 0x91 >>= fun _ => (Tlb.lazy false).store a.normalParams >>= fun _ => (Tlb.lazy false).store a.criticalParams
  load :=
    Rd.u8 >>= fun u => Prog.check (decide (u = 0x91)) .invalidTag >>= fun _ =>
    (Tlb.lazy false).load >>= fun normalParams =>
    (Tlb.lazy false).load >>= fun criticalParams =>
    pure ⟨normalParams, criticalParams⟩
  R a := Enc.Lit (natBits 8 0x91) ⬝ (Tlb.lazy false).R a.normalParams ⬝ (Tlb.lazy false).R a.criticalParams
  enc a := Enc.bits (natBits 8 0x91) ++ ((Tlb.lazy false).enc a.normalParams ++ ((Tlb.lazy false).enc a.criticalParams))

/-- `models/config/params.rs:271-279` `WorkchainFormatBasic`, here `FormatBasic` -/
structure FormatBasic where
  vmVersion : Int
  vmMode : Nat
  deriving DecidableEq, Repr

/-- `FormatBasic` derives `Store` and `Load`. -/
def formatBasic : Tlb FormatBasic where
  ok a := Tlb.i32.ok a.vmVersion ∧ Tlb.u64.ok a.vmMode
  store a := Tlb.i32.store a.vmVersion >>= fun _ => Tlb.u64.store a.vmMode
  load :=
    Tlb.i32.load >>= fun vmVersion =>
    Tlb.u64.load >>= fun vmMode =>
    pure ⟨vmVersion, vmMode⟩
  R a := Tlb.i32.R a.vmVersion ⬝ Tlb.u64.R a.vmMode
  enc a := Tlb.i32.enc a.vmVersion ++ (Tlb.u64.enc a.vmMode)

/-- `FormatExt` derives `Store` and `Load` (`models/config/params.rs:281-294`); the check follows. -/
def formatRaw : Tlb FormatExt where
  ok a := (Tlb.uint 12).ok a.minLen ∧ (Tlb.uint 12).ok a.maxLen ∧ (Tlb.uint 12).ok a.step ∧ Tlb.nz32.ok a.typeId
  store a := (Tlb.uint 12).store a.minLen >>= fun _ => (Tlb.uint 12).store a.maxLen >>= fun _ => (Tlb.uint 12).store a.step >>= fun _ => Tlb.nz32.store a.typeId
  load :=
    (Tlb.uint 12).load >>= fun minLen =>
    (Tlb.uint 12).load >>= fun maxLen =>
    (Tlb.uint 12).load >>= fun step =>
    Tlb.nz32.load >>= fun typeId =>
    pure ⟨minLen, maxLen, step, typeId⟩
  R a := (Tlb.uint 12).R a.minLen ⬝ (Tlb.uint 12).R a.maxLen ⬝ (Tlb.uint 12).R a.step ⬝ Tlb.nz32.R a.typeId
  enc a := (Tlb.uint 12).enc a.minLen ++ ((Tlb.uint 12).enc a.maxLen ++ ((Tlb.uint 12).enc a.step ++ (Tlb.nz32.enc a.typeId)))

deriving instance Repr for FormatExt

/-- `models/config/params.rs:284` `validate_with = "Self::is_valid"` -/
def formatExt : Tlb FormatExt := formatRaw.validated FormatExt.isValid

/-- `models/config/params.rs:215-224` `WorkchainFormat` -/
inductive WorkchainFormat where
  | basic (v : FormatBasic)
  | extended (v : FormatExt)
  deriving DecidableEq, Repr

/-- `models/config/params.rs:241-269` `Store`, `Load` -/
def workchainFormat : Tlb WorkchainFormat where
  ok | .basic v => formatBasic.ok v
     | .extended v => formatExt.ok v
  store | .basic v => Wr.small 1 4 >>= fun _ => formatBasic.store v
        | .extended v => Wr.small 0 4 >>= fun _ => formatExt.store v
  load := Rd.small 4 >>= fun t =>
    if t = 1 then formatBasic.load >>= fun v => pure (.basic v) else
    if t = 0 then formatExt.load >>= fun v => pure (.extended v) else
    Prog.fail .invalidTag
  R | .basic v => Enc.Lit [false, false, false, true] ⬝ formatBasic.R v
    | .extended v => Enc.Lit [false, false, false, false] ⬝ formatExt.R v
  enc | .basic v => Enc.bits [false, false, false, true] ++ formatBasic.enc v
      | .extended v => Enc.bits [false, false, false, false] ++ formatExt.enc v

/-- `models/config/params.rs:226-232` `is_valid` -/
def WorkchainFormat.isValid : WorkchainFormat → Bool
  | .basic _ => true
  | .extended f => f.isValid

/-- `models/config/params.rs:234-239` `is_basic` -/
def WorkchainFormat.isBasic : WorkchainFormat → Bool
  | .basic _ => true
  | .extended _ => false

/-- `models/config/params.rs:111-134` `WorkchainDescription` -/
structure WorkchainDescription where
  enabledSince : Nat
  actualMinSplit : Nat
  minSplit : Nat
  maxSplit : Nat
  active : Bool
  acceptMsgs : Bool
  rootHash : List Byte
  fileHash : List Byte
  version : Nat
  format : WorkchainFormat
  deriving DecidableEq, Repr

/-- `models/config/params.rs:139-144` `is_valid`; `ShardIdent::MAX_SPLIT_DEPTH` is 60. -/
def WorkchainDescription.isValid (d : WorkchainDescription) : Bool :=
  decide (d.minSplit ≤ d.maxSplit) && decide (d.maxSplit ≤ 60) && d.format.isValid

/-- The word of flags (`models/config/params.rs:157-159`, `184-187`, `194-195`, `202`): basic, active, accept messages; the other bits must be zero. -/
def workchainFlags : Tlb (Bool × Bool × Bool) where
  ok _ := True
  store f := Wr.u16 ((f.1.toNat <<< 15) ||| (f.2.1.toNat <<< 14) ||| (f.2.2.toNat <<< 13))
  load := Rd.u16 >>= fun v => Prog.check (decide ((v <<< 3) % 2 ^ 16 = 0)) .invalidData >>= fun _ =>
    pure (decide (v &&& 0x8000 ≠ 0), decide (v &&& 0x4000 ≠ 0), decide (v &&& 0x2000 ≠ 0))
  R f := Enc.Lit (f.1 :: f.2.1 :: f.2.2 :: List.replicate 13 false)
  enc f := Enc.bits (f.1 :: f.2.1 :: f.2.2 :: List.replicate 13 false)

/-- `models/config/params.rs:174-202` the fields of `WorkchainDescription` with the flags kept together, here `WorkchainRaw` -/
structure WorkchainRaw where
  enabledSince : Nat
  actualMinSplit : Nat
  minSplit : Nat
  maxSplit : Nat
  flags : Bool × Bool × Bool
  rootHash : List Byte
  fileHash : List Byte
  version : Nat
  format : WorkchainFormat
  deriving DecidableEq, Repr

/-- `WorkchainRaw` is written as in `models/config/params.rs:161-170` and read as in `:173-200`. -/
def workchainRaw : Tlb WorkchainRaw where
  ok a := Tlb.u32.ok a.enabledSince ∧ Tlb.u8.ok a.actualMinSplit ∧ Tlb.u8.ok a.minSplit ∧ Tlb.u8.ok a.maxSplit ∧ workchainFlags.ok a.flags ∧ Tlb.hash.ok a.rootHash ∧ Tlb.hash.ok a.fileHash ∧ Tlb.u32.ok a.version ∧ workchainFormat.ok a.format
  store a := Wr.u8 0xa6 >>= fun _ => Tlb.u32.store a.enabledSince >>= fun _ => Tlb.u8.store a.actualMinSplit >>= fun _ => Tlb.u8.store a.minSplit >>= fun _ => Tlb.u8.store a.maxSplit >>= fun _ => workchainFlags.store a.flags >>= fun _ => Tlb.hash.store a.rootHash >>= fun _ => Tlb.hash.store a.fileHash >>= fun _ => Tlb.u32.store a.version >>= fun _ => workchainFormat.store a.format
  load :=
    Rd.u8 >>= fun u => Prog.check (decide (u = 0xa6)) .invalidTag >>= fun _ =>
    Tlb.u32.load >>= fun enabledSince =>
    Tlb.u8.load >>= fun actualMinSplit =>
    Tlb.u8.load >>= fun minSplit =>
    Tlb.u8.load >>= fun maxSplit =>
    workchainFlags.load >>= fun flags =>
    Tlb.hash.load >>= fun rootHash =>
    Tlb.hash.load >>= fun fileHash =>
    Tlb.u32.load >>= fun version =>
    workchainFormat.load >>= fun format =>
    pure ⟨enabledSince, actualMinSplit, minSplit, maxSplit, flags, rootHash, fileHash, version, format⟩
  R a := Enc.Lit (natBits 8 0xa6) ⬝ Tlb.u32.R a.enabledSince ⬝ Tlb.u8.R a.actualMinSplit ⬝ Tlb.u8.R a.minSplit ⬝ Tlb.u8.R a.maxSplit ⬝ workchainFlags.R a.flags ⬝ Tlb.hash.R a.rootHash ⬝ Tlb.hash.R a.fileHash ⬝ Tlb.u32.R a.version ⬝ workchainFormat.R a.format
  enc a := Enc.bits (natBits 8 0xa6) ++ (Tlb.u32.enc a.enabledSince ++ (Tlb.u8.enc a.actualMinSplit ++ (Tlb.u8.enc a.minSplit ++ (Tlb.u8.enc a.maxSplit ++ (workchainFlags.enc a.flags ++ (Tlb.hash.enc a.rootHash ++ (Tlb.hash.enc a.fileHash ++ (Tlb.u32.enc a.version ++ (workchainFormat.enc a.format)))))))))

/-- `models/config/params.rs:191-202` -/
def WorkchainRaw.descr (r : WorkchainRaw) : WorkchainDescription :=
  ⟨r.enabledSince, r.actualMinSplit, r.minSplit, r.maxSplit, r.flags.2.1, r.flags.2.2, r.rootHash, r.fileHash, r.version, r.format⟩

/-- `models/config/params.rs:157-170` -/
def WorkchainDescription.raw (d : WorkchainDescription) : WorkchainRaw :=
  ⟨d.enabledSince, d.actualMinSplit, d.minSplit, d.maxSplit, (d.format.isBasic, d.active, d.acceptMsgs), d.rootHash, d.fileHash, d.version, d.format⟩

/-- `models/config/params.rs:147-209` `Store`, `Load`. Only storing checks `is_valid`. -/
def workchainDescription : Tlb WorkchainDescription where
  ok d := workchainRaw.ok d.raw ∧ d.isValid = true
  store d := Prog.check d.isValid .invalidData >>= fun _ => workchainRaw.store d.raw
  load := workchainRaw.load >>= fun r => Prog.check (decide (r.flags.1 = r.format.isBasic)) .invalidData >>= fun _ => pure r.descr
  R d := workchainRaw.R d.raw
  enc d := workchainRaw.enc d.raw

/-- `models/config/params.rs:324-333` `BlockCreationRewards`, here `BlockRewards` -/
structure BlockRewards where
  masterchainFee : Nat
  basechainFee : Nat
  deriving DecidableEq, Repr

/-- `BlockRewards` derives `Store` and `Load`. -/
def blockRewards : Tlb BlockRewards where
  ok a := Tlb.tokens.ok a.masterchainFee ∧ Tlb.tokens.ok a.basechainFee
  store a := Wr.u8 0x6b >>= fun _ => Tlb.tokens.store a.masterchainFee >>= fun _ => Tlb.tokens.store a.basechainFee
  load :=
    Rd.u8 >>= fun u => Prog.check (decide (u = 0x6b)) .invalidTag >>= fun _ =>
    Tlb.tokens.load >>= fun masterchainFee =>
    Tlb.tokens.load >>= fun basechainFee =>
    pure ⟨masterchainFee, basechainFee⟩
  R a := Enc.Lit (natBits 8 0x6b) ⬝ Tlb.tokens.R a.masterchainFee ⬝ Tlb.tokens.R a.basechainFee
  enc a := Enc.bits (natBits 8 0x6b) ++ (Tlb.tokens.enc a.masterchainFee ++ (Tlb.tokens.enc a.basechainFee))

/-- `models/config/params.rs:335-347` `ElectionTimings` -/
structure ElectionTimings where
  electedFor : Nat
  startBefore : Nat
  endBefore : Nat
  stakeHeldFor : Nat
  deriving DecidableEq, Repr

/-- `ElectionTimings` derives `Store` and `Load`. -/
def electionTimings : Tlb ElectionTimings where
  ok a := Tlb.u32.ok a.electedFor ∧ Tlb.u32.ok a.startBefore ∧ Tlb.u32.ok a.endBefore ∧ Tlb.u32.ok a.stakeHeldFor
  store a := Tlb.u32.store a.electedFor >>= fun _ => Tlb.u32.store a.startBefore >>= fun _ => Tlb.u32.store a.endBefore >>= fun _ => Tlb.u32.store a.stakeHeldFor
  load :=
    Tlb.u32.load >>= fun electedFor =>
    Tlb.u32.load >>= fun startBefore =>
    Tlb.u32.load >>= fun endBefore =>
    Tlb.u32.load >>= fun stakeHeldFor =>
    pure ⟨electedFor, startBefore, endBefore, stakeHeldFor⟩
  R a := Tlb.u32.R a.electedFor ⬝ Tlb.u32.R a.startBefore ⬝ Tlb.u32.R a.endBefore ⬝ Tlb.u32.R a.stakeHeldFor
  enc a := Tlb.u32.enc a.electedFor ++ (Tlb.u32.enc a.startBefore ++ (Tlb.u32.enc a.endBefore ++ (Tlb.u32.enc a.stakeHeldFor)))

/-- `models/config/params.rs:349-359` `ValidatorCountParams`, here `ValidatorCounts` -/
structure ValidatorCounts where
  maxValidators : Nat
  maxMain : Nat
  minValidators : Nat
  deriving DecidableEq, Repr

/-- `ValidatorCounts` derives `Store` and `Load`. -/
def validatorCounts : Tlb ValidatorCounts where
  ok a := Tlb.u16.ok a.maxValidators ∧ Tlb.u16.ok a.maxMain ∧ Tlb.u16.ok a.minValidators
  store a := Tlb.u16.store a.maxValidators >>= fun _ => Tlb.u16.store a.maxMain >>= fun _ => Tlb.u16.store a.minValidators
  load :=
    Tlb.u16.load >>= fun maxValidators =>
    Tlb.u16.load >>= fun maxMain =>
    Tlb.u16.load >>= fun minValidators =>
    pure ⟨maxValidators, maxMain, minValidators⟩
  R a := Tlb.u16.R a.maxValidators ⬝ Tlb.u16.R a.maxMain ⬝ Tlb.u16.R a.minValidators
  enc a := Tlb.u16.enc a.maxValidators ++ (Tlb.u16.enc a.maxMain ++ (Tlb.u16.enc a.minValidators))

/-- `models/config/params.rs:361-373` `ValidatorStakeParams`, here `StakeParams` -/
structure StakeParams where
  minStake : Nat
  maxStake : Nat
  minTotal : Nat
  maxFactor : Nat
  deriving DecidableEq, Repr

/-- `StakeParams` derives `Store` and `Load`. -/
def stakeParams : Tlb StakeParams where
  ok a := Tlb.tokens.ok a.minStake ∧ Tlb.tokens.ok a.maxStake ∧ Tlb.tokens.ok a.minTotal ∧ Tlb.u32.ok a.maxFactor
  store a := Tlb.tokens.store a.minStake >>= fun _ => Tlb.tokens.store a.maxStake >>= fun _ => Tlb.tokens.store a.minTotal >>= fun _ => Tlb.u32.store a.maxFactor
  load :=
    Tlb.tokens.load >>= fun minStake =>
    Tlb.tokens.load >>= fun maxStake =>
    Tlb.tokens.load >>= fun minTotal =>
    Tlb.u32.load >>= fun maxFactor =>
    pure ⟨minStake, maxStake, minTotal, maxFactor⟩
  R a := Tlb.tokens.R a.minStake ⬝ Tlb.tokens.R a.maxStake ⬝ Tlb.tokens.R a.minTotal ⬝ Tlb.u32.R a.maxFactor
  enc a := Tlb.tokens.enc a.minStake ++ (Tlb.tokens.enc a.maxStake ++ (Tlb.tokens.enc a.minTotal ++ (Tlb.u32.enc a.maxFactor)))

/-- `StoragePrices` derives `Store` and `Load` (`models/config/params.rs:375-390`). -/
def storagePrices : Tlb StoragePrices where
  ok a := Tlb.u32.ok a.utimeSince ∧ Tlb.u64.ok a.bitPrice ∧ Tlb.u64.ok a.cellPrice ∧ Tlb.u64.ok a.mcBitPrice ∧ Tlb.u64.ok a.mcCellPrice
  store a := Wr.u8 0xcc >>= fun _ => Tlb.u32.store a.utimeSince >>= fun _ => Tlb.u64.store a.bitPrice >>= fun _ => Tlb.u64.store a.cellPrice >>= fun _ => Tlb.u64.store a.mcBitPrice >>= fun _ => Tlb.u64.store a.mcCellPrice
  load :=
    Rd.u8 >>= fun u => Prog.check (decide (u = 0xcc)) .invalidTag >>= fun _ =>
    Tlb.u32.load >>= fun utimeSince =>
    Tlb.u64.load >>= fun bitPrice =>
    Tlb.u64.load >>= fun cellPrice =>
    Tlb.u64.load >>= fun mcBitPrice =>
    Tlb.u64.load >>= fun mcCellPrice =>
    pure ⟨utimeSince, bitPrice, cellPrice, mcBitPrice, mcCellPrice⟩
  R a := Enc.Lit (natBits 8 0xcc) ⬝ Tlb.u32.R a.utimeSince ⬝ Tlb.u64.R a.bitPrice ⬝ Tlb.u64.R a.cellPrice ⬝ Tlb.u64.R a.mcBitPrice ⬝ Tlb.u64.R a.mcCellPrice
  enc a := Enc.bits (natBits 8 0xcc) ++ (Tlb.u32.enc a.utimeSince ++ (Tlb.u64.enc a.bitPrice ++ (Tlb.u64.enc a.cellPrice ++ (Tlb.u64.enc a.mcBitPrice ++ (Tlb.u64.enc a.mcCellPrice)))))

/-- `FwdPrices` (`MsgForwardPrices`) derives `Store` and `Load` (`models/config/params.rs:540-557`). -/
def fwdPrices : Tlb FwdPrices where
  ok a := Tlb.u64.ok a.lumpPrice ∧ Tlb.u64.ok a.bitPrice ∧ Tlb.u64.ok a.cellPrice ∧ Tlb.u32.ok a.ihrFactor ∧ Tlb.u16.ok a.firstFrac ∧ Tlb.u16.ok a.nextFrac
  store a := Wr.u8 0xea >>= fun _ => Tlb.u64.store a.lumpPrice >>= fun _ => Tlb.u64.store a.bitPrice >>= fun _ => Tlb.u64.store a.cellPrice >>= fun _ => Tlb.u32.store a.ihrFactor >>= fun _ => Tlb.u16.store a.firstFrac >>= fun _ => Tlb.u16.store a.nextFrac
  load :=
    Rd.u8 >>= fun u => Prog.check (decide (u = 0xea)) .invalidTag >>= fun _ =>
    Tlb.u64.load >>= fun lumpPrice =>
    Tlb.u64.load >>= fun bitPrice =>
    Tlb.u64.load >>= fun cellPrice =>
    Tlb.u32.load >>= fun ihrFactor =>
    Tlb.u16.load >>= fun firstFrac =>
    Tlb.u16.load >>= fun nextFrac =>
    pure ⟨lumpPrice, bitPrice, cellPrice, ihrFactor, firstFrac, nextFrac⟩
  R a := Enc.Lit (natBits 8 0xea) ⬝ Tlb.u64.R a.lumpPrice ⬝ Tlb.u64.R a.bitPrice ⬝ Tlb.u64.R a.cellPrice ⬝ Tlb.u32.R a.ihrFactor ⬝ Tlb.u16.R a.firstFrac ⬝ Tlb.u16.R a.nextFrac
  enc a := Enc.bits (natBits 8 0xea) ++ (Tlb.u64.enc a.lumpPrice ++ (Tlb.u64.enc a.bitPrice ++ (Tlb.u64.enc a.cellPrice ++ (Tlb.u32.enc a.ihrFactor ++ (Tlb.u16.enc a.firstFrac ++ (Tlb.u16.enc a.nextFrac))))))

/-- `models/config/params.rs:505-516` `BlockParamLimits`, here `ParamLimits` -/
structure ParamLimits where
  underload : Nat
  softLimit : Nat
  hardLimit : Nat
  deriving DecidableEq, Repr

/-- `ParamLimits` derives `Store` and `Load`; the check follows. -/
def limitsRaw : Tlb ParamLimits where
  ok a := Tlb.u32.ok a.underload ∧ Tlb.u32.ok a.softLimit ∧ Tlb.u32.ok a.hardLimit
  store a := Wr.u8 0xc3 >>= fun _ => Tlb.u32.store a.underload >>= fun _ => Tlb.u32.store a.softLimit >>= fun _ => Tlb.u32.store a.hardLimit
  load :=
    Rd.u8 >>= fun u => Prog.check (decide (u = 0xc3)) .invalidTag >>= fun _ =>
    Tlb.u32.load >>= fun underload =>
    Tlb.u32.load >>= fun softLimit =>
    Tlb.u32.load >>= fun hardLimit =>
    pure ⟨underload, softLimit, hardLimit⟩
  R a := Enc.Lit (natBits 8 0xc3) ⬝ Tlb.u32.R a.underload ⬝ Tlb.u32.R a.softLimit ⬝ Tlb.u32.R a.hardLimit
  enc a := Enc.bits (natBits 8 0xc3) ++ (Tlb.u32.enc a.underload ++ (Tlb.u32.enc a.softLimit ++ (Tlb.u32.enc a.hardLimit)))

/-- `models/config/params.rs:518-523` `is_valid` -/
def ParamLimits.isValid (l : ParamLimits) : Bool := decide (l.underload ≤ l.softLimit) && decide (l.softLimit ≤ l.hardLimit)

/-- `models/config/params.rs:508` `validate_with = "Self::is_valid"` -/
def paramLimits : Tlb ParamLimits := limitsRaw.validated ParamLimits.isValid

/-- `models/config/params.rs:525-538` `BlockLimits` -/
structure BlockLimits where
  bytes : ParamLimits
  gas : ParamLimits
  ltDelta : ParamLimits
  deriving DecidableEq, Repr

/-- `BlockLimits` derives `Store` and `Load`. -/
def blockLimits : Tlb BlockLimits where
  ok a := paramLimits.ok a.bytes ∧ paramLimits.ok a.gas ∧ paramLimits.ok a.ltDelta
  store a := Wr.u8 0x5d >>= fun _ => paramLimits.store a.bytes >>= fun _ => paramLimits.store a.gas >>= fun _ => paramLimits.store a.ltDelta
  load :=
    Rd.u8 >>= fun u => Prog.check (decide (u = 0x5d)) .invalidTag >>= fun _ =>
    paramLimits.load >>= fun bytes =>
    paramLimits.load >>= fun gas =>
    paramLimits.load >>= fun ltDelta =>
    pure ⟨bytes, gas, ltDelta⟩
  R a := Enc.Lit (natBits 8 0x5d) ⬝ paramLimits.R a.bytes ⬝ paramLimits.R a.gas ⬝ paramLimits.R a.ltDelta
  enc a := Enc.bits (natBits 8 0x5d) ++ (paramLimits.enc a.bytes ++ (paramLimits.enc a.gas ++ (paramLimits.enc a.ltDelta)))

/-- `models/config/params.rs:1577-1598` `SizeLimitsConfig`, here `SizeLimits` -/
structure SizeLimits where
  maxMsgBits : Nat
  maxMsgCells : Nat
  maxLibraryCells : Nat
  maxVmDataDepth : Nat
  maxExtMsgSize : Nat
  maxExtMsgDepth : Nat
  maxAccStateCells : Nat
  maxAccStateBits : Nat
  maxAccLibraries : Nat
  deferQueueSize : Nat
  deriving DecidableEq, Repr

/-- `SizeLimits` derives `Store` and `Load`. -/
def sizeLimits : Tlb SizeLimits where
  ok a := Tlb.u32.ok a.maxMsgBits ∧ Tlb.u32.ok a.maxMsgCells ∧ Tlb.u32.ok a.maxLibraryCells ∧ Tlb.u16.ok a.maxVmDataDepth ∧ Tlb.u32.ok a.maxExtMsgSize ∧ Tlb.u16.ok a.maxExtMsgDepth ∧ Tlb.u32.ok a.maxAccStateCells ∧ Tlb.u32.ok a.maxAccStateBits ∧ Tlb.u32.ok a.maxAccLibraries ∧ Tlb.u32.ok a.deferQueueSize
  store a := Wr.u8 0x02 >>= fun _ => Tlb.u32.store a.maxMsgBits >>= fun _ => Tlb.u32.store a.maxMsgCells >>= fun _ => Tlb.u32.store a.maxLibraryCells >>= fun _ => Tlb.u16.store a.maxVmDataDepth >>= fun _ => Tlb.u32.store a.maxExtMsgSize >>= fun _ => Tlb.u16.store a.maxExtMsgDepth >>= fun _ => Tlb.u32.store a.maxAccStateCells >>= fun _ => Tlb.u32.store a.maxAccStateBits >>= fun _ => Tlb.u32.store a.maxAccLibraries >>= fun _ => Tlb.u32.store a.deferQueueSize
  load :=
    Rd.u8 >>= fun u => Prog.check (decide (u = 0x02)) .invalidTag >>= fun _ =>
    Tlb.u32.load >>= fun maxMsgBits =>
    Tlb.u32.load >>= fun maxMsgCells =>
    Tlb.u32.load >>= fun maxLibraryCells =>
    Tlb.u16.load >>= fun maxVmDataDepth =>
    Tlb.u32.load >>= fun maxExtMsgSize =>
    Tlb.u16.load >>= fun maxExtMsgDepth =>
    Tlb.u32.load >>= fun maxAccStateCells =>
    Tlb.u32.load >>= fun maxAccStateBits =>
    Tlb.u32.load >>= fun maxAccLibraries =>
    Tlb.u32.load >>= fun deferQueueSize =>
    pure ⟨maxMsgBits, maxMsgCells, maxLibraryCells, maxVmDataDepth, maxExtMsgSize, maxExtMsgDepth, maxAccStateCells, maxAccStateBits, maxAccLibraries, deferQueueSize⟩
  R a := Enc.Lit (natBits 8 0x02) ⬝ Tlb.u32.R a.maxMsgBits ⬝ Tlb.u32.R a.maxMsgCells ⬝ Tlb.u32.R a.maxLibraryCells ⬝ Tlb.u16.R a.maxVmDataDepth ⬝ Tlb.u32.R a.maxExtMsgSize ⬝ Tlb.u16.R a.maxExtMsgDepth ⬝ Tlb.u32.R a.maxAccStateCells ⬝ Tlb.u32.R a.maxAccStateBits ⬝ Tlb.u32.R a.maxAccLibraries ⬝ Tlb.u32.R a.deferQueueSize
  enc a := Enc.bits (natBits 8 0x02) ++ (Tlb.u32.enc a.maxMsgBits ++ (Tlb.u32.enc a.maxMsgCells ++ (Tlb.u32.enc a.maxLibraryCells ++ (Tlb.u16.enc a.maxVmDataDepth ++ (Tlb.u32.enc a.maxExtMsgSize ++ (Tlb.u16.enc a.maxExtMsgDepth ++ (Tlb.u32.enc a.maxAccStateCells ++ (Tlb.u32.enc a.maxAccStateBits ++ (Tlb.u32.enc a.maxAccLibraries ++ (Tlb.u32.enc a.deferQueueSize))))))))))

/-- `models/config/params.rs:580-598` `CatchainConfig` -/
structure CatchainConfig where
  isolate : Bool
  shuffle : Bool
  mcLifetime : Nat
  shardLifetime : Nat
  validatorsLifetime : Nat
  validatorsNum : Nat
  deriving DecidableEq, Repr

/-- `models/config/params.rs:630-637` the fields of `CatchainConfig` behind its flags, here `CatchainRest` -/
structure CatchainRest where
  mcLifetime : Nat
  shardLifetime : Nat
  validatorsLifetime : Nat
  validatorsNum : Nat
  deriving DecidableEq, Repr

/-- `CatchainRest` is written and read as in `models/config/params.rs:612-615`, `633-636`. -/
def catchainRest : Tlb CatchainRest where
  ok a := Tlb.u32.ok a.mcLifetime ∧ Tlb.u32.ok a.shardLifetime ∧ Tlb.u32.ok a.validatorsLifetime ∧ Tlb.u32.ok a.validatorsNum
  store a := Tlb.u32.store a.mcLifetime >>= fun _ => Tlb.u32.store a.shardLifetime >>= fun _ => Tlb.u32.store a.validatorsLifetime >>= fun _ => Tlb.u32.store a.validatorsNum
  load :=
    Tlb.u32.load >>= fun mcLifetime =>
    Tlb.u32.load >>= fun shardLifetime =>
    Tlb.u32.load >>= fun validatorsLifetime =>
    Tlb.u32.load >>= fun validatorsNum =>
    pure ⟨mcLifetime, shardLifetime, validatorsLifetime, validatorsNum⟩
  R a := Tlb.u32.R a.mcLifetime ⬝ Tlb.u32.R a.shardLifetime ⬝ Tlb.u32.R a.validatorsLifetime ⬝ Tlb.u32.R a.validatorsNum
  enc a := Tlb.u32.enc a.mcLifetime ++ (Tlb.u32.enc a.shardLifetime ++ (Tlb.u32.enc a.validatorsLifetime ++ (Tlb.u32.enc a.validatorsNum)))

/-- `models/config/params.rs:606-638` `Store`, `Load`: flags are read with the tag `0xc2` only. -/
def catchainConfig : Tlb CatchainConfig where
  ok c := catchainRest.ok ⟨c.mcLifetime, c.shardLifetime, c.validatorsLifetime, c.validatorsNum⟩
  store c := Wr.u8 0xc2 >>= fun _ => Wr.u8 ((c.isolate.toNat <<< 1) ||| c.shuffle.toNat) >>= fun _ =>
    catchainRest.store ⟨c.mcLifetime, c.shardLifetime, c.validatorsLifetime, c.validatorsNum⟩
  load := Rd.u8 >>= fun t =>
    (if t = 0xc1 then pure 0 else if t = 0xc2 then Rd.u8 else Prog.fail .invalidTag) >>= fun flags =>
    Prog.check (decide (flags >>> 2 = 0)) .invalidData >>= fun _ =>
    catchainRest.load >>= fun r =>
    pure ⟨decide (flags &&& 2 ≠ 0), decide (flags &&& 1 ≠ 0), r.mcLifetime, r.shardLifetime, r.validatorsLifetime, r.validatorsNum⟩
  R c e := (c.isolate = false ∧ c.shuffle = false ∧
      (Enc.Lit (natBits 8 0xc1) ⬝ catchainRest.R ⟨c.mcLifetime, c.shardLifetime, c.validatorsLifetime, c.validatorsNum⟩) e) ∨
    (Enc.Lit (natBits 8 0xc2) ⬝ Enc.Lit [false, false, false, false, false, false, c.isolate, c.shuffle] ⬝
      catchainRest.R ⟨c.mcLifetime, c.shardLifetime, c.validatorsLifetime, c.validatorsNum⟩) e
  enc c := Enc.bits (natBits 8 0xc2) ++ (Enc.bits [false, false, false, false, false, false, c.isolate, c.shuffle] ++
    catchainRest.enc ⟨c.mcLifetime, c.shardLifetime, c.validatorsLifetime, c.validatorsNum⟩)

/-- `models/config/params.rs:1052-1058` the fields of `ConsensusConfig` behind `round_candidates`, here `ConsensusRest` -/
structure ConsensusRest where
  nextDelay : Nat
  timeout : Nat
  fastAttempts : Nat
  attemptDuration : Nat
  maxDeps : Nat
  maxBlock : Nat
  maxCollated : Nat
  deriving DecidableEq, Repr

/-- `ConsensusRest` is written and read as in `models/config/params.rs:1024-1030`, `1052-1058`. -/
def consensusRest : Tlb ConsensusRest where
  ok a := Tlb.u32.ok a.nextDelay ∧ Tlb.u32.ok a.timeout ∧ Tlb.u32.ok a.fastAttempts ∧ Tlb.u32.ok a.attemptDuration ∧ Tlb.u32.ok a.maxDeps ∧ Tlb.u32.ok a.maxBlock ∧ Tlb.u32.ok a.maxCollated
  store a := Tlb.u32.store a.nextDelay >>= fun _ => Tlb.u32.store a.timeout >>= fun _ => Tlb.u32.store a.fastAttempts >>= fun _ => Tlb.u32.store a.attemptDuration >>= fun _ => Tlb.u32.store a.maxDeps >>= fun _ => Tlb.u32.store a.maxBlock >>= fun _ => Tlb.u32.store a.maxCollated
  load :=
    Tlb.u32.load >>= fun nextDelay =>
    Tlb.u32.load >>= fun timeout =>
    Tlb.u32.load >>= fun fastAttempts =>
    Tlb.u32.load >>= fun attemptDuration =>
    Tlb.u32.load >>= fun maxDeps =>
    Tlb.u32.load >>= fun maxBlock =>
    Tlb.u32.load >>= fun maxCollated =>
    pure ⟨nextDelay, timeout, fastAttempts, attemptDuration, maxDeps, maxBlock, maxCollated⟩
  R a := Tlb.u32.R a.nextDelay ⬝ Tlb.u32.R a.timeout ⬝ Tlb.u32.R a.fastAttempts ⬝ Tlb.u32.R a.attemptDuration ⬝ Tlb.u32.R a.maxDeps ⬝ Tlb.u32.R a.maxBlock ⬝ Tlb.u32.R a.maxCollated
  enc a := Tlb.u32.enc a.nextDelay ++ (Tlb.u32.enc a.timeout ++ (Tlb.u32.enc a.fastAttempts ++ (Tlb.u32.enc a.attemptDuration ++ (Tlb.u32.enc a.maxDeps ++ (Tlb.u32.enc a.maxBlock ++ (Tlb.u32.enc a.maxCollated))))))

/-- `models/config/params.rs:985-1007` `ConsensusConfig`; the fields behind `round_candidates` are grouped in `rest`. -/
structure ConsensusConfig where
  newIds : Bool
  candidates : Nat
  rest : ConsensusRest
  deriving DecidableEq, Repr

/-- The flags and the number of candidates with the tag `0xd7` (`models/config/params.rs:1041-1047`). -/
def consensusHead : Rd Cell (Nat × Nat) :=
  Rd.u8 >>= fun flags => Prog.check (decide (flags >>> 1 = 0)) .invalidData >>= fun _ => Tlb.nz8.load >>= fun n => pure (flags, n)

/-- `models/config/params.rs:1016-1061` `Store`, `Load`. `round_candidates` is a `NonZeroU32` that is stored `as u8`: the values that are stored
faithfully are those below 256. -/
def consensusConfig : Tlb ConsensusConfig where
  ok c := (c.candidates < 2 ^ 8 ∧ c.candidates ≠ 0) ∧ consensusRest.ok c.rest
  store c := Wr.u8 0xd7 >>= fun _ => Wr.u8 c.newIds.toNat >>= fun _ => Wr.u8 (c.candidates % 2 ^ 8) >>= fun _ => consensusRest.store c.rest
  load := Rd.u8 >>= fun t =>
    (if t = 0xd6 then Tlb.nz32.load >>= fun n => pure (0, n) else if t = 0xd7 then consensusHead else Prog.fail .invalidTag) >>= fun p =>
    consensusRest.load >>= fun r => pure ⟨decide (p.1 &&& 1 ≠ 0), p.2, r⟩
  R c e := (c.newIds = false ∧ (Enc.Lit (natBits 8 0xd6) ⬝ Tlb.nz32.R c.candidates ⬝ consensusRest.R c.rest) e) ∨
    (Enc.Lit (natBits 8 0xd7) ⬝ Enc.Lit [false, false, false, false, false, false, false, c.newIds] ⬝ Tlb.nz8.R c.candidates ⬝ consensusRest.R c.rest) e
  enc c := Enc.bits (natBits 8 0xd7) ++ (Enc.bits [false, false, false, false, false, false, false, c.newIds] ++
    (Enc.bits (natBits 8 c.candidates) ++ consensusRest.enc c.rest))

/-- `models/config/params.rs:486-493` what follows the tag `0xde` of `GasLimitsPrices`, here `GasExt` -/
structure GasExt where
  gasPrice : Nat
  gasLimit : Nat
  specialGasLimit : Nat
  gasCredit : Nat
  blockGasLimit : Nat
  freezeDueLimit : Nat
  deleteDueLimit : Nat
  deriving DecidableEq, Repr

/-- `GasExt` is written and read as in `models/config/params.rs:460-467`, `486-493`. -/
def gasExt : Tlb GasExt where
  ok a := Tlb.u64.ok a.gasPrice ∧ Tlb.u64.ok a.gasLimit ∧ Tlb.u64.ok a.specialGasLimit ∧ Tlb.u64.ok a.gasCredit ∧ Tlb.u64.ok a.blockGasLimit ∧ Tlb.u64.ok a.freezeDueLimit ∧ Tlb.u64.ok a.deleteDueLimit
  store a := Tlb.u64.store a.gasPrice >>= fun _ => Tlb.u64.store a.gasLimit >>= fun _ => Tlb.u64.store a.specialGasLimit >>= fun _ => Tlb.u64.store a.gasCredit >>= fun _ => Tlb.u64.store a.blockGasLimit >>= fun _ => Tlb.u64.store a.freezeDueLimit >>= fun _ => Tlb.u64.store a.deleteDueLimit
  load :=
    Tlb.u64.load >>= fun gasPrice =>
    Tlb.u64.load >>= fun gasLimit =>
    Tlb.u64.load >>= fun specialGasLimit =>
    Tlb.u64.load >>= fun gasCredit =>
    Tlb.u64.load >>= fun blockGasLimit =>
    Tlb.u64.load >>= fun freezeDueLimit =>
    Tlb.u64.load >>= fun deleteDueLimit =>
    pure ⟨gasPrice, gasLimit, specialGasLimit, gasCredit, blockGasLimit, freezeDueLimit, deleteDueLimit⟩
  R a := Tlb.u64.R a.gasPrice ⬝ Tlb.u64.R a.gasLimit ⬝ Tlb.u64.R a.specialGasLimit ⬝ Tlb.u64.R a.gasCredit ⬝ Tlb.u64.R a.blockGasLimit ⬝ Tlb.u64.R a.freezeDueLimit ⬝ Tlb.u64.R a.deleteDueLimit
  enc a := Tlb.u64.enc a.gasPrice ++ (Tlb.u64.enc a.gasLimit ++ (Tlb.u64.enc a.specialGasLimit ++ (Tlb.u64.enc a.gasCredit ++ (Tlb.u64.enc a.blockGasLimit ++ (Tlb.u64.enc a.freezeDueLimit ++ (Tlb.u64.enc a.deleteDueLimit))))))

/-- `models/config/params.rs:495-502` what follows the tag `0xdd` of `GasLimitsPrices`, here `GasBase` -/
structure GasBase where
  gasPrice : Nat
  gasLimit : Nat
  gasCredit : Nat
  blockGasLimit : Nat
  freezeDueLimit : Nat
  deleteDueLimit : Nat
  deriving DecidableEq, Repr

/-- `GasBase` is read as in `models/config/params.rs:495-502`. -/
def gasBase : Tlb GasBase where
  ok a := Tlb.u64.ok a.gasPrice ∧ Tlb.u64.ok a.gasLimit ∧ Tlb.u64.ok a.gasCredit ∧ Tlb.u64.ok a.blockGasLimit ∧ Tlb.u64.ok a.freezeDueLimit ∧ Tlb.u64.ok a.deleteDueLimit
  store a := Tlb.u64.store a.gasPrice >>= fun _ => Tlb.u64.store a.gasLimit >>= fun _ => Tlb.u64.store a.gasCredit >>= fun _ => Tlb.u64.store a.blockGasLimit >>= fun _ => Tlb.u64.store a.freezeDueLimit >>= fun _ => Tlb.u64.store a.deleteDueLimit
  load :=
    Tlb.u64.load >>= fun gasPrice =>
    Tlb.u64.load >>= fun gasLimit =>
    Tlb.u64.load >>= fun gasCredit =>
    Tlb.u64.load >>= fun blockGasLimit =>
    Tlb.u64.load >>= fun freezeDueLimit =>
    Tlb.u64.load >>= fun deleteDueLimit =>
    pure ⟨gasPrice, gasLimit, gasCredit, blockGasLimit, freezeDueLimit, deleteDueLimit⟩
  R a := Tlb.u64.R a.gasPrice ⬝ Tlb.u64.R a.gasLimit ⬝ Tlb.u64.R a.gasCredit ⬝ Tlb.u64.R a.blockGasLimit ⬝ Tlb.u64.R a.freezeDueLimit ⬝ Tlb.u64.R a.deleteDueLimit
  enc a := Tlb.u64.enc a.gasPrice ++ (Tlb.u64.enc a.gasLimit ++ (Tlb.u64.enc a.gasCredit ++ (Tlb.u64.enc a.blockGasLimit ++ (Tlb.u64.enc a.freezeDueLimit ++ (Tlb.u64.enc a.deleteDueLimit)))))

/-- The parts of `GasLimitsPrices`. -/
def GasPrices.ext (p : GasPrices) : GasExt :=
  ⟨p.gasPrice, p.gasLimit, p.specialGasLimit, p.gasCredit, p.blockGasLimit, p.freezeDueLimit, p.deleteDueLimit⟩
@[inherit_doc GasPrices.ext] def GasExt.prices (x : GasExt) (flatLimit flatPrice : Nat) : GasPrices :=
  ⟨x.gasPrice, x.gasLimit, x.specialGasLimit, x.gasCredit, x.blockGasLimit, x.freezeDueLimit, x.deleteDueLimit, flatLimit, flatPrice⟩
@[inherit_doc GasPrices.ext] def GasBase.prices (x : GasBase) (flatLimit flatPrice : Nat) : GasPrices :=
  ⟨x.gasPrice, x.gasLimit, 0, x.gasCredit, x.blockGasLimit, x.freezeDueLimit, x.deleteDueLimit, flatLimit, flatPrice⟩

/-- The loop of `models/config/params.rs:478-508`, with the flat limit and price read so far. The number of rounds is bounded to be total; by
`gasLoop_fuel` eight rounds are as good as any number of them. -/
def gasLoop : Nat → Nat → Nat → Rd Cell GasPrices
  | 0, _, _ => Prog.fail .cellUnderflow
  | n + 1, fl, fp => Rd.u8 >>= fun t =>
    if t = 0xd1 then Rd.u64 >>= fun l => Rd.u64 >>= fun p => gasLoop n l p
    else if t = 0xde then gasExt.load >>= fun x => pure (x.prices fl fp)
    else if t = 0xdd then gasBase.load >>= fun x => pure (x.prices fl fp)
    else Prog.fail .invalidTag

/-- The grammar of gas prices behind which `fl`, `fp` were read: any number `k` of flat prefixes, then one of two forms. -/
inductive GasEnc : Nat → Nat → Nat → GasPrices → Enc Cell → Prop
  | ext {fl fp : Nat} {x : GasExt} {e : Enc Cell} (h : gasExt.R x e) : GasEnc 0 fl fp (x.prices fl fp) (Enc.bits (natBits 8 0xde) ++ e)
  | base {fl fp : Nat} {x : GasBase} {e : Enc Cell} (h : gasBase.R x e) : GasEnc 0 fl fp (x.prices fl fp) (Enc.bits (natBits 8 0xdd) ++ e)
  | flat {k fl fp l q : Nat} {p : GasPrices} {e : Enc Cell} (hl : l < 2 ^ 64) (hq : q < 2 ^ 64) (h : GasEnc k l q p e) :
    GasEnc (k + 1) fl fp p (Enc.bits (natBits 8 0xd1) ++ (Enc.bits (natBits 64 l) ++ (Enc.bits (natBits 64 q) ++ e)))

/-- `models/config/params.rs:455-510` `Store`, `Load` of `GasLimitsPrices` -/
def gasPrices : Tlb GasPrices where
  ok p := gasExt.ok p.ext ∧ p.flatGasLimit < 2 ^ 64 ∧ p.flatGasPrice < 2 ^ 64
  store p := Wr.u8 0xd1 >>= fun _ => Wr.u64 p.flatGasLimit >>= fun _ => Wr.u64 p.flatGasPrice >>= fun _ => Wr.u8 0xde >>= fun _ => gasExt.store p.ext
  load := gasLoop 8 0 0
  R p e := ∃ k, GasEnc k 0 0 p e
  enc p := Enc.bits (natBits 8 0xd1) ++ (Enc.bits (natBits 64 p.flatGasLimit) ++ (Enc.bits (natBits 64 p.flatGasPrice) ++
    (Enc.bits (natBits 8 0xde) ++ gasExt.enc p.ext)))

/-! ### Soundness of the parts -/

namespace Tlb

theorem Sound.nonZero {A : Tlb Nat} (h : A.Sound) : (nonZero A).Sound :=
  ⟨⟨fun v hv => h.st.writes v hv.1, fun v hv => ⟨h.st.canon v hv.1, hv.2⟩⟩,
    (h.ld.check (fun v => decide (v ≠ 0)) (by decide) (by decide)).iff fun v e => by
      show A.R v e ∧ decide (v ≠ 0) = true ↔ A.R v e ∧ v ≠ 0
      rw [decide_eq_true_iff]⟩
theorem nz8_sound : nz8.Sound := u8_sound.nonZero
theorem nz16_sound : nz16.Sound := u16_sound.nonZero
theorem nz32_sound : nz32.Sound := u32_sound.nonZero

end Tlb

theorem burningRaw_sound : (burningRaw).Sound :=
  ((Tlb.hash_sound.opt.pair (Tlb.u32_sound.pair Tlb.nz32_sound)).tagged (n := 8) (t := 0x01) (by unfold Tlb.TagWidth; omega) (by decide)).struct (fun p => ⟨p.1, p.2.1, p.2.2⟩) (fun a => (a.blackhole, a.num, a.denom))
    (fun _ => rfl) (fun _ => rfl) (by unfold burningRaw; tlb_more) (fun _ h => h) (fun _ _ => rfl) (fun _ _ => Iff.rfl) (fun _ _ => rfl)

theorem burningConfig_sound : burningConfig.Sound := burningRaw_sound.validated _

theorem mintOnce_sound : (mintOnce).Sound :=
  ((Tlb.u32_sound.pair Tlb.currency_sound).tagged (n := 8) (t := 0x01) (by unfold Tlb.TagWidth; omega) (by decide)).struct (fun p => ⟨p.1, p.2⟩) (fun a => (a.mintAt, a.delta))
    (fun _ => rfl) (fun _ => rfl) (by unfold mintOnce; tlb_more) (fun _ h => h) (fun _ _ => rfl) (fun _ _ => Iff.rfl) (fun _ _ => rfl)

theorem proposalSetup_sound : (proposalSetup).Sound :=
  ((Tlb.u8_sound.pair (Tlb.u8_sound.pair (Tlb.u8_sound.pair (Tlb.u8_sound.pair (Tlb.u32_sound.pair (Tlb.u32_sound.pair (Tlb.u32_sound.pair Tlb.u32_sound))))))).tagged (n := 8) (t := 0x36) (by unfold Tlb.TagWidth; omega) (by decide)).struct (fun p => ⟨p.1, p.2.1, p.2.2.1, p.2.2.2.1, p.2.2.2.2.1, p.2.2.2.2.2.1, p.2.2.2.2.2.2.1, p.2.2.2.2.2.2.2⟩) (fun a => (a.minTotalRounds, a.maxTotalRounds, a.minWins, a.maxLosses, a.minStoreSec, a.maxStoreSec, a.bitPrice, a.cellPrice))
    (fun _ => rfl) (fun _ => rfl) (by unfold proposalSetup; tlb_more) (fun _ h => h) (fun _ _ => rfl) (fun _ _ => Iff.rfl) (fun _ _ => rfl)

theorem votingSetup_sound : (votingSetup).Sound :=
  (((Tlb.lazy_sound false).pair (Tlb.lazy_sound false)).tagged (n := 8) (t := 0x91) (by unfold Tlb.TagWidth; omega) (by decide)).struct (fun p => ⟨p.1, p.2⟩) (fun a => (a.normalParams, a.criticalParams))
    (fun _ => rfl) (fun _ => rfl) (by unfold votingSetup; tlb_more) (fun _ h => h) (fun _ _ => rfl) (fun _ _ => Iff.rfl) (fun _ _ => rfl)

theorem formatBasic_sound : (formatBasic).Sound :=
  (Tlb.i32_sound.pair Tlb.u64_sound).struct (fun p => ⟨p.1, p.2⟩) (fun a => (a.vmVersion, a.vmMode))
    (fun _ => rfl) (fun _ => rfl) (by unfold formatBasic; tlb_more) (fun _ h => h) (fun _ _ => rfl) (fun _ _ => Iff.rfl) (fun _ _ => rfl)

theorem formatRaw_sound : (formatRaw).Sound :=
  ((Tlb.uint_sound (n := 12) (by decide)).pair ((Tlb.uint_sound (n := 12) (by decide)).pair ((Tlb.uint_sound (n := 12) (by decide)).pair Tlb.nz32_sound))).struct (fun p => ⟨p.1, p.2.1, p.2.2.1, p.2.2.2⟩) (fun a => (a.minLen, a.maxLen, a.step, a.typeId))
    (fun _ => rfl) (fun _ => rfl) (by unfold formatRaw; tlb_more) (fun _ h => h) (fun _ _ => rfl) (fun _ _ => Iff.rfl) (fun _ _ => rfl)

theorem formatExt_sound : formatExt.Sound := formatRaw_sound.validated _

theorem workchainFormat_sound : (workchainFormat).Sound where
  st := ⟨fun v h => by
      cases v with
      | basic v => exact (Wr.writes_small 1 (n := 4) (by decide)).writes.seq (formatBasic_sound.st.writes v h)
      | extended v => exact (Wr.writes_small 0 (n := 4) (by decide)).writes.seq (formatExt_sound.st.writes v h),
    fun v h => by
      cases v with
      | basic v => exact ⟨_, _, rfl, formatBasic_sound.st.canon v h, rfl⟩
      | extended v => exact ⟨_, _, rfl, formatExt_sound.st.canon v h, rfl⟩⟩
  ld := (Loads.switch (Loads.ofTakes (Rd.takes_small (n := 4) (by decide)))
      (fun v => match v with
        | .basic _ => 1
        | .extended _ => 0)
      (fun v => match v with
        | .basic v => formatBasic.R v
        | .extended v => formatExt.R v) (by intro v; cases v <;> simp)
      (fun t ht => by
        by_cases h0 : t = 1
        · rw [if_pos h0]; subst h0
          exact (formatBasic_sound.ld.map WorkchainFormat.basic).iff fun v e => by cases v <;> simp
        rw [if_neg h0]
        by_cases h1 : t = 0
        · rw [if_pos h1]; subst h1
          exact (formatExt_sound.ld.map WorkchainFormat.extended).iff fun v e => by cases v <;> simp
        rw [if_neg h1]
        exact Loads.nothing (by decide) (by decide) fun v e => by cases v <;> simp <;> omega)).iff fun v e => by
    cases v with
    | basic v => dsimp only; show (Enc.Lit [false, false, false, true] ⬝ formatBasic.R v) e ↔ (Enc.Lit [false, false, false, true] ⬝ formatBasic.R v) e; exact Iff.rfl
    | extended v => dsimp only; show (Enc.Lit [false, false, false, false] ⬝ formatExt.R v) e ↔ (Enc.Lit [false, false, false, false] ⬝ formatExt.R v) e; exact Iff.rfl

theorem wcFlagsOf : ∀ v, v < 2 ^ 16 → (v <<< 3) % 2 ^ 16 = 0 →
    natBits 16 v = decide (v &&& 0x8000 ≠ 0) :: decide (v &&& 0x4000 ≠ 0) :: decide (v &&& 0x2000 ≠ 0) :: List.replicate 13 false := by
  have h : ∀ k, k < 8 → natBits 16 (k * 2 ^ 13) = decide (k * 2 ^ 13 &&& 0x8000 ≠ 0) :: decide (k * 2 ^ 13 &&& 0x4000 ≠ 0) ::
      decide (k * 2 ^ 13 &&& 0x2000 ≠ 0) :: List.replicate 13 false := by decide +kernel
  intro v hv h3
  rw [Nat.shiftLeft_eq] at h3
  have : v = v / 2 ^ 13 * 2 ^ 13 := by omega
  rw [this]
  exact h _ (by omega)

theorem wcFlagsTo : ∀ a b c : Bool, ((a.toNat <<< 15) ||| (b.toNat <<< 14) ||| (c.toNat <<< 13)) < 2 ^ 16 ∧
    natBits 16 ((a.toNat <<< 15) ||| (b.toNat <<< 14) ||| (c.toNat <<< 13)) = a :: b :: c :: List.replicate 13 false ∧
    (((a.toNat <<< 15) ||| (b.toNat <<< 14) ||| (c.toNat <<< 13)) <<< 3) % 2 ^ 16 = 0 := by decide +kernel

theorem workchainFlags_loads : Loads workchainFlags.load (fun f e => ∃ v, f = (decide (v &&& 0x8000 ≠ 0), decide (v &&& 0x4000 ≠ 0), decide (v &&& 0x2000 ≠ 0)) ∧
    (v < 2 ^ 16 ∧ e = Enc.bits (natBits 16 v)) ∧ decide ((v <<< 3) % 2 ^ 16 = 0) = true) := by
  have h := ((Loads.ofTakes (Rd.takes_u16 (ρ := Cell))).check (fun v => decide ((v <<< 3) % 2 ^ 16 = 0)) (x := .invalidData) (by decide) (by decide)).map
    (fun v => (decide (v &&& 0x8000 ≠ 0), decide (v &&& 0x4000 ≠ 0), decide (v &&& 0x2000 ≠ 0)))
  simp only [Prog.bind_assoc', Prog.pure_bind'] at h
  exact h

theorem workchainFlags_sound : workchainFlags.Sound where
  st := ⟨fun v _ => by
      obtain ⟨a, b, c⟩ := v
      have := (Wr.writes_u16 (ρ := Cell) (wcFlagsTo a b c).1).writes
      rw [(wcFlagsTo a b c).2.1] at this
      exact this, fun v _ => rfl⟩
  ld := workchainFlags_loads.iff fun f e => by
    obtain ⟨a, b, c⟩ := f
    constructor
    · rintro ⟨v, h, ⟨h1, rfl⟩, h3⟩
      obtain ⟨x1, h⟩ := Prod.mk.inj h
      obtain ⟨x2, x3⟩ := Prod.mk.inj h
      rw [x1, x2, x3]
      exact congrArg Enc.bits (wcFlagsOf v h1 (by simpa using h3))
    · intro h
      obtain ⟨h1, h2, h3⟩ := wcFlagsTo a b c
      refine ⟨_, ?_, ⟨h1, h.trans (congrArg Enc.bits h2.symm)⟩, by simpa using h3⟩
      have := wcFlagsOf _ h1 h3
      rw [h2] at this
      injection this with x1 this
      injection this with x2 this
      injection this with x3 _
      exact Prod.ext x1 (Prod.ext x2 x3)

theorem workchainRaw_sound : (workchainRaw).Sound :=
  ((Tlb.u32_sound.pair (Tlb.u8_sound.pair (Tlb.u8_sound.pair (Tlb.u8_sound.pair (workchainFlags_sound.pair (Tlb.hash_sound.pair (Tlb.hash_sound.pair (Tlb.u32_sound.pair workchainFormat_sound)))))))).tagged (n := 8) (t := 0xa6) (by unfold Tlb.TagWidth; omega) (by decide)).struct (fun p => ⟨p.1, p.2.1, p.2.2.1, p.2.2.2.1, p.2.2.2.2.1, p.2.2.2.2.2.1, p.2.2.2.2.2.2.1, p.2.2.2.2.2.2.2.1, p.2.2.2.2.2.2.2.2⟩) (fun a => (a.enabledSince, a.actualMinSplit, a.minSplit, a.maxSplit, a.flags, a.rootHash, a.fileHash, a.version, a.format))
    (fun _ => rfl) (fun _ => rfl) (by unfold workchainRaw; tlb_more) (fun _ h => h) (fun _ _ => rfl) (fun _ _ => Iff.rfl) (fun _ _ => rfl)

theorem workchain_loads : Loads workchainDescription.load (fun d e => ∃ r, d = r.descr ∧ workchainRaw.R r e ∧ decide (r.flags.1 = r.format.isBasic) = true) := by
  have h := (workchainRaw_sound.ld.check (fun r => decide (r.flags.1 = r.format.isBasic)) (x := .invalidData) (by decide) (by decide)).map WorkchainRaw.descr
  simp only [Prog.bind_assoc', Prog.pure_bind'] at h
  exact h

theorem workchainDescription_sound : workchainDescription.Sound where
  st := ⟨fun d h => by
      show Writes (Prog.check d.isValid .invalidData >>= fun _ => workchainRaw.store d.raw) _
      rw [h.2, Prog.check_true, Prog.pure_bind']
      exact workchainRaw_sound.st.writes _ h.1, fun d h => workchainRaw_sound.st.canon _ h.1⟩
  ld := workchain_loads.iff fun d e => by
    constructor
    · rintro ⟨r, rfl, h, hb⟩
      have hb := of_decide_eq_true hb
      have : r.descr.raw = r := by
        obtain ⟨_, _, _, _, ⟨_, _, _⟩, _, _, _, _⟩ := r
        dsimp only at hb
        subst hb
        rfl
      show workchainRaw.R r.descr.raw e
      rw [this]; exact h
    · intro h
      exact ⟨d.raw, rfl, h, decide_eq_true rfl⟩

theorem blockRewards_sound : (blockRewards).Sound :=
  ((Tlb.tokens_sound.pair Tlb.tokens_sound).tagged (n := 8) (t := 0x6b) (by unfold Tlb.TagWidth; omega) (by decide)).struct (fun p => ⟨p.1, p.2⟩) (fun a => (a.masterchainFee, a.basechainFee))
    (fun _ => rfl) (fun _ => rfl) (by unfold blockRewards; tlb_more) (fun _ h => h) (fun _ _ => rfl) (fun _ _ => Iff.rfl) (fun _ _ => rfl)

theorem electionTimings_sound : (electionTimings).Sound :=
  (Tlb.u32_sound.pair (Tlb.u32_sound.pair (Tlb.u32_sound.pair Tlb.u32_sound))).struct (fun p => ⟨p.1, p.2.1, p.2.2.1, p.2.2.2⟩) (fun a => (a.electedFor, a.startBefore, a.endBefore, a.stakeHeldFor))
    (fun _ => rfl) (fun _ => rfl) (by unfold electionTimings; tlb_more) (fun _ h => h) (fun _ _ => rfl) (fun _ _ => Iff.rfl) (fun _ _ => rfl)

theorem validatorCounts_sound : (validatorCounts).Sound :=
  (Tlb.u16_sound.pair (Tlb.u16_sound.pair Tlb.u16_sound)).struct (fun p => ⟨p.1, p.2.1, p.2.2⟩) (fun a => (a.maxValidators, a.maxMain, a.minValidators))
    (fun _ => rfl) (fun _ => rfl) (by unfold validatorCounts; tlb_more) (fun _ h => h) (fun _ _ => rfl) (fun _ _ => Iff.rfl) (fun _ _ => rfl)

theorem stakeParams_sound : (stakeParams).Sound :=
  (Tlb.tokens_sound.pair (Tlb.tokens_sound.pair (Tlb.tokens_sound.pair Tlb.u32_sound))).struct (fun p => ⟨p.1, p.2.1, p.2.2.1, p.2.2.2⟩) (fun a => (a.minStake, a.maxStake, a.minTotal, a.maxFactor))
    (fun _ => rfl) (fun _ => rfl) (by unfold stakeParams; tlb_more) (fun _ h => h) (fun _ _ => rfl) (fun _ _ => Iff.rfl) (fun _ _ => rfl)

theorem storagePrices_sound : (storagePrices).Sound :=
  ((Tlb.u32_sound.pair (Tlb.u64_sound.pair (Tlb.u64_sound.pair (Tlb.u64_sound.pair Tlb.u64_sound)))).tagged (n := 8) (t := 0xcc) (by unfold Tlb.TagWidth; omega) (by decide)).struct (fun p => ⟨p.1, p.2.1, p.2.2.1, p.2.2.2.1, p.2.2.2.2⟩) (fun a => (a.utimeSince, a.bitPrice, a.cellPrice, a.mcBitPrice, a.mcCellPrice))
    (fun _ => rfl) (fun _ => rfl) (by unfold storagePrices; tlb_more) (fun _ h => h) (fun _ _ => rfl) (fun _ _ => Iff.rfl) (fun _ _ => rfl)

theorem fwdPrices_sound : (fwdPrices).Sound :=
  ((Tlb.u64_sound.pair (Tlb.u64_sound.pair (Tlb.u64_sound.pair (Tlb.u32_sound.pair (Tlb.u16_sound.pair Tlb.u16_sound))))).tagged (n := 8) (t := 0xea) (by unfold Tlb.TagWidth; omega) (by decide)).struct (fun p => ⟨p.1, p.2.1, p.2.2.1, p.2.2.2.1, p.2.2.2.2.1, p.2.2.2.2.2⟩) (fun a => (a.lumpPrice, a.bitPrice, a.cellPrice, a.ihrFactor, a.firstFrac, a.nextFrac))
    (fun _ => rfl) (fun _ => rfl) (by unfold fwdPrices; tlb_more) (fun _ h => h) (fun _ _ => rfl) (fun _ _ => Iff.rfl) (fun _ _ => rfl)

theorem limitsRaw_sound : (limitsRaw).Sound :=
  ((Tlb.u32_sound.pair (Tlb.u32_sound.pair Tlb.u32_sound)).tagged (n := 8) (t := 0xc3) (by unfold Tlb.TagWidth; omega) (by decide)).struct (fun p => ⟨p.1, p.2.1, p.2.2⟩) (fun a => (a.underload, a.softLimit, a.hardLimit))
    (fun _ => rfl) (fun _ => rfl) (by unfold limitsRaw; tlb_more) (fun _ h => h) (fun _ _ => rfl) (fun _ _ => Iff.rfl) (fun _ _ => rfl)

theorem paramLimits_sound : paramLimits.Sound := limitsRaw_sound.validated _

theorem blockLimits_sound : (blockLimits).Sound :=
  ((paramLimits_sound.pair (paramLimits_sound.pair paramLimits_sound)).tagged (n := 8) (t := 0x5d) (by unfold Tlb.TagWidth; omega) (by decide)).struct (fun p => ⟨p.1, p.2.1, p.2.2⟩) (fun a => (a.bytes, a.gas, a.ltDelta))
    (fun _ => rfl) (fun _ => rfl) (by unfold blockLimits; tlb_more) (fun _ h => h) (fun _ _ => rfl) (fun _ _ => Iff.rfl) (fun _ _ => rfl)

theorem sizeLimits_sound : (sizeLimits).Sound :=
  ((Tlb.u32_sound.pair (Tlb.u32_sound.pair (Tlb.u32_sound.pair (Tlb.u16_sound.pair (Tlb.u32_sound.pair (Tlb.u16_sound.pair (Tlb.u32_sound.pair (Tlb.u32_sound.pair (Tlb.u32_sound.pair Tlb.u32_sound))))))))).tagged (n := 8) (t := 0x02) (by unfold Tlb.TagWidth; omega) (by decide)).struct (fun p => ⟨p.1, p.2.1, p.2.2.1, p.2.2.2.1, p.2.2.2.2.1, p.2.2.2.2.2.1, p.2.2.2.2.2.2.1, p.2.2.2.2.2.2.2.1, p.2.2.2.2.2.2.2.2.1, p.2.2.2.2.2.2.2.2.2⟩) (fun a => (a.maxMsgBits, a.maxMsgCells, a.maxLibraryCells, a.maxVmDataDepth, a.maxExtMsgSize, a.maxExtMsgDepth, a.maxAccStateCells, a.maxAccStateBits, a.maxAccLibraries, a.deferQueueSize))
    (fun _ => rfl) (fun _ => rfl) (by unfold sizeLimits; tlb_more) (fun _ h => h) (fun _ _ => rfl) (fun _ _ => Iff.rfl) (fun _ _ => rfl)

theorem catchainRest_sound : (catchainRest).Sound :=
  (Tlb.u32_sound.pair (Tlb.u32_sound.pair (Tlb.u32_sound.pair Tlb.u32_sound))).struct (fun p => ⟨p.1, p.2.1, p.2.2.1, p.2.2.2⟩) (fun a => (a.mcLifetime, a.shardLifetime, a.validatorsLifetime, a.validatorsNum))
    (fun _ => rfl) (fun _ => rfl) (by unfold catchainRest; tlb_more) (fun _ h => h) (fun _ _ => rfl) (fun _ _ => Iff.rfl) (fun _ _ => rfl)

theorem catchainFlags : ∀ v, v < 2 ^ 8 → v >>> 2 = 0 →
    natBits 8 v = [false, false, false, false, false, false, decide (v &&& 2 ≠ 0), decide (v &&& 1 ≠ 0)] := by decide +kernel

theorem catchainByte : ∀ a b : Bool, ((a.toNat <<< 1) ||| b.toNat) < 2 ^ 8 ∧ ((a.toNat <<< 1) ||| b.toNat) >>> 2 = 0 ∧
    natBits 8 ((a.toNat <<< 1) ||| b.toNat) = [false, false, false, false, false, false, a, b] ∧
    decide (((a.toNat <<< 1) ||| b.toNat) &&& 2 ≠ 0) = a ∧ decide (((a.toNat <<< 1) ||| b.toNat) &&& 1 ≠ 0) = b := by decide +kernel

/-- The flags, then the rest. -/
def catchainTail (flags : Nat) : Rd Cell CatchainConfig :=
  Prog.check (decide (flags >>> 2 = 0)) .invalidData >>= fun _ =>
    catchainRest.load >>= fun r =>
    pure ⟨decide (flags &&& 2 ≠ 0), decide (flags &&& 1 ≠ 0), r.mcLifetime, r.shardLifetime, r.validatorsLifetime, r.validatorsNum⟩

theorem catchainTail_loads (flags : Nat) : Loads (catchainTail flags) (fun c e => flags >>> 2 = 0 ∧ c.isolate = decide (flags &&& 2 ≠ 0) ∧
    c.shuffle = decide (flags &&& 1 ≠ 0) ∧ catchainRest.R ⟨c.mcLifetime, c.shardLifetime, c.validatorsLifetime, c.validatorsNum⟩ e) := by
  unfold catchainTail
  by_cases h : flags >>> 2 = 0
  · rw [decide_eq_true h, Prog.check_true, Prog.pure_bind']
    refine (catchainRest_sound.ld.map _).iff fun c e => ?_
    constructor
    · rintro ⟨r, rfl, hr⟩; exact ⟨h, rfl, rfl, hr⟩
    · rintro ⟨_, h1, h2, hr⟩
      refine ⟨_, ?_, hr⟩
      rw [← h1, ← h2]
  · rw [decide_eq_false h]
    exact Loads.nothing (by decide) (by decide) fun c e h' => h h'.1

theorem catchainConfig_loads : Loads catchainConfig.load catchainConfig.R := by
  have hl : catchainConfig.load = Rd.u8 >>= fun t => (if t = 0xc1 then catchainTail 0 else if t = 0xc2 then Rd.u8 >>= catchainTail else Prog.fail .invalidTag) := by
    show (Rd.u8 >>= fun t => (if t = 0xc1 then pure 0 else if t = 0xc2 then Rd.u8 else Prog.fail .invalidTag) >>= catchainTail) = _
    congr 1
    funext t
    by_cases h1 : t = 0xc1
    · rw [if_pos h1, if_pos h1]; rfl
    · rw [if_neg h1, if_neg h1]
      by_cases h2 : t = 0xc2
      · rw [if_pos h2, if_pos h2]
      · rw [if_neg h2, if_neg h2]; rfl
  rw [hl]
  have h2 : Loads (Rd.u8 >>= catchainTail) (fun c => Enc.Lit [false, false, false, false, false, false, c.isolate, c.shuffle] ⬝
      catchainRest.R ⟨c.mcLifetime, c.shardLifetime, c.validatorsLifetime, c.validatorsNum⟩) :=
    (Loads.onNat Rd.takes_u8 (fun t _ => catchainTail_loads t)).iff fun c e => by
      constructor
      · rintro ⟨v, hv, _, e2, rfl, ⟨h1, h2, h3, h4⟩, rfl⟩
        exact ⟨_, e2, by rw [h2, h3]; exact congrArg Enc.bits (catchainFlags v hv h1), h4, rfl⟩
      · rintro ⟨_, e2, rfl, h4, rfl⟩
        obtain ⟨h1, h2, h3, h5, h6⟩ := catchainByte c.isolate c.shuffle
        exact ⟨_, h1, _, e2, congrArg Enc.bits h3.symm, ⟨h2, h5.symm, h6.symm, h4⟩, rfl⟩
  refine (Loads.onNat Rd.takes_u8 (R := fun t c e => (t = 0xc1 ∧ c.isolate = false ∧ c.shuffle = false ∧
      catchainRest.R ⟨c.mcLifetime, c.shardLifetime, c.validatorsLifetime, c.validatorsNum⟩ e) ∨ (t = 0xc2 ∧
      (Enc.Lit [false, false, false, false, false, false, c.isolate, c.shuffle] ⬝
      catchainRest.R ⟨c.mcLifetime, c.shardLifetime, c.validatorsLifetime, c.validatorsNum⟩) e)) (fun t _ => ?_)).iff fun c e => ?_
  · by_cases ha : t = 0xc1
    · rw [if_pos ha]
      refine (catchainTail_loads 0).iff fun c e => ⟨fun h => Or.inl ⟨ha, h.2.1.trans (by decide), h.2.2.1.trans (by decide), h.2.2.2⟩, ?_⟩
      rintro (⟨_, h1, h2, h3⟩ | ⟨h, _⟩)
      · exact ⟨rfl, h1.trans (by decide), h2.trans (by decide), h3⟩
      · omega
    · rw [if_neg ha]
      by_cases hb : t = 0xc2
      · rw [if_pos hb]
        exact h2.iff fun c e => ⟨fun h => Or.inr ⟨hb, h⟩, by rintro (⟨h, _⟩ | ⟨_, h⟩); exact absurd h ha; exact h⟩
      · rw [if_neg hb]
        exact Loads.nothing (by decide) (by decide) fun d e h => by rcases h with ⟨h, _⟩ | ⟨h, _⟩; exact ha h; exact hb h
  · constructor
    · rintro ⟨t, _, e1, e2, h1, ⟨rfl, h2, h3, h⟩ | ⟨rfl, h⟩, rfl⟩
      · exact Or.inl ⟨h2, h3, e1, e2, h1, h, rfl⟩
      · exact Or.inr ⟨e1, e2, h1, h, rfl⟩
    · rintro (⟨h2, h3, e1, e2, h1, h, rfl⟩ | ⟨e1, e2, h1, h, rfl⟩)
      · exact ⟨_, by decide, e1, e2, h1, Or.inl ⟨rfl, h2, h3, h⟩, rfl⟩
      · exact ⟨_, by decide, e1, e2, h1, Or.inr ⟨rfl, h⟩, rfl⟩

theorem catchainConfig_sound : catchainConfig.Sound where
  st := ⟨fun c h => by
      have := (Wr.writes_u8 (ρ := Cell) (catchainByte c.isolate c.shuffle).1).writes
      rw [(catchainByte c.isolate c.shuffle).2.2.1] at this
      exact (Wr.writes_u8 (ρ := Cell) (v := 0xc2) (by decide)).writes.seq (this.seq (catchainRest_sound.st.writes _ h)),
    fun c h => Or.inr ⟨_, _, rfl, ⟨_, _, rfl, catchainRest_sound.st.canon _ h, rfl⟩, rfl⟩⟩
  ld := catchainConfig_loads

theorem consensusRest_sound : (consensusRest).Sound :=
  (Tlb.u32_sound.pair (Tlb.u32_sound.pair (Tlb.u32_sound.pair (Tlb.u32_sound.pair (Tlb.u32_sound.pair (Tlb.u32_sound.pair Tlb.u32_sound)))))).struct (fun p => ⟨p.1, p.2.1, p.2.2.1, p.2.2.2.1, p.2.2.2.2.1, p.2.2.2.2.2.1, p.2.2.2.2.2.2⟩) (fun a => (a.nextDelay, a.timeout, a.fastAttempts, a.attemptDuration, a.maxDeps, a.maxBlock, a.maxCollated))
    (fun _ => rfl) (fun _ => rfl) (by unfold consensusRest; tlb_more) (fun _ h => h) (fun _ _ => rfl) (fun _ _ => Iff.rfl) (fun _ _ => rfl)

theorem consensusFlags : ∀ v, v < 2 ^ 8 → v >>> 1 = 0 → natBits 8 v = [false, false, false, false, false, false, false, decide (v &&& 1 ≠ 0)] := by decide +kernel

theorem consensusByte : ∀ a : Bool, a.toNat < 2 ^ 8 ∧ a.toNat >>> 1 = 0 ∧ natBits 8 a.toNat = [false, false, false, false, false, false, false, a] ∧
    decide (a.toNat &&& 1 ≠ 0) = a := by decide +kernel

/-- The end of the loader. -/
def consensusTail (p : Nat × Nat) : Rd Cell ConsensusConfig := consensusRest.load >>= fun r => pure ⟨decide (p.1 &&& 1 ≠ 0), p.2, r⟩

theorem consensusTail_loads (p : Nat × Nat) : Loads (consensusTail p) (fun c e => c.newIds = decide (p.1 &&& 1 ≠ 0) ∧ c.candidates = p.2 ∧ consensusRest.R c.rest e) :=
  (consensusRest_sound.ld.map _).iff fun c e => by
    constructor
    · rintro ⟨r, rfl, hr⟩; exact ⟨rfl, rfl, hr⟩
    · rintro ⟨h1, h2, hr⟩; exact ⟨c.rest, by rw [← h1, ← h2], hr⟩

theorem consensusHead_loads : Loads consensusHead (fun p e => p.1 >>> 1 = 0 ∧ p.1 < 2 ^ 8 ∧ (Enc.Lit (natBits 8 p.1) ⬝ Tlb.nz8.R p.2) e) := by
  have h := (Loads.ofTakes (Rd.takes_u8 (ρ := Cell))).check (fun v => decide (v >>> 1 = 0)) (x := .invalidData) (by decide) (by decide)
  have h := h.pair Tlb.nz8_sound.ld
  unfold pairLoad at h
  simp only [Prog.bind_assoc', Prog.pure_bind'] at h
  refine h.iff fun p e => ?_
  constructor
  · rintro ⟨e1, e2, ⟨⟨h1, rfl⟩, h2⟩, h3, rfl⟩
    exact ⟨of_decide_eq_true h2, h1, _, e2, rfl, h3, rfl⟩
  · rintro ⟨h1, h2, _, e2, rfl, h3, rfl⟩
    exact ⟨_, e2, ⟨⟨h2, rfl⟩, decide_eq_true h1⟩, h3, rfl⟩

theorem consensusConfig_loads : Loads consensusConfig.load consensusConfig.R := by
  have hl : consensusConfig.load = Rd.u8 >>= fun t => (if t = 0xd6 then Tlb.nz32.load >>= fun n => consensusTail (0, n) else
      if t = 0xd7 then consensusHead >>= consensusTail else Prog.fail .invalidTag) := by
    show (Rd.u8 >>= fun t => (if t = 0xd6 then Tlb.nz32.load >>= fun n => pure (0, n) else if t = 0xd7 then consensusHead else Prog.fail .invalidTag) >>=
      consensusTail) = _
    congr 1
    funext t
    by_cases h1 : t = 0xd6
    · rw [if_pos h1, if_pos h1, Prog.bind_assoc']; rfl
    · rw [if_neg h1, if_neg h1]
      by_cases h2 : t = 0xd7
      · rw [if_pos h2, if_pos h2]
      · rw [if_neg h2, if_neg h2]; rfl
  rw [hl]
  have h1 : Loads (Tlb.nz32.load >>= fun n => consensusTail (0, n)) (fun c e => c.newIds = false ∧ (Tlb.nz32.R c.candidates ⬝ consensusRest.R c.rest) e) :=
    (Tlb.nz32_sound.ld.bind (fun n e _ => consensusTail_loads (0, n))).iff fun c e => by
      constructor
      · rintro ⟨n, e1, e2, h1, ⟨h2, rfl, h3⟩, rfl⟩
        exact ⟨h2.trans (by simp), e1, e2, h1, h3, rfl⟩
      · rintro ⟨h2, e1, e2, h1, h3, rfl⟩
        exact ⟨_, e1, e2, h1, ⟨h2.trans (by simp), rfl, h3⟩, rfl⟩
  have h2 : Loads (consensusHead >>= consensusTail) (fun c => Enc.Lit [false, false, false, false, false, false, false, c.newIds] ⬝
      Tlb.nz8.R c.candidates ⬝ consensusRest.R c.rest) :=
    (consensusHead_loads.bind (fun p e _ => consensusTail_loads p)).iff fun c e => by
      constructor
      · rintro ⟨⟨f, n⟩, _, e2, ⟨h1, h2, _, e3, rfl, h3, rfl⟩, ⟨h4, h5, h6⟩, rfl⟩
        dsimp only at h1 h2 h3 h4 h5
        subst h5
        exact ⟨_, e3 ++ e2, by rw [h4]; exact congrArg Enc.bits (consensusFlags f h2 h1), ⟨e3, e2, h3, h6, rfl⟩, Enc.append_assoc ..⟩
      · rintro ⟨_, _, rfl, ⟨e3, e2, h3, h6, rfl⟩, rfl⟩
        obtain ⟨h1, h2, h4, h5⟩ := consensusByte c.newIds
        exact ⟨(c.newIds.toNat, c.candidates), _, e2, ⟨h2, h1, _, e3, rfl, h3, rfl⟩, ⟨h5.symm, rfl, h6⟩, by rw [h4]; exact (Enc.append_assoc ..).symm⟩
  refine (Loads.onNat Rd.takes_u8 (R := fun t c e => (t = 0xd6 ∧ c.newIds = false ∧ (Tlb.nz32.R c.candidates ⬝ consensusRest.R c.rest) e) ∨ (t = 0xd7 ∧
      (Enc.Lit [false, false, false, false, false, false, false, c.newIds] ⬝ Tlb.nz8.R c.candidates ⬝ consensusRest.R c.rest) e)) (fun t _ => ?_)).iff fun c e => ?_
  · by_cases ha : t = 0xd6
    · rw [if_pos ha]
      refine h1.iff fun c e => ⟨fun h => Or.inl ⟨ha, h⟩, ?_⟩
      rintro (⟨_, h⟩ | ⟨h, _⟩)
      · exact h
      · omega
    · rw [if_neg ha]
      by_cases hb : t = 0xd7
      · rw [if_pos hb]
        exact h2.iff fun c e => ⟨fun h => Or.inr ⟨hb, h⟩, by rintro (⟨h, _⟩ | ⟨_, h⟩); exact absurd h ha; exact h⟩
      · rw [if_neg hb]
        exact Loads.nothing (by decide) (by decide) fun d e h => by rcases h with ⟨h, _⟩ | ⟨h, _⟩; exact ha h; exact hb h
  · constructor
    · rintro ⟨t, _, e1, e2, h1, ⟨rfl, h2, h⟩ | ⟨rfl, h⟩, rfl⟩
      · exact Or.inl ⟨h2, e1, e2, h1, h, rfl⟩
      · exact Or.inr ⟨e1, e2, h1, h, rfl⟩
    · rintro (⟨h2, e1, e2, h1, h, rfl⟩ | ⟨e1, e2, h1, h, rfl⟩)
      · exact ⟨_, by decide, e1, e2, h1, Or.inl ⟨rfl, h2, h⟩, rfl⟩
      · exact ⟨_, by decide, e1, e2, h1, Or.inr ⟨rfl, h⟩, rfl⟩

theorem consensusConfig_sound : consensusConfig.Sound where
  st := ⟨fun c h => by
      have := (Wr.writes_u8 (ρ := Cell) (consensusByte c.newIds).1).writes
      rw [(consensusByte c.newIds).2.2.1] at this
      have e : c.candidates % 2 ^ 8 = c.candidates := Nat.mod_eq_of_lt h.1.1
      show Writes (Wr.u8 0xd7 >>= fun _ => Wr.u8 c.newIds.toNat >>= fun _ => Wr.u8 (c.candidates % 2 ^ 8) >>= fun _ => consensusRest.store c.rest) _
      rw [e]
      exact (Wr.writes_u8 (ρ := Cell) (v := 0xd7) (by decide)).writes.seq (this.seq ((Wr.writes_u8 (ρ := Cell) h.1.1).writes.seq (consensusRest_sound.st.writes _ h.2))),
    fun c h => Or.inr ⟨_, _, rfl, ⟨_, _, rfl, ⟨_, _, Tlb.nz8_sound.st.canon _ h.1, consensusRest_sound.st.canon _ h.2, rfl⟩, rfl⟩, rfl⟩⟩
  ld := consensusConfig_loads

theorem gasExt_sound : (gasExt).Sound :=
  (Tlb.u64_sound.pair (Tlb.u64_sound.pair (Tlb.u64_sound.pair (Tlb.u64_sound.pair (Tlb.u64_sound.pair (Tlb.u64_sound.pair Tlb.u64_sound)))))).struct (fun p => ⟨p.1, p.2.1, p.2.2.1, p.2.2.2.1, p.2.2.2.2.1, p.2.2.2.2.2.1, p.2.2.2.2.2.2⟩) (fun a => (a.gasPrice, a.gasLimit, a.specialGasLimit, a.gasCredit, a.blockGasLimit, a.freezeDueLimit, a.deleteDueLimit))
    (fun _ => rfl) (fun _ => rfl) (by unfold gasExt; tlb_more) (fun _ h => h) (fun _ _ => rfl) (fun _ _ => Iff.rfl) (fun _ _ => rfl)

theorem gasBase_sound : (gasBase).Sound :=
  (Tlb.u64_sound.pair (Tlb.u64_sound.pair (Tlb.u64_sound.pair (Tlb.u64_sound.pair (Tlb.u64_sound.pair Tlb.u64_sound))))).struct (fun p => ⟨p.1, p.2.1, p.2.2.1, p.2.2.2.1, p.2.2.2.2.1, p.2.2.2.2.2⟩) (fun a => (a.gasPrice, a.gasLimit, a.gasCredit, a.blockGasLimit, a.freezeDueLimit, a.deleteDueLimit))
    (fun _ => rfl) (fun _ => rfl) (by unfold gasBase; tlb_more) (fun _ h => h) (fun _ _ => rfl) (fun _ _ => Iff.rfl) (fun _ _ => rfl)

theorem GasEnc.len {k fl fp : Nat} {p : GasPrices} {e : Enc Cell} (h : GasEnc k fl fp p e) : 136 * k ≤ e.1.length := by
  induction h with
  | ext => omega
  | base => omega
  | flat hl hq h ih =>
    show _ ≤ (natBits 8 0xd1 ++ (natBits 64 _ ++ (natBits 64 _ ++ _))).length
    simp only [List.length_append, natBits_length]
    omega

theorem gasLoop_loads (n : Nat) : ∀ fl fp, Loads (gasLoop n fl fp) (fun p e => ∃ k, k < n ∧ GasEnc k fl fp p e) := by
  induction n with
  | zero => exact fun fl fp => Loads.nothing (by decide) (by decide) fun p e ⟨k, h, _⟩ => by omega
  | succ n ih =>
    intro fl fp
    have hf : Loads (Rd.u64 >>= fun l => Rd.u64 >>= fun p => gasLoop n l p) (fun p e => ∃ l q k, l < 2 ^ 64 ∧ q < 2 ^ 64 ∧ k < n ∧
        ∃ e', GasEnc k l q p e' ∧ e = Enc.bits (natBits 64 l) ++ (Enc.bits (natBits 64 q) ++ e')) :=
      (Loads.onNat Rd.takes_u64 (fun l _ => Loads.onNat Rd.takes_u64 (fun q _ => ih l q))).iff fun p e => by
        constructor
        · rintro ⟨l, hl, _, _, rfl, ⟨q, hq, _, e', rfl, ⟨k, hk, h⟩, rfl⟩, rfl⟩
          exact ⟨l, q, k, hl, hq, hk, e', h, rfl⟩
        · rintro ⟨l, q, k, hl, hq, hk, e', h, rfl⟩
          exact ⟨l, hl, _, _, rfl, ⟨q, hq, _, e', rfl, ⟨k, hk, h⟩, rfl⟩, rfl⟩
    have he := gasExt_sound.ld.map (fun x => x.prices fl fp)
    have hb := gasBase_sound.ld.map (fun x => x.prices fl fp)
    refine (Loads.onNat Rd.takes_u8 (R := fun t p e => (t = 0xd1 ∧ ∃ l q k, l < 2 ^ 64 ∧ q < 2 ^ 64 ∧ k < n ∧
        ∃ e', GasEnc k l q p e' ∧ e = Enc.bits (natBits 64 l) ++ (Enc.bits (natBits 64 q) ++ e')) ∨
        (t = 0xde ∧ ∃ x, p = x.prices fl fp ∧ gasExt.R x e) ∨ (t = 0xdd ∧ ∃ x, p = x.prices fl fp ∧ gasBase.R x e)) (fun t _ => ?_)).iff fun p e => ?_
    · by_cases h1 : t = 0xd1
      · rw [if_pos h1]
        exact hf.iff fun p e => ⟨fun h => Or.inl ⟨h1, h⟩, by rintro (⟨_, h⟩ | ⟨h, _⟩ | ⟨h, _⟩); exact h; all_goals omega⟩
      · rw [if_neg h1]
        by_cases h2 : t = 0xde
        · rw [if_pos h2]
          exact he.iff fun p e => ⟨fun h => Or.inr (Or.inl ⟨h2, h⟩), by rintro (⟨h, _⟩ | ⟨_, h⟩ | ⟨h, _⟩); omega; exact h; omega⟩
        · rw [if_neg h2]
          by_cases h3 : t = 0xdd
          · rw [if_pos h3]
            exact hb.iff fun p e => ⟨fun h => Or.inr (Or.inr ⟨h3, h⟩), by rintro (⟨h, _⟩ | ⟨h, _⟩ | ⟨_, h⟩); omega; omega; exact h⟩
          · rw [if_neg h3]
            exact Loads.nothing (by decide) (by decide) fun p e h => by rcases h with ⟨h, _⟩ | ⟨h, _⟩ | ⟨h, _⟩; exact h1 h; exact h2 h; exact h3 h
    · constructor
      · rintro ⟨t, _, _, e2, rfl, ⟨rfl, l, q, k, hl, hq, hk, e', h, rfl⟩ | ⟨rfl, x, rfl, h⟩ | ⟨rfl, x, rfl, h⟩, rfl⟩
        · exact ⟨k + 1, by omega, .flat hl hq h⟩
        · exact ⟨0, by omega, .ext h⟩
        · exact ⟨0, by omega, .base h⟩
      · rintro ⟨k, hk, h⟩
        cases h with
        | flat hl hq h => exact ⟨0xd1, by decide, _, _, rfl, Or.inl ⟨rfl, _, _, _, hl, hq, by omega, _, h, rfl⟩, rfl⟩
        | ext h => exact ⟨0xde, by decide, _, _, rfl, Or.inr (Or.inl ⟨rfl, _, rfl, h⟩), rfl⟩
        | base h => exact ⟨0xdd, by decide, _, _, rfl, Or.inr (Or.inr ⟨rfl, _, rfl, h⟩), rfl⟩

theorem bits_le {s : CSlice Cell} (hs : s.WF) : s.bits.length ≤ 1024 := by
  have h1 := hs.end_le
  have h2 := hs.data_le
  rw [CSlice.bits_length]
  omega

theorem gasPrices_loads : Loads gasPrices.load gasPrices.R where
  reads p e := by
    rintro ⟨k, h⟩ s rest hs hc
    have hl := h.len
    have : e.1.length ≤ 1024 := by
      have h1 := congrArg (fun x : Enc Cell => x.1.length) hc
      have h1 : s.bits.length = (e.1 ++ rest.1).length := h1
      rw [List.length_append] at h1
      have := bits_le hs
      omega
    exact (gasLoop_loads 8 0 0).reads p e ⟨k, by omega, h⟩ s rest hs hc
  exact s s' p hs h := by
    obtain ⟨e, ⟨k, _, hk⟩, h1, h2⟩ := (gasLoop_loads 8 0 0).exact s s' p hs h
    exact ⟨e, ⟨k, hk⟩, h1, h2⟩
  safe := (gasLoop_loads 8 0 0).safe

theorem gasPrices_sound : gasPrices.Sound where
  st := ⟨fun p h => (Wr.writes_u8 (ρ := Cell) (v := 0xd1) (by decide)).writes.seq ((Wr.writes_u64 h.2.1).writes.seq ((Wr.writes_u64 h.2.2).writes.seq
      ((Wr.writes_u8 (ρ := Cell) (v := 0xde) (by decide)).writes.seq (gasExt_sound.st.writes _ h.1)))),
    fun p h => ⟨1, .flat h.2.1 h.2.2 (.ext (x := p.ext) (gasExt_sound.st.canon _ h.1))⟩⟩
  ld := gasPrices_loads

/-- One more round changes nothing if the slice is too short for it. -/
theorem gasLoop_succ (n : Nat) : ∀ fl fp (s : CSlice Cell), s.WF → s.bits.length < 136 * n + 8 → gasLoop (n + 1) fl fp s = gasLoop n fl fp s := by
  induction n with
  | zero =>
    intro fl fp s hs h
    have e := (Rd.takes_u8 s hs).2 (by omega)
    exact Prog.bind_err e
  | succ n ih =>
    intro fl fp s hs h
    by_cases h8 : 8 ≤ s.bits.length
    · obtain ⟨s1, e1, w1, c1, _⟩ := (Rd.takes_u8 s hs).1 h8
      have b1 : s1.bits = s.bits.drop 8 := congrArg Prod.fst c1
      have l1 : s1.bits.length = s.bits.length - 8 := by rw [b1, List.length_drop]
      have r1 := Prog.bind_ok (f := fun t =>
        if t = 0xd1 then Rd.u64 >>= fun l => Rd.u64 >>= fun p => gasLoop (n + 1) l p
        else if t = 0xde then gasExt.load >>= fun x => pure (x.prices fl fp)
        else if t = 0xdd then gasBase.load >>= fun x => pure (x.prices fl fp)
        else Prog.fail .invalidTag) e1
      have r2 := Prog.bind_ok (f := fun t =>
        if t = 0xd1 then Rd.u64 >>= fun l => Rd.u64 >>= fun p => gasLoop n l p
        else if t = 0xde then gasExt.load >>= fun x => pure (x.prices fl fp)
        else if t = 0xdd then gasBase.load >>= fun x => pure (x.prices fl fp)
        else Prog.fail .invalidTag) e1
      refine r1.trans (Eq.trans ?_ r2.symm)
      generalize natOfBits (s.bits.take 8) = t
      by_cases h1 : t = 0xd1
      · rw [if_pos h1, if_pos h1]
        by_cases h64 : 64 ≤ s1.bits.length
        · obtain ⟨s2, e2, w2, c2, _⟩ := (Rd.takes_u64 s1 w1).1 h64
          have l2 : s2.bits.length = s1.bits.length - 64 := by rw [show s2.bits = s1.bits.drop 64 from congrArg Prod.fst c2, List.length_drop]
          rw [Prog.bind_ok e2, Prog.bind_ok e2]
          by_cases h64' : 64 ≤ s2.bits.length
          · obtain ⟨s3, e3, w3, c3, _⟩ := (Rd.takes_u64 s2 w2).1 h64'
            have l3 : s3.bits.length = s2.bits.length - 64 := by rw [show s3.bits = s2.bits.drop 64 from congrArg Prod.fst c3, List.length_drop]
            rw [Prog.bind_ok e3, Prog.bind_ok e3]
            exact ih _ _ s3 w3 (by omega)
          · have e3 := (Rd.takes_u64 s2 w2).2 h64'
            rw [Prog.bind_err e3, Prog.bind_err e3]
        · have e2 := (Rd.takes_u64 s1 w1).2 h64
          rw [Prog.bind_err e2, Prog.bind_err e2]
      · rw [if_neg h1, if_neg h1]
    · have e := (Rd.takes_u8 s hs).2 h8
      exact (Prog.bind_err e).trans (Prog.bind_err e).symm

theorem gasLoop_fuel (n fl fp : Nat) {s : CSlice Cell} (hs : s.WF) : gasLoop (8 + n) fl fp s = gasLoop 8 fl fp s := by
  induction n with
  | zero => rfl
  | succ n ih =>
    rw [← ih]
    exact gasLoop_succ (8 + n) fl fp s hs (by have := bits_le hs; omega)

end Verif
