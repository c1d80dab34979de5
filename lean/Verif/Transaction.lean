import Verif.TlbMore
import Verif.Message
/-
Transactions and their phases (`models/transaction`).
-/
set_option linter.unusedVariables false
set_option linter.unusedSimpArgs false
namespace Verif

/-! ### Model -/

/-- `models/transaction/phases.rs:372-379` `AccountStatusChange` -/
inductive StatusChange where
  | unchanged | frozen | deleted
  deriving DecidableEq, Repr

/-- `models/transaction/phases.rs:381-401` `Store`, `Load` -/
def statusChange : Tlb StatusChange where
  ok _ := True
  store | .unchanged => Wr.bit false
        | .frozen => Wr.small 2 2
        | .deleted => Wr.small 3 2
  load := Rd.bit >>= fun b => if !b then pure .unchanged else Rd.bit >>= fun b => if b then pure .deleted else pure .frozen
  R | .unchanged => Enc.Lit [false]
    | .frozen => Enc.Lit [true, false]
    | .deleted => Enc.Lit [true, true]
  enc | .unchanged => Enc.bits [false]
      | .frozen => Enc.bits [true, false]
      | .deleted => Enc.bits [true, true]

/-- `models/transaction/phases.rs:12-20` `StoragePhase` -/
structure StoragePhase where
  feesCollected : Nat
  feesDue : Option Nat
  statusChange : StatusChange
  deriving DecidableEq, Repr

/-- `StoragePhase` derives `Store` and `Load`. -/
def storagePhase : Tlb StoragePhase where
  ok a := Tlb.tokens.ok a.feesCollected ∧ Tlb.tokens.opt.ok a.feesDue ∧ statusChange.ok a.statusChange
  store a := Tlb.tokens.store a.feesCollected >>= fun _ => Tlb.tokens.opt.store a.feesDue >>= fun _ => statusChange.store a.statusChange
  load :=
    Tlb.tokens.load >>= fun feesCollected =>
    Tlb.tokens.opt.load >>= fun feesDue =>
    statusChange.load >>= fun statusChange =>
    pure ⟨feesCollected, feesDue, statusChange⟩
  R a := Tlb.tokens.R a.feesCollected ⬝ Tlb.tokens.opt.R a.feesDue ⬝ statusChange.R a.statusChange
  enc a := Tlb.tokens.enc a.feesCollected ++ (Tlb.tokens.opt.enc a.feesDue ++ (statusChange.enc a.statusChange))

/-- `models/transaction/phases.rs:27-33` `CreditPhase` -/
structure CreditPhase where
  dueFeesCollected : Option Nat
  credit : Currency

/-- `CreditPhase` derives `Store` and `Load`. -/
def creditPhase : Tlb CreditPhase where
  ok a := Tlb.tokens.opt.ok a.dueFeesCollected ∧ Tlb.currency.ok a.credit
  store a := Tlb.tokens.opt.store a.dueFeesCollected >>= fun _ => Tlb.currency.store a.credit
  load :=
    Tlb.tokens.opt.load >>= fun dueFeesCollected =>
    Tlb.currency.load >>= fun credit =>
    pure ⟨dueFeesCollected, credit⟩
  R a := Tlb.tokens.opt.R a.dueFeesCollected ⬝ Tlb.currency.R a.credit
  enc a := Tlb.tokens.opt.enc a.dueFeesCollected ++ (Tlb.currency.enc a.credit)

/-- `models/transaction/phases.rs:117-144` the fields of `ExecutedComputePhase` that are kept in a cell of their own, here called `VmResult` -/
structure VmResult where
  gasUsed : Nat
  gasLimit : Nat
  gasCredit : Option Nat
  mode : Int
  exitCode : Int
  exitArg : Option Int
  vmSteps : Nat
  initStateHash : List Byte
  finalStateHash : List Byte
  deriving DecidableEq, Repr

/-- `VmResult` is written and read as in `models/transaction/phases.rs:60-72` and `:101-109`. -/
def vmResult : Tlb VmResult where
  ok a := (Tlb.var .vu56).ok a.gasUsed ∧ (Tlb.var .vu56).ok a.gasLimit ∧ ((Tlb.var .vu24).opt).ok a.gasCredit ∧ Tlb.i8.ok a.mode ∧ Tlb.i32.ok a.exitCode ∧ Tlb.i32.opt.ok a.exitArg ∧ Tlb.u32.ok a.vmSteps ∧ Tlb.hash.ok a.initStateHash ∧ Tlb.hash.ok a.finalStateHash
  store a := (Tlb.var .vu56).store a.gasUsed >>= fun _ => (Tlb.var .vu56).store a.gasLimit >>= fun _ => ((Tlb.var .vu24).opt).store a.gasCredit >>= fun _ => Tlb.i8.store a.mode >>= fun _ => Tlb.i32.store a.exitCode >>= fun _ => Tlb.i32.opt.store a.exitArg >>= fun _ => Tlb.u32.store a.vmSteps >>= fun _ => Tlb.hash.store a.initStateHash >>= fun _ => Tlb.hash.store a.finalStateHash
  load :=
    (Tlb.var .vu56).load >>= fun gasUsed =>
    (Tlb.var .vu56).load >>= fun gasLimit =>
    ((Tlb.var .vu24).opt).load >>= fun gasCredit =>
    Tlb.i8.load >>= fun mode =>
    Tlb.i32.load >>= fun exitCode =>
    Tlb.i32.opt.load >>= fun exitArg =>
    Tlb.u32.load >>= fun vmSteps =>
    Tlb.hash.load >>= fun initStateHash =>
    Tlb.hash.load >>= fun finalStateHash =>
    pure ⟨gasUsed, gasLimit, gasCredit, mode, exitCode, exitArg, vmSteps, initStateHash, finalStateHash⟩
  R a := (Tlb.var .vu56).R a.gasUsed ⬝ (Tlb.var .vu56).R a.gasLimit ⬝ ((Tlb.var .vu24).opt).R a.gasCredit ⬝ Tlb.i8.R a.mode ⬝ Tlb.i32.R a.exitCode ⬝ Tlb.i32.opt.R a.exitArg ⬝ Tlb.u32.R a.vmSteps ⬝ Tlb.hash.R a.initStateHash ⬝ Tlb.hash.R a.finalStateHash
  enc a := (Tlb.var .vu56).enc a.gasUsed ++ ((Tlb.var .vu56).enc a.gasLimit ++ (((Tlb.var .vu24).opt).enc a.gasCredit ++ (Tlb.i8.enc a.mode ++ (Tlb.i32.enc a.exitCode ++ (Tlb.i32.opt.enc a.exitArg ++ (Tlb.u32.enc a.vmSteps ++ (Tlb.hash.enc a.initStateHash ++ (Tlb.hash.enc a.finalStateHash))))))))

/-- `models/transaction/phases.rs:117-144` `ExecutedComputePhase` -/
structure ExecutedCompute where
  success : Bool
  msgStateUsed : Bool
  accountActivated : Bool
  gasFees : Nat
  vm : VmResult
  deriving DecidableEq, Repr

/-- `models/transaction/phases.rs:157-166` `ComputePhaseSkipReason` -/
inductive SkipReason where
  | noState | badState | noGas | suspended
  deriving DecidableEq, Repr

/-- The match of `ComputePhaseSkipReason::load_from`. -/
def skipReasonRest : Nat → Rd Cell SkipReason
  | 0 => pure .noState
  | 1 => pure .badState
  | 2 => pure .noGas
  | _ => Rd.bit >>= fun b => if b then Prog.fail .invalidTag else pure .suspended

/-- `models/transaction/phases.rs:168-198` `Store`, `Load` -/
def skipReason : Tlb SkipReason where
  ok _ := True
  store | .noState => Wr.small 0 2
        | .badState => Wr.small 1 2
        | .noGas => Wr.small 2 2
        | .suspended => Wr.small 6 3
  load := Rd.small 2 >>= skipReasonRest
  R | .noState => Enc.Lit [false, false]
    | .badState => Enc.Lit [false, true]
    | .noGas => Enc.Lit [true, false]
    | .suspended => Enc.Lit [true, true, false]
  enc | .noState => Enc.bits [false, false]
      | .badState => Enc.bits [false, true]
      | .noGas => Enc.bits [true, false]
      | .suspended => Enc.bits [true, true, false]

/-- `models/transaction/phases.rs:41-46` `ComputePhase` -/
inductive ComputePhase where
  | skipped (reason : SkipReason)
  | executed (phase : ExecutedCompute)
  deriving DecidableEq, Repr

/-- The loader of the executed compute phase behind its first bit (`models/transaction/phases.rs:92-110`). -/
def executedLoad : Rd Cell ExecutedCompute :=
  Tlb.bits3.load >>= fun f => Tlb.tokens.load >>= fun gasFees => Tlb.childLoad vmResult.load >>= fun vm => pure ⟨f.1, f.2.1, f.2.2, gasFees, vm⟩

/-- `models/transaction/phases.rs:48-112` `Store`, `Load`; the cell with the result of the VM is built first. -/
def computePhase (acc : Cell → Bool) : Tlb ComputePhase where
  ok | .skipped _ => True
     | .executed p => Tlb.tokens.ok p.gasFees ∧ (vmResult.child acc).ok p.vm
  store | .skipped r => Wr.bit false >>= fun _ => skipReason.store r
        | .executed p => Tlb.built acc (vmResult.store p.vm) >>= fun c =>
            Wr.small (8 ||| p.success.toNat <<< 2 ||| p.msgStateUsed.toNat <<< 1 ||| p.accountActivated.toNat) 4 >>= fun _ =>
            Tlb.tokens.store p.gasFees >>= fun _ => Wr.ref c
  load := Rd.bit >>= fun b => if !b then skipReason.load >>= fun r => pure (.skipped r) else executedLoad >>= fun p => pure (.executed p)
  R | .skipped r => Enc.Lit [false] ⬝ skipReason.R r
    | .executed p => Enc.Lit [true, p.success, p.msgStateUsed, p.accountActivated] ⬝ Tlb.tokens.R p.gasFees ⬝ (vmResult.child acc).R p.vm
  enc | .skipped r => Enc.bits [false] ++ skipReason.enc r
      | .executed p => Enc.bits [true, p.success, p.msgStateUsed, p.accountActivated] ++ (Tlb.tokens.enc p.gasFees ++ (vmResult.child acc).enc p.vm)

/-- Four 16 bit numbers packed into one of 64 bits (`models/transaction/phases.rs:244-247`, `:282-285`). -/
def counts : Tlb (Nat × Nat × Nat × Nat) where
  ok a := a.1 < 2 ^ 16 ∧ a.2.1 < 2 ^ 16 ∧ a.2.2.1 < 2 ^ 16 ∧ a.2.2.2 < 2 ^ 16
  store a := Wr.u64 (a.1 <<< 48 ||| a.2.1 <<< 32 ||| a.2.2.1 <<< 16 ||| a.2.2.2)
  load := Rd.u64 >>= fun v => pure ((v >>> 48) % 2 ^ 16, (v >>> 32) % 2 ^ 16, (v >>> 16) % 2 ^ 16, v % 2 ^ 16)
  R a := Tlb.u16.R a.1 ⬝ Tlb.u16.R a.2.1 ⬝ Tlb.u16.R a.2.2.1 ⬝ Tlb.u16.R a.2.2.2
  enc a := Tlb.u16.enc a.1 ++ (Tlb.u16.enc a.2.1 ++ (Tlb.u16.enc a.2.2.1 ++ Tlb.u16.enc a.2.2.2))

/-- `models/transaction/phases.rs:206-235` `ActionPhase`; `flags` are `success`, `valid`, `no_funds`, and `counts` are `total_actions`,
`special_actions`, `skipped_actions`, `messages_created`. -/
structure ActionPhase where
  flags : Bool × Bool × Bool
  statusChange : StatusChange
  totalFwdFees : Option Nat
  totalActionFees : Option Nat
  resultCode : Int
  resultArg : Option Int
  counts : Nat × Nat × Nat × Nat
  actionListHash : List Byte
  totalMessageSize : StorageUsed
  deriving DecidableEq, Repr

/-- `ActionPhase` `Store`, `Load` (`models/transaction/phases.rs:237-290`). -/
def actionPhase : Tlb ActionPhase where
  ok a := Tlb.bits3.ok a.flags ∧ statusChange.ok a.statusChange ∧ Tlb.tokens.opt.ok a.totalFwdFees ∧ Tlb.tokens.opt.ok a.totalActionFees ∧ Tlb.i32.ok a.resultCode ∧ Tlb.i32.opt.ok a.resultArg ∧ Verif.counts.ok a.counts ∧ Tlb.hash.ok a.actionListHash ∧ storageUsed.ok a.totalMessageSize
  store a := Tlb.bits3.store a.flags >>= fun _ => statusChange.store a.statusChange >>= fun _ => Tlb.tokens.opt.store a.totalFwdFees >>= fun _ => Tlb.tokens.opt.store a.totalActionFees >>= fun _ => Tlb.i32.store a.resultCode >>= fun _ => Tlb.i32.opt.store a.resultArg >>= fun _ => Verif.counts.store a.counts >>= fun _ => Tlb.hash.store a.actionListHash >>= fun _ => storageUsed.store a.totalMessageSize
  load :=
    Tlb.bits3.load >>= fun flags =>
    statusChange.load >>= fun statusChange =>
    Tlb.tokens.opt.load >>= fun totalFwdFees =>
    Tlb.tokens.opt.load >>= fun totalActionFees =>
    Tlb.i32.load >>= fun resultCode =>
    Tlb.i32.opt.load >>= fun resultArg =>
    Verif.counts.load >>= fun counts =>
    Tlb.hash.load >>= fun actionListHash =>
    storageUsed.load >>= fun totalMessageSize =>
    pure ⟨flags, statusChange, totalFwdFees, totalActionFees, resultCode, resultArg, counts, actionListHash, totalMessageSize⟩
  R a := Tlb.bits3.R a.flags ⬝ statusChange.R a.statusChange ⬝ Tlb.tokens.opt.R a.totalFwdFees ⬝ Tlb.tokens.opt.R a.totalActionFees ⬝ Tlb.i32.R a.resultCode ⬝ Tlb.i32.opt.R a.resultArg ⬝ Verif.counts.R a.counts ⬝ Tlb.hash.R a.actionListHash ⬝ storageUsed.R a.totalMessageSize
  enc a := Tlb.bits3.enc a.flags ++ (statusChange.enc a.statusChange ++ (Tlb.tokens.opt.enc a.totalFwdFees ++ (Tlb.tokens.opt.enc a.totalActionFees ++ (Tlb.i32.enc a.resultCode ++ (Tlb.i32.opt.enc a.resultArg ++ (Verif.counts.enc a.counts ++ (Tlb.hash.enc a.actionListHash ++ (storageUsed.enc a.totalMessageSize))))))))

/-- `models/transaction/phases.rs:350-355` `NoFundsBouncePhase`, here `NoFundsBounce` -/
structure NoFundsBounce where
  msgSize : StorageUsed
  reqFwdFees : Nat
  deriving DecidableEq, Repr

/-- `NoFundsBounce` derives `Store` and `Load`. -/
def noFundsBounce : Tlb NoFundsBounce where
  ok a := storageUsed.ok a.msgSize ∧ Tlb.tokens.ok a.reqFwdFees
  store a := storageUsed.store a.msgSize >>= fun _ => Tlb.tokens.store a.reqFwdFees
  load :=
    storageUsed.load >>= fun msgSize =>
    Tlb.tokens.load >>= fun reqFwdFees =>
    pure ⟨msgSize, reqFwdFees⟩
  R a := storageUsed.R a.msgSize ⬝ Tlb.tokens.R a.reqFwdFees
  enc a := storageUsed.enc a.msgSize ++ (Tlb.tokens.enc a.reqFwdFees)

/-- `models/transaction/phases.rs:360-367` `ExecutedBouncePhase`, here `ExecutedBounce` -/
structure ExecutedBounce where
  msgSize : StorageUsed
  msgFees : Nat
  fwdFees : Nat
  deriving DecidableEq, Repr

/-- `ExecutedBounce` derives `Store` and `Load`. -/
def executedBounce : Tlb ExecutedBounce where
  ok a := storageUsed.ok a.msgSize ∧ Tlb.tokens.ok a.msgFees ∧ Tlb.tokens.ok a.fwdFees
  store a := storageUsed.store a.msgSize >>= fun _ => Tlb.tokens.store a.msgFees >>= fun _ => Tlb.tokens.store a.fwdFees
  load :=
    storageUsed.load >>= fun msgSize =>
    Tlb.tokens.load >>= fun msgFees =>
    Tlb.tokens.load >>= fun fwdFees =>
    pure ⟨msgSize, msgFees, fwdFees⟩
  R a := storageUsed.R a.msgSize ⬝ Tlb.tokens.R a.msgFees ⬝ Tlb.tokens.R a.fwdFees
  enc a := storageUsed.enc a.msgSize ++ (Tlb.tokens.enc a.msgFees ++ (Tlb.tokens.enc a.fwdFees))

/-- `models/transaction/phases.rs:298-307` `BouncePhase` -/
inductive BouncePhase where
  | negativeFunds
  | noFunds (phase : NoFundsBounce)
  | executed (phase : ExecutedBounce)
  deriving DecidableEq, Repr

/-- `models/transaction/phases.rs:309-345` `Store`, `Load` -/
def bouncePhase : Tlb BouncePhase where
  ok | .negativeFunds => True
     | .noFunds p => noFundsBounce.ok p
     | .executed p => executedBounce.ok p
  store | .negativeFunds => Wr.small 0 2
        | .noFunds p => Wr.small 1 2 >>= fun _ => noFundsBounce.store p
        | .executed p => Wr.bit true >>= fun _ => executedBounce.store p
  load := Rd.bit >>= fun b => if b then executedBounce.load >>= fun p => pure (.executed p)
    else Rd.bit >>= fun b => if b then noFundsBounce.load >>= fun p => pure (.noFunds p) else pure .negativeFunds
  R | .negativeFunds => Enc.Lit [false, false]
    | .noFunds p => Enc.Lit [false, true] ⬝ noFundsBounce.R p
    | .executed p => Enc.Lit [true] ⬝ executedBounce.R p
  enc | .negativeFunds => Enc.bits [false, false]
      | .noFunds p => Enc.bits [false, true] ++ noFundsBounce.enc p
      | .executed p => Enc.bits [true] ++ executedBounce.enc p

/-- `models/transaction/mod.rs:339-366` `OrdinaryTxInfo` -/
structure OrdinaryTx where
  creditFirst : Bool
  storagePhase : Option StoragePhase
  creditPhase : Option CreditPhase
  computePhase : ComputePhase
  actionPhase : Option ActionPhase
  aborted : Bool
  bouncePhase : Option BouncePhase
  destroyed : Bool

/-- `models/transaction/mod.rs:371-415` `Store`, `Load`; the cell with the action phase is built first. -/
def ordinaryTx (acc : Cell → Bool) : Tlb OrdinaryTx where
  ok a := Tlb.bool.ok a.creditFirst ∧ storagePhase.opt.ok a.storagePhase ∧ creditPhase.opt.ok a.creditPhase ∧ (computePhase acc).ok a.computePhase ∧
    (actionPhase.child acc).opt.ok a.actionPhase ∧ Tlb.bool.ok a.aborted ∧ bouncePhase.opt.ok a.bouncePhase ∧ Tlb.bool.ok a.destroyed
  store a := Tlb.builtOpt acc actionPhase.store a.actionPhase >>= fun c => Tlb.bool.store a.creditFirst >>= fun _ => storagePhase.opt.store a.storagePhase >>= fun _ =>
    creditPhase.opt.store a.creditPhase >>= fun _ => (computePhase acc).store a.computePhase >>= fun _ => Tlb.cell.opt.store c >>= fun _ =>
    Tlb.bool.store a.aborted >>= fun _ => bouncePhase.opt.store a.bouncePhase >>= fun _ => Tlb.bool.store a.destroyed
  load := Tlb.bool.load >>= fun creditFirst => storagePhase.opt.load >>= fun storagePhase => creditPhase.opt.load >>= fun creditPhase =>
    (computePhase acc).load >>= fun computePhase => Tlb.cell.opt.load >>= fun c => Tlb.parseOpt actionPhase.load c >>= fun actionPhase =>
    Tlb.bool.load >>= fun aborted => bouncePhase.opt.load >>= fun bouncePhase => Tlb.bool.load >>= fun destroyed =>
    pure ⟨creditFirst, storagePhase, creditPhase, computePhase, actionPhase, aborted, bouncePhase, destroyed⟩
  R a := Tlb.bool.R a.creditFirst ⬝ storagePhase.opt.R a.storagePhase ⬝ creditPhase.opt.R a.creditPhase ⬝ (computePhase acc).R a.computePhase ⬝
    (actionPhase.child acc).opt.R a.actionPhase ⬝ Tlb.bool.R a.aborted ⬝ bouncePhase.opt.R a.bouncePhase ⬝ Tlb.bool.R a.destroyed
  enc a := Tlb.bool.enc a.creditFirst ++ (storagePhase.opt.enc a.storagePhase ++ (creditPhase.opt.enc a.creditPhase ++ ((computePhase acc).enc a.computePhase ++
    ((actionPhase.child acc).opt.enc a.actionPhase ++ (Tlb.bool.enc a.aborted ++ (bouncePhase.opt.enc a.bouncePhase ++ Tlb.bool.enc a.destroyed))))))

/-- `models/transaction/mod.rs:482-487` `TickTock` -/
inductive TickTock where
  | tick | tock
  deriving DecidableEq, Repr

/-- `models/transaction/mod.rs:489-505` `Store`, `Load` -/
def tickTock : Tlb TickTock where
  ok _ := True
  store a := Wr.bit (decide (a = .tock))
  load := Rd.bit >>= fun b => pure (if b then .tock else .tick)
  R | .tick => Enc.Lit [false]
    | .tock => Enc.Lit [true]
  enc | .tick => Enc.bits [false]
      | .tock => Enc.bits [true]

/-- `models/transaction/mod.rs:415-430` `TickTockTxInfo`; `flags` are `aborted`, `destroyed` -/
structure TickTockTx where
  kind : TickTock
  storagePhase : StoragePhase
  computePhase : ComputePhase
  actionPhase : Option ActionPhase
  flags : Bool × Bool
  deriving DecidableEq, Repr

/-- `models/transaction/mod.rs:437-477` `Store`, `Load` -/
def tickTockTx (acc : Cell → Bool) : Tlb TickTockTx where
  ok a := tickTock.ok a.kind ∧ storagePhase.ok a.storagePhase ∧ (computePhase acc).ok a.computePhase ∧ (actionPhase.child acc).opt.ok a.actionPhase ∧ Tlb.bits2.ok a.flags
  store a := Tlb.builtOpt acc actionPhase.store a.actionPhase >>= fun c => tickTock.store a.kind >>= fun _ => storagePhase.store a.storagePhase >>= fun _ =>
    (computePhase acc).store a.computePhase >>= fun _ => Tlb.cell.opt.store c >>= fun _ => Tlb.bits2.store a.flags
  load := tickTock.load >>= fun kind => storagePhase.load >>= fun storagePhase => (computePhase acc).load >>= fun computePhase =>
    Tlb.cell.opt.load >>= fun c => Tlb.parseOpt actionPhase.load c >>= fun actionPhase => Tlb.bits2.load >>= fun flags =>
    pure ⟨kind, storagePhase, computePhase, actionPhase, flags⟩
  R a := tickTock.R a.kind ⬝ storagePhase.R a.storagePhase ⬝ (computePhase acc).R a.computePhase ⬝ (actionPhase.child acc).opt.R a.actionPhase ⬝ Tlb.bits2.R a.flags
  enc a := tickTock.enc a.kind ++ (storagePhase.enc a.storagePhase ++ ((computePhase acc).enc a.computePhase ++
    ((actionPhase.child acc).opt.enc a.actionPhase ++ Tlb.bits2.enc a.flags)))

/-- `models/transaction/mod.rs:277-282` `TxInfo` -/
inductive TxInfo where
  | ordinary (info : OrdinaryTx)
  | tickTock (info : TickTockTx)

/-- `models/transaction/mod.rs:284-322` `Store`, `Load` -/
def txInfo (acc : Cell → Bool) : Tlb TxInfo where
  ok | .ordinary i => (ordinaryTx acc).ok i
     | .tickTock i => (tickTockTx acc).ok i
  store | .ordinary i => Wr.small 0 4 >>= fun _ => (ordinaryTx acc).store i
        | .tickTock i => Wr.small 1 3 >>= fun _ => (tickTockTx acc).store i
  load := Rd.small 3 >>= fun t =>
    if t = 1 then (tickTockTx acc).load >>= fun i => pure (.tickTock i)
    else if t = 0 then Rd.bit >>= fun b => if !b then (ordinaryTx acc).load >>= fun i => pure (.ordinary i) else Prog.fail .invalidTag
    else Prog.fail .invalidTag
  R | .ordinary i => Enc.Lit [false, false, false, false] ⬝ (ordinaryTx acc).R i
    | .tickTock i => Enc.Lit [false, false, true] ⬝ (tickTockTx acc).R i
  enc | .ordinary i => Enc.bits [false, false, false, false] ++ (ordinaryTx acc).enc i
      | .tickTock i => Enc.bits [false, false, true] ++ (tickTockTx acc).enc i

/-- `models/transaction/mod.rs:508-517` `HashUpdate` -/
structure HashUpdate where
  old : List Byte
  new : List Byte
  deriving DecidableEq, Repr

/-- `HashUpdate` derives `Store` and `Load`. -/
def hashUpdate : Tlb HashUpdate where
  ok a := Tlb.hash.ok a.old ∧ Tlb.hash.ok a.new
  store a := Wr.u8 0x72 >>= fun _ => Tlb.hash.store a.old >>= fun _ => Tlb.hash.store a.new
  load :=
    Rd.u8 >>= fun u => Prog.check (decide (u = 0x72)) .invalidTag >>= fun _ =>
    Tlb.hash.load >>= fun old =>
    Tlb.hash.load >>= fun new =>
    pure ⟨old, new⟩
  R a := Enc.Lit (natBits 8 0x72) ⬝ Tlb.hash.R a.old ⬝ Tlb.hash.R a.new
  enc a := Enc.bits (natBits 8 0x72) ++ (Tlb.hash.enc a.old ++ (Tlb.hash.enc a.new))

/-- `models/transaction/mod.rs:20-48` `Transaction`; the lazily loaded parts are their cells. -/
structure Transaction where
  account : List Byte
  lt : Nat
  prevTransHash : List Byte
  prevTransLt : Nat
  now : Nat
  outMsgCount : Nat
  origStatus : AccountStatus
  endStatus : AccountStatus
  inMsg : Option Cell
  outMsgs : Option Cell
  totalFees : Currency
  stateUpdate : Cell
  info : Cell

/-- The fields of a transaction before its first reference. -/
structure TxHead where
  account : List Byte
  lt : Nat
  prevTransHash : List Byte
  prevTransLt : Nat
  now : Nat
  outMsgCount : Nat
  origStatus : AccountStatus
  endStatus : AccountStatus
  deriving DecidableEq, Repr


/-- `TxHead` is written and read as in `models/transaction/mod.rs:225-232` and `:254-261`. -/
def txHead : Tlb TxHead where
  ok a := Tlb.hash.ok a.account ∧ Tlb.u64.ok a.lt ∧ Tlb.hash.ok a.prevTransHash ∧ Tlb.u64.ok a.prevTransLt ∧ Tlb.u32.ok a.now ∧ (Tlb.uint 15).ok a.outMsgCount ∧ accountStatus.ok a.origStatus ∧ accountStatus.ok a.endStatus
  store a := Tlb.hash.store a.account >>= fun _ => Tlb.u64.store a.lt >>= fun _ => Tlb.hash.store a.prevTransHash >>= fun _ => Tlb.u64.store a.prevTransLt >>= fun _ => Tlb.u32.store a.now >>= fun _ => (Tlb.uint 15).store a.outMsgCount >>= fun _ => accountStatus.store a.origStatus >>= fun _ => accountStatus.store a.endStatus
  load :=
    Tlb.hash.load >>= fun account =>
    Tlb.u64.load >>= fun lt =>
    Tlb.hash.load >>= fun prevTransHash =>
    Tlb.u64.load >>= fun prevTransLt =>
    Tlb.u32.load >>= fun now =>
    (Tlb.uint 15).load >>= fun outMsgCount =>
    accountStatus.load >>= fun origStatus =>
    accountStatus.load >>= fun endStatus =>
    pure ⟨account, lt, prevTransHash, prevTransLt, now, outMsgCount, origStatus, endStatus⟩
  R a := Tlb.hash.R a.account ⬝ Tlb.u64.R a.lt ⬝ Tlb.hash.R a.prevTransHash ⬝ Tlb.u64.R a.prevTransLt ⬝ Tlb.u32.R a.now ⬝ (Tlb.uint 15).R a.outMsgCount ⬝ accountStatus.R a.origStatus ⬝ accountStatus.R a.endStatus
  enc a := Tlb.hash.enc a.account ++ (Tlb.u64.enc a.lt ++ (Tlb.hash.enc a.prevTransHash ++ (Tlb.u64.enc a.prevTransLt ++ (Tlb.u32.enc a.now ++ ((Tlb.uint 15).enc a.outMsgCount ++ (accountStatus.enc a.origStatus ++ (accountStatus.enc a.endStatus)))))))

def Transaction.head (t : Transaction) : TxHead :=
  ⟨t.account, t.lt, t.prevTransHash, t.prevTransLt, t.now, t.outMsgCount, t.origStatus, t.endStatus⟩

/-- The cell with the messages of a transaction. -/
def txMessages : Tlb (Option Cell × Option Cell) := Tlb.cell.opt.pair Tlb.dict

/-- `models/transaction/mod.rs:208-271` `Store`, `Load`. The cell with the messages is built before, and read before the other fields. -/
def transaction (acc : Cell → Bool) : Tlb Transaction where
  ok t := txHead.ok t.head ∧ (txMessages.child acc).ok (t.inMsg, t.outMsgs) ∧ Tlb.currency.ok t.totalFees ∧ (Tlb.lazy false).ok t.stateUpdate ∧ (Tlb.lazy false).ok t.info
  store t := Tlb.built acc (Tlb.cell.opt.store t.inMsg >>= fun _ => Tlb.dict.store t.outMsgs) >>= fun messages =>
    Wr.small 7 4 >>= fun _ => txHead.store t.head >>= fun _ => Wr.ref messages >>= fun _ => Tlb.currency.store t.totalFees >>= fun _ =>
    (Tlb.lazy false).store t.stateUpdate >>= fun _ => (Tlb.lazy false).store t.info
  load := Rd.small 4 >>= fun u => Prog.check (decide (u = 7)) .invalidTag >>= fun _ =>
    Tlb.childLoad txMessages.load >>= fun m => txHead.load >>= fun h => Tlb.currency.load >>= fun totalFees =>
    (Tlb.lazy false).load >>= fun stateUpdate => (Tlb.lazy false).load >>= fun info =>
    pure ⟨h.account, h.lt, h.prevTransHash, h.prevTransLt, h.now, h.outMsgCount, h.origStatus, h.endStatus, m.1, m.2, totalFees, stateUpdate, info⟩
  R t := Enc.Lit [false, true, true, true] ⬝ txHead.R t.head ⬝ (txMessages.child acc).R (t.inMsg, t.outMsgs) ⬝ Tlb.currency.R t.totalFees ⬝
    (Tlb.lazy false).R t.stateUpdate ⬝ (Tlb.lazy false).R t.info
  enc t := Enc.bits [false, true, true, true] ++ (txHead.enc t.head ++ ((txMessages.child acc).enc (t.inMsg, t.outMsgs) ++ (Tlb.currency.enc t.totalFees ++
    ((Tlb.lazy false).enc t.stateUpdate ++ (Tlb.lazy false).enc t.info))))

/-! ### Soundness of the parts -/

theorem statusChange_sound : statusChange.Sound where
  st := ⟨fun v _ => by
      cases v
      · exact (Wr.writes_bit false).writes
      · exact (Wr.writes_small 2 (n := 2) (by decide)).writes
      · exact (Wr.writes_small 3 (n := 2) (by decide)).writes, fun v _ => by cases v <;> rfl⟩
  ld := ((Loads.pure _).altN ((Loads.pure _).alt (Loads.pure _))).iff fun v e => by
      cases v <;> simp only [statusChange] <;> tlb_alt

theorem storagePhase_sound : (storagePhase).Sound :=
  (Tlb.tokens_sound.pair (Tlb.tokens_sound.opt.pair statusChange_sound)).struct (fun p => ⟨p.1, p.2.1, p.2.2⟩) (fun a => (a.feesCollected, a.feesDue, a.statusChange))
    (fun _ => rfl) (fun _ => rfl) (by unfold storagePhase; tlb_more) (fun _ h => h) (fun _ _ => rfl) (fun _ _ => Iff.rfl) (fun _ _ => rfl)

theorem creditPhase_sound : (creditPhase).Sound :=
  (Tlb.tokens_sound.opt.pair Tlb.currency_sound).struct (fun p => ⟨p.1, p.2⟩) (fun a => (a.dueFeesCollected, a.credit))
    (fun _ => rfl) (fun _ => rfl) (by unfold creditPhase; tlb_more) (fun _ h => h) (fun _ _ => rfl) (fun _ _ => Iff.rfl) (fun _ _ => rfl)

theorem vmResult_sound : (vmResult).Sound :=
  ((Tlb.var_sound .vu56).pair ((Tlb.var_sound .vu56).pair ((Tlb.var_sound .vu24).opt.pair (Tlb.i8_sound.pair (Tlb.i32_sound.pair (Tlb.i32_sound.opt.pair (Tlb.u32_sound.pair (Tlb.hash_sound.pair Tlb.hash_sound)))))))).struct (fun p => ⟨p.1, p.2.1, p.2.2.1, p.2.2.2.1, p.2.2.2.2.1, p.2.2.2.2.2.1, p.2.2.2.2.2.2.1, p.2.2.2.2.2.2.2.1, p.2.2.2.2.2.2.2.2⟩) (fun a => (a.gasUsed, a.gasLimit, a.gasCredit, a.mode, a.exitCode, a.exitArg, a.vmSteps, a.initStateHash, a.finalStateHash))
    (fun _ => rfl) (fun _ => rfl) (by unfold vmResult; tlb_more) (fun _ h => h) (fun _ _ => rfl) (fun _ _ => Iff.rfl) (fun _ _ => rfl)

theorem skipReason_sound : skipReason.Sound where
  st := ⟨fun v _ => by
      cases v
      · exact (Wr.writes_small 0 (n := 2) (by decide)).writes
      · exact (Wr.writes_small 1 (n := 2) (by decide)).writes
      · exact (Wr.writes_small 2 (n := 2) (by decide)).writes
      · exact (Wr.writes_small 6 (n := 3) (by decide)).writes, fun v _ => by cases v <;> rfl⟩
  ld := (Loads.switch (Loads.ofTakes (Rd.takes_small (n := 2) (by decide)))
      (fun v => match v with | .noState => 0 | .badState => 1 | .noGas => 2 | .suspended => 3)
      (fun v => match v with | .suspended => Enc.Lit [false] | _ => fun e => e = Enc.nil) (by intro v; cases v <;> decide)
      (fun t ht => by
        match t, ht with
        | 0, _ => exact (Loads.pure _).iff fun v e => by cases v <;> simp
        | 1, _ => exact (Loads.pure _).iff fun v e => by cases v <;> simp
        | 2, _ => exact (Loads.pure _).iff fun v e => by cases v <;> simp
        | 3, _ =>
          exact ((Loads.pure _).alt (Loads.fail (by decide) (by decide))).iff
            fun v e => by cases v <;> tlb_alt)).iff fun v e => by
    cases v
    · exact then_nil
    · exact then_nil
    · exact then_nil
    · exact lit_end

theorem executed_loads (acc : Cell → Bool) : Loads executedLoad (fun p : ExecutedCompute =>
    Enc.Lit [p.success, p.msgStateUsed, p.accountActivated] ⬝ Tlb.tokens.R p.gasFees ⬝ (vmResult.child acc).R p.vm) := by
  have h := (Tlb.bits3_sound.pair (Tlb.tokens_sound.pair (vmResult_sound.child acc))).ld.record
    (fun p => (⟨p.1.1, p.1.2.1, p.1.2.2, p.2.1, p.2.2⟩ : ExecutedCompute)) (fun p => ((p.success, p.msgStateUsed, p.accountActivated), p.gasFees, p.vm))
    (fun _ => rfl) (fun _ => rfl)
  have e : executedLoad = (Tlb.bits3.pair (Tlb.tokens.pair (vmResult.child acc))).load >>= fun p => pure ⟨p.1.1, p.1.2.1, p.1.2.2, p.2.1, p.2.2⟩ := by
    unfold executedLoad Tlb.child; tlb_more
  rw [e]
  exact h

theorem computePhase_sound (acc : Cell → Bool) : (computePhase acc).Sound where
  st := ⟨fun v h => by
      cases v with
      | skipped r => exact (Wr.writes_bit false).writes.seq (skipReason_sound.st.writes r trivial)
      | executed p =>
        show Writes (Tlb.built acc (vmResult.store p.vm) >>= _) _
        rw [vmResult_sound.built h.2]
        have hb : natBits 4 (8 ||| p.success.toNat <<< 2 ||| p.msgStateUsed.toNat <<< 1 ||| p.accountActivated.toNat) =
            [true, p.success, p.msgStateUsed, p.accountActivated] := by
          cases p.success <;> cases p.msgStateUsed <;> cases p.accountActivated <;> decide
        have hw := (Wr.writes_small (ρ := Cell) (8 ||| p.success.toNat <<< 2 ||| p.msgStateUsed.toNat <<< 1 ||| p.accountActivated.toNat) (n := 4) (by decide)).writes
        rw [hb] at hw
        exact hw.seq ((Tlb.tokens_sound.st.writes _ h.1).seq (Tlb.cell_sound.st.writes _ trivial)),
    fun v h => by
      cases v with
      | skipped r => exact ⟨_, _, rfl, skipReason_sound.st.canon r trivial, rfl⟩
      | executed p => exact ⟨_, _, rfl, ⟨_, _, Tlb.tokens_sound.st.canon _ h.1, (vmResult_sound.child acc).st.canon _ h.2, rfl⟩, rfl⟩⟩
  ld := ((skipReason_sound.ld.map ComputePhase.skipped).altN ((executed_loads acc).map ComputePhase.executed)).iff fun v e => by
    cases v <;> simp only [computePhase] <;> tlb_alt

theorem counts_pack {a b c d : Nat} (hb : b < 2 ^ 16) (hc : c < 2 ^ 16) (hd : d < 2 ^ 16) :
    a <<< 48 ||| b <<< 32 ||| c <<< 16 ||| d = ((a * 2 ^ 16 + b) * 2 ^ 16 + c) * 2 ^ 16 + d := by
  have h1 : a <<< 48 ||| b <<< 32 = (a * 2 ^ 16 + b) <<< 32 := by
    rw [show a <<< 48 = (a <<< 16) <<< 32 from by rw [← Nat.shiftLeft_add], ← Nat.shiftLeft_or_distrib, ← Nat.shiftLeft_add_eq_or_of_lt hb, Nat.shiftLeft_eq a 16]
  have h2 : (a * 2 ^ 16 + b) <<< 32 ||| c <<< 16 = ((a * 2 ^ 16 + b) * 2 ^ 16 + c) <<< 16 := by
    rw [show (a * 2 ^ 16 + b) <<< 32 = ((a * 2 ^ 16 + b) <<< 16) <<< 16 from by rw [← Nat.shiftLeft_add], ← Nat.shiftLeft_or_distrib,
      ← Nat.shiftLeft_add_eq_or_of_lt hc, Nat.shiftLeft_eq (a * 2 ^ 16 + b) 16]
  rw [h1, h2, ← Nat.shiftLeft_add_eq_or_of_lt hd, Nat.shiftLeft_eq]

theorem counts_bits {a b c d : Nat} (ha : a < 2 ^ 16) (hb : b < 2 ^ 16) (hc : c < 2 ^ 16) (hd : d < 2 ^ 16) :
    natBits 64 (((a * 2 ^ 16 + b) * 2 ^ 16 + c) * 2 ^ 16 + d) = natBits 16 a ++ (natBits 16 b ++ (natBits 16 c ++ natBits 16 d)) := by
  have hm : ∀ x y, y < 2 ^ 16 → natBits 16 (x * 2 ^ 16 + y) = natBits 16 y := fun x y hy => by
    rw [← Wr.natBits_mod (Nat.le_refl 16) (v := x * 2 ^ 16 + y)]
    congr 1
    omega
  rw [show 64 = 16 + 48 from rfl, natBits_split, show (48 : Nat) = 16 + 32 from rfl, natBits_split 16 32, show (32 : Nat) = 16 + 16 from rfl, natBits_split 16 16]
  rw [show (((a * 2 ^ 16 + b) * 2 ^ 16 + c) * 2 ^ 16 + d) / 2 ^ (16 + (16 + 16)) = a by omega]
  rw [show (((a * 2 ^ 16 + b) * 2 ^ 16 + c) * 2 ^ 16 + d) / 2 ^ (16 + 16) = a * 2 ^ 16 + b by omega]
  rw [show (((a * 2 ^ 16 + b) * 2 ^ 16 + c) * 2 ^ 16 + d) / 2 ^ 16 = (a * 2 ^ 16 + b) * 2 ^ 16 + c by omega]
  rw [hm _ _ hb, hm _ _ hc, hm _ _ hd]

theorem counts_R (a : Nat × Nat × Nat × Nat) (e : Enc Cell) : counts.R a e ↔
    counts.ok a ∧ e = Enc.bits (natBits 64 (((a.1 * 2 ^ 16 + a.2.1) * 2 ^ 16 + a.2.2.1) * 2 ^ 16 + a.2.2.2)) := by
  constructor
  · rintro ⟨_, _, ⟨ha, rfl⟩, ⟨_, _, ⟨hb, rfl⟩, ⟨_, _, ⟨hc, rfl⟩, ⟨hd, rfl⟩, rfl⟩, rfl⟩, rfl⟩
    exact ⟨⟨ha, hb, hc, hd⟩, by rw [counts_bits ha hb hc hd]; rfl⟩
  · rintro ⟨⟨ha, hb, hc, hd⟩, rfl⟩
    exact ⟨_, _, ⟨ha, rfl⟩, ⟨_, _, ⟨hb, rfl⟩, ⟨_, _, ⟨hc, rfl⟩, ⟨hd, rfl⟩, rfl⟩, rfl⟩, by rw [counts_bits ha hb hc hd]; rfl⟩

theorem counts_sound : counts.Sound where
  st := ⟨fun a ⟨ha, hb, hc, hd⟩ => by
      show Writes (Wr.u64 _) _
      rw [counts_pack hb hc hd]
      have e : counts.enc a = Enc.bits (natBits 64 (((a.1 * 2 ^ 16 + a.2.1) * 2 ^ 16 + a.2.2.1) * 2 ^ 16 + a.2.2.2)) := by
        rw [counts_bits ha hb hc hd]; rfl
      rw [e]
      exact (Wr.writes_u64 (by omega)).writes,
    fun a h => (counts_R a _).2 ⟨h, by rw [counts_bits h.1 h.2.1 h.2.2.1 h.2.2.2]; rfl⟩⟩
  ld := ((Loads.ofTakes Rd.takes_u64).map _).iff fun a e => by
    rw [counts_R]
    simp only [Nat.shiftRight_eq_div_pow]
    constructor
    · rintro ⟨v, rfl, hv, rfl⟩
      refine ⟨⟨Nat.mod_lt _ (by decide), Nat.mod_lt _ (by decide), Nat.mod_lt _ (by decide), Nat.mod_lt _ (by decide)⟩, ?_⟩
      congr 2
      dsimp only
      omega
    · rintro ⟨⟨ha, hb, hc, hd⟩, rfl⟩
      obtain ⟨a, b, c, d⟩ := a
      dsimp only at *
      refine ⟨_, ?_, by omega, rfl⟩
      simp only [Prod.mk.injEq]
      refine ⟨?_, ?_, ?_, ?_⟩ <;> omega

theorem actionPhase_sound : (actionPhase).Sound :=
  (Tlb.bits3_sound.pair (statusChange_sound.pair (Tlb.tokens_sound.opt.pair (Tlb.tokens_sound.opt.pair (Tlb.i32_sound.pair (Tlb.i32_sound.opt.pair (Verif.counts_sound.pair (Tlb.hash_sound.pair storageUsed_sound)))))))).struct (fun p => ⟨p.1, p.2.1, p.2.2.1, p.2.2.2.1, p.2.2.2.2.1, p.2.2.2.2.2.1, p.2.2.2.2.2.2.1, p.2.2.2.2.2.2.2.1, p.2.2.2.2.2.2.2.2⟩) (fun a => (a.flags, a.statusChange, a.totalFwdFees, a.totalActionFees, a.resultCode, a.resultArg, a.counts, a.actionListHash, a.totalMessageSize))
    (fun _ => rfl) (fun _ => rfl) (by unfold actionPhase; tlb_more) (fun _ h => h) (fun _ _ => rfl) (fun _ _ => Iff.rfl) (fun _ _ => rfl)

theorem noFundsBounce_sound : (noFundsBounce).Sound :=
  (storageUsed_sound.pair Tlb.tokens_sound).struct (fun p => ⟨p.1, p.2⟩) (fun a => (a.msgSize, a.reqFwdFees))
    (fun _ => rfl) (fun _ => rfl) (by unfold noFundsBounce; tlb_more) (fun _ h => h) (fun _ _ => rfl) (fun _ _ => Iff.rfl) (fun _ _ => rfl)

theorem executedBounce_sound : (executedBounce).Sound :=
  (storageUsed_sound.pair (Tlb.tokens_sound.pair Tlb.tokens_sound)).struct (fun p => ⟨p.1, p.2.1, p.2.2⟩) (fun a => (a.msgSize, a.msgFees, a.fwdFees))
    (fun _ => rfl) (fun _ => rfl) (by unfold executedBounce; tlb_more) (fun _ h => h) (fun _ _ => rfl) (fun _ _ => Iff.rfl) (fun _ _ => rfl)

theorem bouncePhase_sound : bouncePhase.Sound where
  st := ⟨fun v h => by
      cases v with
      | negativeFunds => exact (Wr.writes_small 0 (n := 2) (by decide)).writes
      | noFunds p => exact (Wr.writes_small 1 (n := 2) (by decide)).writes.seq (noFundsBounce_sound.st.writes p h)
      | executed p => exact (Wr.writes_bit true).writes.seq (executedBounce_sound.st.writes p h),
    fun v h => by
      cases v with
      | negativeFunds => rfl
      | noFunds p => exact ⟨_, _, rfl, noFundsBounce_sound.st.canon p h, rfl⟩
      | executed p => exact ⟨_, _, rfl, executedBounce_sound.st.canon p h, rfl⟩⟩
  ld := (((Loads.pure _).alt (noFundsBounce_sound.ld.map BouncePhase.noFunds)).alt (executedBounce_sound.ld.map BouncePhase.executed)).iff fun v e => by
    cases v <;> simp only [bouncePhase] <;> tlb_alt

theorem ordinaryTx_sound (acc : Cell → Bool) : (ordinaryTx acc).Sound :=
  (Tlb.bool_sound.pair (storagePhase_sound.opt.pair (creditPhase_sound.opt.pair ((computePhase_sound acc).pair ((actionPhase_sound.optCell acc).pair
    (Tlb.bool_sound.pair (bouncePhase_sound.opt.pair Tlb.bool_sound))))))).struct
    (fun p => ⟨p.1, p.2.1, p.2.2.1, p.2.2.2.1, p.2.2.2.2.1, p.2.2.2.2.2.1, p.2.2.2.2.2.2.1, p.2.2.2.2.2.2.2⟩)
    (fun a => (a.creditFirst, a.storagePhase, a.creditPhase, a.computePhase, a.actionPhase, a.aborted, a.bouncePhase, a.destroyed))
    (fun _ => rfl) (fun _ => rfl) (by unfold ordinaryTx Tlb.optCell; tlb_more) (fun _ h => h)
    (fun a h => (actionPhase_sound.builtOpt h.2.2.2.2.1 _).trans rfl) (fun _ _ => Iff.rfl) (fun _ _ => rfl)

theorem tickTock_sound : tickTock.Sound :=
  Tlb.bool_sound.struct (fun b => if b then .tock else .tick) (fun a => decide (a = .tock)) (by intro b; cases b <;> rfl) (by intro b; cases b <;> rfl) rfl
    (fun _ _ => trivial) (fun _ _ => rfl) (by intro v e; cases v <;> exact ⟨fun h => h.2, fun h => ⟨trivial, h⟩⟩) (by intro v _; cases v <;> rfl)

theorem tickTockTx_sound (acc : Cell → Bool) : (tickTockTx acc).Sound :=
  (tickTock_sound.pair (storagePhase_sound.pair ((computePhase_sound acc).pair ((actionPhase_sound.optCell acc).pair Tlb.bits2_sound)))).struct
    (fun p => ⟨p.1, p.2.1, p.2.2.1, p.2.2.2.1, p.2.2.2.2⟩) (fun a => (a.kind, a.storagePhase, a.computePhase, a.actionPhase, a.flags))
    (fun _ => rfl) (fun _ => rfl) (by unfold tickTockTx Tlb.optCell; tlb_more) (fun _ h => h)
    (fun a h => (actionPhase_sound.builtOpt h.2.2.2.1 _).trans rfl) (fun _ _ => Iff.rfl) (fun _ _ => rfl)

theorem txInfo_sound (acc : Cell → Bool) : (txInfo acc).Sound where
  st := ⟨fun v h => by
      cases v with
      | ordinary i => exact (Wr.writes_small 0 (n := 4) (by decide)).writes.seq ((ordinaryTx_sound acc).st.writes i h)
      | tickTock i => exact (Wr.writes_small 1 (n := 3) (by decide)).writes.seq ((tickTockTx_sound acc).st.writes i h),
    fun v h => by
      cases v with
      | ordinary i => exact ⟨_, _, rfl, (ordinaryTx_sound acc).st.canon i h, rfl⟩
      | tickTock i => exact ⟨_, _, rfl, (tickTockTx_sound acc).st.canon i h, rfl⟩⟩
  ld := (Loads.switch (Loads.ofTakes (Rd.takes_small (n := 3) (by decide)))
      (fun v => match v with | .ordinary _ => 0 | .tickTock _ => 1)
      (fun v => match v with | .ordinary i => Enc.Lit [false] ⬝ (ordinaryTx acc).R i | .tickTock i => (tickTockTx acc).R i) (by intro v; cases v <;> simp)
      (fun t ht => by
        by_cases h1 : t = 1
        · rw [if_pos h1]; subst h1
          exact ((tickTockTx_sound acc).ld.map _).iff fun v e => by cases v <;> simp
        · rw [if_neg h1]
          by_cases h0 : t = 0
          · rw [if_pos h0]; subst h0
            exact (((ordinaryTx_sound acc).ld.map TxInfo.ordinary).altN (Loads.fail (by decide) (by decide))).iff fun v e => by cases v <;> tlb_alt
          · rw [if_neg h0]
            exact Loads.nothing (by decide) (by decide) fun v e => by cases v <;> simp <;> omega)).iff fun v e => by
    cases v with
    | ordinary i => dsimp only; show (Enc.Lit [false, false, false] ⬝ Enc.Lit [false] ⬝ _) e ↔ (Enc.Lit [false, false, false, false] ⬝ _) e; exact lit_lit
    | tickTock i => dsimp only; show (Enc.Lit [false, false, true] ⬝ (tickTockTx acc).R i) e ↔ (Enc.Lit [false, false, true] ⬝ (tickTockTx acc).R i) e; exact Iff.rfl

theorem hashUpdate_sound : (hashUpdate).Sound :=
  ((Tlb.hash_sound.pair Tlb.hash_sound).tagged (n := 8) (t := 0x72) (by unfold Tlb.TagWidth; omega) (by decide)).struct (fun p => ⟨p.1, p.2⟩) (fun a => (a.old, a.new))
    (fun _ => rfl) (fun _ => rfl) (by unfold hashUpdate; tlb_more) (fun _ h => h) (fun _ _ => rfl) (fun _ _ => Iff.rfl) (fun _ _ => rfl)

theorem txHead_sound : (txHead).Sound :=
  (Tlb.hash_sound.pair (Tlb.u64_sound.pair (Tlb.hash_sound.pair (Tlb.u64_sound.pair (Tlb.u32_sound.pair ((Tlb.uint_sound (n := 15) (by decide)).pair (accountStatus_sound.pair accountStatus_sound))))))).struct (fun p => ⟨p.1, p.2.1, p.2.2.1, p.2.2.2.1, p.2.2.2.2.1, p.2.2.2.2.2.1, p.2.2.2.2.2.2.1, p.2.2.2.2.2.2.2⟩) (fun a => (a.account, a.lt, a.prevTransHash, a.prevTransLt, a.now, a.outMsgCount, a.origStatus, a.endStatus))
    (fun _ => rfl) (fun _ => rfl) (by unfold txHead; tlb_more) (fun _ h => h) (fun _ _ => rfl) (fun _ _ => Iff.rfl) (fun _ _ => rfl)

theorem txMessages_sound : txMessages.Sound := Tlb.cell_sound.opt.pair Tlb.dict_sound

theorem txHead_bits {h : TxHead} {e : Enc Cell} (he : txHead.R h e) : e.2 = [] := by
  obtain ⟨_, _, ⟨_, rfl⟩, ⟨_, _, ⟨_, rfl⟩, ⟨_, _, ⟨_, rfl⟩, ⟨_, _, ⟨_, rfl⟩, ⟨_, _, ⟨_, rfl⟩, ⟨_, _, ⟨_, rfl⟩, ⟨_, _, h1, h2, rfl⟩, rfl⟩, rfl⟩, rfl⟩, rfl⟩, rfl⟩, rfl⟩ := he
  have hs : ∀ (a : AccountStatus) (e : Enc Cell), accountStatus.R a e → e.2 = [] := by intro a e h; cases a <;> rw [show e = _ from h] <;> rfl
  show _ ++ (_ ++ (_ ++ (_ ++ (_ ++ (_ ++ (_ ++ _)))))) = _
  rw [hs _ _ h1, hs _ _ h2]
  rfl

theorem transaction_sound (acc : Cell → Bool) : (transaction acc).Sound :=
  (((txMessages_sound.childB acc).hoist txHead_sound (Tlb.currency_sound.pair ((Tlb.lazy_sound false).pair (Tlb.lazy_sound false)))
    (fun v e h => by obtain ⟨c, rfl, _⟩ := h; rfl) (fun v e h => txHead_bits h)).tagged (n := 4) (t := 7)
    (by unfold Tlb.TagWidth; omega) (by decide)).struct
    (fun p => Transaction.mk p.2.1.account p.2.1.lt p.2.1.prevTransHash p.2.1.prevTransLt p.2.1.now p.2.1.outMsgCount p.2.1.origStatus p.2.1.endStatus p.1.1 p.1.2 p.2.2.1 p.2.2.2.1 p.2.2.2.2)
    (fun t => ((t.inMsg, t.outMsgs), t.head, t.totalFees, t.stateUpdate, t.info))
    (fun _ => rfl) (fun _ => rfl) (by unfold transaction Tlb.hoist Tlb.childB; tlb_more) (fun _ h => ⟨h.2.1, h.1, h.2.2⟩)
    (fun a h => (txMessages_sound.built h.2.1 _).trans rfl) (fun _ _ => Iff.rfl) (fun _ _ => rfl)

end Verif
