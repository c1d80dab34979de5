import Verif.Tlb
import Verif.StorageStat
/-
Accounts (`models/account/mod.rs`).
-/
set_option linter.unusedVariables false
set_option linter.unusedSimpArgs false
namespace Verif

/-! ### Model -/

/-- `models/account/mod.rs:12-18` `StorageUsed`, and `StorageUsedShort` (`:64-71`), which has the same fields. -/
structure StorageUsed where
  cells : Nat
  bits : Nat
  deriving DecidableEq, Repr

/-- The check at the end of `StorageUsed::compute` (`models/account/mod.rs:46-56`), given the outcome of `compute_unique_stats`
(numbers of bits and cells, `none` if the limit was reached). The condition is as written in the code: it has no negation before `cells`. -/
def StorageUsed.ofStats : Option (Nat × Nat) → Except Err StorageUsed
  | none => .error .cancelled
  | some (bits, cells) => if VarKind.vu56.isValid cells || !VarKind.vu56.isValid bits then .error .intOverflow else .ok ⟨cells, bits⟩

/-- `StorageUsed` derives `Store` and `Load`. -/
def storageUsed : Tlb StorageUsed where
  ok a := (Tlb.var .vu56).ok a.cells ∧ (Tlb.var .vu56).ok a.bits
  store a := do (Tlb.var .vu56).store a.cells; (Tlb.var .vu56).store a.bits
  load := do
    let cells ← (Tlb.var .vu56).load
    let bits ← (Tlb.var .vu56).load
    pure ⟨cells, bits⟩
  R a := (Tlb.var .vu56).R a.cells ⬝ (Tlb.var .vu56).R a.bits
  enc a := (Tlb.var .vu56).enc a.cells ++ (Tlb.var .vu56).enc a.bits

/-- `models/account/mod.rs:83-90` -/
inductive StorageExtra where
  | none
  | dictHash (h : List Byte)
  deriving DecidableEq, Repr

/-- The rest of `StorageExtra::load_from` behind the tag. -/
def storageExtraRest : Nat → Rd Cell StorageExtra
  | 0 => pure .none
  | 1 => Tlb.hash.load >>= fun h => pure (.dictHash h)
  | _ => Prog.fail .invalidTag

/-- `models/account/mod.rs:92-113` `Store`, `Load`: three bits of tag. -/
def storageExtra : Tlb StorageExtra where
  ok | .none => True
     | .dictHash h => Tlb.hash.ok h
  store | .none => Wr.zeros 3
        | .dictHash h => do Wr.small 1 3; Tlb.hash.store h
  load := Rd.small 3 >>= storageExtraRest
  R | .none => Enc.Lit [false, false, false]
    | .dictHash h => Enc.Lit [false, false, true] ⬝ Tlb.hash.R h
  enc | .none => Enc.bits [false, false, false]
      | .dictHash h => Enc.bits [false, false, true] ++ Tlb.hash.enc h

/-- `models/account/mod.rs:117-128` -/
structure StorageInfo where
  used : StorageUsed
  extra : StorageExtra
  lastPaid : Nat
  duePayment : Option Nat
  deriving DecidableEq, Repr

/-- `StorageInfo` derives `Store` and `Load`. -/
def storageInfo : Tlb StorageInfo where
  ok a := storageUsed.ok a.used ∧ storageExtra.ok a.extra ∧ Tlb.u32.ok a.lastPaid ∧ Tlb.tokens.opt.ok a.duePayment
  store a := do storageUsed.store a.used; storageExtra.store a.extra; Tlb.u32.store a.lastPaid; Tlb.tokens.opt.store a.duePayment
  load := do
    let used ← storageUsed.load
    let extra ← storageExtra.load
    let lastPaid ← Tlb.u32.load
    let duePayment ← Tlb.tokens.opt.load
    pure ⟨used, extra, lastPaid, duePayment⟩
  R a := storageUsed.R a.used ⬝ storageExtra.R a.extra ⬝ Tlb.u32.R a.lastPaid ⬝ Tlb.tokens.opt.R a.duePayment
  enc a := storageUsed.enc a.used ++ (storageExtra.enc a.extra ++ (Tlb.u32.enc a.lastPaid ++ Tlb.tokens.opt.enc a.duePayment))

/-- `models/account/mod.rs:133-142` `AccountStatus` -/
inductive AccountStatus where
  | uninit | frozen | active | notExists
  deriving DecidableEq, Repr

/-- `*self as u8` -/
def AccountStatus.code : AccountStatus → Nat
  | .uninit => 0 | .frozen => 1 | .active => 2 | .notExists => 3
/-- The match of `models/account/mod.rs:163-173`. -/
def AccountStatus.ofCode : Nat → AccountStatus
  | 0 => .uninit | 1 => .frozen | 2 => .active | _ => .notExists

/-- `models/account/mod.rs:149-177` `Store`, `Load` -/
def accountStatus : Tlb AccountStatus where
  ok _ := True
  store a := Wr.small a.code 2
  load := Rd.small 2 >>= fun v => pure (AccountStatus.ofCode v)
  R | .uninit => Enc.Lit [false, false]
    | .frozen => Enc.Lit [false, true]
    | .active => Enc.Lit [true, false]
    | .notExists => Enc.Lit [true, true]
  enc | .uninit => Enc.bits [false, false]
      | .frozen => Enc.bits [false, true]
      | .active => Enc.bits [true, false]
      | .notExists => Enc.bits [true, true]

/-- `models/account/mod.rs:486-494` `SpecialFlags` -/
structure SpecialFlags where
  tick : Bool
  tock : Bool
  deriving DecidableEq, Repr

/-- `models/account/mod.rs:501-517` `Store`, `Load` -/
def specialFlags : Tlb SpecialFlags where
  ok _ := True
  store a := Wr.small (a.tick.toNat <<< 1 ||| a.tock.toNat) 2
  load := Rd.small 2 >>= fun v => pure ⟨decide (v &&& 2 ≠ 0), decide (v &&& 1 ≠ 0)⟩
  R a := Enc.Lit [a.tick, a.tock]
  enc a := Enc.bits [a.tick, a.tock]

/-- `SplitDepth` (`num/mod.rs:985-1048`). Values above 31 cannot be stored, see `C44_split_depth_unchecked`. -/
def splitDepth : Tlb Nat where
  ok v := 0 < v ∧ v ≤ 31
  store := splitDepthStore
  load := splitDepthLoad
  R v e := (0 < v ∧ v ≤ 31) ∧ e = Enc.bits (natBits 5 v)
  enc v := Enc.bits (natBits 5 v)

/-- `models/account/mod.rs:519-529` `SimpleLib` -/
structure SimpleLib where
  isPublic : Bool
  root : Cell

/-- `SimpleLib` derives `Store` and `Load`. -/
def simpleLib : Tlb SimpleLib where
  ok a := Tlb.bool.ok a.isPublic ∧ Tlb.cell.ok a.root
  store a := do Tlb.bool.store a.isPublic; Tlb.cell.store a.root
  load := do
    let isPublic ← Tlb.bool.load
    let root ← Tlb.cell.load
    pure ⟨isPublic, root⟩
  R a := Tlb.bool.R a.isPublic ⬝ Tlb.cell.R a.root
  enc a := Tlb.bool.enc a.isPublic ++ Tlb.cell.enc a.root

/-- `models/account/mod.rs:389-405` `StateInit`. The dictionary of libraries is its root. -/
structure StateInit where
  splitDepth : Option Nat
  special : Option SpecialFlags
  code : Option Cell
  data : Option Cell
  libraries : Option Cell

namespace StateInit
/-- `models/account/mod.rs:417-421` -/
def bitLen (a : StateInit) : Nat := (1 + a.splitDepth.isSome.toNat * 5) + (1 + a.special.isSome.toNat * 2) + 3
/-- `models/account/mod.rs:424-426` -/
def refCount (a : StateInit) : Nat := a.code.isSome.toNat + a.data.isSome.toNat + a.libraries.isSome.toNat
end StateInit

/-- `StateInit` derives `Store` and `Load`. -/
def stateInit : Tlb StateInit where
  ok a := splitDepth.opt.ok a.splitDepth ∧ specialFlags.opt.ok a.special ∧ Tlb.cell.opt.ok a.code ∧ Tlb.cell.opt.ok a.data ∧ Tlb.dict.ok a.libraries
  store a := do
    splitDepth.opt.store a.splitDepth
    specialFlags.opt.store a.special
    Tlb.cell.opt.store a.code
    Tlb.cell.opt.store a.data
    Tlb.dict.store a.libraries
  load := do
    let splitDepth ← splitDepth.opt.load
    let special ← specialFlags.opt.load
    let code ← Tlb.cell.opt.load
    let data ← Tlb.cell.opt.load
    let libraries ← Tlb.dict.load
    pure ⟨splitDepth, special, code, data, libraries⟩
  R a := splitDepth.opt.R a.splitDepth ⬝ specialFlags.opt.R a.special ⬝ Tlb.cell.opt.R a.code ⬝ Tlb.cell.opt.R a.data ⬝ Tlb.dict.R a.libraries
  enc a := splitDepth.opt.enc a.splitDepth ++ (specialFlags.opt.enc a.special ++ (Tlb.cell.opt.enc a.code ++ (Tlb.cell.opt.enc a.data ++
    Tlb.dict.enc a.libraries)))

/-- `models/account/mod.rs:331-338` `AccountState` -/
inductive AccountState where
  | uninit
  | active (s : StateInit)
  | frozen (h : List Byte)

/-- `models/account/mod.rs:342-348` -/
def AccountState.status : AccountState → AccountStatus
  | .uninit => .uninit
  | .active _ => .active
  | .frozen _ => .frozen

/-- `models/account/mod.rs:344-387` `Store`, `Load` -/
def accountState : Tlb AccountState where
  ok | .uninit => True
     | .active s => stateInit.ok s
     | .frozen h => Tlb.hash.ok h
  store | .uninit => Wr.small 0 2
        | .active s => do Wr.bit true; stateInit.store s
        | .frozen h => do Wr.small 1 2; Tlb.hash.store h
  load := Rd.bit >>= fun b => if b then stateInit.load >>= fun s => pure (.active s)
    else Rd.bit >>= fun b => if b then Tlb.hash.load >>= fun h => pure (.frozen h) else pure .uninit
  R | .uninit => Enc.Lit [false, false]
    | .active s => Enc.Lit [true] ⬝ stateInit.R s
    | .frozen h => Enc.Lit [false, true] ⬝ Tlb.hash.R h
  enc | .uninit => Enc.bits [false, false]
      | .active s => Enc.bits [true] ++ stateInit.enc s
      | .frozen h => Enc.bits [false, true] ++ Tlb.hash.enc h

/-- `models/account/mod.rs:313-324` `Account` -/
structure Account where
  address : IntAddr
  storageStat : StorageInfo
  lastTransLt : Nat
  balance : Currency
  state : AccountState

/-- `Account` derives `Store` and `Load`. -/
def account : Tlb Account where
  ok a := Tlb.intAddr.ok a.address ∧ storageInfo.ok a.storageStat ∧ Tlb.u64.ok a.lastTransLt ∧ Tlb.currency.ok a.balance ∧ accountState.ok a.state
  store a := do
    Tlb.intAddr.store a.address
    storageInfo.store a.storageStat
    Tlb.u64.store a.lastTransLt
    Tlb.currency.store a.balance
    accountState.store a.state
  load := do
    let address ← Tlb.intAddr.load
    let storageStat ← storageInfo.load
    let lastTransLt ← Tlb.u64.load
    let balance ← Tlb.currency.load
    let state ← accountState.load
    pure ⟨address, storageStat, lastTransLt, balance, state⟩
  R a := Tlb.intAddr.R a.address ⬝ storageInfo.R a.storageStat ⬝ Tlb.u64.R a.lastTransLt ⬝ Tlb.currency.R a.balance ⬝ accountState.R a.state
  enc a := Tlb.intAddr.enc a.address ++ (storageInfo.enc a.storageStat ++ (Tlb.u64.enc a.lastTransLt ++ (Tlb.currency.enc a.balance ++
    accountState.enc a.state)))

/-- `models/account/mod.rs:226-230` `OptionalAccount` derives `Store` and `Load`. -/
def optionalAccount : Tlb (Option Account) := account.opt

/-- `models/account/mod.rs:233-238` `OptionalAccount::status` -/
def optionalStatus : Option Account → AccountStatus
  | none => .notExists
  | some a => a.state.status

/-- `models/account/mod.rs:178-185` `ShardAccount` -/
structure ShardAccount where
  account : Cell
  lastTransHash : List Byte
  lastTransLt : Nat

/-- `ShardAccount` derives `Store` and `Load`. -/
def shardAccount : Tlb ShardAccount where
  ok a := (Tlb.lazy false).ok a.account ∧ Tlb.hash.ok a.lastTransHash ∧ Tlb.u64.ok a.lastTransLt
  store a := do (Tlb.lazy false).store a.account; Tlb.hash.store a.lastTransHash; Tlb.u64.store a.lastTransLt
  load := do
    let account ← (Tlb.lazy false).load
    let lastTransHash ← Tlb.hash.load
    let lastTransLt ← Tlb.u64.load
    pure ⟨account, lastTransHash, lastTransLt⟩
  R a := (Tlb.lazy false).R a.account ⬝ Tlb.hash.R a.lastTransHash ⬝ Tlb.u64.R a.lastTransLt
  enc a := (Tlb.lazy false).enc a.account ++ (Tlb.hash.enc a.lastTransHash ++ Tlb.u64.enc a.lastTransLt)

/-! ### Soundness of the parts -/

/-- The equality of the loaders of a struct and of the tuple of its fields. -/
macro "tlb_load" : tactic => `(tactic| (simp only [Tlb.record, Tlb.pair, pairLoad, Prog.bind_assoc', Prog.pure_bind']))

theorem storageUsed_sound : storageUsed.Sound :=
  (((Tlb.var_sound .vu56).pair (Tlb.var_sound .vu56)).record (f := fun p => StorageUsed.mk p.1 p.2) (g := fun a => (a.cells, a.bits))
    (fun _ => rfl) (fun _ => rfl)).eq (by unfold storageUsed; tlb_load)

theorem lit3 {t : Nat} : Enc.Lit (natBits 3 t) = Enc.Lit [t.testBit 2, t.testBit 1, t.testBit 0] := rfl

theorem storageExtra_sound : storageExtra.Sound where
  st := ⟨fun v h => by
      cases v with
      | none => exact (Wr.writes_zeros 3 (by decide)).writes
      | dictHash d => exact (Wr.writes_small 1 (n := 3) (by decide)).writes.seq (Tlb.hash_sound.st.writes d h),
    fun v h => by
      cases v with
      | none => rfl
      | dictHash d => exact ⟨_, _, rfl, Tlb.hash_sound.st.canon d h, rfl⟩⟩
  ld := (Loads.onNat (Rd.takes_small (n := 3) (by decide)) (R := fun t v e => match t with
        | 0 => v = .none ∧ e = Enc.nil
        | 1 => ∃ d, v = .dictHash d ∧ Tlb.hash.R d e
        | _ => False) (fun t ht => by
      match t with
      | 0 => exact Loads.pure _
      | 1 => exact Tlb.hash_sound.ld.map _
      | t + 2 => exact Loads.fail (by decide) (by decide))).iff fun v e => by
    constructor
    · rintro ⟨t, ht, e1, e2, h1, h2, rfl⟩
      match t with
      | 0 => obtain ⟨rfl, rfl⟩ := h2; rw [Enc.append_nil]; exact h1
      | 1 => obtain ⟨d, rfl, h2⟩ := h2; exact ⟨e1, e2, h1, h2, rfl⟩
      | t + 2 => exact h2.elim
    · intro h
      cases v with
      | none => exact ⟨0, by decide, e, Enc.nil, h, ⟨rfl, rfl⟩, (Enc.append_nil _).symm⟩
      | dictHash d => obtain ⟨e1, e2, h1, h2, rfl⟩ := h; exact ⟨1, by decide, e1, e2, h1, ⟨d, rfl, h2⟩, rfl⟩

theorem storageInfo_sound : storageInfo.Sound :=
  ((storageUsed_sound.pair (storageExtra_sound.pair (Tlb.u32_sound.pair Tlb.tokens_sound.opt))).record
    (f := fun p => StorageInfo.mk p.1 p.2.1 p.2.2.1 p.2.2.2) (g := fun a => (a.used, a.extra, a.lastPaid, a.duePayment))
    (fun _ => rfl) (fun _ => rfl)).eq (by unfold storageInfo; tlb_load)

theorem accountStatus_sound : accountStatus.Sound :=
  (Tlb.coded_sound (n := 2) (f := AccountStatus.ofCode) (g := AccountStatus.code) (by decide) (by intro a; cases a <;> decide) (by intro a; cases a <;> rfl)
    (by decide)).eq rfl (by intro _ _; trivial) (by intro a _; rfl) (by intro a e; cases a <;> exact Iff.rfl) (by intro a _; cases a <;> rfl)

theorem specialFlags_sound : specialFlags.Sound :=
  (Tlb.coded_sound (n := 2) (f := fun v => SpecialFlags.mk (decide (v &&& 2 ≠ 0)) (decide (v &&& 1 ≠ 0))) (g := fun a => a.tick.toNat <<< 1 ||| a.tock.toNat)
    (by decide) (by rintro ⟨a, b⟩; cases a <;> cases b <;> decide) (by rintro ⟨a, b⟩; cases a <;> cases b <;> decide)
    (by decide)).eq rfl (by intro _ _; trivial) (by intro a _; rfl)
    (by rintro ⟨a, b⟩ e; cases a <;> cases b <;> exact Iff.rfl) (by rintro ⟨a, b⟩ _; cases a <;> cases b <;> rfl)

theorem splitDepth_sound : splitDepth.Sound := by
  obtain ⟨h1, _, h3, h4⟩ := C44_split_depth_partial (ρ := Cell)
  exact ⟨⟨fun v h => (h1 v h.1 h.2).1.writes, fun v h => ⟨h, rfl⟩⟩, ⟨by rintro v e ⟨h, rfl⟩; exact (h1 v h.1 h.2).2.1,
    h3.weaken fun v e h => ⟨⟨h.1, h.2.1⟩, h.2.2⟩, h4⟩⟩

theorem simpleLib_sound : simpleLib.Sound :=
  ((Tlb.bool_sound.pair Tlb.cell_sound).record (f := fun p => SimpleLib.mk p.1 p.2) (g := fun a => (a.isPublic, a.root))
    (fun _ => rfl) (fun _ => rfl)).eq (by unfold simpleLib; tlb_load)

theorem stateInit_sound : stateInit.Sound :=
  ((splitDepth_sound.opt.pair (specialFlags_sound.opt.pair (Tlb.cell_sound.opt.pair (Tlb.cell_sound.opt.pair Tlb.dict_sound)))).record
    (f := fun p => StateInit.mk p.1 p.2.1 p.2.2.1 p.2.2.2.1 p.2.2.2.2) (g := fun a => (a.splitDepth, a.special, a.code, a.data, a.libraries))
    (fun _ => rfl) (fun _ => rfl)).eq (by unfold stateInit; tlb_load)

theorem accountState_sound : accountState.Sound where
  st := ⟨fun v h => by
      cases v with
      | uninit => exact (Wr.writes_small 0 (n := 2) (by decide)).writes
      | active s => exact (Wr.writes_bit true).writes.seq (stateInit_sound.st.writes s h)
      | frozen d => exact (Wr.writes_small 1 (n := 2) (by decide)).writes.seq (Tlb.hash_sound.st.writes d h),
    fun v h => by
      cases v with
      | uninit => rfl
      | active s => exact ⟨_, _, rfl, stateInit_sound.st.canon s h, rfl⟩
      | frozen d => exact ⟨_, _, rfl, Tlb.hash_sound.st.canon d h, rfl⟩⟩
  ld := (Loads.onBit (Loads.onBit (Loads.pure AccountState.uninit) (Tlb.hash_sound.ld.map AccountState.frozen)) (stateInit_sound.ld.map AccountState.active)).iff
    fun v e => by
      constructor
      · rintro (⟨_, _, rfl, (⟨_, _, rfl, ⟨rfl, rfl⟩, rfl⟩ | ⟨_, e2, rfl, ⟨d, rfl, h⟩, rfl⟩), rfl⟩ | ⟨_, e2, rfl, ⟨s, rfl, h⟩, rfl⟩)
        · rfl
        · exact ⟨_, e2, rfl, h, rfl⟩
        · exact ⟨_, e2, rfl, h, rfl⟩
      · intro h
        cases v with
        | uninit => cases h; exact Or.inl ⟨_, _, rfl, Or.inl ⟨_, _, rfl, ⟨rfl, rfl⟩, rfl⟩, rfl⟩
        | active s => obtain ⟨_, e2, rfl, h, rfl⟩ := h; exact Or.inr ⟨_, e2, rfl, ⟨s, rfl, h⟩, rfl⟩
        | frozen d => obtain ⟨_, e2, rfl, h, rfl⟩ := h; exact Or.inl ⟨_, _, rfl, Or.inr ⟨_, e2, rfl, ⟨d, rfl, h⟩, rfl⟩, rfl⟩

theorem account_sound : account.Sound :=
  ((Tlb.intAddr_sound.pair (storageInfo_sound.pair (Tlb.u64_sound.pair (Tlb.currency_sound.pair accountState_sound)))).record
    (f := fun p => Account.mk p.1 p.2.1 p.2.2.1 p.2.2.2.1 p.2.2.2.2) (g := fun a => (a.address, a.storageStat, a.lastTransLt, a.balance, a.state))
    (fun _ => rfl) (fun _ => rfl)).eq (by unfold account; tlb_load)

theorem shardAccount_sound : shardAccount.Sound :=
  (((Tlb.lazy_sound false).pair (Tlb.hash_sound.pair Tlb.u64_sound)).record
    (f := fun p => ShardAccount.mk p.1 p.2.1 p.2.2) (g := fun a => (a.account, a.lastTransHash, a.lastTransLt))
    (fun _ => rfl) (fun _ => rfl)).eq (by unfold shardAccount; tlb_load)

theorem stateInit_size {a : StateInit} (h : stateInit.ok a) : (stateInit.enc a).1.length = a.bitLen ∧ (stateInit.enc a).2.length = a.refCount := by
  obtain ⟨d, s, c, t, l⟩ := a
  cases d <;> cases s <;> cases c <;> cases t <;> cases l <;> exact ⟨rfl, rfl⟩

end Verif
