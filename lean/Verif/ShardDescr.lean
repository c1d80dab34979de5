import Verif.TlbMore
/-
The description of a shard (`models/block/shard_hashes.rs`, without the feature `tycho`).
-/
set_option linter.unusedVariables false
set_option linter.unusedSimpArgs false
namespace Verif

/-! ### Model -/

/-- `models/block/shard_hashes.rs:614-629` `FutureSplitMerge::Merge` if `merge`, `FutureSplitMerge::Split` otherwise; `FutureSplitMerge` -/
structure FutureSplitMerge where
  merge : Bool
  utime : Nat
  interval : Nat
  deriving DecidableEq, Repr

/-- `FutureSplitMerge` is written and read as in `models/block/shard_hashes.rs:631-672`. -/
def futureSplitMerge : Tlb FutureSplitMerge where
  ok a := Tlb.bool.ok a.merge ∧ Tlb.u32.ok a.utime ∧ Tlb.u32.ok a.interval
  store a := Tlb.bool.store a.merge >>= fun _ => Tlb.u32.store a.utime >>= fun _ => Tlb.u32.store a.interval
  load :=
    Tlb.bool.load >>= fun merge =>
    Tlb.u32.load >>= fun utime =>
    Tlb.u32.load >>= fun interval =>
    pure ⟨merge, utime, interval⟩
  R a := Tlb.bool.R a.merge ⬝ Tlb.u32.R a.utime ⬝ Tlb.u32.R a.interval
  enc a := Tlb.bool.enc a.merge ++ (Tlb.u32.enc a.utime ++ (Tlb.u32.enc a.interval))

/-- `models/block/shard_hashes.rs:431-442` the flags of a shard description. -/
structure ShardFlags where
  beforeSplit : Bool
  beforeMerge : Bool
  wantSplit : Bool
  wantMerge : Bool
  nxCcUpdated : Bool
  deriving DecidableEq, Repr

/-- `models/block/shard_hashes.rs:487-491` -/
def ShardFlags.byte (f : ShardFlags) : Nat :=
  (f.beforeSplit.toNat <<< 7) ||| (f.beforeMerge.toNat <<< 6) ||| (f.wantSplit.toNat <<< 5) ||| (f.wantMerge.toNat <<< 4) ||| (f.nxCcUpdated.toNat <<< 3)

/-- `models/block/shard_hashes.rs:574-578` -/
def ShardFlags.ofByte (v : Nat) : ShardFlags :=
  ⟨decide (v &&& 0x80 ≠ 0), decide (v &&& 0x40 ≠ 0), decide (v &&& 0x20 ≠ 0), decide (v &&& 0x10 ≠ 0), decide (v &&& 8 ≠ 0)⟩

/-- `models/block/shard_hashes.rs:502`, `540-543`: the two lowest bits must be zero, the third lowest is ignored. -/
def shardFlags : Tlb ShardFlags where
  ok _ := True
  store f := Wr.u8 f.byte
  load := Rd.u8 >>= fun v => Prog.check (decide (v &&& 3 = 0)) .invalidData >>= fun _ => pure (ShardFlags.ofByte v)
  R f e := ∃ x, e = Enc.bits [f.beforeSplit, f.beforeMerge, f.wantSplit, f.wantMerge, f.nxCcUpdated, x, false, false]
  enc f := Enc.bits [f.beforeSplit, f.beforeMerge, f.wantSplit, f.wantMerge, f.nxCcUpdated, false, false, false]

/-- `models/block/shard_hashes.rs:417-462` the fields of `ShardDescription` up to `split_merge_at`, here `ShardTip` -/
structure ShardTip where
  seqno : Nat
  regMcSeqno : Nat
  startLt : Nat
  endLt : Nat
  rootHash : List Byte
  fileHash : List Byte
  flags : ShardFlags
  nextCatchainSeqno : Nat
  nextValidatorShard : Nat
  minRefMcSeqno : Nat
  genUtime : Nat
  splitMergeAt : Option FutureSplitMerge
  deriving DecidableEq, Repr

/-- `ShardTip` is written and read as in `models/block/shard_hashes.rs:496-510` and `:532-551`. -/
def shardTip : Tlb ShardTip where
  ok a := Tlb.u32.ok a.seqno ∧ Tlb.u32.ok a.regMcSeqno ∧ Tlb.u64.ok a.startLt ∧ Tlb.u64.ok a.endLt ∧ Tlb.hash.ok a.rootHash ∧ Tlb.hash.ok a.fileHash ∧ shardFlags.ok a.flags ∧ Tlb.u32.ok a.nextCatchainSeqno ∧ Tlb.u64.ok a.nextValidatorShard ∧ Tlb.u32.ok a.minRefMcSeqno ∧ Tlb.u32.ok a.genUtime ∧ futureSplitMerge.opt.ok a.splitMergeAt
  store a := Tlb.u32.store a.seqno >>= fun _ => Tlb.u32.store a.regMcSeqno >>= fun _ => Tlb.u64.store a.startLt >>= fun _ => Tlb.u64.store a.endLt >>= fun _ => Tlb.hash.store a.rootHash >>= fun _ => Tlb.hash.store a.fileHash >>= fun _ => shardFlags.store a.flags >>= fun _ => Tlb.u32.store a.nextCatchainSeqno >>= fun _ => Tlb.u64.store a.nextValidatorShard >>= fun _ => Tlb.u32.store a.minRefMcSeqno >>= fun _ => Tlb.u32.store a.genUtime >>= fun _ => futureSplitMerge.opt.store a.splitMergeAt
  load :=
    Tlb.u32.load >>= fun seqno =>
    Tlb.u32.load >>= fun regMcSeqno =>
    Tlb.u64.load >>= fun startLt =>
    Tlb.u64.load >>= fun endLt =>
    Tlb.hash.load >>= fun rootHash =>
    Tlb.hash.load >>= fun fileHash =>
    shardFlags.load >>= fun flags =>
    Tlb.u32.load >>= fun nextCatchainSeqno =>
    Tlb.u64.load >>= fun nextValidatorShard =>
    Tlb.u32.load >>= fun minRefMcSeqno =>
    Tlb.u32.load >>= fun genUtime =>
    futureSplitMerge.opt.load >>= fun splitMergeAt =>
    pure ⟨seqno, regMcSeqno, startLt, endLt, rootHash, fileHash, flags, nextCatchainSeqno, nextValidatorShard, minRefMcSeqno, genUtime, splitMergeAt⟩
  R a := Tlb.u32.R a.seqno ⬝ Tlb.u32.R a.regMcSeqno ⬝ Tlb.u64.R a.startLt ⬝ Tlb.u64.R a.endLt ⬝ Tlb.hash.R a.rootHash ⬝ Tlb.hash.R a.fileHash ⬝ shardFlags.R a.flags ⬝ Tlb.u32.R a.nextCatchainSeqno ⬝ Tlb.u64.R a.nextValidatorShard ⬝ Tlb.u32.R a.minRefMcSeqno ⬝ Tlb.u32.R a.genUtime ⬝ futureSplitMerge.opt.R a.splitMergeAt
  enc a := Tlb.u32.enc a.seqno ++ (Tlb.u32.enc a.regMcSeqno ++ (Tlb.u64.enc a.startLt ++ (Tlb.u64.enc a.endLt ++ (Tlb.hash.enc a.rootHash ++ (Tlb.hash.enc a.fileHash ++ (shardFlags.enc a.flags ++ (Tlb.u32.enc a.nextCatchainSeqno ++ (Tlb.u64.enc a.nextValidatorShard ++ (Tlb.u32.enc a.minRefMcSeqno ++ (Tlb.u32.enc a.genUtime ++ (futureSplitMerge.opt.enc a.splitMergeAt)))))))))))

/-- `models/block/shard_hashes.rs:417-462` `ShardDescription`; the fields before the currencies are grouped in `tip`. -/
structure ShardDescription where
  tip : ShardTip
  feesCollected : Currency
  fundsCreated : Currency

/-- `models/block/shard_hashes.rs:512-515`, `564-565`: the two currencies. -/
def shardFunds : Tlb (Currency × Currency) := Tlb.currency.pair Tlb.currency

/-- `models/block/shard_hashes.rs:481-521` `Store`, `523-593` `Load`: with the tag `0xb` the currencies follow in the same cell. -/
def shardDescription (acc : Cell → Bool) : Tlb ShardDescription where
  ok d := shardTip.ok d.tip ∧ (shardFunds.child acc).ok (d.feesCollected, d.fundsCreated)
  store d := Wr.small 0xa 4 >>= fun _ => shardTip.store d.tip >>= fun _ => (shardFunds.child acc).store (d.feesCollected, d.fundsCreated)
  load := Rd.small 4 >>= fun t =>
    if t = 0xa then shardTip.load >>= fun tip => (shardFunds.child acc).load >>= fun c => pure ⟨tip, c.1, c.2⟩
    else if t = 0xb then shardTip.load >>= fun tip => shardFunds.load >>= fun c => pure ⟨tip, c.1, c.2⟩
    else Prog.fail .invalidTag
  R d e := (Enc.Lit (natBits 4 0xa) ⬝ shardTip.R d.tip ⬝ (shardFunds.child acc).R (d.feesCollected, d.fundsCreated)) e ∨
    (Enc.Lit (natBits 4 0xb) ⬝ shardTip.R d.tip ⬝ shardFunds.R (d.feesCollected, d.fundsCreated)) e
  enc d := Enc.bits (natBits 4 0xa) ++ (shardTip.enc d.tip ++ (shardFunds.child acc).enc (d.feesCollected, d.fundsCreated))

/-! ### Soundness of the parts -/

theorem futureSplitMerge_sound : (futureSplitMerge).Sound :=
  (Tlb.bool_sound.pair (Tlb.u32_sound.pair Tlb.u32_sound)).struct (fun p => ⟨p.1, p.2.1, p.2.2⟩) (fun a => (a.merge, a.utime, a.interval))
    (fun _ => rfl) (fun _ => rfl) (by unfold futureSplitMerge; tlb_more) (fun _ h => h) (fun _ _ => rfl) (fun _ _ => Iff.rfl) (fun _ _ => rfl)

theorem flagBits : ∀ v, v < 2 ^ 8 → v &&& 3 = 0 → natBits 8 v = [(ShardFlags.ofByte v).beforeSplit, (ShardFlags.ofByte v).beforeMerge, (ShardFlags.ofByte v).wantSplit,
    (ShardFlags.ofByte v).wantMerge, (ShardFlags.ofByte v).nxCcUpdated, decide (v &&& 4 ≠ 0), false, false] := by decide +kernel

theorem flagByte : ∀ a b c d e x : Bool, ∃ v, v < 2 ^ 8 ∧ v &&& 3 = 0 ∧ natBits 8 v = [a, b, c, d, e, x, false, false] ∧ ShardFlags.ofByte v = ⟨a, b, c, d, e⟩ := by
  have h : ∀ a b c d e x : Bool, natOfBits [a, b, c, d, e, x, false, false] < 2 ^ 8 ∧ natOfBits [a, b, c, d, e, x, false, false] &&& 3 = 0 ∧
      natBits 8 (natOfBits [a, b, c, d, e, x, false, false]) = [a, b, c, d, e, x, false, false] ∧
      ShardFlags.ofByte (natOfBits [a, b, c, d, e, x, false, false]) = ⟨a, b, c, d, e⟩ := by decide +kernel
  exact fun a b c d e x => ⟨_, h a b c d e x⟩

theorem flagEnc : ∀ a b c d e : Bool, natBits 8 (ShardFlags.byte ⟨a, b, c, d, e⟩) = [a, b, c, d, e, false, false, false] := by decide +kernel

theorem flagLt : ∀ a b c d e : Bool, ShardFlags.byte ⟨a, b, c, d, e⟩ < 2 ^ 8 := by decide +kernel

theorem flags_loads : Loads shardFlags.load (fun f e => ∃ v, f = ShardFlags.ofByte v ∧ (v < 2 ^ 8 ∧ e = Enc.bits (natBits 8 v)) ∧ decide (v &&& 3 = 0) = true) := by
  have h := ((Loads.ofTakes (Rd.takes_u8 (ρ := Cell))).check (fun v => decide (v &&& 3 = 0)) (x := .invalidData) (by decide) (by decide)).map ShardFlags.ofByte
  simp only [Prog.bind_assoc', Prog.pure_bind'] at h
  exact h

theorem shardFlags_sound : shardFlags.Sound where
  st := ⟨fun v _ => by
      obtain ⟨a, b, c, d, e⟩ := v
      have := (Wr.writes_u8 (ρ := Cell) (flagLt a b c d e)).writes
      rw [flagEnc] at this
      exact this, fun v _ => ⟨false, rfl⟩⟩
  ld := flags_loads.iff fun f e => by
    constructor
    · rintro ⟨v, rfl, ⟨h, rfl⟩, h3⟩
      exact ⟨decide (v &&& 4 ≠ 0), by rw [flagBits v h (by simpa using h3)]⟩
    · rintro ⟨x, rfl⟩
      obtain ⟨v, h1, h2, h3, h4⟩ := flagByte f.beforeSplit f.beforeMerge f.wantSplit f.wantMerge f.nxCcUpdated x
      exact ⟨v, h4.symm, ⟨h1, by rw [h3]⟩, by simpa using h2⟩

theorem shardTip_sound : (shardTip).Sound :=
  (Tlb.u32_sound.pair (Tlb.u32_sound.pair (Tlb.u64_sound.pair (Tlb.u64_sound.pair (Tlb.hash_sound.pair (Tlb.hash_sound.pair (shardFlags_sound.pair (Tlb.u32_sound.pair (Tlb.u64_sound.pair (Tlb.u32_sound.pair (Tlb.u32_sound.pair futureSplitMerge_sound.opt))))))))))).struct (fun p => ⟨p.1, p.2.1, p.2.2.1, p.2.2.2.1, p.2.2.2.2.1, p.2.2.2.2.2.1, p.2.2.2.2.2.2.1, p.2.2.2.2.2.2.2.1, p.2.2.2.2.2.2.2.2.1, p.2.2.2.2.2.2.2.2.2.1, p.2.2.2.2.2.2.2.2.2.2.1, p.2.2.2.2.2.2.2.2.2.2.2⟩) (fun a => (a.seqno, a.regMcSeqno, a.startLt, a.endLt, a.rootHash, a.fileHash, a.flags, a.nextCatchainSeqno, a.nextValidatorShard, a.minRefMcSeqno, a.genUtime, a.splitMergeAt))
    (fun _ => rfl) (fun _ => rfl) (by unfold shardTip; tlb_more) (fun _ h => h) (fun _ _ => rfl) (fun _ _ => Iff.rfl) (fun _ _ => rfl)

theorem shardFunds_sound : shardFunds.Sound := Tlb.currency_sound.pair Tlb.currency_sound

/-- Two parts, then a record of them. -/
theorem tip_then {lf : Rd Cell (Currency × Currency)} {Rf : Currency × Currency → Enc Cell → Prop} (hf : Loads lf Rf) :
    Loads (shardTip.load >>= fun tip => lf >>= fun c => pure (⟨tip, c.1, c.2⟩ : ShardDescription))
      (fun d => shardTip.R d.tip ⬝ Rf (d.feesCollected, d.fundsCreated)) :=
  (shardTip_sound.ld.bind (R := fun t d e => d.tip = t ∧ Rf (d.feesCollected, d.fundsCreated) e) (fun t _ _ => (hf.map fun c => (⟨t, c.1, c.2⟩ : ShardDescription)).iff fun d e =>
    ⟨by rintro ⟨c, rfl, h⟩; exact ⟨rfl, h⟩, by rintro ⟨rfl, h⟩; exact ⟨_, rfl, h⟩⟩)).iff fun d e =>
    ⟨by rintro ⟨t, e1, e2, h1, ⟨rfl, h2⟩, rfl⟩; exact ⟨e1, e2, h1, h2, rfl⟩, by rintro ⟨e1, e2, h1, h2, rfl⟩; exact ⟨_, e1, e2, h1, ⟨rfl, h2⟩, rfl⟩⟩

theorem shardDescription_sound (acc : Cell → Bool) : (shardDescription acc).Sound where
  st := ⟨fun d h => (Wr.writes_small 0xa (n := 4) (by decide)).writes.seq ((shardTip_sound.st.writes _ h.1).seq ((shardFunds_sound.child acc).st.writes _ h.2)),
    fun d h => Or.inl ⟨_, _, rfl, ⟨_, _, shardTip_sound.st.canon _ h.1, (shardFunds_sound.child acc).st.canon _ h.2, rfl⟩, rfl⟩⟩
  ld := (Loads.onNat (Rd.takes_small (n := 4) (by decide)) (R := fun t d e => (t = 0xa ∧ (shardTip.R d.tip ⬝ (shardFunds.child acc).R (d.feesCollected, d.fundsCreated)) e) ∨
      (t = 0xb ∧ (shardTip.R d.tip ⬝ shardFunds.R (d.feesCollected, d.fundsCreated)) e)) (fun t _ => by
    by_cases ha : t = 0xa
    · subst ha
      exact (tip_then (shardFunds_sound.child acc).ld).iff fun d e => ⟨fun h => Or.inl ⟨rfl, h⟩, by rintro (⟨_, h⟩ | ⟨h, _⟩); exact h; cases h⟩
    · rw [if_neg ha]
      by_cases hb : t = 0xb
      · rw [if_pos hb]
        exact (tip_then shardFunds_sound.ld).iff fun d e => ⟨fun h => Or.inr ⟨hb, h⟩, by rintro (⟨h, _⟩ | ⟨_, h⟩); exact absurd h ha; exact h⟩
      · rw [if_neg hb]
        exact Loads.nothing (by decide) (by decide) fun d e h => by rcases h with ⟨h, _⟩ | ⟨h, _⟩; exact ha h; exact hb h)).iff fun d e => by
    constructor
    · rintro ⟨t, _, e1, e2, h1, ⟨rfl, h⟩ | ⟨rfl, h⟩, rfl⟩
      · exact Or.inl ⟨e1, e2, h1, h, rfl⟩
      · exact Or.inr ⟨e1, e2, h1, h, rfl⟩
    · rintro (⟨e1, e2, h1, h, rfl⟩ | ⟨e1, e2, h1, h, rfl⟩)
      · exact ⟨_, by decide, e1, e2, h1, Or.inl ⟨rfl, h⟩, rfl⟩
      · exact ⟨_, by decide, e1, e2, h1, Or.inr ⟨rfl, h⟩, rfl⟩

end Verif
