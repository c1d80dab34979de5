import Verif.ShardState
import Verif.AugRootProps
import Verif.BlockProps
/-
Property C71: shard states. A state comes back from the cell it was stored in; the first bit tells the two forms apart; states in the older form are
read with the feature `tycho`, and written in the newer one.
-/
set_option linter.unusedVariables false
set_option linter.unusedSimpArgs false
namespace Verif

/-! ### Specification -/

/-- The values of the fields fit into their types. -/
structure ShardStateUnsplit.Typed (v : ShardStateUnsplit) : Prop where
  globalId : IsI32 v.head.globalId
  workchain : IsI32 v.head.shard.workchain
  shard : ∃ p, v.head.shard.Is v.head.shard.workchain p
  seqno : v.head.seqno < 2 ^ 32
  vertSeqno : v.head.vertSeqno < 2 ^ 32
  genUtime : v.head.genUtime < 2 ^ 32
  genUtimeMs : v.head.genUtimeMs < 2 ^ 16
  genLt : v.head.genLt < 2 ^ 64
  minRef : v.head.minRefMcSeqno < 2 ^ 32
  overload : v.totals.overloadHistory < 2 ^ 64
  underload : v.totals.underloadHistory < 2 ^ 64
  balance : Tlb.currency.ok v.totals.totalBalance
  fees : Tlb.currency.ok v.totals.totalValidatorFees
  masterRef : ∀ r, v.totals.masterRef = some r → r.Typed

/-- The lazily loaded parts of the state are ordinary cells (those made by `Lazy::new` are, C55). -/
def ShardStateUnsplit.Ordinary (tycho : Bool) (v : ShardStateUnsplit) : Prop :=
  v.accounts.exotic = false ∧ (∀ c, v.custom = some c → c.exotic = false) ∧ (tycho = true → v.queue.exotic = false)

/-- The values of the fields fit into their types; there are parameters of the configuration. -/
structure McStateExtra.Typed (v : McStateExtra) : Prop where
  address : v.config.address.length = 32
  params : v.config.params.isSome = true
  listHash : v.validatorInfo.listHashShort < 2 ^ 32
  catchain : v.validatorInfo.catchainSeqno < 2 ^ 32
  maxLt : v.prevBlocks.2.maxEndLt < 2 ^ 64
  lastKey : ∀ r, v.lastKeyBlock = some r → r.Typed
  switch : v.consensusInfo.vsetSwitchRound < 2 ^ 32
  prevSwitch : v.consensusInfo.prevVsetSwitchRound < 2 ^ 32
  round : v.consensusInfo.genesisInfo.startRound < 2 ^ 32
  millis : v.consensusInfo.genesisInfo.genesisMillis < 2 ^ 64
  balance : Tlb.currency.ok v.globalBalance

/-- What `l` loads from the slice that `T` stored. -/
def storedThen {α β : Type} (T : Tlb α) (l : Rd Cell β) (v : α) : Except Err β :=
  match (T.store v).toSl with
  | .error e => .error e
  | .ok sl => (l (Sl.reader sl)).1

/-! ### Lemmas -/

/-- At most so many bits and references. -/
def Enc.Small (e : Enc Cell) (b r : Nat) : Prop := e.1.length ≤ b ∧ e.2.length ≤ r

theorem Enc.Small.append {e1 e2 : Enc Cell} {b1 r1 b2 r2 : Nat} (h1 : e1.Small b1 r1) (h2 : e2.Small b2 r2) : (e1 ++ e2 : Enc Cell).Small (b1 + b2) (r1 + r2) := by
  constructor
  · rw [Enc.fst_append, List.length_append]; exact Nat.add_le_add h1.1 h2.1
  · rw [Enc.snd_append, List.length_append]; exact Nat.add_le_add h1.2 h2.2

theorem Enc.Small.fits {e : Enc Cell} {b r : Nat} (h : e.Small b r) (hb : b ≤ 1023) (hr : r ≤ 4) : e.Fits := ⟨Nat.le_trans h.1 hb, Nat.le_trans h.2 hr⟩

theorem small_nat (n v : Nat) : (Enc.bits (natBits n v) : Enc Cell).Small n 0 := ⟨by show (natBits n v).length ≤ n; rw [natBits_length], Nat.le_refl _⟩

theorem small_bit (b : Bool) : (Tlb.bool.enc b).Small 1 0 := ⟨Nat.le_refl _, Nat.le_refl _⟩

theorem small_dict : ∀ d : Option Cell, (Tlb.dict.enc d).Small 1 1
  | none => ⟨Nat.le_refl _, Nat.zero_le _⟩
  | some _ => ⟨Nat.le_refl _, Nat.le_refl _⟩

theorem small_ref (c : Cell) : (Enc.ref c).Small 0 1 := ⟨Nat.le_refl _, Nat.le_refl _⟩

theorem small_currency {c : Currency} (h : Tlb.currency.ok c) : (Tlb.currency.enc c).Small 125 1 := currency_enc_small h

theorem small_lazyOpt : ∀ o : Option Cell, ((Tlb.lazy false).opt.enc o).Small 1 1
  | none => ⟨Nat.le_refl _, Nat.zero_le _⟩
  | some _ => ⟨Nat.le_refl _, Nat.le_refl _⟩

theorem small_refOpt {o : Option BlockRef} (h : ∀ r, o = some r → r.Typed) : (blockRef.opt.enc o).Small 609 0 := by
  cases o with
  | none => exact ⟨by decide, Nat.le_refl _⟩
  | some r =>
    obtain ⟨h1, h2⟩ := ref_size r (h r rfl)
    constructor
    · show ([true] ++ (blockRef.enc r).1).length ≤ 609
      rw [List.length_append, h1]; decide
    · show ([] ++ (blockRef.enc r).2).length ≤ 0
      rw [h2]; decide

theorem stateHead_small (ms : Bool) (h : StateHead) : ((stateHead ms).enc h).Small 500 0 := by
  refine ⟨?_, ?_⟩
  · cases ms
    all_goals
      unfold stateHead
      simp [msField, Tlb.absent, Enc.bits, Enc.nil, Tlb.i32, Tlb.u16, Tlb.u32, Tlb.u64, Tlb.shardIdent, Tlb.canonical, Enc.fst_append, ShardIdent.enc]
  · rw [ShardStateUnsplit.head_refs]; exact Nat.le_refl _

theorem totals_small {v : ShardStateUnsplit} (h : v.Typed) : (stateTotals.enc v.totals).Small 1000 3 := by
  have h := ((small_nat 64 v.totals.overloadHistory).append ((small_nat 64 v.totals.underloadHistory).append ((small_currency h.balance).append ((small_currency h.fees).append
    ((small_dict v.totals.libraries).append (small_refOpt h.masterRef))))))
  exact ⟨Nat.le_trans h.1 (by decide), h.2⟩

theorem optOk_of {α : Type} {A : Tlb α} {o : Option α} (h : ∀ a, o = some a → A.ok a) : A.opt.ok o := by
  cases o with
  | none => trivial
  | some a => exact h a rfl

theorem totals_ok {v : ShardStateUnsplit} (h : v.Typed) : stateTotals.ok v.totals :=
  ⟨h.overload, h.underload, h.balance, h.fees, Tlb.dict_ok _, optOk_of h.masterRef⟩

theorem head_ok {v : ShardStateUnsplit} (h : v.Typed) (ms : Bool) (hms : ms = false → v.head.genUtimeMs = 0) : (stateHead ms).ok v.head :=
  ⟨h.globalId, ⟨h.workchain, h.shard⟩, h.seqno, h.vertSeqno, h.genUtime, (by
    cases ms with
    | true => exact h.genUtimeMs
    | false => exact hms rfl), h.genLt, h.minRef⟩

theorem body_ok {v : ShardStateUnsplit} (h : v.Typed) {tycho ms : Bool} (ho : v.Ordinary tycho) (hms : ms = false → v.head.genUtimeMs = 0) {acc : Cell → Bool}
    (ha : acc (Tlb.cellOf (stateTotals.enc v.totals)) = true) : (stateBody tycho ms acc).ok v :=
  ⟨(by
    cases tycho with
    | true => exact ho.2.2 rfl
    | false => trivial), ho.1, ⟨totals_ok h, (totals_small h).fits (by decide) (by decide), ha⟩, head_ok h ms hms, optOk_of ho.2.1⟩

theorem body_small (v : ShardStateUnsplit) (tycho ms : Bool) (acc : Cell → Bool) : ((stateBody tycho ms acc).enc v).Small 502 4 :=
  (small_ref v.queue).append ((small_ref v.accounts).append (((small_ref (Tlb.cellOf (stateTotals.enc v.totals))).append ((stateHead_small ms v.head).append (small_bit v.beforeSplit))).append
    (small_lazyOpt v.custom)))

theorem state_fits (v : ShardStateUnsplit) (tycho : Bool) (acc : Cell → Bool) : ((shardStateUnsplit tycho acc).enc v).Fits :=
  ((small_nat 32 _).append (body_small v tycho tycho acc)).fits (by decide) (by decide)

/-- A value loaded from an encoding of it in the grammar of the loader. -/
theorem storedThen_ok {α β : Type} {T : Tlb α} (h : T.Sound) {v : α} (hv : T.ok v) (hf : (T.enc v).Fits) {l : Rd Cell β} {R : β → Enc Cell → Prop} (hl : Loads l R) {w : β}
    (hw : R w (T.enc v)) : storedThen T l v = .ok w := by
  unfold storedThen
  rw [h.stored hv, if_pos hf]
  dsimp only
  obtain ⟨wf, hc⟩ := Tlb.reader_contents (b := (T.enc v).1) (r := (T.enc v).2) hf
  obtain ⟨s', hl, _⟩ := hl.reads w _ hw _ Enc.nil wf (hc.trans (Enc.append_nil _).symm)
  rw [hl]

theorem flags_cases (tycho : Bool) (v : McStateExtra) : v.flags tycho < 2 ^ 16 ∧ McStateExtra.flagsOk tycho (v.flags tycho) = true ∧
    decide (v.flags tycho &&& 1 ≠ 0) = v.blockCreateStats.isSome ∧ (tycho && decide (v.flags tycho &&& 4 ≠ 0)) = decide (tycho = true ∧ v.consensusInfo ≠ .zerostate) := by
  have key : ∀ (t a b : Bool), (a.toNat ||| (if t then b.toNat <<< 2 else 0)) < 2 ^ 16 ∧ McStateExtra.flagsOk t (a.toNat ||| (if t then b.toNat <<< 2 else 0)) = true ∧
    decide ((a.toNat ||| (if t then b.toNat <<< 2 else 0)) &&& 1 ≠ 0) = a ∧ (t && decide ((a.toNat ||| (if t then b.toNat <<< 2 else 0)) &&& 4 ≠ 0)) = (t && b) := by decide
  obtain ⟨k1, k2, k3, k4⟩ := key tycho v.blockCreateStats.isSome (decide (v.consensusInfo ≠ .zerostate))
  refine ⟨k1, k2, k3, ?_⟩
  refine Eq.trans k4 ?_
  cases tycho <;> simp

theorem inner_ok {tycho : Bool} {v : McStateExtra} (h : v.Typed) : (McStateExtra.inner tycho).ok (v.toInner tycho) := by
  obtain ⟨k1, k2, k3, k4⟩ := flags_cases tycho v
  refine ⟨⟨k1, k2⟩, ⟨h.listHash, h.catchain, trivial⟩, ⟨Tlb.dict_ok _, trivial, h.maxLt⟩, trivial, optOk_of h.lastKey, ⟨k3.symm, fun a _ => Tlb.dict_ok a⟩, ?_, ?_⟩
  · show (if tycho = true ∧ v.consensusInfo ≠ .zerostate then some v.consensusInfo else none).isSome = (tycho && decide (v.flags tycho &&& 4 ≠ 0))
    rw [k4]
    by_cases hc : tycho = true ∧ v.consensusInfo ≠ .zerostate
    · rw [if_pos hc, decide_eq_true hc]; rfl
    · rw [if_neg hc, decide_eq_false hc]; rfl
  · intro a ha
    have ha : (if tycho = true ∧ v.consensusInfo ≠ .zerostate then some v.consensusInfo else none) = some a := ha
    by_cases hc : tycho = true ∧ v.consensusInfo ≠ .zerostate
    · rw [if_pos hc] at ha; cases ha
      exact ⟨h.switch, h.prevSwitch, ⟨h.round, h.millis⟩, trivial⟩
    · rw [if_neg hc] at ha; cases ha

theorem inner_small {tycho : Bool} {v : McStateExtra} (h : v.Typed) : ((McStateExtra.inner tycho).enc (v.toInner tycho)).Small 1000 2 := by
  have hs : (((Tlb.dict.tagged 8 0x17).cond (decide (v.flags tycho &&& 1 ≠ 0))).enc v.blockCreateStats).Small 9 1 := by
    cases v.blockCreateStats with
    | none => exact ⟨Nat.zero_le _, Nat.zero_le _⟩
    | some d => exact (small_nat 8 0x17).append (small_dict d)
  have hc : ∀ o : Option ConsensusInfo, ((consensusInfo.cond (tycho && decide (v.flags tycho &&& 4 ≠ 0))).enc o).Small 161 0 := by
    intro o
    cases o with
    | none => exact ⟨Nat.zero_le _, Nat.zero_le _⟩
    | some d => exact (small_nat 32 _).append ((small_nat 32 _).append (((small_nat 32 _).append (small_nat 64 _)).append (small_bit _)))
  have h := (small_nat 16 (v.flags tycho)).append (((small_nat 32 v.validatorInfo.listHashShort).append ((small_nat 32 v.validatorInfo.catchainSeqno).append
    (small_bit v.validatorInfo.nxCcUpdated))).append (((small_dict v.prevBlocks.1).append ((small_bit v.prevBlocks.2.hasKeyBlock).append (small_nat 64 v.prevBlocks.2.maxEndLt))).append
    ((small_bit v.afterKeyBlock).append ((small_refOpt h.lastKey).append (hs.append (hc (v.toInner tycho).2.2.2.2.2.2))))))
  exact ⟨Nat.le_trans h.1 (by decide), h.2⟩

theorem extra_ok {tycho : Bool} {acc : Cell → Bool} {v : McStateExtra} (h : v.Typed) (hc : tycho = false → v.consensusInfo = .zerostate)
    (ha : acc (Tlb.cellOf ((McStateExtra.inner tycho).enc (v.toInner tycho))) = true) : (mcStateExtra tycho acc).ok v := by
  refine ⟨⟨Tlb.dict_ok _, ⟨h.address, h.params⟩, ⟨inner_ok h, (inner_small h).fits (by decide) (by decide), ha⟩, h.balance⟩, ?_⟩
  show (⟨v.shards, v.config, v.validatorInfo, (if tycho = true ∧ v.consensusInfo ≠ .zerostate then some v.consensusInfo else none).getD .zerostate, v.prevBlocks, v.afterKeyBlock,
    v.lastKeyBlock, v.blockCreateStats, v.globalBalance⟩ : McStateExtra) = v
  have e : (if tycho = true ∧ v.consensusInfo ≠ .zerostate then some v.consensusInfo else none).getD .zerostate = v.consensusInfo := by
    by_cases hz : v.consensusInfo = .zerostate
    · rw [if_neg (fun h => h.2 hz)]; exact hz.symm
    · cases tycho with
      | true => rw [if_pos ⟨rfl, hz⟩]; rfl
      | false => exact absurd (hc rfl) hz
  rw [e]

theorem extra_fits {tycho : Bool} {acc : Cell → Bool} {v : McStateExtra} (h : v.Typed) : ((mcStateExtra tycho acc).enc v).Fits := by
  have hb : (blockchainConfig.enc v.config).Small 256 1 := by
    obtain ⟨c, hc⟩ : ∃ c, v.config.params = some c := Option.isSome_iff_exists.1 h.params
    have h1 : (Tlb.hash.enc v.config.address).Small 256 0 := ⟨by
      show (bytesToBits v.config.address).length ≤ 256
      rw [bytesToBits_length, h.address], Nat.le_refl _⟩
    have h2 : (Tlb.mandatory.enc v.config.params).Small 0 1 := by rw [hc]; exact small_ref c
    exact h1.append h2
  exact ((small_nat 16 0xcc26).append ((small_dict v.shards).append (hb.append ((small_ref (Tlb.cellOf ((McStateExtra.inner tycho).enc (v.toInner tycho)))).append
    (small_currency h.balance))))).fits (by decide) (by decide)

theorem built_refused {acc : Cell → Bool} {w : Wr Cell Unit} {e : Enc Cell} (hw : Writes w e) (hf : e.Fits) (ha : acc (Tlb.cellOf e) = false)
    (k : Cell → Wr Cell Unit) (b : CellB Cell) : (Tlb.built acc w >>= k) b = (.error .depthOverflow, b) := by
  have h : w.toSl >>= buildSl acc = .error .depthOverflow := by
    rw [Wr.toSl_ok hw hf]
    show buildSl acc _ = _
    unfold buildSl
    exact if_neg (by show ¬ acc (Tlb.cellOf e) = true; rw [ha]; decide)
  exact Prog.bind_err (by unfold Tlb.built; rw [h])

theorem lib_load_run {acc : Cell → Bool} {lib c : Cell} {s s1 s2 s3 : CSlice Cell} (e1 : Rd.small 2 s = (.ok 0, s1)) (e2 : Rd.ref s1 = (.ok lib, s2))
    (e3 : rootInPlace acc 256 s2 = (.ok c, s3)) : LibDescr.load acc s = (.ok ⟨lib, some c⟩, s3) :=
  (Prog.bind_ok e1).trans ((Prog.bind_ok e2).trans (Prog.bind_ok e3))

/-! ### Properties -/

/-- **C71, layouts.** Each of these types has a grammar of encodings: storing a value writes an encoding of it, loading accepts exactly the encodings, and
returns what was encoded (`Tlb.Sound`). -/
theorem C71_codecs (tycho : Bool) (acc : Cell → Bool) : (shardState tycho acc).Sound ∧ (shardStateUnsplit tycho acc).Sound ∧ shardStateSplit.Sound ∧
    (mcStateExtra tycho acc).Sound ∧ validatorInfo.Sound ∧ consensusInfo.Sound ∧ genesisInfo.Sound ∧ keyMaxLt.Sound ∧ keyBlockRef.Sound ∧
    creatorStats.Sound ∧ blockCounters.Sound ∧ processedUptoInfo.Sound ∧ processedUptoPartition.Sound ∧ externalsProcessedUpto.Sound ∧
    externalsRange.Sound ∧ internalsProcessedUpto.Sound ∧ internalsRange.Sound ∧ shardRange.Sound :=
  ⟨shardState_sound tycho acc, shardStateUnsplit_sound tycho acc, shardStateSplit_sound, mcStateExtra_sound tycho acc, validatorInfo_sound, consensusInfo_sound,
    genesisInfo_sound, keyMaxLt_sound, keyBlockRef_sound, creatorStats_sound, blockCounters_sound, processedUptoInfo_sound, processedUptoPartition_sound,
    externalsProcessedUpto_sound, externalsRange_sound, internalsProcessedUpto_sound, internalsRange_sound, shardRange_sound⟩

/-- **C71, states.** A state of either form comes back from the cell it was stored in. It always fits; storing fails only if the context does not build the
cell with the totals. -/
theorem C71_reload (tycho : Bool) (acc : Cell → Bool) :
    (∀ v : ShardStateUnsplit, v.Typed → v.Ordinary tycho → (tycho = false → v.head.genUtimeMs = 0) → acc (Tlb.cellOf (stateTotals.enc v.totals)) = true →
      reloaded (shardState tycho acc) (.unsplit v) = .ok (.unsplit v)) ∧
    (∀ v : ShardStateSplit, v.left.exotic = false → v.right.exotic = false → reloaded (shardState tycho acc) (.split v) = .ok (.split v)) := by
  constructor
  · intro v h ho hms ha
    exact reloaded_ok (shardState_sound tycho acc) (v := .unsplit v) (body_ok h ho hms ha) (state_fits v tycho acc)
  · intro v h1 h2
    exact reloaded_ok (shardState_sound tycho acc) (v := .split v) ⟨h1, h2⟩ (((small_nat 32 _).append ((small_ref v.left).append (small_ref v.right))).fits (by decide) (by decide))

/-- **C71, the older form.** With `tycho`, a state written without it is read as the same state (and its milliseconds are zero); stored again it is in the
newer form, and is still the same state. Without `tycho`, no state of the newer form is read. -/
theorem C71_upgrade {acc : Cell → Bool} {v : ShardStateUnsplit} (h : v.Typed) (ho : v.Ordinary true) (ha : acc (Tlb.cellOf (stateTotals.enc v.totals)) = true) :
    (v.head.genUtimeMs = 0 → storedThen (shardState false acc) (shardState true acc).load (.unsplit v) = .ok (.unsplit v) ∧
      reloaded (shardState true acc) (.unsplit v) = .ok (.unsplit v)) ∧
    storedThen (shardState true acc) (shardState false acc).load (.unsplit v) = .error .invalidTag := by
  have ho' : v.Ordinary false := ⟨ho.1, ho.2.1, fun h => by cases h⟩
  refine ⟨fun hz => ⟨?_, (C71_reload true acc).1 v h ho (fun h => by cases h) ha⟩, ?_⟩
  · refine storedThen_ok (shardState_sound false acc) (v := .unsplit v) (body_ok h ho' (fun _ => hz) ha) (state_fits v false acc) (shardState_sound true acc).ld (w := .unsplit v) ?_
    exact .inl ⟨_, _, rfl, (stateBody_sound true false acc).st.canon v (body_ok h ho (fun _ => hz) ha), rfl⟩
  · have hok : (shardState true acc).ok (.unsplit v) := body_ok h ho (fun h => by cases h) ha
    have hf : ((shardState true acc).enc (.unsplit v)).Fits := state_fits v true acc
    unfold storedThen
    rw [(shardState_sound true acc).stored hok, if_pos hf]
    dsimp only
    obtain ⟨wf, hc⟩ := Tlb.reader_contents (b := ((shardState true acc).enc (.unsplit v)).1) (r := ((shardState true acc).enc (.unsplit v)).2) hf
    have hc : (Sl.reader ⟨((shardState true acc).enc (.unsplit v)).1, ((shardState true acc).enc (.unsplit v)).2⟩).contents =
      Enc.bits (natBits 32 0x9023aeee) ++ (stateBody true true acc).enc v := hc
    generalize Sl.reader ⟨((shardState true acc).enc (.unsplit v)).1, ((shardState true acc).enc (.unsplit v)).2⟩ = s at *
    have hb : ∃ t, s.bits = true :: t := ⟨_, congrArg Prod.fst hc⟩
    obtain ⟨t, hb⟩ := hb
    have e1 : firstBit s = (.ok true, s) := by unfold firstBit; rw [hb]
    obtain ⟨s', e2, _⟩ := (Rd.takes_u32 (ρ := Cell)).reads_nat (v := 0x9023aeee) (by decide) s _ wf hc
    have e3 : (shardStateUnsplit false acc).load s = (.error .invalidTag, s') := (Prog.bind_ok e2).trans rfl
    have e4 : (shardState false acc).load s = (.error .invalidTag, s') := (Prog.bind_ok e1).trans (Prog.bind_err e3)
    rw [e4]

/-- **C71, data of the masterchain.** They come back from the cell they were stored in. They always fit. -/
theorem C71_extra {tycho : Bool} {acc : Cell → Bool} {v : McStateExtra} (h : v.Typed) (hc : tycho = false → v.consensusInfo = .zerostate)
    (ha : acc (Tlb.cellOf ((McStateExtra.inner tycho).enc (v.toInner tycho))) = true) : reloaded (mcStateExtra tycho acc) v = .ok v :=
  reloaded_ok (mcStateExtra_sound tycho acc) (extra_ok h hc ha) (extra_fits h)

/-- **C71, setting the data of the masterchain.** What was set is loaded, nothing else changes. -/
theorem C71_custom {tycho : Bool} {acc : Cell → Bool} (v : ShardStateUnsplit) {o : Option McStateExtra}
    (ho : ∀ x, o = some x → x.Typed ∧ (tycho = false → x.consensusInfo = .zerostate)) {v' : ShardStateUnsplit} (hr : v.setCustom tycho acc o = .ok v') :
    ∃ c, v' = { v with custom := c } ∧ (∀ d, c = some d → d.exotic = false) ∧ v'.loadCustom tycho acc = .ok o := by
  cases o with
  | none => cases hr; exact ⟨none, rfl, (fun d h => by cases h), rfl⟩
  | some x =>
    obtain ⟨ht, hz⟩ := ho x rfl
    cases hn : Tlb.lazyNew acc (mcStateExtra tycho acc) x with
    | error e =>
      have : v.setCustom tycho acc (some x) = .error e := by unfold ShardStateUnsplit.setCustom; dsimp only; rw [hn]; rfl
      rw [this] at hr; cases hr
    | ok c =>
      have : v.setCustom tycho acc (some x) = .ok { v with custom := some c } := by unfold ShardStateUnsplit.setCustom; dsimp only; rw [hn]; rfl
      rw [this] at hr; cases hr
      have ha : acc (Tlb.cellOf ((McStateExtra.inner tycho).enc (x.toInner tycho))) = true := by
        cases ha : acc (Tlb.cellOf ((McStateExtra.inner tycho).enc (x.toInner tycho))) with
        | true => rfl
        | false =>
          have e1 : (mcStateExtra tycho acc).store x .new = (.error .depthOverflow, .new) :=
            built_refused ((McStateExtra.inner_sound tycho).st.writes _ (inner_ok ht)) ((inner_small ht).fits (by decide) (by decide)) ha _ _
          have e2 : ((mcStateExtra tycho acc).store x).toSl = .error .depthOverflow := by unfold Wr.toSl; rw [e1]
          unfold Tlb.lazyNew at hn
          rw [e2] at hn
          cases hn
      obtain ⟨r1, r2⟩ := (mcStateExtra_sound tycho acc).lazy_round (extra_ok ht hz ha) hn
      refine ⟨some c, rfl, (fun d h => by cases h; rw [r1]; rfl), ?_⟩
      show (Tlb.lazyLoad (mcStateExtra tycho acc) c).map some = _
      rw [r2]
      rfl

/-- **C71, restarts.** Overriding is a strict order: nothing overrides itself, and what overrides something that overrides a third overrides the third. -/
theorem C71_overrides (a b c : GenesisInfo) : a.overrides a = false ∧ (a.overrides b = true → b.overrides a = false) ∧
    (a.overrides b = true → b.overrides c = true → a.overrides c = true) := by
  unfold GenesisInfo.overrides
  simp only [Bool.and_eq_true, Bool.and_eq_false_iff, decide_eq_true_iff, decide_eq_false_iff_not]
  omega

/-- **C71, libraries.** A library with its publishers (a set of accounts, not empty) comes back from the cell it was stored in; it always fits. Without a
publisher it is not stored. -/
theorem C71_library {acc : Cell → Bool} (lib : Cell) :
    (∀ c m, RepresentsC acc 256 (some c) m → (∀ k v, k.length = 256 → m k = some v → v = ⟨[], []⟩) →
      ∃ sl s', (LibDescr.store ⟨lib, some c⟩).toSl = .ok sl ∧ LibDescr.load acc (Sl.reader sl) = (.ok ⟨lib, some c⟩, s') ∧ s'.contents = Enc.nil) ∧
    (LibDescr.store ⟨lib, none⟩).toSl = .error .invalidData := by
  constructor
  · intro c m h hm
    have hsize : c.bits.length ≤ 300 ∧ c.refs.length ≤ 2 := by
      obtain ⟨t, h1, h2, h3, rfl, h4⟩ := h
      have hb : bitsForLen 256 ≤ 9 := by decide
      cases t with
      | leaf l e v =>
        have hl : l.length = 256 := h1.1
        have he : e = labelBits l 256 := h2
        have hv : v = ⟨[], []⟩ := hm l v hl (by rw [h4 l hl]; exact if_pos rfl)
        have := labelBits_small (Nat.le_of_eq hl) hb
        subst he hv
        constructor
        · show ((labelBits l 256) ++ []).length ≤ 300
          rw [List.append_nil]; omega
        · exact Nat.zero_le _
      | fork l e x a b =>
        have hl : l.length < 256 := h1.1
        have he : e = labelBits l 256 := h2.1
        have hx : x = .empty := h2.2.1
        have := labelBits_small (Nat.le_of_lt hl) hb
        subst he hx
        constructor
        · show ((labelBits l 256) ++ []).length ≤ 300
          rw [List.append_nil]; omega
        · exact Nat.le_refl 2
    have hf : ((Enc.bits (natBits 2 0) ++ (Enc.ref lib ++ (c.bits, c.refs))) : Enc Cell).Fits :=
      ((small_nat 2 0).append ((small_ref lib).append (show Enc.Small (c.bits, c.refs) 300 2 from hsize))).fits (by decide) (by decide)
    obtain ⟨wf, hc⟩ := Tlb.reader_contents (b := c.bits) (r := c.refs) ⟨Nat.le_trans hsize.1 (by decide), Nat.le_trans hsize.2 (by decide)⟩
    have hw : Writes (LibDescr.store ⟨lib, some c⟩) (Enc.bits (natBits 2 0) ++ (Enc.ref lib ++ (c.bits, c.refs))) := by
      have hs := (Wr.writes_slice wf).writes
      rw [hc] at hs
      exact (Wr.writes_small 0 (by decide)).writes.seq ((Wr.writes_ref lib).writes.seq hs)
    obtain ⟨wf2, hc2⟩ := Tlb.reader_contents (b := ((Enc.bits (natBits 2 0) ++ (Enc.ref lib ++ (c.bits, c.refs)) : Enc Cell)).1)
      (r := ((Enc.bits (natBits 2 0) ++ (Enc.ref lib ++ (c.bits, c.refs)) : Enc Cell)).2) hf
    obtain ⟨s1, e1, w1, c1, _⟩ := (Rd.takes_small (ρ := Cell) (by decide : 2 ≤ 8)).reads_nat (v := 0) (by decide) _ _ wf2 hc2
    obtain ⟨s2, e2, w2, c2, _⟩ := Rd.reads_ref lib s1 _ w1 c1
    obtain ⟨s3, e3, w3, c3⟩ := (C68_root_in_place (by decide) h w2).1 c2
    refine ⟨_, s3, Wr.toSl_ok hw hf, ?_, c3⟩
    exact lib_load_run e1 e2 e3
  · obtain ⟨b1, e1, w1, c1, _⟩ := ((Wr.writes_small (ρ := Cell) 0 (by decide : 2 ≤ 8)).writes .new CellB.wf_new).1 ⟨by decide, by decide⟩
    obtain ⟨b2, e2, _⟩ := ((Wr.writes_ref lib).writes b1 w1).1 (by
      rw [c1]
      exact ((show Enc.Small ((CellB.new : CellB Cell).contents) 0 0 from ⟨Nat.le_refl _, Nat.le_refl _⟩).append (small_nat 2 0)).append (small_ref lib) |>.fits (by decide) (by decide))
    have e3 : LibDescr.store ⟨lib, none⟩ .new = (.error .invalidData, b2) := (Prog.bind_ok e1).trans (Prog.bind_ok e2)
    unfold Wr.toSl
    rw [e3]

/-! ### Concrete cases and violations -/

/-- A state of the masterchain, with `ms` milliseconds. -/
def exState (ms : Nat) (custom : Option Cell) : ShardStateUnsplit :=
  ⟨⟨-239, ⟨-1, 0x8000000000000000#64⟩, 7, 0, 1700000000, ms, 1000, 5⟩, .mk false [true] [], true, .mk false [false] [], ⟨1, 2, ⟨1000, none⟩, ⟨3, none⟩, none,
    some ⟨900, 6, List.replicate 32 1, List.replicate 32 2⟩⟩, custom⟩

theorem exState_typed (ms : Nat) (custom : Option Cell) (h : ms < 2 ^ 16) : (exState ms custom).Typed where
  globalId := by show IsI32 (-239); unfold IsI32; decide
  workchain := by show IsI32 (-1); unfold IsI32; decide
  shard := ⟨[], rfl, by show ShardIdent.Denotes 0x8000000000000000#64 []; unfold ShardIdent.Denotes; decide⟩
  seqno := (by decide : 7 < 2 ^ 32)
  vertSeqno := (by decide : 0 < 2 ^ 32)
  genUtime := (by decide : 1700000000 < 2 ^ 32)
  genUtimeMs := h
  genLt := (by decide : 1000 < 2 ^ 64)
  minRef := (by decide : 5 < 2 ^ 32)
  overload := (by decide : 1 < 2 ^ 64)
  underload := (by decide : 2 < 2 ^ 64)
  balance := show 1000 ≤ VarKind.tokens.max by decide +kernel
  fees := show 3 ≤ VarKind.tokens.max by decide +kernel
  masterRef := fun r h => by
    have h : (some ⟨900, 6, List.replicate 32 1, List.replicate 32 2⟩ : Option BlockRef) = some r := h
    injection h with h
    rw [← h]
    exact ⟨by decide, by decide, rfl, rfl⟩

example : (exState 5 (some (.mk false [] []))).Ordinary true := ⟨rfl, fun c h => by cases h; rfl, fun _ => rfl⟩

/-- What is asked of a state loaded again. -/
def stateSeen (s : ShardState) : Option (Int × Nat × Nat × Bool × Nat) := match s with
  | .unsplit v => some (v.head.globalId, v.head.seqno, v.head.genUtimeMs, v.beforeSplit, v.totals.totalBalance.tokens)
  | .split _ => none

example : (reloaded (shardState true fun _ => true) (.unsplit (exState 5 none))).toOption.map stateSeen = some (some (-239, 7, 5, true, 1000)) := by decide +kernel
example : (reloaded (shardState true fun _ => true) (.split ⟨.mk false [] [], .mk false [] []⟩)).toOption.map stateSeen = some none := by decide +kernel
example : (storedThen (shardState false fun _ => true) (shardState true fun _ => true).load (.unsplit (exState 0 none))).toOption.map stateSeen =
    some (some (-239, 7, 0, true, 1000)) := by decide +kernel
example : (storedThen (shardState true fun _ => true) (shardState false fun _ => true).load (.unsplit (exState 5 none))).toOption.map stateSeen = none := by decide +kernel

/-- Data of the masterchain with the statistics `stats`. -/
def exExtra (stats : Option (Option Cell)) (info : ConsensusInfo) : McStateExtra :=
  ⟨none, ⟨List.replicate 32 0, some (.mk false [] [])⟩, ⟨1, 2, true⟩, info, (none, ⟨true, 100⟩), false, none, stats, ⟨5, none⟩⟩

/-- What is asked of the data loaded again. -/
def extraSeen (v : McStateExtra) : Nat × ConsensusInfo × Option Bool × Nat :=
  (v.validatorInfo.catchainSeqno, v.consensusInfo, v.blockCreateStats.map Option.isSome, v.globalBalance.tokens)

example : (reloaded (mcStateExtra true fun _ => true) (exExtra (some none) ⟨3, 4, ⟨5, 6⟩, true⟩)).toOption.map extraSeen = some (2, ⟨3, 4, ⟨5, 6⟩, true⟩, some false, 5) := by
  decide +kernel
example : (reloaded (mcStateExtra false fun _ => true) (exExtra none .zerostate)).toOption.map extraSeen = some (2, .zerostate, none, 5) := by decide +kernel

/-- The cells with these flags; the rest is as in `exExtra none`. -/
def exFlags (flags : Nat) : Cell :=
  .mk false (natBits 16 0xcc26 ++ [false] ++ List.replicate 256 false ++ (Tlb.currency.enc ⟨5, none⟩).1) [.mk false [] [],
    .mk false (natBits 16 flags ++ natBits 32 1 ++ natBits 32 2 ++ [true] ++ [false] ++ [true] ++ natBits 64 100 ++ [false, false]) []]

/-- What is stored for the data loaded from a cell. -/
def resaved (tycho : Bool) (c : Cell) : Option (Bits × List Bits) :=
  match Tlb.lazyLoad (mcStateExtra tycho fun _ => true) c with
  | .error _ => none
  | .ok v => ((mcStateExtra tycho fun _ => true).store v).toSl.toOption.map fun s => (s.bits, s.refs.map Cell.bits)

/-- **C71, violation.** The second of the flags is accepted when loading, but not kept: the data of the masterchain loaded from such a cell are stored in another one
(with another hash). The other reserved flags are refused. -/
theorem C71_flag_lost : ∀ tycho : Bool,
    resaved tycho (exFlags 0) = some ((exFlags 0).bits, (exFlags 0).refs.map Cell.bits) ∧
    resaved tycho (exFlags 2) = some ((exFlags 0).bits, (exFlags 0).refs.map Cell.bits) ∧
    (exFlags 2).refs.map Cell.bits ≠ (exFlags 0).refs.map Cell.bits ∧ resaved tycho (exFlags 8) = none ∧ resaved false (exFlags 4) = none := by decide +kernel

/-- Two infos of which neither overrides the other. -/
theorem C71_overrides_not_total : (⟨1, 5⟩ : GenesisInfo).overrides ⟨0, 5⟩ = false ∧ (⟨0, 5⟩ : GenesisInfo).overrides ⟨1, 5⟩ = false ∧
    (⟨1, 6⟩ : GenesisInfo).overrides ⟨1, 5⟩ = true := by decide

end Verif
