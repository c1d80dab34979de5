import Verif.ConfigParams
import Verif.FeesProps
/-
C67: configuration parameters in cells.
-/
set_option linter.unusedVariables false
set_option linter.unusedSimpArgs false
namespace Verif

/-! ### Lemmas -/

/-- A loader that succeeded found a word of the grammar. -/
theorem Loads.found {α : Type} {l : Rd Cell α} {R : α → Enc Cell → Prop} (h : Loads l R) {s s' : CSlice Cell} {v : α} (hs : s.WF)
    (hl : l s = (.ok v, s')) : ∃ e, R v e := by
  obtain ⟨e, he, _⟩ := h.exact s s' v hs hl
  exact ⟨e, he⟩

/-- The value that was stored and loaded again. -/
def reloaded {α : Type} (T : Tlb α) (v : α) : Except Err α :=
  match (T.store v).toSl with
  | .error e => .error e
  | .ok sl => (T.load (Sl.reader sl)).1

/-- The value loaded from these bits. -/
def loadedFrom {α : Type} (T : Tlb α) (l : Bits) : Except Err α := (T.load (Sl.reader ⟨l, []⟩)).1

/-! ### Properties -/

/-- **C67, codecs.** For each of these parameters: what is stored is read back as the same value, nothing but the documented encodings is accepted, and
loading any cell neither panics nor leaves the cell. -/
theorem C67_codecs : burningConfig.Sound ∧ mintOnce.Sound ∧ votingSetup.Sound ∧ proposalSetup.Sound ∧ workchainDescription.Sound ∧ workchainFormat.Sound ∧
    blockRewards.Sound ∧ electionTimings.Sound ∧ validatorCounts.Sound ∧ stakeParams.Sound ∧ storagePrices.Sound ∧ gasPrices.Sound ∧ blockLimits.Sound ∧
    fwdPrices.Sound ∧ catchainConfig.Sound ∧ consensusConfig.Sound ∧ sizeLimits.Sound :=
  ⟨burningConfig_sound, mintOnce_sound, votingSetup_sound, proposalSetup_sound, workchainDescription_sound, workchainFormat_sound, blockRewards_sound,
    electionTimings_sound, validatorCounts_sound, stakeParams_sound, storagePrices_sound, gasPrices_sound, blockLimits_sound, fwdPrices_sound,
    catchainConfig_sound, consensusConfig_sound, sizeLimits_sound⟩

/-- **C67, a loaded burning config works.** Burning with a configuration that was loaded from a cell never fails, and gives the rounded-down share, which is
not more than there is. -/
theorem C67_burning_loaded {s s' : CSlice Cell} (hs : s.WF) {c : BurningConfig} (h : burningConfig.load s = (.ok c, s')) {t : Nat} (ht : t < 2 ^ 128) :
    c.denom ≠ 0 ∧ c.burned t = .ok (t * c.num / c.denom) ∧ t * c.num / c.denom ≤ t := by
  obtain ⟨e, ⟨e1, e2, _, ⟨e3, e4, _, ⟨e5, e6, h1, ⟨h2, h3⟩, _⟩, _⟩, _⟩, hv⟩ := burningConfig_sound.ld.found hs h
  have hn : c.num < 2 ^ 32 := h1.1
  have hd : c.denom < 2 ^ 32 := h2.1
  exact ⟨h3, (C65_burn hn hd h3 ht).1 (of_decide_eq_true hv)⟩

/-- **C67, loaded block limits are ordered.** -/
theorem C67_limits_loaded {s s' : CSlice Cell} (hs : s.WF) {l : BlockLimits} (h : blockLimits.load s = (.ok l, s')) :
    ∀ x, x = l.bytes ∨ x = l.gas ∨ x = l.ltDelta → x.underload ≤ x.softLimit ∧ x.softLimit ≤ x.hardLimit := by
  obtain ⟨e, e1, e2, _, ⟨e3, e4, ⟨_, v1⟩, ⟨e5, e6, ⟨_, v2⟩, ⟨_, v3⟩, _⟩, _⟩, _⟩ := blockLimits_sound.ld.found hs h
  have key : ∀ x : ParamLimits, x.isValid = true → x.underload ≤ x.softLimit ∧ x.softLimit ≤ x.hardLimit := by
    intro x hx
    unfold ParamLimits.isValid at hx
    simpa using hx
  rintro x (rfl | rfl | rfl)
  · exact key _ v1
  · exact key _ v2
  · exact key _ v3

/-- **C67, refused values.** Invalid burning configs, block limits, address formats and workchain descriptions are not stored, and the builder is left as it was. -/
theorem C67_store_refuses (b : CellB Cell) :
    (∀ c : BurningConfig, c.denom < c.num → burningConfig.store c b = (.error .invalidData, b)) ∧
    (∀ l : ParamLimits, l.softLimit < l.underload ∨ l.hardLimit < l.softLimit → paramLimits.store l b = (.error .invalidData, b)) ∧
    (∀ f : FormatExt, f.minLen < 64 ∨ f.maxLen < f.minLen ∨ 1023 < f.maxLen ∨ 1023 < f.step → formatExt.store f b = (.error .invalidData, b)) ∧
    (∀ d : WorkchainDescription, d.maxSplit < d.minSplit ∨ 60 < d.maxSplit → workchainDescription.store d b = (.error .invalidData, b)) := by
  have key : ∀ {α : Type} (A : Tlb α) (c : α → Bool) (v : α), c v = false → (A.validated c).store v b = (.error .invalidData, b) := by
    intro α A c v hv
    show (Prog.check (c v) .invalidData >>= fun _ => A.store v) b = _
    rw [hv]; rfl
  refine ⟨fun c h => key _ _ _ ?_, fun l h => key _ _ _ ?_, fun f h => key _ _ _ ?_, fun d h => ?_⟩
  · exact decide_eq_false (by omega)
  · unfold ParamLimits.isValid
    rcases h with h | h
    · rw [decide_eq_false (by omega)]; rfl
    · rw [decide_eq_false (p := l.softLimit ≤ l.hardLimit) (by omega), Bool.and_false]
  · cases hv : f.isValid with
    | false => rfl
    | true =>
      unfold FormatExt.isValid at hv
      simp only [Bool.and_eq_true, decide_eq_true_eq] at hv
      omega
  · have hv : d.isValid = false := by
      cases hv : d.isValid with
      | false => rfl
      | true =>
        unfold WorkchainDescription.isValid at hv
        simp only [Bool.and_eq_true, decide_eq_true_eq] at hv
        omega
    show (Prog.check d.isValid .invalidData >>= fun _ => workchainRaw.store d.raw) b = _
    rw [hv]; rfl

/-- **C67, accepted values.** All other values of these types are stored: the ends of each range are in it. -/
theorem C67_store_accepts :
    (∀ c : BurningConfig, burningRaw.ok c → c.num ≤ c.denom → Writes (burningConfig.store c) (burningRaw.enc c)) ∧
    (∀ l : ParamLimits, limitsRaw.ok l → l.underload ≤ l.softLimit → l.softLimit ≤ l.hardLimit → Writes (paramLimits.store l) (limitsRaw.enc l)) ∧
    (∀ f : FormatExt, formatRaw.ok f → 64 ≤ f.minLen → f.minLen ≤ f.maxLen → f.maxLen ≤ 1023 → f.step ≤ 1023 → Writes (formatExt.store f) (formatRaw.enc f)) ∧
    (∀ d : WorkchainDescription, workchainRaw.ok d.raw → d.minSplit ≤ d.maxSplit → d.maxSplit ≤ 60 →
      (∀ f, d.format = .extended f → 64 ≤ f.minLen ∧ f.minLen ≤ f.maxLen ∧ f.maxLen ≤ 1023 ∧ f.step ≤ 1023) →
      Writes (workchainDescription.store d) (workchainRaw.enc d.raw)) := by
  refine ⟨fun c h1 h2 => burningConfig_sound.st.writes c ⟨h1, decide_eq_true h2⟩, fun l h1 h2 h3 => paramLimits_sound.st.writes l ⟨h1, ?_⟩,
    fun f h1 h2 h3 h4 h5 => formatExt_sound.st.writes f ⟨h1, ?_⟩, fun d h1 h2 h3 h4 => workchainDescription_sound.st.writes d ⟨h1, ?_⟩⟩
  · unfold ParamLimits.isValid; simp [h2, h3]
  · unfold FormatExt.isValid; simp [h2, h3, h4, h5]
  · unfold WorkchainDescription.isValid
    have hv : d.format.isValid = true := by
      cases hf : d.format with
      | basic x => rfl
      | extended f =>
        obtain ⟨a, b, c, e⟩ := h4 f hf
        show f.isValid = true
        unfold FormatExt.isValid; simp [a, b, c, e]
    simp [h2, h3, hv]

/-- **C67, gas prices.** A slice is accepted exactly if it begins with any number of flat prefixes followed by one of the two forms; the last prefix counts,
and the special limit of the short form is zero. -/
theorem C67_gas_prices {s : CSlice Cell} (hs : s.WF) (p : GasPrices) :
    (gasPrices.load s).1 = .ok p ↔ ∃ k e rest, GasEnc k 0 0 p e ∧ s.contents = e ++ rest := by
  constructor
  · intro h
    obtain ⟨e, ⟨k, hk⟩, h1, _⟩ := gasPrices_sound.ld.exact s (gasPrices.load s).2 p hs (Prod.ext h rfl)
    exact ⟨k, e, _, hk, h1⟩
  · rintro ⟨k, e, rest, hk, hc⟩
    obtain ⟨s', h, _⟩ := gasPrices_sound.ld.reads p e ⟨k, hk⟩ s rest hs hc
    rw [h]

/-- **C67, old catchain configs** (tag `0xc1`, no flags) are read with both flags off, and old consensus configs (tag `0xd6`) with new ids off and any number of
candidates below 2^32. -/
theorem C67_old_forms (c : CatchainRest) (hc : catchainRest.ok c) (n : Nat) (hn : n < 2 ^ 32) (h0 : n ≠ 0) (r : ConsensusRest) (hr : consensusRest.ok r) :
    Reads catchainConfig.load (Enc.bits (natBits 8 0xc1) ++ catchainRest.enc c) ⟨false, false, c.mcLifetime, c.shardLifetime, c.validatorsLifetime, c.validatorsNum⟩ ∧
    Reads consensusConfig.load (Enc.bits (natBits 8 0xd6) ++ (Enc.bits (natBits 32 n) ++ consensusRest.enc r)) ⟨false, n, r⟩ :=
  ⟨catchainConfig_sound.ld.reads _ _ (Or.inl ⟨rfl, rfl, _, _, rfl, catchainRest_sound.st.canon _ hc, rfl⟩),
   consensusConfig_sound.ld.reads _ _ (Or.inl ⟨rfl, _, _, rfl, ⟨_, _, Tlb.nz32_sound.st.canon _ ⟨hn, h0⟩, consensusRest_sound.st.canon _ hr, rfl⟩, rfl⟩)⟩

/-! ### Violations -/

/-- The rest of a consensus config. -/
def exConsensus : ConsensusRest := ⟨2000, 16000, 3, 8, 4, 2097152, 2097152⟩

/-- **C67 fails for large numbers of candidates.** Storing succeeds, but 300 candidates come back as 44, and with 256 what was stored cannot be loaded. -/
theorem C67_consensus_truncated :
    reloaded consensusConfig ⟨true, 300, exConsensus⟩ = .ok ⟨true, 44, exConsensus⟩ ∧
    (consensusConfig.store ⟨true, 256, exConsensus⟩).toSl.isOk = true ∧ reloaded consensusConfig ⟨true, 256, exConsensus⟩ = .error .invalidData := by
  decide +kernel

/-- A basic workchain with the given split depths. -/
def exWorkchain (lo hi : Nat) : WorkchainDescription :=
  ⟨100, 0, lo, hi, true, true, List.replicate 32 1, List.replicate 32 2, 0, .basic ⟨-1, 0⟩⟩

/-- The ends of the ranges of `C67_store_accepts`: a workchain with one depth of splits, the largest one. -/
example : (exWorkchain 60 60).minSplit = (exWorkchain 60 60).maxSplit ∧ (workchainDescription.store (exWorkchain 60 60)).toSl.isOk = true := by decide +kernel

/-- The bits of a workchain description. -/
def exWorkchainBits (lo hi : Nat) : Bits := (workchainRaw.enc (exWorkchain lo hi).raw).1

/-- **C67 fails for workchains with bad split depths.** They are not stored, but they are loaded: what was loaded cannot be stored again. -/
theorem C67_workchain_unchecked :
    loadedFrom workchainDescription (exWorkchainBits 9 4) = .ok (exWorkchain 9 4) ∧ loadedFrom workchainDescription (exWorkchainBits 0 200) = .ok (exWorkchain 0 200) ∧
    (workchainDescription.store (exWorkchain 9 4)).toSl.isOk = false ∧ (workchainDescription.store (exWorkchain 0 200)).toSl.isOk = false := by
  decide +kernel

/-- Gas prices, short form. -/
def exGasBits (l : List (Nat × Nat)) : Bits :=
  (l.flatMap fun p => natBits 8 0xd1 ++ (natBits 64 p.1 ++ natBits 64 p.2)) ++ (natBits 8 0xdd ++ (gasBase.enc ⟨1000, 2, 3, 4, 5, 6⟩).1)

/-- **C67, gas prices have many encodings**: of repeated flat prefixes only the last one counts. -/
theorem C67_gas_repeated :
    loadedFrom gasPrices (exGasBits []) = .ok ⟨1000, 2, 0, 3, 4, 5, 6, 0, 0⟩ ∧
    loadedFrom gasPrices (exGasBits [(7, 8)]) = .ok ⟨1000, 2, 0, 3, 4, 5, 6, 7, 8⟩ ∧
    loadedFrom gasPrices (exGasBits [(1, 2), (3, 4), (7, 8)]) = .ok ⟨1000, 2, 0, 3, 4, 5, 6, 7, 8⟩ := by decide +kernel

/-! ### The hypotheses are met -/

example : reloaded consensusConfig ⟨true, 3, exConsensus⟩ = .ok ⟨true, 3, exConsensus⟩ := by decide +kernel
example : reloaded catchainConfig ⟨true, false, 250, 250, 1000, 7⟩ = .ok ⟨true, false, 250, 250, 1000, 7⟩ := by decide +kernel
example : reloaded workchainDescription (exWorkchain 2 4) = .ok (exWorkchain 2 4) := by decide +kernel
example : reloaded burningConfig ⟨some (List.replicate 32 7), 1, 2⟩ = .ok ⟨some (List.replicate 32 7), 1, 2⟩ := by decide +kernel
example : reloaded blockLimits ⟨⟨1, 2, 3⟩, ⟨4, 5, 6⟩, ⟨7, 8, 9⟩⟩ = .ok ⟨⟨1, 2, 3⟩, ⟨4, 5, 6⟩, ⟨7, 8, 9⟩⟩ := by decide +kernel
example : reloaded gasPrices ⟨1, 2, 3, 4, 5, 6, 7, 8, 9⟩ = .ok ⟨1, 2, 3, 4, 5, 6, 7, 8, 9⟩ := by decide +kernel
example : reloaded workchainFormat (.extended ⟨64, 128, 8, 1⟩) = .ok (.extended ⟨64, 128, 8, 1⟩) := by decide +kernel
example : consensusConfig.ok ⟨true, 3, exConsensus⟩ := ⟨⟨by decide, by decide⟩, (by decide : 2000 < 2 ^ 32), (by decide : 16000 < 2 ^ 32), (by decide : 3 < 2 ^ 32),
  (by decide : 8 < 2 ^ 32), (by decide : 4 < 2 ^ 32), (by decide : 2097152 < 2 ^ 32), (by decide : 2097152 < 2 ^ 32)⟩

end Verif
