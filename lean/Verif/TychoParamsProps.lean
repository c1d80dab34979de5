import Verif.TychoParams
/-
C87: the structs of the feature `tycho` with derived codecs.
-/
set_option linter.unusedVariables false
set_option linter.unusedSimpArgs false
namespace Verif.Derive

/-! ## Specification -/

/-- All structs of `Verif.TychoParams`. -/
def tychoStructs : List Struct :=
  [msgsExecutionParams, workUnitsPrepare, workUnitsExecute, workUnitsFinalize, workUnitsParams, collationConfig, consensusConfig,
   outMsgQueueUpdates, shardRange, internalsRange, internalsProcessedUpto, externalsRange, externalsProcessedUpto,
   processedUptoPartition, processedUptoInfo]

/-- The documented scheme of `ConsensusConfig` (`params.rs:894-910`). -/
def consensusDoc : Struct := tagged 0xd8 8 [fU16, fU32, fU8, fU16, fU16, fU32, fU8, fU8, fU8, fU16, fU16]

/-- The documented scheme of `MsgsExecutionParams` (`params.rs:691-702`). -/
def msgsDoc : Struct := tagged 0x00 8 [fU32, fU16, fU16, fU16, fU16, fU32, fU32, fDict]

/-- The documented schemes of `CollationConfig` (`params.rs:641-662`). -/
def collationDocA6 : Struct := tagged 0xa6 8 [fBool, fU32, fU8, fU64, fStruct msgsDoc, fStruct workUnitsParams]
def collationDocA7 : Struct := tagged 0xa7 8 [fBool, fU32, fU32, fU8, fU64, fStruct msgsDoc, fStruct workUnitsParams]

/-- Numbers with their widths, one after the other. -/
def numbers : List (Nat × Nat) → Bits
  | [] => []
  | (w, v) :: r => natBits w v ++ numbers r

/-- Every number fits its width. -/
def InWidth (l : List (Nat × Nat)) : Prop := ∀ q ∈ l, q.2 < 2 ^ q.1

/-! ## Lemmas -/

theorem InWidth.head {q : Nat × Nat} {l : List (Nat × Nat)} (h : InWidth (q :: l)) : q.2 < 2 ^ q.1 := h q (List.mem_cons_self ..)
theorem InWidth.tail {q : Nat × Nat} {l : List (Nat × Nat)} (h : InWidth (q :: l)) : InWidth l := fun x hx => h x (List.mem_cons_of_mem _ hx)


theorem msgs_good : msgsExecutionParams.Good where
  accepted := by decide +kernel
  tags := by
    intro t ht
    simp only [msgsExecutionParams, Tags.list, List.mem_cons, List.not_mem_nil, or_false] at ht
    rcases ht with rfl | rfl <;> decide +kernel
  distinct := by decide +kernel
  fields := all_cons fU32_sound <| all_cons fU16_sound <| all_cons fU16_sound <| all_cons fU16_sound <| all_cons fU16_sound <|
    all_cons fU32_sound <| all_cons fU32_sound <| all_cons fDict_sound <| all_cons Tlb.u32_sound all_nil
  unit := by intro h; cases h

theorem prepare_good : workUnitsPrepare.Good := tagged_good (by decide +kernel) rfl <|
  all_cons fU32_sound <| all_cons fU16_sound <| all_cons fU16_sound <| all_cons fU16_sound <| all_cons fU16_sound <| all_cons fU16_sound <|
  all_cons fU16_sound all_nil
theorem execute_good : workUnitsExecute.Good := tagged_good (by decide +kernel) rfl <|
  all_cons fU32_sound <| all_cons fU16_sound <| all_cons fU16_sound <| all_cons fU32_sound <| all_cons fU16_sound <| all_cons fU16_sound <|
  all_cons fU16_sound <| all_cons fU16_sound all_nil
theorem finalize_good : workUnitsFinalize.Good := tagged_good (by decide +kernel) rfl <|
  all_cons fU16_sound <| all_cons fU16_sound <| all_cons fU16_sound <| all_cons fU16_sound <| all_cons fU32_sound <| all_cons fU16_sound <|
  all_cons fU16_sound <| all_cons fU32_sound <| all_cons fU16_sound <| all_cons fU16_sound <| all_cons fU16_sound <| all_cons fU16_sound <|
  all_cons fU16_sound <| all_cons fU16_sound all_nil
theorem workUnits_good : workUnitsParams.Good := tagged_good (by decide +kernel) rfl <|
  all_cons (struct_sound prepare_good) <| all_cons (struct_sound execute_good) <| all_cons (struct_sound finalize_good) all_nil
theorem collation_good : collationConfig.Good := tagged_good (by decide +kernel) rfl <|
  all_cons fBool_sound <| all_cons fU32_sound <| all_cons fU32_sound <| all_cons fU8_sound <| all_cons fU64_sound <|
  all_cons (struct_sound msgs_good) <| all_cons (struct_sound workUnits_good) all_nil
theorem consensus_good : consensusConfig.Good := tagged_good (by decide +kernel) rfl <|
  all_cons fU16_sound <| all_cons fU32_sound <| all_cons fU16_sound <| all_cons fU16_sound <| all_cons fU16_sound <| all_cons fU32_sound <|
  all_cons fU16_sound <| all_cons fU16_sound <| all_cons fU8_sound <| all_cons fU16_sound <| all_cons fU16_sound all_nil
theorem queueUpdates_good : outMsgQueueUpdates.Good := tagged_good (by decide +kernel) rfl <| all_cons fHash_sound <| all_cons fU32_sound all_nil
theorem shardRange_good : shardRange.Good := tagged_good (by decide +kernel) rfl <| all_cons fU64_sound <| all_cons fU64_sound all_nil
theorem internalsRange_good : internalsRange.Good := tagged_good (by decide +kernel) rfl <|
  all_cons fU32_sound <| all_cons fU32_sound <| all_cons fDict_sound all_nil
theorem internals_good : internalsProcessedUpto.Good := tagged_good (by decide +kernel) rfl <| all_cons fDict_sound <| all_cons fDict_sound all_nil
theorem externalsRange_good : externalsRange.Good := tagged_good (by decide +kernel) rfl <|
  all_cons fAnchor_sound <| all_cons fAnchor_sound <| all_cons fU64_sound <| all_cons fU32_sound <| all_cons fU32_sound all_nil
theorem externals_good : externalsProcessedUpto.Good := tagged_good (by decide +kernel) rfl <| all_cons fAnchor_sound <| all_cons fDict_sound all_nil
theorem partition_good : processedUptoPartition.Good := tagged_good (by decide +kernel) rfl <|
  all_cons (struct_sound externals_good) <| all_cons (struct_sound internals_good) all_nil
theorem processedUpto_good : processedUptoInfo.Good := tagged_good (by decide +kernel) rfl <| all_cons fDict_sound <| all_cons fMaybeLazy_sound all_nil

theorem tycho_good : ∀ S ∈ tychoStructs, S.Good := by
  intro S hS
  simp only [tychoStructs, List.mem_cons, List.not_mem_nil, or_false] at hS
  rcases hS with rfl | rfl | rfl | rfl | rfl | rfl | rfl | rfl | rfl | rfl | rfl | rfl | rfl | rfl | rfl
  · exact msgs_good
  · exact prepare_good
  · exact execute_good
  · exact finalize_good
  · exact workUnits_good
  · exact collation_good
  · exact consensus_good
  · exact queueUpdates_good
  · exact shardRange_good
  · exact internalsRange_good
  · exact internals_good
  · exact externalsRange_good
  · exact externals_good
  · exact partition_good
  · exact processedUpto_good

theorem msgs_atMost : Tlb.AtMost msgsExecutionParams.codec 201 1 :=
  multiple_atMost (ts := [⟨0x00, 8⟩, ⟨0x01, 8⟩]) rfl (w := 8) (by decide) (n := 193) (r := 1)
    (.cons fU32_atMost <| .cons fU16_atMost <| .cons fU16_atMost <| .cons fU16_atMost <| .cons fU16_atMost <| .cons fU32_atMost <|
      .cons fU32_atMost <| .cons fDict_atMost <| .cons (f := fU32.sinceTag 1) (n := 32) (r := 0) atMost_nat .nil)
theorem prepare_atMost : Tlb.AtMost workUnitsPrepare.codec 136 0 := tagged_atMost (bits := 8) (n := 128)
  (.cons fU32_atMost <| .cons fU16_atMost <| .cons fU16_atMost <| .cons fU16_atMost <| .cons fU16_atMost <| .cons fU16_atMost <| .cons fU16_atMost .nil)
theorem execute_atMost : Tlb.AtMost workUnitsExecute.codec 168 0 := tagged_atMost (bits := 8) (n := 160)
  (.cons fU32_atMost <| .cons fU16_atMost <| .cons fU16_atMost <| .cons fU32_atMost <| .cons fU16_atMost <| .cons fU16_atMost <| .cons fU16_atMost <|
    .cons fU16_atMost .nil)
theorem finalize_atMost : Tlb.AtMost workUnitsFinalize.codec 264 0 := tagged_atMost (bits := 8) (n := 256)
  (.cons fU16_atMost <| .cons fU16_atMost <| .cons fU16_atMost <| .cons fU16_atMost <| .cons fU32_atMost <| .cons fU16_atMost <| .cons fU16_atMost <|
    .cons fU32_atMost <| .cons fU16_atMost <| .cons fU16_atMost <| .cons fU16_atMost <| .cons fU16_atMost <| .cons fU16_atMost <| .cons fU16_atMost .nil)
theorem workUnits_atMost : Tlb.AtMost workUnitsParams.codec 576 0 := tagged_atMost (bits := 8) (n := 568)
  (.cons (f := fStruct workUnitsPrepare) prepare_atMost <| .cons (f := fStruct workUnitsExecute) execute_atMost <|
    .cons (f := fStruct workUnitsFinalize) finalize_atMost .nil)
theorem collation_atMost : Tlb.AtMost collationConfig.codec 922 1 := tagged_atMost (bits := 8) (n := 914)
  (.cons fBool_atMost <| .cons fU32_atMost <| .cons fU32_atMost <| .cons fU8_atMost <| .cons fU64_atMost <|
    .cons (f := fStruct msgsExecutionParams) msgs_atMost <| .cons (f := fStruct workUnitsParams) workUnits_atMost .nil)
theorem consensus_atMost : Tlb.AtMost consensusConfig.codec 208 0 := tagged_atMost (bits := 8) (n := 200)
  (.cons fU16_atMost <| .cons fU32_atMost <| .cons fU16_atMost <| .cons fU16_atMost <| .cons fU16_atMost <| .cons fU32_atMost <|
    .cons fU16_atMost <| .cons fU16_atMost <| .cons fU8_atMost <| .cons fU16_atMost <| .cons fU16_atMost .nil)
theorem externals_atMost : Tlb.AtMost externalsProcessedUpto.codec 105 1 := tagged_atMost (bits := 8) (n := 97)
  (.cons fAnchor_atMost <| .cons fDict_atMost .nil)
theorem internals_atMost : Tlb.AtMost internalsProcessedUpto.codec 10 2 := tagged_atMost (bits := 8) (n := 2)
  (.cons fDict_atMost <| .cons fDict_atMost .nil)

theorem fits_of_atMost {S : Struct} (hg : S.Good) {n r : Nat} (h : Tlb.AtMost S.codec n r) (hn : n ≤ 1023) (hr : r ≤ 4) {v : Vals S.fields}
    (hv : S.codec.ok v) : (S.store v).toSl = .ok ⟨(S.codec.enc v).1, (S.codec.enc v).2⟩ := by
  have := (C86_sound_partial hg).stored hv
  have hb := h v hv
  rw [if_pos ⟨by omega, by omega⟩] at this
  exact this

/-- The encodings that the grammar allows have at least `n` bits. -/
def Tlb.AtLeast {α : Type} (T : Tlb α) (n : Nat) : Prop := ∀ v e, T.R v e → n ≤ e.1.length

theorem atLeast_nat {n : Nat} {ok : Nat → Prop} {st : Nat → Wr Cell Unit} {ld : Rd Cell Nat} :
    Tlb.AtLeast (Tlb.canonical ok st ld (fun v => Enc.bits (natBits n v))) n := fun v e h => by
  rw [h.2]; show n ≤ (natBits n v).length; rw [natBits_length]

theorem atLeast_bool : Tlb.AtLeast fBool.codec 1 := fun v e h => by rw [h.2]; exact Nat.le_refl _
theorem atLeast_dict : Tlb.AtLeast fDict.codec 1 := fun v e h => by
  match v, h with
  | none, h =>
    have h : e = Enc.bits [false] := h
    rw [h]; exact Nat.le_refl _
  | some c, ⟨e1, e2, h1, h2, he⟩ =>
    have h1 : e1 = Enc.bits [true] := h1
    rw [he, h1]
    show 1 ≤ ([true] ++ e2.1).length
    rw [List.length_append]
    exact Nat.le_add_right _ _

/-- Lower bounds for the fields that are in every version. -/
inductive Lower : List Field → Nat → Prop
  | nil : Lower [] 0
  | cons {f : Field} {fs : List Field} {n m : Nat} : f.since = none → Tlb.AtLeast f.codec n → Lower fs m → Lower (f :: fs) (n + m)
  | skip {f : Field} {fs : List Field} {m : Nat} : Lower fs m → Lower (f :: fs) m

theorem lower_fieldsR {fs : List Field} {n : Nat} (h : Lower fs n) (k : Nat) (v : Vals fs) (e : Enc Cell) (hR : fieldsR k fs v e) :
    n ≤ e.1.length := by
  induction h generalizing e with
  | nil => exact Nat.zero_le _
  | @cons f fs n m hs hf _ ih =>
    obtain ⟨x, v⟩ := v
    rw [fieldsR_in (by unfold Field.from; rw [hs]; exact Nat.zero_le _)] at hR
    obtain ⟨e1, e2, h1, h2, rfl⟩ := hR
    have := ih v e2 h2
    have := hf x e1 h1
    show n + m ≤ (e1.1 ++ e2.1).length
    rw [List.length_append]; omega
  | @skip f fs m _ ih =>
    obtain ⟨x, v⟩ := v
    by_cases hk : f.from ≤ k
    · rw [fieldsR_in hk] at hR
      obtain ⟨e1, e2, h1, h2, rfl⟩ := hR
      have := ih v e2 h2
      show m ≤ (e1.1 ++ e2.1).length
      rw [List.length_append]; omega
    · rw [fieldsR_out hk] at hR
      exact ih v e hR.2

theorem tagged_atLeast {value bits : Nat} {fs : List Field} {n : Nat} (h : Lower fs n) : Tlb.AtLeast (tagged value bits fs).codec (bits + n) := by
  intro v e hR
  obtain ⟨_, e1, e2, h1, h2, rfl⟩ := hR
  have := lower_fieldsR h 0 v e2 h2
  unfold Enc.Lit at h1
  subst h1
  show _ ≤ (natBits bits value ++ e2.1).length
  rw [List.length_append, natBits_length]; omega

theorem msgs_atLeast : Tlb.AtLeast msgsExecutionParams.codec 169 := by
  intro v e hR
  obtain ⟨_, k, t, hk, e1, e2, h1, h2, rfl⟩ := hR
  have := lower_fieldsR (n := 161) (fs := msgsExecutionParams.fields)
    (.cons rfl (n := 32) atLeast_nat <| .cons rfl (n := 16) atLeast_nat <| .cons rfl (n := 16) atLeast_nat <| .cons rfl (n := 16) atLeast_nat <|
      .cons rfl (n := 16) atLeast_nat <| .cons rfl (n := 32) atLeast_nat <| .cons rfl (n := 32) atLeast_nat <| .cons rfl atLeast_dict <| .skip .nil)
    k v e2 h2
  have ht : t.bits = 8 := by
    have := List.mem_of_getElem? hk
    simp only [List.mem_cons, List.not_mem_nil, or_false] at this
    rcases this with rfl | rfl <;> rfl
  unfold Enc.Lit at h1
  subst h1
  show _ ≤ (natBits t.bits t.value ++ e2.1).length
  rw [List.length_append, natBits_length]; omega

theorem prepare_atLeast : Tlb.AtLeast workUnitsPrepare.codec 136 := tagged_atLeast (bits := 8) (n := 128)
  (.cons rfl (n := 32) atLeast_nat <| .cons rfl (n := 16) atLeast_nat <| .cons rfl (n := 16) atLeast_nat <| .cons rfl (n := 16) atLeast_nat <|
    .cons rfl (n := 16) atLeast_nat <| .cons rfl (n := 16) atLeast_nat <| .cons rfl (n := 16) atLeast_nat .nil)
theorem execute_atLeast : Tlb.AtLeast workUnitsExecute.codec 168 := tagged_atLeast (bits := 8) (n := 160)
  (.cons rfl (n := 32) atLeast_nat <| .cons rfl (n := 16) atLeast_nat <| .cons rfl (n := 16) atLeast_nat <| .cons rfl (n := 32) atLeast_nat <|
    .cons rfl (n := 16) atLeast_nat <| .cons rfl (n := 16) atLeast_nat <| .cons rfl (n := 16) atLeast_nat <| .cons rfl (n := 16) atLeast_nat .nil)
theorem finalize_atLeast : Tlb.AtLeast workUnitsFinalize.codec 264 := tagged_atLeast (bits := 8) (n := 256)
  (.cons rfl (n := 16) atLeast_nat <| .cons rfl (n := 16) atLeast_nat <| .cons rfl (n := 16) atLeast_nat <| .cons rfl (n := 16) atLeast_nat <|
    .cons rfl (n := 32) atLeast_nat <| .cons rfl (n := 16) atLeast_nat <| .cons rfl (n := 16) atLeast_nat <| .cons rfl (n := 32) atLeast_nat <|
    .cons rfl (n := 16) atLeast_nat <| .cons rfl (n := 16) atLeast_nat <| .cons rfl (n := 16) atLeast_nat <| .cons rfl (n := 16) atLeast_nat <|
    .cons rfl (n := 16) atLeast_nat <| .cons rfl (n := 16) atLeast_nat .nil)
theorem workUnits_atLeast : Tlb.AtLeast workUnitsParams.codec 576 := tagged_atLeast (bits := 8) (n := 568)
  (.cons (f := fStruct workUnitsPrepare) rfl prepare_atLeast <| .cons (f := fStruct workUnitsExecute) rfl execute_atLeast <|
    .cons (f := fStruct workUnitsFinalize) rfl finalize_atLeast .nil)
theorem collation_atLeast : Tlb.AtLeast collationConfig.codec 890 := tagged_atLeast (bits := 8) (n := 882)
  (.cons rfl atLeast_bool <| .cons rfl (n := 32) atLeast_nat <| .cons rfl (n := 32) atLeast_nat <| .cons rfl (n := 8) atLeast_nat <|
    .cons rfl (n := 64) atLeast_nat <| .cons (f := fStruct msgsExecutionParams) rfl msgs_atLeast <|
    .cons (f := fStruct workUnitsParams) rfl workUnits_atLeast .nil)
theorem consensus_atLeast : Tlb.AtLeast consensusConfig.codec 208 := tagged_atLeast (bits := 8) (n := 200)
  (.cons rfl (n := 16) atLeast_nat <| .cons rfl (n := 32) atLeast_nat <| .cons rfl (n := 16) atLeast_nat <| .cons rfl (n := 16) atLeast_nat <|
    .cons rfl (n := 16) atLeast_nat <| .cons rfl (n := 32) atLeast_nat <| .cons rfl (n := 16) atLeast_nat <| .cons rfl (n := 16) atLeast_nat <|
    .cons rfl (n := 8) atLeast_nat <| .cons rfl (n := 16) atLeast_nat <| .cons rfl (n := 16) atLeast_nat .nil)

theorem short_refused {S : Struct} (hg : S.Good) {n : Nat} (h : Tlb.AtLeast S.codec n) {s : CSlice Cell} (hs : s.WF)
    (hl : s.contents.1.length < n) (w : Vals S.fields) (s' : CSlice Cell) : S.load s ≠ (.ok w, s') := by
  intro hx
  obtain ⟨e, hR, he, _⟩ := (load_loads hg).exact s s' w hs hx
  have := h w e hR
  rw [he] at hl
  have hl : (e.1 ++ s'.contents.1).length < n := hl
  rw [List.length_append] at hl
  omega

theorem msgsDoc_atMost : Tlb.AtMost msgsDoc.codec 169 1 := tagged_atMost (bits := 8) (n := 161)
  (.cons fU32_atMost <| .cons fU16_atMost <| .cons fU16_atMost <| .cons fU16_atMost <| .cons fU16_atMost <| .cons fU32_atMost <|
    .cons fU32_atMost <| .cons fDict_atMost .nil)
theorem collationDocA6_atMost : Tlb.AtMost collationDocA6.codec 858 1 := tagged_atMost (bits := 8) (n := 850)
  (.cons fBool_atMost <| .cons fU32_atMost <| .cons fU8_atMost <| .cons fU64_atMost <|
    .cons (f := fStruct msgsDoc) msgsDoc_atMost <| .cons (f := fStruct workUnitsParams) workUnits_atMost .nil)
theorem consensusDoc_atMost : Tlb.AtMost consensusDoc.codec 184 0 := tagged_atMost (bits := 8) (n := 176)
  (.cons fU16_atMost <| .cons fU32_atMost <| .cons fU8_atMost <| .cons fU16_atMost <| .cons fU16_atMost <| .cons fU32_atMost <|
    .cons fU8_atMost <| .cons fU8_atMost <| .cons fU8_atMost <| .cons fU16_atMost <| .cons fU16_atMost .nil)

/-! ## Properties -/

/-- The codecs of all these structs agree with their schemes. -/
theorem C87_sound : ∀ S ∈ tychoStructs, S.codec.Sound := fun S hS => C86_sound_partial (tycho_good S hS)

/-- Every value of every one of these structs fits into a cell: storing never fails. -/
theorem C87_fits : ∀ S ∈ tychoStructs, ∀ v, S.codec.ok v → (S.store v).toSl = .ok ⟨(S.codec.enc v).1, (S.codec.enc v).2⟩ := by
  intro S hS
  have hg := tycho_good S hS
  simp only [tychoStructs, List.mem_cons, List.not_mem_nil, or_false] at hS
  rcases hS with rfl | rfl | rfl | rfl | rfl | rfl | rfl | rfl | rfl | rfl | rfl | rfl | rfl | rfl | rfl
  · exact fun v hv => fits_of_atMost hg msgs_atMost (by decide) (by decide) hv
  · exact fun v hv => fits_of_atMost hg prepare_atMost (by decide) (by decide) hv
  · exact fun v hv => fits_of_atMost hg execute_atMost (by decide) (by decide) hv
  · exact fun v hv => fits_of_atMost hg finalize_atMost (by decide) (by decide) hv
  · exact fun v hv => fits_of_atMost hg workUnits_atMost (by decide) (by decide) hv
  · exact fun v hv => fits_of_atMost hg collation_atMost (by decide) (by decide) hv
  · exact fun v hv => fits_of_atMost hg consensus_atMost (by decide) (by decide) hv
  · exact fun v hv => fits_of_atMost hg (tagged_atMost (.cons (f := fHash) fHash_atMost <| .cons fU32_atMost .nil)) (by decide) (by decide) hv
  · exact fun v hv => fits_of_atMost hg (tagged_atMost (.cons fU64_atMost <| .cons fU64_atMost .nil)) (by decide) (by decide) hv
  · exact fun v hv => fits_of_atMost hg (tagged_atMost (.cons fU32_atMost <| .cons fU32_atMost <| .cons fDict_atMost .nil)) (by decide) (by decide) hv
  · exact fun v hv => fits_of_atMost hg internals_atMost (by decide) (by decide) hv
  · exact fun v hv => fits_of_atMost hg (tagged_atMost (.cons fAnchor_atMost <| .cons fAnchor_atMost <| .cons fU64_atMost <| .cons fU32_atMost <|
      .cons fU32_atMost .nil)) (by decide) (by decide) hv
  · exact fun v hv => fits_of_atMost hg externals_atMost (by decide) (by decide) hv
  · exact fun v hv => fits_of_atMost hg (tagged_atMost (.cons (f := fStruct externalsProcessedUpto) externals_atMost <|
      .cons (f := fStruct internalsProcessedUpto) internals_atMost .nil)) (by decide) (by decide) hv
  · exact fun v hv => fits_of_atMost hg (tagged_atMost (.cons fDict_atMost <| .cons fMaybeLazy_atMost .nil)) (by decide) (by decide) hv

/-- The layout of `ConsensusConfig`, spelled out. -/
theorem C87_consensus_layout {a b c d e f g h i j k : Nat} (ha : a < 2 ^ 16) (hb : b < 2 ^ 32) (hc : c < 2 ^ 16) (hd : d < 2 ^ 16) (he : e < 2 ^ 16)
    (hf : f < 2 ^ 32) (hg : g < 2 ^ 16) (hh : h < 2 ^ 16) (hi : i < 2 ^ 8) (hj : j < 2 ^ 16) (hk : k < 2 ^ 16) :
    (consensusConfig.store (a, b, c, d, e, f, g, h, i, j, k, ())).toSl = .ok ⟨natBits 8 0xd8 ++ (natBits 16 a ++ (natBits 32 b ++ (natBits 16 c ++
      (natBits 16 d ++ (natBits 16 e ++ (natBits 32 f ++ (natBits 16 g ++ (natBits 16 h ++ (natBits 8 i ++ (natBits 16 j ++
      (natBits 16 k ++ []))))))))))), []⟩ :=
  C87_fits consensusConfig (by simp [tychoStructs]) (a, b, c, d, e, f, g, h, i, j, k, ())
    ⟨fun c h => (by cases h), fun _ => ha, fun _ => hb, fun _ => hc, fun _ => hd, fun _ => he, fun _ => hf, fun _ => hg, fun _ => hh, fun _ => hi,
      fun _ => hj, fun _ => hk, trivial⟩

/-- The layout of `WorkUnitsParams`: the documented schemes (`params.rs:746-754`, `768-780`, `802-815`, `839-858`). -/
theorem C87_work_units_layout {a0 a1 a2 a3 a4 a5 a6 b0 b1 b2 b3 b4 b5 b6 b7 c0 c1 c2 c3 c4 c5 c6 c7 c8 c9 c10 c11 c12 c13 : Nat}
    (hp : InWidth [(32, a0), (16, a1), (16, a2), (16, a3), (16, a4), (16, a5), (16, a6)])
    (he : InWidth [(32, b0), (16, b1), (16, b2), (32, b3), (16, b4), (16, b5), (16, b6), (16, b7)])
    (hf : InWidth [(16, c0), (16, c1), (16, c2), (16, c3), (32, c4), (16, c5), (16, c6), (32, c7), (16, c8), (16, c9), (16, c10), (16, c11), (16, c12), (16, c13)]) :
    (workUnitsParams.store ((a0, a1, a2, a3, a4, a5, a6, ()), (b0, b1, b2, b3, b4, b5, b6, b7, ()),
      (c0, c1, c2, c3, c4, c5, c6, c7, c8, c9, c10, c11, c12, c13, ()), ())).toSl =
    .ok ⟨natBits 8 0x00 ++ ((natBits 8 0x00 ++ numbers [(32, a0), (16, a1), (16, a2), (16, a3), (16, a4), (16, a5), (16, a6)]) ++
      ((natBits 8 0x00 ++ numbers [(32, b0), (16, b1), (16, b2), (32, b3), (16, b4), (16, b5), (16, b6), (16, b7)]) ++
      ((natBits 8 0x00 ++ numbers [(16, c0), (16, c1), (16, c2), (16, c3), (32, c4), (16, c5), (16, c6), (32, c7), (16, c8), (16, c9), (16, c10), (16, c11), (16, c12), (16, c13)]) ++ []))), []⟩ :=
  C87_fits workUnitsParams (by simp [tychoStructs]) _
    ⟨fun c h => (by cases h), fun _ => ⟨fun c h => (by cases h), fun _ => hp.head, fun _ => hp.tail.head, fun _ => hp.tail.tail.head, fun _ => hp.tail.tail.tail.head, fun _ => hp.tail.tail.tail.tail.head, fun _ => hp.tail.tail.tail.tail.tail.head, fun _ => hp.tail.tail.tail.tail.tail.tail.head, trivial⟩,
      fun _ => ⟨fun c h => (by cases h), fun _ => he.head, fun _ => he.tail.head, fun _ => he.tail.tail.head, fun _ => he.tail.tail.tail.head, fun _ => he.tail.tail.tail.tail.head, fun _ => he.tail.tail.tail.tail.tail.head, fun _ => he.tail.tail.tail.tail.tail.tail.head, fun _ => he.tail.tail.tail.tail.tail.tail.tail.head, trivial⟩,
      fun _ => ⟨fun c h => (by cases h), fun _ => hf.head, fun _ => hf.tail.head, fun _ => hf.tail.tail.head, fun _ => hf.tail.tail.tail.head, fun _ => hf.tail.tail.tail.tail.head, fun _ => hf.tail.tail.tail.tail.tail.head, fun _ => hf.tail.tail.tail.tail.tail.tail.head, fun _ => hf.tail.tail.tail.tail.tail.tail.tail.head, fun _ => hf.tail.tail.tail.tail.tail.tail.tail.tail.head, fun _ => hf.tail.tail.tail.tail.tail.tail.tail.tail.tail.head, fun _ => hf.tail.tail.tail.tail.tail.tail.tail.tail.tail.tail.head, fun _ => hf.tail.tail.tail.tail.tail.tail.tail.tail.tail.tail.tail.head, fun _ => hf.tail.tail.tail.tail.tail.tail.tail.tail.tail.tail.tail.tail.head, fun _ => hf.tail.tail.tail.tail.tail.tail.tail.tail.tail.tail.tail.tail.tail.head, trivial⟩, trivial⟩

/-- The layouts of the processed positions and of the queue updates: the documented schemes (`models/shard/mod.rs:397-401`, `422-426`, `445-450`,
`469-478`, `507-511`, `530-535`, `557-561`, `models/block/mod.rs:708-713`). -/
theorem C87_positions_layout {a b c d e f g : Nat} {x y : Option Cell} {h : List Byte} :
    (InWidth [(64, a), (64, b)] → (shardRange.store (a, b, ())).toSl = .ok ⟨natBits 8 0x00 ++ numbers [(64, a), (64, b)], []⟩) ∧
    (InWidth [(32, a), (32, b)] → (internalsRange.store (a, b, x, ())).toSl = .ok ⟨natBits 8 0x00 ++ (natBits 32 a ++ (natBits 32 b ++ ([x.isSome] ++ []))), x.toList⟩) ∧
    (internalsProcessedUpto.store (x, y, ())).toSl = .ok ⟨natBits 8 0x00 ++ ([x.isSome] ++ ([y.isSome] ++ [])), x.toList ++ y.toList⟩ ∧
    (InWidth [(32, a), (64, b), (32, c), (64, d), (64, e), (32, f), (32, g)] → (externalsRange.store ((a, b), (c, d), e, f, g, ())).toSl =
      .ok ⟨natBits 8 0x00 ++ numbers [(32, a), (64, b), (32, c), (64, d), (64, e), (32, f), (32, g)], []⟩) ∧
    (InWidth [(32, a), (64, b)] → (externalsProcessedUpto.store ((a, b), x, ())).toSl = .ok ⟨natBits 8 0x00 ++ (numbers [(32, a), (64, b)] ++ [x.isSome]), x.toList⟩) ∧
    (processedUptoInfo.store (x, y, ())).toSl = .ok ⟨natBits 8 0x00 ++ ([x.isSome] ++ ([y.isSome] ++ [])), x.toList ++ y.toList⟩ ∧
    (h.length = 32 → InWidth [(32, a)] → (outMsgQueueUpdates.store (h, a, ())).toSl = .ok ⟨natBits 4 1 ++ (bytesToBits h ++ numbers [(32, a)]), []⟩) := by
  have hD : ∀ o : Option Cell, fDict.codec.ok o := fun o => by cases o <;> trivial
  refine ⟨fun q => ?_, fun q => ?_, ?_, fun q => ?_, fun q => ?_, ?_, fun hh q => ?_⟩
  · exact C87_fits shardRange (by simp [tychoStructs]) (a, b, ()) ⟨fun c h => (by cases h), fun _ => q.head, fun _ => q.tail.head, trivial⟩
  · refine (C87_fits internalsRange (by simp [tychoStructs]) (a, b, x, ()) ⟨fun c h => (by cases h), fun _ => q.head, fun _ => q.tail.head, fun _ => hD x, trivial⟩).trans ?_
    cases x <;> rfl
  · refine (C87_fits internalsProcessedUpto (by simp [tychoStructs]) (x, y, ()) ⟨fun c h => (by cases h), fun _ => hD x, fun _ => hD y, trivial⟩).trans ?_
    cases x <;> cases y <;> rfl
  · refine (C87_fits externalsRange (by simp [tychoStructs]) ((a, b), (c, d), e, f, g, ()) ⟨fun c h => (by cases h), fun _ => ⟨q.head, q.tail.head⟩,
      fun _ => ⟨q.tail.tail.head, q.tail.tail.tail.head⟩, fun _ => q.tail.tail.tail.tail.head, fun _ => q.tail.tail.tail.tail.tail.head,
      fun _ => q.tail.tail.tail.tail.tail.tail.head, trivial⟩).trans ?_
    show Except.ok (Sl.mk (natBits 8 0 ++ ((natBits 32 a ++ natBits 64 b) ++ ((natBits 32 c ++ natBits 64 d) ++ (natBits 64 e ++ (natBits 32 f ++ (natBits 32 g ++ [])))))) []) = _
    simp only [numbers, List.append_assoc]
  · refine (C87_fits externalsProcessedUpto (by simp [tychoStructs]) ((a, b), x, ()) ⟨fun c h => (by cases h), fun _ => ⟨q.head, q.tail.head⟩, fun _ => hD x, trivial⟩).trans ?_
    cases x
    · show Except.ok (Sl.mk (natBits 8 0 ++ ((natBits 32 a ++ natBits 64 b) ++ ([false] ++ []))) []) = _
      simp [numbers, List.append_assoc]
    · show Except.ok (Sl.mk (natBits 8 0 ++ ((natBits 32 a ++ natBits 64 b) ++ ([true] ++ []))) [_]) = _
      simp [numbers, List.append_assoc]
  · refine (C87_fits processedUptoInfo (by simp [tychoStructs]) (x, y, ()) ⟨fun c h => (by cases h), fun _ => hD x, fun _ => (by cases y <;> trivial), trivial⟩).trans ?_
    cases x <;> cases y <;> rfl
  · exact C87_fits outMsgQueueUpdates (by simp [tychoStructs]) (h, a, ()) ⟨fun c h => (by cases h), fun _ => hh, fun _ => q.head, trivial⟩

/-- The layouts of `CollationConfig` and `ProcessedUptoPartition`: the nested structs are stored in the same cell, one behind the other. -/
theorem C87_nested_layout {b : Bool} {w x y z : Nat} {m : Vals msgsExecutionParams.fields} {u : Vals workUnitsParams.fields} {e : Vals externalsProcessedUpto.fields}
    {i : Vals internalsProcessedUpto.fields} {ms us es is : Sl} (hm : msgsExecutionParams.codec.ok m) (hu : workUnitsParams.codec.ok u)
    (he : externalsProcessedUpto.codec.ok e) (hi : internalsProcessedUpto.codec.ok i) (sm : (msgsExecutionParams.store m).toSl = .ok ms)
    (su : (workUnitsParams.store u).toSl = .ok us) (se : (externalsProcessedUpto.store e).toSl = .ok es) (si : (internalsProcessedUpto.store i).toSl = .ok is) :
    (InWidth [(32, w), (32, x), (8, y), (64, z)] → (collationConfig.store (b, w, x, y, z, m, u, ())).toSl =
      .ok ⟨natBits 8 0xa6 ++ ([b] ++ (numbers [(32, w), (32, x), (8, y), (64, z)] ++ (ms.bits ++ us.bits))), ms.refs ++ us.refs⟩) ∧
    (processedUptoPartition.store (e, i, ())).toSl = .ok ⟨natBits 8 0x00 ++ (es.bits ++ is.bits), es.refs ++ is.refs⟩ := by
  rw [C87_fits _ (by simp [tychoStructs]) m hm] at sm
  rw [C87_fits _ (by simp [tychoStructs]) u hu] at su
  rw [C87_fits _ (by simp [tychoStructs]) e he] at se
  rw [C87_fits _ (by simp [tychoStructs]) i hi] at si
  injection sm with sm; injection su with su; injection se with se; injection si with si
  subst sm su se si
  constructor
  · intro q
    refine (C87_fits collationConfig (by simp [tychoStructs]) (b, w, x, y, z, m, u, ()) ⟨fun c h => (by cases h), fun _ => trivial, fun _ => q.head, fun _ => q.tail.head,
      fun _ => q.tail.tail.head, fun _ => q.tail.tail.tail.head, fun _ => hm, fun _ => hu, trivial⟩).trans ?_
    show Except.ok (Sl.mk (natBits 8 0xa6 ++ ([b] ++ (natBits 32 w ++ (natBits 32 x ++ (natBits 8 y ++ (natBits 64 z ++ ((msgsExecutionParams.codec.enc m).1 ++
      ((workUnitsParams.codec.enc u).1 ++ [])))))))) ([] ++ ([] ++ ([] ++ ([] ++ ([] ++ ([] ++ ((msgsExecutionParams.codec.enc m).2 ++
      ((workUnitsParams.codec.enc u).2 ++ []))))))))) = _
    simp [numbers, List.append_assoc]
  · refine (C87_fits processedUptoPartition (by simp [tychoStructs]) (e, i, ()) ⟨fun c h => (by cases h), fun _ => he, fun _ => hi, trivial⟩).trans ?_
    show Except.ok (Sl.mk (natBits 8 0 ++ ((externalsProcessedUpto.codec.enc e).1 ++ ((internalsProcessedUpto.codec.enc i).1 ++ [])))
      ([] ++ ((externalsProcessedUpto.codec.enc e).2 ++ ((internalsProcessedUpto.codec.enc i).2 ++ [])))) = _
    simp

/-- The layout of `MsgsExecutionParams`: the tag is `#00` and the last field is left out if it is zero; else the tag is `#01`. -/
theorem C87_msgs_layout {a b c d e f g i : Nat} {h : Option Cell} (ha : a < 2 ^ 32) (hb : b < 2 ^ 16) (hc : c < 2 ^ 16) (hd : d < 2 ^ 16)
    (he : e < 2 ^ 16) (hf : f < 2 ^ 32) (hg : g < 2 ^ 32) (hi : i < 2 ^ 32) :
    (msgsExecutionParams.store (a, b, c, d, e, f, g, h, i, ())).toSl = .ok ⟨natBits 8 (if i = 0 then 0x00 else 0x01) ++
      (natBits 32 a ++ (natBits 16 b ++ (natBits 16 c ++ (natBits 16 d ++ (natBits 16 e ++ (natBits 32 f ++ (natBits 32 g ++ ([h.isSome] ++
      if i = 0 then [] else natBits 32 i)))))))), h.toList⟩ := by
  have hold : oldest msgsExecutionParams.fields (a, b, c, d, e, f, g, h, i, ()) = if i = 0 then 0 else 1 := by
    show oldest [fU32, fU16, fU16, fU16, fU16, fU32, fU32, fDict, fU32.sinceTag 1] (a, b, c, d, e, f, g, h, i, ()) = _
    have h0 : ∀ x : Nat, max (0 : Nat) x = x := fun x => by omega
    have hz : ∀ (p : Prop) [Decidable p] (x : Nat), (if p then x else max 0 x) = x := fun p _ x => by split <;> omega
    simp only [oldest]
    show (if a = 0 then _ else max 0 _) = _
    rw [hz]
    show (if b = 0 then _ else max 0 _) = _
    rw [hz]
    show (if c = 0 then _ else max 0 _) = _
    rw [hz]
    show (if d = 0 then _ else max 0 _) = _
    rw [hz]
    show (if e = 0 then _ else max 0 _) = _
    rw [hz]
    show (if f = 0 then _ else max 0 _) = _
    rw [hz]
    show (if g = 0 then _ else max 0 _) = _
    rw [hz]
    show (if h = none then _ else max 0 _) = _
    rw [hz]
    show (if i = 0 then 0 else max 1 0) = _
    rfl
  have hok : msgsExecutionParams.codec.ok (a, b, c, d, e, f, g, h, i, ()) := by
    refine ⟨fun c h => (by cases h), ?_⟩
    show FieldsOk _ [fU32, fU16, fU16, fU16, fU16, fU32, fU32, fDict, fU32.sinceTag 1] (a, b, c, d, e, f, g, h, i, ())
    refine ⟨fun _ => ha, fun _ => hb, fun _ => hc, fun _ => hd, fun _ => he, fun _ => hf, fun _ => hg, fun _ => ?_, fun _ => hi, trivial⟩
    cases h <;> trivial
  rw [C87_fits msgsExecutionParams (by simp [tychoStructs]) _ hok]
  have henc : msgsExecutionParams.codec.enc (a, b, c, d, e, f, g, h, i, ()) =
      msgsExecutionParams.encAt (oldest msgsExecutionParams.fields (a, b, c, d, e, f, g, h, i, ())) (a, b, c, d, e, f, g, h, i, ()) := rfl
  rw [henc, hold]
  by_cases h0 : i = 0
  · simp only [if_pos h0]
    cases h <;> rfl
  · simp only [if_neg h0]
    rw [← List.append_nil (natBits 32 i)]
    cases h <;> rfl

/-- Finding: a cell that holds a `ConsensusConfig` according to the documented scheme is never accepted (three fields of the scheme
have 8 bits, the code has 16 bits for them). -/
theorem C87_consensus_documented {v : Vals consensusDoc.fields} (hv : consensusDoc.codec.ok v) {s : CSlice Cell} (hs : s.WF)
    (hc : s.contents = consensusDoc.codec.enc v) (w : Vals consensusConfig.fields) (s' : CSlice Cell) : consensusConfig.load s ≠ (.ok w, s') := by
  refine short_refused consensus_good consensus_atLeast hs ?_ w s'
  have := (consensusDoc_atMost v hv).1
  rw [hc]
  omega

/-- Finding: a cell that holds a `CollationConfig` according to either of the documented schemes is never accepted (the code has the
tag of the first scheme and the fields of the second). -/
theorem C87_collation_documented {s : CSlice Cell} (hs : s.WF)
    (hc : (∃ v, collationDocA6.codec.ok v ∧ s.contents = collationDocA6.codec.enc v) ∨
      (∃ v, collationDocA7.codec.ok v ∧ s.contents = collationDocA7.codec.enc v))
    (w : Vals collationConfig.fields) (s' : CSlice Cell) : collationConfig.load s ≠ (.ok w, s') := by
  rcases hc with ⟨v, hv, hc⟩ | ⟨v, hv, hc⟩
  · refine short_refused collation_good collation_atLeast hs ?_ w s'
    have := (collationDocA6_atMost v hv).1
    rw [hc]
    omega
  · intro hx
    obtain ⟨e, hR, he, _⟩ := (load_loads collation_good).exact s s' w hs hx
    obtain ⟨_, e1, e2, h1, h2, rfl⟩ := hR
    unfold Enc.Lit at h1
    subst h1
    rw [hc, Enc.append_assoc] at he
    have he : (Enc.bits (⟨0xa7, 8⟩ : TlbTag).code ++ fieldsEnc 0 collationDocA7.fields v : Enc Cell) = Enc.bits (⟨0xa6, 8⟩ : TlbTag).code ++ (e2 ++ s'.contents) := he
    exact absurd (code_prefix (t := ⟨0xa7, 8⟩) (u := ⟨0xa6, 8⟩) (by decide +kernel) (by decide +kernel) rfl he) (by decide)

/-! ## Examples -/

/-- Some values. -/
example : consensusConfig.codec.ok ((5000, 1000, 20, 140, 210, 50000, 150, 25, 5, 260, 840, ()) :
    Nat × Nat × Nat × Nat × Nat × Nat × Nat × Nat × Nat × Nat × Nat × Unit) :=
  ⟨fun c h => (by cases h), fun _ => (by decide : (5000 : Nat) < 2 ^ 16), fun _ => (by decide : (1000 : Nat) < 2 ^ 32), fun _ => (by decide : (20 : Nat) < 2 ^ 16),
    fun _ => (by decide : (140 : Nat) < 2 ^ 16), fun _ => (by decide : (210 : Nat) < 2 ^ 16), fun _ => (by decide : (50000 : Nat) < 2 ^ 32),
    fun _ => (by decide : (150 : Nat) < 2 ^ 16), fun _ => (by decide : (25 : Nat) < 2 ^ 16), fun _ => (by decide : (5 : Nat) < 2 ^ 8),
    fun _ => (by decide : (260 : Nat) < 2 ^ 16), fun _ => (by decide : (840 : Nat) < 2 ^ 16), trivial⟩

/-- The default collation config takes 890 bits: the version of the execution parameters is the first. -/
example : (collationConfig.store (dflts _)).toSl.toOption.map (fun s => s.bits.length) = some 890 := by decide +kernel

/-- There are cells of the documented schemes. -/
example : (collationDocA6.store (dflts _)).toSl.toOption.map (fun s => s.bits.length) = some 858 := by decide +kernel
example : (collationDocA7.store (dflts _)).toSl.toOption.map (fun s => s.bits.length) = some 890 := by decide +kernel
example : (consensusDoc.store (dflts _)).toSl.toOption.map (fun s => s.bits.length) = some 184 := by decide +kernel

/-- The numbers of an external range are in their widths. -/
example : InWidth [(32, 7), (64, 2 ^ 40), (32, 8), (64, 3), (64, 1700000000000), (32, 5), (32, 6)] := by
  intro q hq
  simp only [List.mem_cons, List.not_mem_nil, or_false] at hq
  rcases hq with rfl | rfl | rfl | rfl | rfl | rfl | rfl <;> decide

/-- The layout of a range of a shard, bit for bit. -/
example : (shardRange.store ((3, 9, ()) : Nat × Nat × Unit)).toSl = .ok ⟨natBits 8 0x00 ++ (natBits 64 3 ++ (natBits 64 9 ++ [])), []⟩ :=
  (C87_positions_layout (a := 3) (b := 9) (c := 0) (d := 0) (e := 0) (f := 0) (g := 0) (x := none) (y := none) (h := [])).1 (by
    intro q hq
    simp only [List.mem_cons, List.not_mem_nil, or_false] at hq
    rcases hq with rfl | rfl <;> decide)

end Verif.Derive
