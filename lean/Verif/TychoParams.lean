import Verif.DeriveProps
/-
The structs of the feature `tycho` with derived `Store` and `Load`, as descriptions for `Verif.Derive`:
configuration parameters (`models/config/params.rs:663-975`), the processed-upto information of a shard state
(`models/shard/mod.rs:395-570`) and the queue updates of a block (`models/block/mod.rs:712-724`).

A dictionary is its root, an `Option<Lazy<T>>` is its cell, as everywhere in the model.
-/
set_option linter.unusedVariables false
set_option linter.unusedSimpArgs false
namespace Verif.Derive

mutual
/-- Cells can be compared. -/
def decCell : (a b : Cell) → Decidable (a = b)
  | .mk x l r, .mk x' l' r' =>
    match decEq x x', decEq l l', decCells r r' with
    | isTrue h1, isTrue h2, isTrue h3 => isTrue (by rw [h1, h2, h3])
    | isFalse h, _, _ => isFalse fun e => h (by injection e)
    | _, isFalse h, _ => isFalse fun e => h (by injection e)
    | _, _, isFalse h => isFalse fun e => h (by injection e)
def decCells : (a b : List Cell) → Decidable (a = b)
  | [], [] => isTrue rfl
  | [], _ :: _ => isFalse fun e => by cases e
  | _ :: _, [] => isFalse fun e => by cases e
  | a :: as, b :: bs =>
    match decCell a b, decCells as bs with
    | isTrue h1, isTrue h2 => isTrue (by rw [h1, h2])
    | isFalse h, _ => isFalse fun e => h (by injection e)
    | _, isFalse h => isFalse fun e => h (by injection e)
end
instance : DecidableEq Cell := decCell

/-- Values of structs can be compared if the values of their fields can. -/
instance decVals : (fs : List Field) → DecidableEq (Vals fs)
  | [] => fun a b => isTrue rfl
  | f :: fs => fun (a, as) (b, bs) =>
    match f.dec a b, decVals fs as bs with
    | isTrue h, isTrue h' => isTrue (by rw [h, h'])
    | isFalse h, _ => isFalse fun e => h (congrArg Prod.fst e)
    | _, isFalse h => isFalse fun e => h (congrArg Prod.snd e)

/-- The derived `Default`: the default of every field. -/
def dflts : (fs : List Field) → Vals fs
  | [] => ()
  | f :: fs => (f.dflt, dflts fs)

/-! ### Fields by their type -/

def fU8 : Field := ⟨Nat, inferInstance, Tlb.u8, none, 0⟩
def fU16 : Field := ⟨Nat, inferInstance, Tlb.u16, none, 0⟩
def fU32 : Field := ⟨Nat, inferInstance, Tlb.u32, none, 0⟩
def fU64 : Field := ⟨Nat, inferInstance, Tlb.u64, none, 0⟩
def fBool : Field := ⟨Bool, inferInstance, Tlb.bool, none, false⟩
def fHash : Field := ⟨List Byte, inferInstance, Tlb.hash, none, List.replicate 32 0⟩
/-- `Dict<K, V>` -/
def fDict : Field := ⟨Option Cell, inferInstance, Tlb.dict, none, none⟩
/-- `Option<Lazy<T>>` -/
def fMaybeLazy : Field := ⟨Option Cell, inferInstance, Tlb.cell.opt, none, none⟩
/-- `(u32, u64)` (`cell/mod.rs`, `Store` and `Load` of tuples: one after the other) -/
def fAnchor : Field := ⟨Nat × Nat, inferInstance, Tlb.u32.pair Tlb.u64, none, (0, 0)⟩
/-- The same field with `#[tlb(since_tag = k)]`. -/
def Field.sinceTag (f : Field) (k : Nat) : Field := { f with since := some k }
/-- A field whose type is a struct with derived codecs. -/
def fStruct (S : Struct) : Field := ⟨Vals S.fields, inferInstance, S.codec, none, dflts S.fields⟩

/-- A struct with one tag and without validation. -/
def tagged (value bits : Nat) (fs : List Field) : Struct := ⟨fs, false, .single ⟨value, bits⟩, none⟩

/-! ### The structs -/

/-- `params.rs:703-744` `MsgsExecutionParams`: buffer_limit, group_limit, group_vert_size, externals_expire_timeout, open_ranges_limit,
par_0_int_msgs_count_limit, par_0_ext_msgs_count_limit, group_slots_fractions, range_messages_limit (since tag 1). -/
def msgsExecutionParams : Struct where
  fields := [fU32, fU16, fU16, fU16, fU16, fU32, fU32, fDict, fU32.sinceTag 1]
  unit := false
  tags := .multiple [⟨0x00, 8⟩, ⟨0x01, 8⟩]
  valid := none

/-- `params.rs:781-800` `WorkUnitsParamsPrepare`: fixed_part, msgs_stats, remaning_msgs_stats, read_ext_msgs, read_int_msgs,
read_new_msgs, add_to_msg_groups. -/
def workUnitsPrepare : Struct := tagged 0x00 8 [fU32, fU16, fU16, fU16, fU16, fU16, fU16]

/-- `params.rs:816-838` `WorkUnitsParamsExecute`: prepare, execute, execute_err, execute_delimiter, serialize_enqueue,
serialize_dequeue, insert_new_msgs, subgroup_size. -/
def workUnitsExecute : Struct := tagged 0x00 8 [fU32, fU16, fU16, fU32, fU16, fU16, fU16, fU16]

/-- `params.rs:859-892` `WorkUnitsParamsFinalize`: build_transactions, build_accounts, build_in_msg, build_out_msg, serialize_min,
serialize_accounts, serialize_msg, state_update_min, state_update_accounts, state_update_msg, create_diff, serialize_diff,
apply_diff, diff_tail_len. -/
def workUnitsFinalize : Struct :=
  tagged 0x00 8 [fU16, fU16, fU16, fU16, fU32, fU16, fU16, fU32, fU16, fU16, fU16, fU16, fU16, fU16]

/-- `params.rs:755-766` `WorkUnitsParams`: prepare, execute, finalize. -/
def workUnitsParams : Struct := tagged 0x00 8 [fStruct workUnitsPrepare, fStruct workUnitsExecute, fStruct workUnitsFinalize]

/-- `params.rs:667-687` `CollationConfig`: shuffle_mc_validators, mc_block_min_interval_ms, empty_sc_block_interval_ms,
max_uncommitted_chain_length, wu_used_to_import_next_anchor, msgs_exec_params, work_units_params. -/
def collationConfig : Struct :=
  tagged 0xa6 8 [fBool, fU32, fU32, fU8, fU64, fStruct msgsExecutionParams, fStruct workUnitsParams]

/-- `params.rs:911-983` `ConsensusConfig`: clock_skew_millis, payload_batch_bytes, commit_history_rounds, deduplicate_rounds,
max_consensus_lag_rounds, payload_buffer_bytes, broadcast_retry_millis, download_retry_millis, download_peers, download_tasks,
sync_support_rounds. -/
def consensusConfig : Struct := tagged 0xd8 8 [fU16, fU32, fU16, fU16, fU16, fU32, fU16, fU16, fU8, fU16, fU16]

/-- `models/block/mod.rs:712-724` `OutMsgQueueUpdates`: diff_hash, tail_len. -/
def outMsgQueueUpdates : Struct := tagged 0x1 4 [fHash, fU32]

/-- `models/shard/mod.rs:552-570` `ShardRange`: from, to. -/
def shardRange : Struct := tagged 0x00 8 [fU64, fU64]

/-- `models/shard/mod.rs:525-550` `InternalsRange`: skip_offset, processed_offset, shards. -/
def internalsRange : Struct := tagged 0x00 8 [fU32, fU32, fDict]

/-- `models/shard/mod.rs:512-523` `InternalsProcessedUpto`: processed_to, ranges. -/
def internalsProcessedUpto : Struct := tagged 0x00 8 [fDict, fDict]

/-- `models/shard/mod.rs:482-498` `ExternalsRange`: from, to, chain_time, skip_offset, processed_offset. -/
def externalsRange : Struct := tagged 0x00 8 [fAnchor, fAnchor, fU64, fU32, fU32]

/-- `models/shard/mod.rs:451-463` `ExternalsProcessedUpto`: processed_to, ranges. -/
def externalsProcessedUpto : Struct := tagged 0x00 8 [fAnchor, fDict]

/-- `models/shard/mod.rs:427-436` `ProcessedUptoPartition`: externals, internals. -/
def processedUptoPartition : Struct := tagged 0x00 8 [fStruct externalsProcessedUpto, fStruct internalsProcessedUpto]

/-- `models/shard/mod.rs:402-415` `ProcessedUptoInfo`: partitions, msgs_exec_params. -/
def processedUptoInfo : Struct := tagged 0x00 8 [fDict, fMaybeLazy]

/-! ### Lemmas -/

/-- The encodings of the values that can be stored have at most `n` bits and `r` references. -/
def Tlb.AtMost {α : Type} (T : Tlb α) (n r : Nat) : Prop := ∀ v, T.ok v → (T.enc v).1.length ≤ n ∧ (T.enc v).2.length ≤ r

theorem tagged_good {value bits : Nat} {fs : List Field} (ht : (⟨value, bits⟩ : TlbTag).Good) (hn : sinces fs = [])
    (hf : ∀ f ∈ fs, f.codec.Sound) : (tagged value bits fs).Good where
  accepted := by
    unfold Struct.accepted tagged
    dsimp only
    rw [hn]
    rfl
  tags := by intro t h; rw [List.mem_singleton.1 h]; exact ht
  distinct := by show [value].Nodup; exact List.nodup_cons.2 ⟨by simp, List.nodup_nil⟩
  fields := hf
  unit := by intro h; cases h

theorem struct_sound {S : Struct} (h : S.Good) : (fStruct S).codec.Sound := C86_sound_partial h

theorem all_nil {P : Field → Prop} : ∀ f ∈ ([] : List Field), P f := fun _ h => by cases h
theorem all_cons {P : Field → Prop} {f : Field} {fs : List Field} (h : P f) (hs : ∀ f ∈ fs, P f) : ∀ g ∈ f :: fs, P g := fun g hg => by
  rcases List.mem_cons.1 hg with rfl | hg
  · exact h
  · exact hs g hg

theorem fU8_sound : fU8.codec.Sound := Tlb.u8_sound
theorem fU16_sound : fU16.codec.Sound := Tlb.u16_sound
theorem fU32_sound : fU32.codec.Sound := Tlb.u32_sound
theorem fU64_sound : fU64.codec.Sound := Tlb.u64_sound
theorem fBool_sound : fBool.codec.Sound := Tlb.bool_sound
theorem fHash_sound : fHash.codec.Sound := Tlb.hash_sound
theorem fDict_sound : fDict.codec.Sound := Tlb.dict_sound
theorem fMaybeLazy_sound : fMaybeLazy.codec.Sound := Tlb.cell_sound.opt
theorem fAnchor_sound : fAnchor.codec.Sound := Tlb.u32_sound.pair Tlb.u64_sound

theorem atMost_nat {n : Nat} {ok : Nat → Prop} {st : Nat → Wr Cell Unit} {ld : Rd Cell Nat} :
    Tlb.AtMost (Tlb.canonical ok st ld (fun v => Enc.bits (natBits n v))) n 0 := fun v _ => by
  exact ⟨by show (natBits n v).length ≤ n; rw [natBits_length], Nat.le_refl _⟩

theorem fU8_atMost : Tlb.AtMost fU8.codec 8 0 := atMost_nat
theorem fU16_atMost : Tlb.AtMost fU16.codec 16 0 := atMost_nat
theorem fU32_atMost : Tlb.AtMost fU32.codec 32 0 := atMost_nat
theorem fU64_atMost : Tlb.AtMost fU64.codec 64 0 := atMost_nat
theorem fBool_atMost : Tlb.AtMost fBool.codec 1 0 := fun v _ => ⟨Nat.le_refl _, Nat.le_refl _⟩
theorem fDict_atMost : Tlb.AtMost fDict.codec 1 1 := fun v _ => match v with
  | none => ⟨Nat.le_refl _, Nat.zero_le _⟩
  | some c => ⟨Nat.le_refl _, Nat.le_refl _⟩
theorem fMaybeLazy_atMost : Tlb.AtMost fMaybeLazy.codec 1 1 := fDict_atMost
theorem fHash_atMost : Tlb.AtMost Tlb.hash 256 0 := fun v hv => by
  have hv : v.length = 32 := hv
  refine ⟨?_, Nat.le_refl _⟩
  show (bytesToBits v).length ≤ 256
  rw [bytesToBits_length, hv]
theorem fAnchor_atMost : Tlb.AtMost fAnchor.codec 96 0 := fun v _ => by
  refine ⟨?_, Nat.le_refl _⟩
  show (natBits 32 v.1 ++ natBits 64 v.2).length ≤ 96
  rw [List.length_append, natBits_length, natBits_length]

/-- Bounds for all fields. -/
inductive Bounds : List Field → Nat → Nat → Prop
  | nil : Bounds [] 0 0
  | cons {f : Field} {fs : List Field} {n r m q : Nat} : Tlb.AtMost f.codec n r → Bounds fs m q → Bounds (f :: fs) (n + m) (r + q)

theorem bounds_fieldsEnc {fs : List Field} {n r : Nat} (h : Bounds fs n r) (k : Nat) (v : Vals fs) (ho : FieldsOk k fs v) :
    (fieldsEnc k fs v).1.length ≤ n ∧ (fieldsEnc k fs v).2.length ≤ r := by
  induction h with
  | nil => exact ⟨Nat.le_refl _, Nat.le_refl _⟩
  | @cons f fs n r m q hf _ ih =>
    obtain ⟨x, v⟩ := v
    have ih := ih v ho.2
    show (if f.from ≤ k then f.codec.enc x ++ fieldsEnc k fs v else fieldsEnc k fs v).1.length ≤ n + m ∧
      (if f.from ≤ k then f.codec.enc x ++ fieldsEnc k fs v else fieldsEnc k fs v).2.length ≤ r + q
    by_cases hk : f.from ≤ k
    · rw [if_pos hk]
      have := hf x (ho.1 hk)
      constructor
      · show ((f.codec.enc x).1 ++ (fieldsEnc k fs v).1).length ≤ _
        rw [List.length_append]; omega
      · show ((f.codec.enc x).2 ++ (fieldsEnc k fs v).2).length ≤ _
        rw [List.length_append]; omega
    · rw [if_neg hk]; omega

theorem tagged_atMost {value bits : Nat} {fs : List Field} {n r : Nat} (h : Bounds fs n r) : Tlb.AtMost (tagged value bits fs).codec (bits + n) r := by
  intro v hv
  have := bounds_fieldsEnc h 0 v hv.2
  refine ⟨?_, ?_⟩
  · show (natBits bits value ++ (fieldsEnc 0 fs v).1).length ≤ _
    rw [List.length_append, natBits_length]; omega
  · show ([] ++ (fieldsEnc 0 fs v).2).length ≤ _
    rw [List.nil_append]; omega

theorem multiple_atMost {S : Struct} {ts : List TlbTag} (ht : S.tags = .multiple ts) {w : Nat} (hw : ∀ t ∈ ts, t.bits ≤ w) {n r : Nat}
    (h : Bounds S.fields n r) : Tlb.AtMost S.codec (w + n) r := by
  intro v hv
  have hok := hv.2
  rw [ht] at hok
  have := bounds_fieldsEnc h (oldest S.fields v) v hok
  have henc : S.codec.enc v = match ts[oldest S.fields v]? with
      | some t => Enc.bits t.code ++ fieldsEnc (oldest S.fields v) S.fields v
      | none => Enc.nil := by
    show S.encAt _ v = _
    unfold Struct.encAt
    rw [ht]
    rfl
  rw [henc]
  cases hk : ts[oldest S.fields v]? with
  | none => exact ⟨Nat.zero_le _, Nat.zero_le _⟩
  | some t =>
    have := hw t (List.mem_of_getElem? hk)
    constructor
    · show (natBits t.bits t.value ++ (fieldsEnc (oldest S.fields v) S.fields v).1).length ≤ _
      rw [List.length_append, natBits_length]; omega
    · show ([] ++ (fieldsEnc (oldest S.fields v) S.fields v).2).length ≤ _
      rw [List.nil_append]; omega

end Verif.Derive
