import Verif.TychoBlock
import Verif.ShardTreeProps
/-
C88: blocks of tycho in cells.
-/
set_option linter.unusedVariables false
set_option linter.unusedSimpArgs false
namespace Verif.Tycho

/-! ### Specification -/

/-- What the other build makes of what this build stored. -/
def loadedAs {α β : Type} (T : Tlb α) (U : Tlb β) (v : α) : Except Err β :=
  match (T.store v).toSl with
  | .error e => .error e
  | .ok sl => (U.load (Sl.reader sl)).1

/-- The milliseconds and the other fields are in the ranges of their types. -/
def BlockInfo.Typed (v : BlockInfo) : Prop := v.info.Typed ∧ v.genUtimeMs < 2 ^ 16

/-- The description of a shard that the build with `tycho` finds in a description of the other build: the identifier of the shard
is taken for the anchor and the number of a masterchain block, and that number for the time. -/
def misread (d : Verif.ShardDescription) : ShardDescription :=
  ⟨{ seqno := d.tip.seqno, regMcSeqno := d.tip.regMcSeqno, startLt := d.tip.startLt, endLt := d.tip.endLt, rootHash := d.tip.rootHash,
     fileHash := d.tip.fileHash,
     flags := ⟨d.tip.flags.beforeSplit, d.tip.flags.beforeMerge, d.tip.flags.wantSplit, d.tip.flags.wantMerge, d.tip.flags.nxCcUpdated, false⟩,
     nextCatchainSeqno := d.tip.nextCatchainSeqno,
     extProcessedToAnchorId := d.tip.nextValidatorShard / 2 ^ 32, minRefMcSeqno := d.tip.nextValidatorShard % 2 ^ 32,
     genUtime := d.tip.minRefMcSeqno, splitMergeAt := none }, d.feesCollected, d.fundsCreated⟩

/-! ### Lemmas -/

theorem ms_ok {v : BlockInfo} (h : v.Typed) (hs : v.info.seqno ≠ 0) : (msHead true).ok ⟨v.info.head, v.genUtimeMs⟩ :=
  ⟨h.1.version, h.1.flags, ⟨h.1.seqno, hs⟩, h.1.vertSeqno, ⟨h.1.workchain, h.1.shard⟩, h.1.genUtime, h.2, h.1.startLt, h.1.endLt, h.1.listHash, h.1.catchain,
    h.1.minRef, h.1.prevKey⟩

theorem ms_writes {v : BlockInfo} (h : v.Typed) : Writes ((msHead true).store ⟨v.info.head, v.genUtimeMs⟩) ((msHead true).enc ⟨v.info.head, v.genUtimeMs⟩) :=
  (Tlb.u32_sound.st.writes _ h.1.version).seq ((infoBits_sound.st.writes v.info.head.bits h.1.flags).seq
    ((Tlb.u32_sound.st.writes _ h.1.seqno).seq ((Tlb.u32_sound.st.writes _ h.1.vertSeqno).seq ((Tlb.shardIdent_sound.st.writes _ ⟨h.1.workchain, h.1.shard⟩).seq
    ((Tlb.u32_sound.st.writes _ h.1.genUtime).seq (((msField_sound true).st.writes _ h.2).seq ((Tlb.u64_sound.st.writes _ h.1.startLt).seq
    ((Tlb.u64_sound.st.writes _ h.1.endLt).seq ((Tlb.u32_sound.st.writes _ h.1.listHash).seq ((Tlb.u32_sound.st.writes _ h.1.catchain).seq
    ((Tlb.u32_sound.st.writes _ h.1.minRef).seq (Tlb.u32_sound.st.writes _ h.1.prevKey))))))))))))

theorem ms_size (h : MsHead) : ((msHead true).enc h).1.length = 520 ∧ ((msHead true).enc h).2 = [] := by
  constructor
  · unfold msHead
    simp only [Enc.fst_append, List.length_append]
    simp [Enc.bits, Tlb.u32, Tlb.u64, Tlb.u16, Tlb.nz32, Tlb.nonZero, Tlb.canonical, Tlb.shardIdent, infoBits, Tlb.u8, Enc.fst_append, msField]
  · rfl

theorem info_writes {v : BlockInfo} (h : v.Typed) : Writes (blockInfo.store v) (blockInfo.enc v) := by
  refine (Wr.writes_u32 (by decide)).writes.seq ((ms_writes h).seq (Writes.seq ?_ ((storeRef_writes _).seq ((Wr.writes_ref _).writes.seq (storeRef_writes _)))))
  show Writes _ ((globalVersion.cond (BlockInfo.withSoftware v.info.flags)).enc (if BlockInfo.withSoftware v.info.flags then some v.info.genSoftware else none))
  by_cases hw : BlockInfo.withSoftware v.info.flags = true
  · rw [if_pos hw, if_pos hw]
    exact globalVersion_sound.st.writes _ h.1.software
  · rw [if_neg hw, if_neg hw]
    exact Writes.pure

theorem info_fits (v : BlockInfo) : (blockInfo.enc v).Fits := by
  have e : blockInfo.enc v = Enc.bits (natBits 32 0x9bc7a988) ++ ((msHead true).enc ⟨v.info.head, v.genUtimeMs⟩ ++
    ((globalVersion.cond (BlockInfo.withSoftware v.info.flags)).enc (if BlockInfo.withSoftware v.info.flags then some v.info.genSoftware else none) ++
    (((Tlb.lazy false).cond v.info.masterRef.isSome).enc v.info.masterRef ++ (Enc.ref v.info.prevRef ++ ((Tlb.lazy false).cond v.info.prevVertRef.isSome).enc v.info.prevVertRef)))) := rfl
  have h1 : ∀ o : Option Cell, (((Tlb.lazy false).cond o.isSome).enc o).1 = [] ∧ (((Tlb.lazy false).cond o.isSome).enc o).2.length ≤ 1 := by
    intro o; cases o
    · exact ⟨rfl, Nat.zero_le _⟩
    · exact ⟨rfl, Nat.le_refl _⟩
  have h2 : ((globalVersion.cond (BlockInfo.withSoftware v.info.flags)).enc (if BlockInfo.withSoftware v.info.flags then some v.info.genSoftware else none)).1.length ≤ 104 ∧
      ((globalVersion.cond (BlockInfo.withSoftware v.info.flags)).enc (if BlockInfo.withSoftware v.info.flags then some v.info.genSoftware else none)).2 = [] := by
    by_cases hw : BlockInfo.withSoftware v.info.flags = true
    · rw [if_pos hw]
      refine ⟨?_, rfl⟩
      show (globalVersion.enc v.info.genSoftware).1.length ≤ 104
      unfold globalVersion
      simp [Enc.bits, Tlb.u32, Tlb.u64, Tlb.canonical, Enc.fst_append]
    · rw [if_neg hw]; exact ⟨Nat.zero_le _, rfl⟩
  have h3 := ms_size ⟨v.info.head, v.genUtimeMs⟩
  have h4 : ((Enc.bits (natBits 32 0x9bc7a988) : Enc Cell).1.length = 32) := natBits_length _ _
  rw [e]
  constructor
  · simp only [Enc.fst_append, List.length_append, (h1 _).1, h3.1, h4, List.length_nil]
    have := h2.1
    show 32 + (520 + (_ + (0 + (0 + 0)))) ≤ 1023
    omega
  · simp only [Enc.snd_append, List.length_append, h2.2, h3.2, List.length_nil]
    have a := (h1 v.info.masterRef).2
    have b := (h1 v.info.prevVertRef).2
    show 0 + (0 + (0 + (_ + (1 + _)))) ≤ 4
    omega

theorem info_ok {v : BlockInfo} (h : v.Typed) : blockInfo.ok v ↔ Verif.blockInfo.ok v.info := by
  constructor
  · rintro ⟨⟨⟨h1, h2⟩, h5⟩, h6⟩
    exact ⟨⟨⟨⟨h1.1, h1.2.1, h1.2.2.1, h1.2.2.2.1, h1.2.2.2.2.1, h1.2.2.2.2.2.1, h1.2.2.2.2.2.2.2⟩, h2⟩, h5⟩, h6⟩
  · rintro ⟨⟨⟨h1, h2⟩, h5⟩, h6⟩
    exact ⟨⟨⟨⟨h1.1, h1.2.1, h1.2.2.1, h1.2.2.2.1, h1.2.2.2.2.1, h1.2.2.2.2.2.1, h.2, h1.2.2.2.2.2.2⟩, h2⟩, h5⟩, h6⟩

/-- The fixed fields of the older form. -/
theorem head_old {h : InfoHead} {e : Enc Cell} (hR : infoHead.R h e) : (Enc.Lit (natBits 32 0x9bc7a987) ⬝ (msHead false).R ⟨h, 0⟩) e := by
  obtain ⟨_, _, h0, ⟨_, _, h1, ⟨_, _, h2, ⟨_, _, h3, ⟨_, _, h4, ⟨_, _, h5, ⟨_, _, h6, h7, rfl⟩, rfl⟩, rfl⟩, rfl⟩, rfl⟩, rfl⟩, rfl⟩ := hR
  exact ⟨_, _, h0, ⟨_, _, h1, ⟨_, _, h2, ⟨_, _, h3, ⟨_, _, h4, ⟨_, _, h5, ⟨_, _, h6, ⟨Enc.nil, _, ⟨rfl, rfl⟩, h7, rfl⟩, rfl⟩, rfl⟩, rfl⟩, rfl⟩, rfl⟩, rfl⟩, rfl⟩

theorem info_old {v : Verif.BlockInfo} {e : Enc Cell} (hR : Verif.blockInfo.R v e) : blockInfo.R ⟨v, 0⟩ e := by
  obtain ⟨⟨⟨e1, e2, h1, h2, rfl⟩, h3⟩, h4⟩ := hR
  obtain ⟨a, b, ha, hb, rfl⟩ := head_old h1
  exact .inl ⟨a, b ++ e2, ha, ⟨⟨⟨b, e2, hb, h2, rfl⟩, h3⟩, h4⟩, Enc.append_assoc _ _ _⟩

theorem extra_old {v : BlockExtra} {e : Enc Cell} (hR : Verif.blockExtra.R v e) : blockExtra.R v e := by
  obtain ⟨a, b, ha, hb, rfl⟩ := hR
  exact .inl ⟨a, b, ha, hb, rfl⟩

/-- What this build accepts the other build accepts. -/
theorem accepted_also {α β : Type} {T : Tlb α} {U : Tlb β} (hT : T.Sound) (hU : U.Sound) {v : α} {w : β} (h : ∀ e, T.R v e → U.R w e) {s s' : CSlice Cell}
    (hs : s.WF) (hl : T.load s = (.ok v, s')) : ∃ s'', U.load s = (.ok w, s'') ∧ s''.contents = s'.contents := by
  obtain ⟨e, he, hc, _⟩ := hT.ld.exact s s' v hs hl
  obtain ⟨s'', h1, _, h2, _⟩ := hU.ld.reads w e (h e he) s s'.contents hs hc
  exact ⟨s'', h1, h2⟩

theorem loadedAs_ok {α β : Type} {T : Tlb α} {U : Tlb β} (hT : T.Sound) (hU : U.Sound) {v : α} (hv : T.ok v) (hf : (T.enc v).Fits) {w : β} {e rest : Enc Cell}
    (hw : U.R w e) (he : T.enc v = e ++ rest) : loadedAs T U v = .ok w := by
  unfold loadedAs
  rw [hT.stored hv, if_pos hf]
  dsimp only
  obtain ⟨wf, hc⟩ := Tlb.reader_contents (b := (T.enc v).1) (r := (T.enc v).2) hf
  obtain ⟨s', hl, _⟩ := hU.ld.reads w e hw _ rest wf (hc.trans he)
  rw [hl]

theorem block_fits {acc : Cell → Bool} (v : Block) : ((block acc).enc v).Fits := by
  show (_ : Nat) ≤ 1023 ∧ (_ : Nat) ≤ 4
  have h1 : ((block acc).enc v).1.length = 64 := by
    show ((natBits 32 0x11ef55bb) ++ ((natBits 32 _) ++ ([] ++ ([] ++ ([] ++ [])))) : Bits).length = 64
    simp
  have h2 : ((block acc).enc v).2.length = 4 := rfl
  omega

/-! ### Properties -/

/-- **C88, codecs.** The codecs agree with the schemes: what was stored is loaded back, exactly the data of the schemes is accepted, nothing panics. -/
theorem C88_codecs (acc : Cell → Bool) : (block acc).Sound ∧ blockInfo.Sound ∧ blockExtra.Sound ∧ blockSignatures.Sound ∧ (blockProof acc).Sound ∧
    queueUpdates.Sound ∧ (shardDescription acc).Sound :=
  ⟨block_sound acc, blockInfo_sound, blockExtra_sound, blockSignatures_sound, blockProof_sound acc, queueUpdates_sound, shardDescription_sound acc⟩

/-- **C88, headers.** Storing a header never fails. It comes back exactly if its number is not zero, a previous vertical block comes with a vertical number
that is not zero, the referenced blocks are in ordinary cells, and there is no software version without the flag for it. -/
theorem C88_header {v : BlockInfo} (h : v.Typed) : (blockInfo.store v).toSl = .ok ⟨(blockInfo.enc v).1, (blockInfo.enc v).2⟩ ∧
    (reloaded blockInfo v = .ok v ↔ v.info.seqno ≠ 0 ∧ (∀ c, v.info.masterRef = some c → c.exotic = false) ∧
      (∀ c, v.info.prevVertRef = some c → c.exotic = false ∧ v.info.vertSeqno ≠ 0) ∧ (v.info.flags % 2 = 0 → v.info.genSoftware = ⟨0, 0⟩)) := by
  have hr : v.info.Reports ↔ (v.info.flags % 2 = 0 → v.info.genSoftware = ⟨0, 0⟩) := by
    unfold BlockInfo.Reports BlockInfo.withSoftware BlockInfo.noSoftware
    rw [Nat.and_one_is_mod, decide_eq_false_iff_not]
    constructor
    · exact fun h h' => h (by omega)
    · exact fun h h' => h (by omega)
  refine ⟨Wr.toSl_ok (info_writes h) (info_fits v), ?_⟩
  rw [← hr]
  refine Iff.trans ?_ ((info_ok h).trans (Verif.info_ok h.1))
  constructor
  · intro hl
    have key : ∀ {ms : Bool} {e : Enc Cell}, (BlockInfo.body ms).R v e → blockInfo.ok v := by
      rintro ms e ⟨⟨⟨e1, e2, ⟨_, _, _, ⟨_, _, _, ⟨_, _, ⟨_, hseq⟩, _⟩, _⟩, _⟩, ⟨_, _, _, ⟨_, _, hm, ⟨_, _, _, hvr, _⟩, _⟩, _⟩, _⟩, hvt⟩, hrep⟩
      have hc : ∀ (o : Option Cell) (e : Enc Cell), ((Tlb.lazy false).cond o.isSome).R o e → ∀ c, o = some c → c.exotic = false := by
        rintro o e ho c rfl
        exact ho.2.1
      refine (info_ok h).2 ((Verif.info_ok h.1).2 ⟨hseq, hc _ _ hm, fun c hx => ⟨hc _ _ hvr c hx, ?_⟩, hrep⟩)
      have hvt : BlockInfo.vertOk v.info.vertSeqno v.info.prevVertRef = true := hvt
      unfold BlockInfo.vertOk at hvt
      rw [hx] at hvt
      simpa using hvt
    obtain ⟨e, ⟨_, _, _, hb, _⟩ | ⟨_, _, _, hb, _⟩⟩ := reloaded_found blockInfo_sound (info_writes h) (info_fits v) hl
    · exact key hb
    · exact key hb
  · exact fun hv => reloaded_ok blockInfo_sound hv (info_fits v)

/-- **C88, old data.** Headers and contents of blocks that were stored without the feature are loaded with the same fields (and no milliseconds), and
loading stops at the same place. -/
theorem C88_old_data {s s' : CSlice Cell} (hs : s.WF) :
    (∀ v, Verif.blockInfo.load s = (.ok v, s') → ∃ s'', blockInfo.load s = (.ok ⟨v, 0⟩, s'') ∧ s''.contents = s'.contents) ∧
    (∀ v, Verif.blockExtra.load s = (.ok v, s') → ∃ s'', blockExtra.load s = (.ok v, s'') ∧ s''.contents = s'.contents) :=
  ⟨fun v h => accepted_also Verif.blockInfo_sound blockInfo_sound (w := ⟨v, 0⟩) (fun _ => info_old) hs h,
   fun v h => accepted_also Verif.blockExtra_sound blockExtra_sound (fun _ => extra_old) hs h⟩

/-- **C88, new data.** A header of the newer form is refused by the build without the feature. -/
theorem C88_new_data {v : BlockInfo} {e : Enc Cell} {s : CSlice Cell} (hs : s.WF) (hc : s.contents = blockInfo.enc v ++ e)
    (w : Verif.BlockInfo) (s' : CSlice Cell) : Verif.blockInfo.load s ≠ (.ok w, s') := by
  intro hx
  obtain ⟨e', hR, he, _⟩ := Verif.blockInfo_sound.ld.exact s s' w hs hx
  obtain ⟨⟨⟨e1, e2, ⟨l, r, hl, _, rfl⟩, _, rfl⟩, _⟩, _⟩ := hR
  unfold Enc.Lit at hl
  subst hl
  rw [hc] at he
  have h1 := congrArg (fun x : Enc Cell => x.1.take 32) he
  have hL : ∀ (n : Nat) (x : Enc Cell), ((Enc.bits (natBits 32 n) ++ x : Enc Cell).1.take 32) = natBits 32 n := by
    intro n x
    show (natBits 32 n ++ x.1).take 32 = natBits 32 n
    rw [List.take_append_of_le_length (by simp), List.take_of_length_le (by simp)]
  have hA : blockInfo.enc v ++ e = Enc.bits (natBits 32 0x9bc7a988) ++ ((BlockInfo.body true).enc v ++ e) := Enc.append_assoc _ _ _
  rw [hA, Enc.append_assoc, Enc.append_assoc] at h1
  rw [hL, hL] at h1
  exact absurd (natBits_inj (by decide) (by decide) h1) (by decide)

/-- Finding: the tag of a block does not tell the builds apart. Every block that was stored with the feature is accepted without it, as a block
whose updates of the queue are empty. -/
theorem C88_other_build {acc : Cell → Bool} {v : Block} (hv : (block acc).ok v) :
    loadedAs (block acc) (Verif.block acc) v = .ok ⟨v.globalId, v.info, v.valueFlow, v.stateUpdate, some none, v.extra⟩ := by
  refine loadedAs_ok (block_sound acc) (Verif.block_sound acc) hv (block_fits v) (e := (block acc).enc v) (rest := Enc.nil) ?_ (Enc.append_nil _).symm
  obtain ⟨h1, h2, h3, h4, h5⟩ := hv
  refine .inr ⟨_, _, rfl, ⟨_, _, Tlb.i32_sound.st.canon _ h1, ⟨_, _, (Tlb.lazy_sound false).st.canon _ h2, ⟨_, _, (Tlb.lazy_sound false).st.canon _ h3,
    ⟨_, _, ⟨rfl, ?_⟩, (Tlb.lazy_sound false).st.canon _ h5, rfl⟩, rfl⟩, rfl⟩, rfl⟩, rfl⟩
  refine ⟨_, rfl, rfl, h4.2.1, Enc.ref v.stateUpdate ++ Enc.bits [false], Enc.bits [false, false, true] ++ (Tlb.hash.enc v.outMsgQueueUpdates.diffHash ++
    Tlb.u32.enc v.outMsgQueueUpdates.tailLen), ⟨_, _, ⟨h4.1.1, rfl⟩, rfl, rfl⟩, ?_⟩
  rfl

theorem descr_fits {acc : Cell → Bool} {d : Verif.ShardDescription} (hd : (Verif.shardDescription acc).ok d) : ((Verif.shardDescription acc).enc d).Fits := by
  obtain ⟨⟨h1, h2, h3, h4, h5, h6, _, h8⟩, _⟩ := hd
  have hs : ∀ o : Option FutureSplitMerge, (futureSplitMerge.opt.enc o).1.length ≤ 66 ∧ (futureSplitMerge.opt.enc o).2 = [] := by
    intro o
    cases o with
    | none => exact ⟨by decide, rfl⟩
    | some x =>
      refine ⟨?_, rfl⟩
      show (([true] ++ ([x.merge] ++ (natBits 32 _ ++ natBits 32 _))) : Bits).length ≤ 66
      simp
  have hh : ∀ x : List Byte, Tlb.hash.ok x → (Tlb.hash.enc x).1.length = 256 ∧ (Tlb.hash.enc x).2 = [] := by
    intro x hx
    refine ⟨?_, rfl⟩
    show (bytesToBits x).length = 256
    rw [bytesToBits_length]
    have hx : x.length = 32 := hx
    omega
  have e : (Verif.shardDescription acc).enc d = Enc.bits (natBits 4 0xa) ++ ((Enc.bits (natBits 32 d.tip.seqno) ++ (Enc.bits (natBits 32 d.tip.regMcSeqno) ++ (Enc.bits (natBits 64 d.tip.startLt) ++
    (Enc.bits (natBits 64 d.tip.endLt) ++ (Tlb.hash.enc d.tip.rootHash ++ (Tlb.hash.enc d.tip.fileHash ++ (Verif.shardFlags.enc d.tip.flags ++
    (Enc.bits (natBits 32 d.tip.nextCatchainSeqno) ++ (Enc.bits (natBits 64 d.tip.nextValidatorShard) ++ (Enc.bits (natBits 32 d.tip.minRefMcSeqno) ++
    (Enc.bits (natBits 32 d.tip.genUtime) ++ futureSplitMerge.opt.enc d.tip.splitMergeAt))))))))))) ++ Enc.ref (Tlb.cellOf (shardFunds.enc (d.feesCollected, d.fundsCreated)))) := rfl
  have hb : ∀ n k : Nat, (Enc.bits (natBits n k) : Enc Cell).1.length = n := fun n k => natBits_length _ _
  have hb2 : ∀ l : Bits, (Enc.bits l : Enc Cell).2 = [] := fun l => rfl
  have hf : (Verif.shardFlags.enc d.tip.flags).1.length = 8 ∧ (Verif.shardFlags.enc d.tip.flags).2 = [] := ⟨rfl, rfl⟩
  rw [e]
  constructor
  · simp only [Enc.fst_append, List.length_append, hb, (hh _ h5).1, (hh _ h6).1, hf.1]
    have := (hs d.tip.splitMergeAt).1
    show _ + (_ + (0 : Nat)) ≤ 1023
    omega
  · simp only [Enc.snd_append, List.length_append, hb2, (hh _ h5).2, (hh _ h6).2, hf.2, (hs _).2, List.length_nil]
    show _ + (_ + (1 : Nat)) ≤ 4
    omega

/-- Finding: the tags of a description of a shard do not tell the builds apart, and the fields have other places. Every description that was stored
without the feature (with a time before 2038) is accepted with it, as the description of something else. -/
theorem C88_misread {acc : Cell → Bool} {d : Verif.ShardDescription} (hd : (Verif.shardDescription acc).ok d) (ht : d.tip.genUtime < 2 ^ 31) :
    loadedAs (Verif.shardDescription acc) (shardDescription acc) d = .ok (misread d) := by
  have hok : (shardDescription acc).ok (misread d) := by
    obtain ⟨⟨h1, h2, h3, h4, h5, h6, _, h8, h9, h10, h11, h12⟩, hc⟩ := hd
    have h9 : d.tip.nextValidatorShard < 2 ^ 64 := h9
    exact ⟨⟨h1, h2, h3, h4, h5, h6, trivial, h8, (by show d.tip.nextValidatorShard / 2 ^ 32 < 2 ^ 32; omega),
      (by show d.tip.nextValidatorShard % 2 ^ 32 < 2 ^ 32; omega), h10, trivial⟩, hc⟩
  refine loadedAs_ok (Verif.shardDescription_sound acc) (shardDescription_sound acc) hd (descr_fits hd) (w := misread d)
    (e := (shardDescription acc).enc (misread d)) (rest := Enc.bits (natBits 31 d.tip.genUtime) ++ futureSplitMerge.opt.enc d.tip.splitMergeAt)
    ((shardDescription_sound acc).st.canon _ hok) ?_
  have hr : (futureSplitMerge.opt.enc d.tip.splitMergeAt).2 = [] := by cases d.tip.splitMergeAt <;> rfl
  have h64 : natBits 64 d.tip.nextValidatorShard = natBits 32 (d.tip.nextValidatorShard / 2 ^ 32) ++ natBits 32 (d.tip.nextValidatorShard % 2 ^ 32) := by
    rw [Wr.natBits_mod (Nat.le_refl 32)]; exact natBits_split 32 32 _
  have h32 : natBits 32 d.tip.genUtime = [false] ++ natBits 31 d.tip.genUtime := by
    rw [show (32 : Nat) = 1 + 31 from rfl, natBits_split 1 31, Nat.div_eq_of_lt ht]; rfl
  apply Prod.ext
  · show natBits 4 0xa ++ ((natBits 32 d.tip.seqno ++ (natBits 32 d.tip.regMcSeqno ++ (natBits 64 d.tip.startLt ++ (natBits 64 d.tip.endLt ++
      (bytesToBits d.tip.rootHash ++ (bytesToBits d.tip.fileHash ++ ([_, _, _, _, _, false, false, false] ++ (natBits 32 d.tip.nextCatchainSeqno ++
      (natBits 64 d.tip.nextValidatorShard ++ (natBits 32 d.tip.minRefMcSeqno ++ (natBits 32 d.tip.genUtime ++ (futureSplitMerge.opt.enc d.tip.splitMergeAt).1))))))))))) ++ []) =
      (natBits 4 0xa ++ ((natBits 32 d.tip.seqno ++ (natBits 32 d.tip.regMcSeqno ++ (natBits 64 d.tip.startLt ++ (natBits 64 d.tip.endLt ++
      (bytesToBits d.tip.rootHash ++ (bytesToBits d.tip.fileHash ++ ([_, _, _, _, _, false, false, false] ++ (natBits 32 d.tip.nextCatchainSeqno ++
      (natBits 32 (d.tip.nextValidatorShard / 2 ^ 32) ++ (natBits 32 (d.tip.nextValidatorShard % 2 ^ 32) ++ (natBits 32 d.tip.minRefMcSeqno ++ [false]))))))))))) ++ [])) ++
      (natBits 31 d.tip.genUtime ++ (futureSplitMerge.opt.enc d.tip.splitMergeAt).1)
    rw [h64, h32]
    simp only [List.append_assoc, List.append_nil, List.nil_append, List.cons_append]
    rfl
  · show [] ++ (([] ++ ([] ++ ([] ++ ([] ++ ([] ++ ([] ++ ([] ++ ([] ++ ([] ++ ([] ++ ([] ++ (futureSplitMerge.opt.enc d.tip.splitMergeAt).2))))))))))) ++ [_]) =
      ([] ++ (([] ++ ([] ++ ([] ++ ([] ++ ([] ++ ([] ++ ([] ++ ([] ++ ([] ++ ([] ++ ([] ++ []))))))))))) ++ [_])) ++
      ([] ++ (futureSplitMerge.opt.enc d.tip.splitMergeAt).2)
    rw [hr]
    rfl

/-! ### Examples -/

/-- A header with milliseconds. -/
def exHeader : BlockInfo := ⟨Verif.exHeader 17 0 1 ⟨3, 46⟩ none, 250⟩

theorem exHeader_typed : exHeader.Typed :=
  ⟨⟨by decide, by decide, by decide, by decide, by unfold IsI32; decide, ⟨[], rfl, by unfold ShardIdent.Denotes; decide⟩, by decide, by decide, by decide, by decide,
    by decide, by decide, by decide, by decide, by decide⟩, by decide⟩

example : reloaded blockInfo exHeader = .ok exHeader :=
  (C88_header exHeader_typed).2.2 ⟨by decide, (fun c hc => by cases hc), (fun c hc => by cases hc), (fun e => by cases e)⟩

/-- A block with updates of the queue. -/
def exBlock : Block := ⟨42, .mk false [true] [], .mk false [] [], .mk true [false] [], ⟨List.replicate 32 7, 3⟩, .mk false [] []⟩

theorem exBlock_ok : (block fun _ => true).ok exBlock :=
  ⟨(by show IsI32 42; unfold IsI32; decide), rfl, rfl, ⟨⟨rfl, rfl, (by show 3 < 2 ^ 32; decide)⟩, ⟨(by show _ ≤ _; decide +kernel), (by show _ ≤ _; decide +kernel)⟩, rfl⟩, rfl⟩

example : loadedAs (block fun _ => true) (Verif.block fun _ => true) exBlock = .ok ⟨42, .mk false [true] [], .mk false [] [], .mk true [false] [], some none, .mk false [] []⟩ :=
  C88_other_build exBlock_ok

/-- A description that was made without the feature: the identifier of the shard is now an anchor, and the number of the block the time. -/
example : (loadedAs (Verif.shardDescription fun _ => true) (shardDescription fun _ => true) exShard).toOption.map
    (fun d => (d.tip.seqno, d.tip.extProcessedToAnchorId, d.tip.minRefMcSeqno, d.tip.genUtime)) = some (7, 2 ^ 31, 0, 8) := by
  rw [C88_misread exShard_ok (by decide)]; rfl

/-- A header of the older form is accepted. -/
example : ((loadedAs Verif.blockInfo blockInfo exHeader.info).toOption.map fun v => (v.info.seqno, v.info.genSoftware, v.genUtimeMs)) = some (17, ⟨3, 46⟩, 0) := by
  decide +kernel

/-- A header of the newer form is not accepted without the feature. -/
example : (loadedAs blockInfo Verif.blockInfo exHeader).isOk = false := by decide +kernel

end Verif.Tycho
