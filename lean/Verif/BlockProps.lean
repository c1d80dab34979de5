import Verif.Block
import Verif.ConfigParamsProps
import Verif.CurrencyThms
/-
C69: blocks in cells, and the balance of a block.
-/
set_option linter.unusedVariables false
set_option linter.unusedSimpArgs false
namespace Verif

/-! ### Specification -/

/-- The fields of a header are in the ranges of their types, and the shard is one that the constructors make. -/
structure BlockInfo.Typed (v : BlockInfo) : Prop where
  version : v.version < 2 ^ 32
  flags : v.flags < 2 ^ 8
  seqno : v.seqno < 2 ^ 32
  vertSeqno : v.vertSeqno < 2 ^ 32
  workchain : IsI32 v.shard.workchain
  shard : ∃ p, v.shard.Is v.shard.workchain p
  genUtime : v.genUtime < 2 ^ 32
  startLt : v.startLt < 2 ^ 64
  endLt : v.endLt < 2 ^ 64
  listHash : v.genValidatorListHashShort < 2 ^ 32
  catchain : v.genCatchainSeqno < 2 ^ 32
  minRef : v.minRefMcSeqno < 2 ^ 32
  prevKey : v.prevKeyBlockSeqno < 2 ^ 32
  software : v.genSoftware.version < 2 ^ 32 ∧ v.genSoftware.capabilities < 2 ^ 64

/-- The block references are in the ranges of their types. -/
def BlockRef.Typed (r : BlockRef) : Prop := r.endLt < 2 ^ 64 ∧ r.seqno < 2 ^ 32 ∧ r.rootHash.length = 32 ∧ r.fileHash.length = 32

@[inherit_doc BlockRef.Typed] def PrevBlockRef.Typed : PrevBlockRef → Prop
  | .single r => r.Typed
  | .afterMerge l r => l.Typed ∧ r.Typed

/-- What comes into a block, in the order of `validate`. -/
def ValueFlow.incoming (v : ValueFlow) : List Currency := [v.fromPrevBlock, v.imported, v.feesImported, v.created, v.minted, v.recovered]
/-- What goes out of a block, in the order of `validate`. -/
def ValueFlow.outgoing (v : ValueFlow) : List Currency := [v.toNextBlock, v.exported, v.feesCollected, v.burned]

/-- The sum of the native tokens. -/
def tokensOf (l : List Currency) : Nat := (l.map Currency.tokens).sum
/-- The sum of the amounts of a currency; `m` gives the amounts of a collection. -/
def extraOf (m : Currency → Nat → Option Nat) (id : Nat) (l : List Currency) : Nat := (l.map fun c => amount (m c) id).sum

/-- All the sums are in the ranges of their types. -/
def SumFits (m : Currency → Nat → Option Nat) (l : List Currency) : Prop :=
  tokensOf l ≤ VarKind.tokens.max ∧ ∀ id, okId id → extraOf m id l < 2 ^ 248

/-! ### Lemmas -/

/-- A value that fits into a cell is read back. -/
theorem reloaded_ok {α : Type} {T : Tlb α} (h : T.Sound) {v : α} (hv : T.ok v) (hf : (T.enc v).Fits) : reloaded T v = .ok v := by
  unfold reloaded
  rw [h.stored hv, if_pos hf]
  dsimp only
  obtain ⟨w, hc⟩ := Tlb.reader_contents (b := (T.enc v).1) (r := (T.enc v).2) hf
  obtain ⟨s', hl, _⟩ := h.ld.reads v _ (h.st.canon v hv) _ Enc.nil w (hc.trans (Enc.append_nil _).symm)
  rw [hl]

/-- What comes back is in the grammar, whatever was stored. -/
theorem reloaded_found {α : Type} {T : Tlb α} (h : T.Sound) {v w : α} {e : Enc Cell} (he : Writes (T.store v) e) (hf : e.Fits) (hr : reloaded T v = .ok w) :
    ∃ e', T.R w e' := by
  unfold reloaded at hr
  rw [Wr.toSl_ok he hf] at hr
  dsimp only at hr
  obtain ⟨wf, _⟩ := Tlb.reader_contents (b := e.1) (r := e.2) hf
  exact h.ld.found wf (Prod.ext hr rfl)

theorem Enc.fst_append (a b : Enc Cell) : (a ++ b).1 = a.1 ++ b.1 := rfl
theorem Enc.snd_append (a b : Enc Cell) : (a ++ b).2 = a.2 ++ b.2 := rfl

/-- The fixed part of a header is written whatever the sequence number is. -/
theorem head_writes {v : BlockInfo} (h : v.Typed) : Writes (infoHead.store v.head) (infoHead.enc v.head) :=
  (Wr.writes_u32 (by decide)).writes.seq ((Tlb.u32_sound.st.writes _ h.version).seq ((infoBits_sound.st.writes v.head.bits h.flags).seq
    ((Tlb.u32_sound.st.writes _ h.seqno).seq ((Tlb.u32_sound.st.writes _ h.vertSeqno).seq ((Tlb.shardIdent_sound.st.writes _ ⟨h.workchain, h.shard⟩).seq
    ((Tlb.u32_sound.st.writes _ h.genUtime).seq ((Tlb.u64_sound.st.writes _ h.startLt).seq ((Tlb.u64_sound.st.writes _ h.endLt).seq
    ((Tlb.u32_sound.st.writes _ h.listHash).seq ((Tlb.u32_sound.st.writes _ h.catchain).seq ((Tlb.u32_sound.st.writes _ h.minRef).seq
    (Tlb.u32_sound.st.writes _ h.prevKey))))))))))))

theorem head_size (h : InfoHead) : (infoHead.enc h).1.length = 536 ∧ (infoHead.enc h).2 = [] := by
  constructor
  · unfold infoHead
    simp only [Enc.fst_append, List.length_append]
    simp [Enc.bits, Tlb.u32, Tlb.u64, Tlb.nz32, Tlb.nonZero, Tlb.canonical, Tlb.shardIdent, infoBits, Tlb.u8, Enc.fst_append]
  · rfl

theorem storeRef_writes (o : Option Cell) : Writes (BlockInfo.storeRef o) ((Tlb.lazy false).cond o.isSome |>.enc o) := by
  cases o with
  | none => exact Writes.pure
  | some c => exact (Wr.writes_ref c).writes

theorem info_writes {v : BlockInfo} (h : v.Typed) : Writes (blockInfo.store v) (blockInfo.enc v) := by
  refine (head_writes h).seq (Writes.seq ?_ ((storeRef_writes _).seq ((Wr.writes_ref _).writes.seq (storeRef_writes _))))
  show Writes _ ((globalVersion.cond (BlockInfo.withSoftware v.flags)).enc (if BlockInfo.withSoftware v.flags then some v.genSoftware else none))
  by_cases hw : BlockInfo.withSoftware v.flags = true
  · rw [if_pos hw, if_pos hw]
    exact globalVersion_sound.st.writes _ h.software
  · rw [if_neg hw, if_neg hw]
    exact Writes.pure

theorem info_fits (v : BlockInfo) : (blockInfo.enc v).Fits := by
  have e : blockInfo.enc v = infoHead.enc v.head ++ ((globalVersion.cond (BlockInfo.withSoftware v.flags)).enc (if BlockInfo.withSoftware v.flags then some v.genSoftware else none) ++
    (((Tlb.lazy false).cond v.masterRef.isSome).enc v.masterRef ++ (Enc.ref v.prevRef ++ ((Tlb.lazy false).cond v.prevVertRef.isSome).enc v.prevVertRef))) := rfl
  have h1 : ∀ o : Option Cell, (((Tlb.lazy false).cond o.isSome).enc o).1 = [] ∧ (((Tlb.lazy false).cond o.isSome).enc o).2.length ≤ 1 := by
    intro o; cases o
    · exact ⟨rfl, Nat.zero_le _⟩
    · exact ⟨rfl, Nat.le_refl _⟩
  have h2 : ((globalVersion.cond (BlockInfo.withSoftware v.flags)).enc (if BlockInfo.withSoftware v.flags then some v.genSoftware else none)).1.length ≤ 104 ∧
      ((globalVersion.cond (BlockInfo.withSoftware v.flags)).enc (if BlockInfo.withSoftware v.flags then some v.genSoftware else none)).2 = [] := by
    by_cases hw : BlockInfo.withSoftware v.flags = true
    · rw [if_pos hw]
      refine ⟨?_, rfl⟩
      show (globalVersion.enc v.genSoftware).1.length ≤ 104
      unfold globalVersion
      simp [Enc.bits, Tlb.u32, Tlb.u64, Tlb.canonical, Enc.fst_append]
    · rw [if_neg hw]; exact ⟨Nat.zero_le _, rfl⟩
  have h3 := head_size v.head
  rw [e]
  constructor
  · simp only [Enc.fst_append, List.length_append, (h1 _).1, h3.1, List.length_nil]
    have := h2.1
    show 536 + (_ + (0 + (0 + 0))) ≤ 1023
    omega
  · simp only [Enc.snd_append, List.length_append, h2.2, h3.2, List.length_nil]
    have a := (h1 v.masterRef).2
    have b := (h1 v.prevVertRef).2
    show 0 + (0 + (_ + (1 + _))) ≤ 4
    omega

/-- When a header is one that comes back. -/
theorem info_ok {v : BlockInfo} (h : v.Typed) : blockInfo.ok v ↔ v.seqno ≠ 0 ∧ (∀ c, v.masterRef = some c → c.exotic = false) ∧
    (∀ c, v.prevVertRef = some c → c.exotic = false ∧ v.vertSeqno ≠ 0) ∧ v.Reports := by
  have hv : BlockInfo.vertOk v.vertSeqno v.prevVertRef = true ↔ (∀ c, v.prevVertRef = some c → v.vertSeqno ≠ 0) := by
    unfold BlockInfo.vertOk
    cases v.prevVertRef with
    | none => simp
    | some c => simp
  constructor
  · rintro ⟨⟨⟨h1, _, h3, _, h4⟩, h5⟩, h6⟩
    exact ⟨h1.2.2.1.2, h3.2, fun c hc => ⟨h4.2 c hc, hv.1 h5 c hc⟩, h6⟩
  · rintro ⟨h1, h2, h3, h4⟩
    refine ⟨⟨⟨⟨h.version, h.flags, ⟨h.seqno, h1⟩, h.vertSeqno, ⟨h.workchain, h.shard⟩, h.genUtime, h.startLt, h.endLt, h.listHash, h.catchain, h.minRef, h.prevKey⟩,
      ?_, ⟨rfl, h2⟩, trivial, ⟨rfl, fun c hc => (h3 c hc).1⟩⟩, hv.2 fun c hc => (h3 c hc).2⟩, h4⟩
    show (if BlockInfo.withSoftware v.flags then some v.genSoftware else none).isSome = BlockInfo.withSoftware v.flags ∧
      ∀ a, (if BlockInfo.withSoftware v.flags then some v.genSoftware else none) = some a → globalVersion.ok a
    cases BlockInfo.withSoftware v.flags with
    | true => exact ⟨rfl, fun a ha => by injection ha with ha; subst ha; exact h.software⟩
    | false => exact ⟨rfl, fun a ha => by cases ha⟩

/-! The previous block. -/

theorem ref_size (r : BlockRef) (h : r.Typed) : (blockRef.enc r).1.length = 608 ∧ (blockRef.enc r).2 = [] := by
  refine ⟨?_, rfl⟩
  unfold blockRef
  simp [Enc.bits, Tlb.u32, Tlb.u64, Tlb.hash, Tlb.canonical, Enc.fst_append, bytesToBits_length, h.2.2.1, h.2.2.2]

theorem ref_tame {r : BlockRef} (h : r.Typed) (d : Nat) : Tame (d + 1) (Tlb.cellOf (blockRef.enc r)) := by
  obtain ⟨h1, h2⟩ := ref_size r h
  refine ⟨rfl, ?_, ?_, ?_⟩
  · rw [h1]; omega
  · rw [h2]; exact Nat.zero_le _
  · rw [h2]; exact fun _ h => by cases h

theorem prev_ok {acc : Cell → Bool} (hacc : AcceptsTame acc) {p : PrevBlockRef} (h : p.Typed) : (prevBlockRef acc p.isMerge).ok p ∧
    ((prevBlockRef acc p.isMerge).enc p).Fits ∧ acc (Tlb.cellOf ((prevBlockRef acc p.isMerge).enc p)) = true := by
  cases p with
  | single r =>
    obtain ⟨h1, h2⟩ := ref_size r h
    refine ⟨⟨rfl, h⟩, ⟨?_, ?_⟩, hacc _ (ref_tame h 1023)⟩
    · show (blockRef.enc r).1.length ≤ 1023
      rw [h1]; omega
    · show (blockRef.enc r).2.length ≤ 4
      rw [h2]; exact Nat.zero_le _
  | afterMerge l r =>
    have key : ∀ r : BlockRef, r.Typed → (blockRef.child acc).ok r := fun r h => by
      obtain ⟨h1, h2⟩ := ref_size r h
      refine ⟨h, ⟨?_, ?_⟩, hacc _ (ref_tame h 1023)⟩
      · rw [h1]; omega
      · rw [h2]; exact Nat.zero_le _
    refine ⟨⟨rfl, key l h.1, key r h.2⟩, ⟨Nat.zero_le _, (by decide : 2 ≤ 4)⟩, hacc _ ⟨rfl, Nat.zero_le _, (by decide : 2 ≤ 4), ?_⟩⟩
    intro c hc
    have hc : c ∈ [Tlb.cellOf (blockRef.enc l), Tlb.cellOf (blockRef.enc r)] := hc
    rcases List.mem_cons.1 hc with rfl | hc
    · exact ref_tame h.1 1022
    · rcases List.mem_cons.1 hc with rfl | hc
      · exact ref_tame h.2 1022
      · cases hc

/-! The balance. -/

/-- Adding up, from the left. -/
def addUp (acc : Cell → Bool) (a : Currency) : List Currency → Except Err Currency
  | [] => .ok a
  | c :: l => Currency.checkedAdd acc a c >>= fun x => addUp acc x l

theorem addUp_spec {acc : Cell → Bool} (hacc : AcceptsTame acc) {m : Currency → Nat → Option Nat} : ∀ {l : List Currency} {a : Currency} {f : Nat → Nat}
    {ma : Nat → Option Nat}, CoinsC acc a.other ma → (∀ id, okId id → ma id = entryFor (f id)) → (∀ c ∈ l, Coins acc c.other (m c)) →
    (a.tokens ≤ VarKind.tokens.max ∧ ∀ id, okId id → f id < 2 ^ 248) →
    (a.tokens + tokensOf l ≤ VarKind.tokens.max ∧ (∀ id, okId id → f id + extraOf m id l < 2 ^ 248) →
      ∃ r mr, addUp acc a l = .ok r ∧ r.tokens = a.tokens + tokensOf l ∧ CoinsC acc r.other mr ∧ ∀ id, okId id → mr id = entryFor (f id + extraOf m id l)) ∧
    (¬ (a.tokens + tokensOf l ≤ VarKind.tokens.max ∧ (∀ id, okId id → f id + extraOf m id l < 2 ^ 248)) → addUp acc a l = .error .intOverflow)
  | [], a, f, ma, ha, hf, _, hb => ⟨fun _ => ⟨a, ma, rfl, rfl, ha, hf⟩, fun h => absurd hb h⟩
  | c :: l, a, f, ma, ha, hf, hl, hb => by
    have hc := hl c (List.mem_cons_self ..)
    obtain ⟨g1, g2⟩ := C45_add hacc ha hc
    have hz : NoZero ma := noZero_entryFor f hf
    have hamt : ∀ id, okId id → amount ma id = f id := fun id hid => by unfold amount; rw [hf id hid, entryFor_amount]
    have ht : tokensOf (c :: l) = c.tokens + tokensOf l := by unfold tokensOf; rw [List.map_cons, List.sum_cons]
    have hx : ∀ id, extraOf m id (c :: l) = amount (m c) id + extraOf m id l := fun id => by unfold extraOf; rw [List.map_cons, List.sum_cons]
    have hrun : addUp acc a (c :: l) = Currency.checkedAdd acc a c >>= fun x => addUp acc x l := rfl
    by_cases hfit : a.tokens + c.tokens ≤ VarKind.tokens.max ∧ addFits ma (m c)
    · obtain ⟨r, e1, e2, e3⟩ := g1 hfit
      have hfit2 : ∀ id, okId id → f id + amount (m c) id < 2 ^ 248 := fun id hid => by rw [← hamt id hid]; exact hfit.2 id hid
      obtain ⟨k1, k2⟩ := addUp_spec hacc (l := l) (f := fun id => f id + amount (m c) id) e3
        (fun id hid => by rw [sum_entry hz hid, hamt id hid]) (fun c' h' => hl c' (List.mem_cons_of_mem _ h')) ⟨by rw [e2]; exact hfit.1, hfit2⟩
      rw [hrun, e1]
      have hb' : ((.ok r : Except Err Currency) >>= fun x => addUp acc x l) = addUp acc r l := rfl
      rw [hb', ht]
      constructor
      · rintro ⟨h1, h2⟩
        obtain ⟨r', mr, q1, q2, q3, q4⟩ := k1 ⟨by rw [e2]; omega, fun id hid => by have := h2 id hid; rw [hx] at this; omega⟩
        exact ⟨r', mr, q1, by rw [q2, e2]; omega, q3, fun id hid => by rw [q4 id hid, hx, Nat.add_assoc]⟩
      · intro hn
        refine k2 fun hy => hn ⟨by have := hy.1; rw [e2] at this; omega, fun id hid => ?_⟩
        have := hy.2 id hid
        rw [hx]; omega
    · have e := g2 hfit
      constructor
      · rintro ⟨h1, h2⟩
        refine absurd ⟨?_, fun id hid => ?_⟩ hfit
        · rw [ht] at h1; omega
        · have := h2 id hid; rw [hx] at this; rw [hamt id hid]; omega
      · intro _
        rw [hrun, e]; rfl

theorem addUp_all {acc : Cell → Bool} (hacc : AcceptsTame acc) {m : Currency → Nat → Option Nat} {a : Currency} {l : List Currency} (ha : CoinsC acc a.other (m a))
    (hz : NoZero (m a)) (hl : ∀ c ∈ l, Coins acc c.other (m c)) (hb : a.tokens ≤ VarKind.tokens.max ∧ ∀ id, okId id → amount (m a) id < 2 ^ 248) :
    (SumFits m (a :: l) → ∃ r mr, addUp acc a l = .ok r ∧ r.tokens = tokensOf (a :: l) ∧ CoinsC acc r.other mr ∧
      ∀ id, okId id → mr id = entryFor (extraOf m id (a :: l))) ∧ (¬ SumFits m (a :: l) → addUp acc a l = .error .intOverflow) :=
  addUp_spec hacc (f := amount (m a)) ha (fun id hid => noZero_entry hz hid) hl hb

theorem entryFor_inj {x y : Nat} (h : entryFor x = entryFor y) : x = y := by
  rw [← entryFor_amount x, h, entryFor_amount]

theorem coins_unique {acc : Cell → Bool} {d : Option Cell} {m m' : Nat → Option Nat} (h : Coins acc d m) (h' : Coins acc d m') {id : Nat} (hid : okId id) : m id = m' id := by
  have hget := (bank_any acc).get
  generalize coins = T at hget
  obtain ⟨o, h1, h2, _⟩ := hget d m id h hid
  obtain ⟨o', h1', h2', _⟩ := hget d m' id h' hid
  have e : o = o' := by
    have := h1.symm.trans h1'
    injection this
  exact h2.symm.trans ((congrArg _ e).trans h2')

/-- What comes back was read from what was written. -/
theorem reloaded_read {α : Type} {T : Tlb α} {v w : α} {e : Enc Cell} (he : Writes (T.store v) e) (hr : reloaded T v = .ok w) :
    e.Fits ∧ (T.load (Sl.reader ⟨e.1, e.2⟩)).1 = .ok w := by
  unfold reloaded at hr
  by_cases hf : e.Fits
  · rw [Wr.toSl_ok he hf] at hr
    exact ⟨hf, hr⟩
  · obtain ⟨b', r, _⟩ := (he .new CellB.wf_new).2 (by
      rw [show ((.new : CellB Cell).contents ++ e : Enc Cell) = e from Enc.nil_append _]
      exact hf)
    have : (T.store v).toSl = .error .cellOverflow := by unfold Wr.toSl; rw [r]
    rw [this] at hr
    cases hr

/-! ### Properties -/

/-- **C69, codecs.** For blocks and their parts: what is stored is read back as the same value, nothing but the documented encodings is accepted, and loading
any cell neither panics nor leaves the cell. -/
theorem C69_codecs (acc : Cell → Bool) : (block acc).Sound ∧ blockInfo.Sound ∧ (∀ merge, (prevBlockRef acc merge).Sound) ∧ blockRef.Sound ∧
    (valueFlow acc).Sound ∧ blockExtra.Sound ∧ (mcBlockExtra acc).Sound ∧ (blockProof acc).Sound ∧ blockSignatures.Sound ∧ blockSignature.Sound ∧
    globalVersion.Sound ∧ blockchainConfig.Sound ∧ shardFee.Sound :=
  ⟨block_sound acc, blockInfo_sound, prevBlockRef_sound acc, blockRef_sound, valueFlow_sound acc, blockExtra_sound, mcBlockExtra_sound acc, blockProof_sound acc,
    blockSignatures_sound, blockSignature_sound, globalVersion_sound, blockchainConfig_sound, shardFee_sound⟩

/-- **C69, headers.** Storing a header never fails. It comes back exactly if its number is not zero, a previous vertical block comes with a vertical number
that is not zero, the referenced blocks are in ordinary cells, and there is no software version without the flag for it. -/
theorem C69_header {v : BlockInfo} (h : v.Typed) : (blockInfo.store v).toSl = .ok ⟨(blockInfo.enc v).1, (blockInfo.enc v).2⟩ ∧
    (reloaded blockInfo v = .ok v ↔ v.seqno ≠ 0 ∧ (∀ c, v.masterRef = some c → c.exotic = false) ∧
      (∀ c, v.prevVertRef = some c → c.exotic = false ∧ v.vertSeqno ≠ 0) ∧ (v.flags % 2 = 0 → v.genSoftware = ⟨0, 0⟩)) := by
  have hr : v.Reports ↔ (v.flags % 2 = 0 → v.genSoftware = ⟨0, 0⟩) := by
    unfold BlockInfo.Reports BlockInfo.withSoftware BlockInfo.noSoftware
    rw [Nat.and_one_is_mod, decide_eq_false_iff_not]
    constructor
    · exact fun h h' => h (by omega)
    · exact fun h h' => h (by omega)
  refine ⟨Wr.toSl_ok (info_writes h) (info_fits v), ?_⟩
  rw [← hr]
  refine Iff.trans ?_ (info_ok h)
  constructor
  · intro hl
    obtain ⟨e, ⟨⟨e1, e2, ⟨_, _, _, ⟨_, _, _, ⟨_, _, _, ⟨_, _, ⟨_, hseq⟩, _⟩, _⟩, _⟩, _⟩, ⟨_, _, _, ⟨_, _, hm, ⟨_, _, _, hvr, _⟩, _⟩, _⟩, _⟩, hvt⟩, hrep⟩ :=
      reloaded_found blockInfo_sound (info_writes h) (info_fits v) hl
    have hc : ∀ (o : Option Cell) (e : Enc Cell), ((Tlb.lazy false).cond o.isSome).R o e → ∀ c, o = some c → c.exotic = false := by
      rintro o e ho c rfl
      exact ho.2.1
    refine (info_ok h).2 ⟨hseq, hc _ _ hm, fun c hx => ⟨hc _ _ hvr c hx, ?_⟩, hrep⟩
    have hvt : BlockInfo.vertOk v.vertSeqno v.prevVertRef = true := hvt
    unfold BlockInfo.vertOk at hvt
    rw [hx] at hvt
    simpa using hvt
  · exact fun hv => reloaded_ok blockInfo_sound hv (info_fits v)

/-- **C69, software versions.** Setting or clearing the software version sets or clears its flag and leaves the other flags, so that the header comes back. -/
theorem C69_software {v : BlockInfo} (h : v.Typed) (o : Option GlobalVersion) (ho : ∀ s, o = some s → s.version < 2 ^ 32 ∧ s.capabilities < 2 ^ 64) :
    (v.setGenSoftware o).Typed ∧ (v.setGenSoftware o).genSoftware = o.getD ⟨0, 0⟩ ∧ (v.setGenSoftware o).flags % 2 = o.isSome.toNat ∧
    (v.setGenSoftware o).flags / 2 = v.flags / 2 ∧ (reloaded blockInfo v = .ok v → reloaded blockInfo (v.setGenSoftware o) = .ok (v.setGenSoftware o)) := by
  have key : ∀ f, f < 2 ^ 8 → (f ||| 1) < 2 ^ 8 ∧ (f ||| 1) % 2 = 1 ∧ (f ||| 1) / 2 = f / 2 ∧ (f &&& 0xfe) < 2 ^ 8 ∧ (f &&& 0xfe) % 2 = 0 ∧ (f &&& 0xfe) / 2 = f / 2 := by
    decide +kernel
  obtain ⟨k1, k2, k3, k4, k5, k6⟩ := key v.flags h.flags
  cases o with
  | some s =>
    have ht : (v.setGenSoftware (some s)).Typed := ⟨h.version, k1, h.seqno, h.vertSeqno, h.workchain, h.shard, h.genUtime, h.startLt, h.endLt, h.listHash, h.catchain, h.minRef,
      h.prevKey, ho s rfl⟩
    refine ⟨ht, rfl, k2, k3, fun hr => ?_⟩
    obtain ⟨a, b, c, _⟩ := (C69_header h).2.1 hr
    exact (C69_header ht).2.2 ⟨a, b, c, fun e => absurd (k2.symm.trans e) (by decide)⟩
  | none =>
    have ht : (v.setGenSoftware none).Typed := ⟨h.version, k4, h.seqno, h.vertSeqno, h.workchain, h.shard, h.genUtime, h.startLt, h.endLt, h.listHash, h.catchain, h.minRef,
      h.prevKey, ⟨Nat.two_pow_pos 32, Nat.two_pow_pos 64⟩⟩
    refine ⟨ht, rfl, k5, k6, fun hr => ?_⟩
    obtain ⟨a, b, c, _⟩ := (C69_header h).2.1 hr
    exact (C69_header ht).2.2 ⟨a, b, c, fun _ => rfl⟩

/-- **C69, previous blocks.** Setting the previous block never panics and changes nothing else. Loading it then gives it back exactly if the flag for a merge,
which is set apart, says the same. -/
theorem C69_prev_ref {acc : Cell → Bool} (hacc : AcceptsTame acc) (v : BlockInfo) {p : PrevBlockRef} (hp : p.Typed) :
    ∃ c, v.setPrevRef acc p = .ok { v with prevRef := c } ∧
      ({ v with prevRef := c } : BlockInfo).loadPrevRef = if v.afterMerge = p.isMerge then .ok p else .error .cellUnderflow := by
  obtain ⟨h1, h2, h3⟩ := prev_ok hacc hp
  have hs := (prevBlockRef_sound acc p.isMerge).stored h1
  rw [if_pos h2] at hs
  have hs : (PrevBlockRef.store acc p).toSl = _ := hs
  have hb : (PrevBlockRef.store acc p).toSl >>= buildSl acc = .ok (Tlb.cellOf ((prevBlockRef acc p.isMerge).enc p)) := by
    rw [hs]
    exact if_pos h3
  obtain ⟨w, hc⟩ := Tlb.reader_contents (b := ((prevBlockRef acc p.isMerge).enc p).1) (r := ((prevBlockRef acc p.isMerge).enc p).2) h2
  refine ⟨_, by unfold BlockInfo.setPrevRef; rw [hb], ?_⟩
  unfold BlockInfo.loadPrevRef PrevBlockRef.loadFromCell
  have e0 : ∀ (e : Enc Cell) (l : Rd Cell PrevBlockRef), e.Fits → Tlb.parseAs l (Tlb.cellOf e) = (l (Sl.reader ⟨e.1, e.2⟩)).1 := fun e l h => by
    unfold Tlb.parseAs
    rw [if_neg (by intro h; cases h)]
    exact if_pos h
  refine (e0 _ _ h2).trans ?_
  show (PrevBlockRef.load v.afterMerge (Sl.reader ⟨((prevBlockRef acc p.isMerge).enc p).1, ((prevBlockRef acc p.isMerge).enc p).2⟩)).1 = _
  by_cases hm : v.afterMerge = p.isMerge
  · rw [if_pos hm, hm]
    obtain ⟨s', hl, _⟩ := (prevBlockRef_sound acc p.isMerge).ld.reads p _ ((prevBlockRef_sound acc p.isMerge).st.canon p h1) _ Enc.nil w (hc.trans (Enc.append_nil _).symm)
    rw [show PrevBlockRef.load p.isMerge = (prevBlockRef acc p.isMerge).load from rfl, hl]
  · rw [if_neg hm]
    cases p with
    | single r =>
      have hm : v.afterMerge = true := by
        have hm : ¬ v.afterMerge = false := hm
        simpa using hm
      rw [hm]
      have hn := (Rd.ref_spec w).2 (congrArg Prod.snd hc)
      have e : ∀ s : CSlice Cell, Rd.ref s = (.error .cellUnderflow, s) → (PrevBlockRef.load true s).1 = .error .cellUnderflow := by
        intro s hs
        have : Tlb.childSlice s = (.error .cellUnderflow, s) := by unfold Tlb.childSlice; rw [hs]
        have h : Tlb.childLoad blockRef.load s = (.error .cellUnderflow, s) := Prog.bind_err this
        have : PrevBlockRef.load true s = (.error .cellUnderflow, s) := Prog.bind_err h
        rw [this]
      exact e _ hn
    | afterMerge l r =>
      have hm : v.afterMerge = false := by
        have hm : ¬ v.afterMerge = true := hm
        simpa using hm
      rw [hm]
      have e : ∀ s : CSlice Cell, s.WF → s.bits = [] → (PrevBlockRef.load false s).1 = .error .cellUnderflow := by
        intro s hs hb
        have ht : Tlb.u64.load s = (.error .cellUnderflow, s) := by
          have := (Rd.takes_u64 (ρ := Cell) s hs).2
          exact this (by rw [hb]; decide)
        have h : blockRef.load s = (.error .cellUnderflow, s) := Prog.bind_err ht
        have : PrevBlockRef.load false s = (.error .cellUnderflow, s) := Prog.bind_err h
        rw [this]
      exact e _ w (congrArg Prod.fst hc)

/-- **C69, identifiers of referenced blocks.** The identifier that a reference gives has the shard that was asked for, and its number and both hashes are those
in the stored reference, after the logical time. -/
theorem C69_block_id {r : BlockRef} (h : blockRef.ok r) (shard : ShardIdent) :
    (r.asBlockId shard).shard = shard ∧
    (blockRef.store r).toSl = .ok ⟨natBits 64 r.endLt ++ natBits 32 (r.asBlockId shard).seqno ++ bytesToBits (r.asBlockId shard).rootHash ++
      bytesToBits (r.asBlockId shard).fileHash, []⟩ := by
  refine ⟨rfl, ?_⟩
  have e : blockRef.enc r = (natBits 64 r.endLt ++ natBits 32 r.seqno ++ bytesToBits r.rootHash ++ bytesToBits r.fileHash, []) := by
    show Enc.bits _ ++ (Enc.bits _ ++ (Enc.bits _ ++ Enc.bits _)) = _
    simp only [Enc.bits_append, List.append_assoc]
    rfl
  have hl : (natBits 64 r.endLt ++ natBits 32 r.seqno ++ bytesToBits r.rootHash ++ bytesToBits r.fileHash).length = 608 := by
    have h1 : r.rootHash.length = 32 := h.2.2.1
    have h2 : r.fileHash.length = 32 := h.2.2.2
    simp only [List.length_append, natBits_length, bytesToBits_length, h1, h2]
  rw [blockRef_sound.stored h, e, if_pos ⟨(Nat.le_of_eq hl).trans (by decide), Nat.zero_le _⟩]
  rfl

example : blockRef.ok ⟨7, 5, List.replicate 32 1, List.replicate 32 2⟩ := ⟨show 7 < 2 ^ 64 by decide, show 5 < 2 ^ 32 by decide, rfl, rfl⟩

/-- **C69, signed data.** The data to sign tells which block it is for: it has 68 bytes and determines both hashes. -/
theorem C69_data_for_sign {a b : ShardIdent.BlockId} (ha : a.rootHash.length = 32 ∧ a.fileHash.length = 32) (hb : b.rootHash.length = 32 ∧ b.fileHash.length = 32) :
    (dataForSign a).length = 68 ∧ (dataForSign a = dataForSign b ↔ a.rootHash = b.rootHash ∧ a.fileHash = b.fileHash) := by
  constructor
  · unfold dataForSign; simp [ha.1, ha.2]
  · constructor
    · intro h
      unfold dataForSign at h
      rw [List.append_assoc, List.append_assoc] at h
      have h := List.append_cancel_left h
      exact List.append_inj h (ha.1.trans hb.1.symm)
    · rintro ⟨h1, h2⟩
      unfold dataForSign
      rw [h1, h2]

/-- **C69, the balance.** The sums are computed if they are in range, and their comparison (the result of `validate`) says whether the native tokens and every
other currency are in balance; otherwise the result is an overflow. -/
theorem C69_flow {acc : Cell → Bool} (hacc : AcceptsTame acc) {v : ValueFlow} {m : Currency → Nat → Option Nat}
    (hc : ∀ c ∈ v.incoming ++ v.outgoing, Coins acc c.other (m c) ∧ c.tokens ≤ VarKind.tokens.max ∧ ∀ id, okId id → amount (m c) id < 2 ^ 248)
    (h1 : CoinsC acc v.fromPrevBlock.other (m v.fromPrevBlock) ∧ NoZero (m v.fromPrevBlock))
    (h2 : CoinsC acc v.toNextBlock.other (m v.toNextBlock) ∧ NoZero (m v.toNextBlock)) :
    (SumFits m v.incoming ∧ SumFits m v.outgoing → ∃ a b, v.validate acc = .ok (a, b) ∧
      (a = b ↔ tokensOf v.incoming = tokensOf v.outgoing ∧ ∀ id, okId id → extraOf m id v.incoming = extraOf m id v.outgoing)) ∧
    (¬ (SumFits m v.incoming ∧ SumFits m v.outgoing) → v.validate acc = .error .intOverflow) := by
  have hi : ∀ c ∈ [v.imported, v.feesImported, v.created, v.minted, v.recovered], Coins acc c.other (m c) := fun c h =>
    (hc c (List.mem_append_left _ (List.mem_cons_of_mem _ h))).1
  have ho : ∀ c ∈ [v.exported, v.feesCollected, v.burned], Coins acc c.other (m c) := fun c h => (hc c (List.mem_append_right _ (List.mem_cons_of_mem _ h))).1
  obtain ⟨a1, a2⟩ := addUp_all hacc h1.1 h1.2 hi (hc _ (List.mem_append_left _ (List.mem_cons_self ..))).2
  obtain ⟨b1, b2⟩ := addUp_all hacc h2.1 h2.2 ho (hc _ (List.mem_append_right _ (List.mem_cons_self ..))).2
  have hrun : v.validate acc = addUp acc v.fromPrevBlock [v.imported, v.feesImported, v.created, v.minted, v.recovered] >>= fun a =>
      addUp acc v.toNextBlock [v.exported, v.feesCollected, v.burned] >>= fun b => .ok (a, b) := by
    unfold ValueFlow.validate
    simp only [addUp, bind_assoc]
    rfl
  rw [hrun]
  constructor
  · rintro ⟨f1, f2⟩
    obtain ⟨a, ma, p1, p2, p3, p4⟩ := a1 f1
    obtain ⟨b, mb, q1, q2, q3, q4⟩ := b1 f2
    refine ⟨a, b, by rw [p1, q1]; rfl, ?_⟩
    constructor
    · rintro rfl
      refine ⟨p2.symm.trans q2, fun id hid => ?_⟩
      have : ma id = mb id := coins_unique (coinsC_any p3) (coinsC_any q3) hid
      rw [p4 id hid, q4 id hid] at this
      exact entryFor_inj this
    · rintro ⟨e1, e2⟩
      have hd := coinsC_canonical p3 q3 fun id hid => by
        rw [p4 id hid, q4 id hid]
        exact congrArg entryFor (e2 id hid)
      have ht : a.tokens = b.tokens := p2.trans (e1.trans q2.symm)
      obtain ⟨_, _⟩ := a
      obtain ⟨_, _⟩ := b
      cases hd; cases ht; rfl
  · intro hn
    by_cases f1 : SumFits m v.incoming
    · obtain ⟨a, ma, p1, _⟩ := a1 f1
      rw [p1, b2 fun f2 => hn ⟨f1, f2⟩]; rfl
    · rw [a2 f1]; rfl

/-! ### Violations -/

/-- **C69 fails for extra currencies in the fees.** The loader takes the first reference, which is the cell with the first four amounts, for the dictionary
of the fees: whatever it returns, the fees are not those that were stored. -/
theorem C69_flow_extra {acc : Cell → Bool} {v w : ValueFlow} (h1 : (four.child acc).ok v.fst) (h2 : (four.child acc).ok v.snd) (hf : Tlb.currency.ok v.feesCollected)
    (hb : Tlb.currency.ok v.burned) {d : Cell} (hd : v.feesCollected.other = some d) (hr : reloaded (valueFlow acc) v = .ok w) :
    w.feesCollected.other = some (Tlb.cellOf (four.enc v.fst)) := by
  have hw : Writes (ValueFlow.store acc v) (Enc.bits (natBits 32 (if v.burned.isZero then 0xb8e48dfb else 0x3ebf98b7)) ++ (Enc.ref (Tlb.cellOf (four.enc v.fst)) ++
      (Tlb.currency.enc v.feesCollected ++ ((if v.burned.isZero then Enc.nil else Tlb.currency.enc v.burned) ++ (four.child acc).enc v.snd)))) := by
    rw [ValueFlow.store_run h1]
    refine (Wr.writes_u32 (by split <;> decide)).writes.seq ((Wr.writes_ref _).writes.seq ((Tlb.currency_sound.st.writes _ hf).seq (Writes.seq ?_
      ((four_sound.child acc).st.writes _ h2))))
    cases v.burned.isZero with
    | true => exact Writes.pure
    | false => exact Tlb.currency_sound.st.writes _ hb
  obtain ⟨hfit, hl⟩ := reloaded_read (T := valueFlow acc) hw hr
  obtain ⟨wf, hc⟩ := Tlb.reader_contents hfit
  generalize (Sl.reader _ : CSlice Cell) = s at hl wf hc
  generalize hrest : ((if v.burned.isZero then Enc.nil else Tlb.currency.enc v.burned) ++ (four.child acc).enc v.snd : Enc Cell) = rest at hc
  generalize ht : (if v.burned.isZero then 0xb8e48dfb else 0x3ebf98b7) = t at hc
  have htl : t < 2 ^ 32 := by rw [← ht]; split <;> decide
  obtain ⟨s1, r1, wf1, c1, _⟩ := (Rd.takes_u32 (ρ := Cell)).reads_nat htl s _ wf hc
  have hfe : Tlb.currency.enc v.feesCollected = VarKind.tokens.enc v.feesCollected.tokens ++ (Enc.bits [true] ++ Enc.ref d) := by
    show VarKind.tokens.enc v.feesCollected.tokens ++ optEnc Enc.ref v.feesCollected.other = _
    rw [hd]; rfl
  have hfe' : Tlb.currency.enc ⟨v.feesCollected.tokens, some (Tlb.cellOf (four.enc v.fst))⟩ =
    VarKind.tokens.enc v.feesCollected.tokens ++ (Enc.bits [true] ++ Enc.ref (Tlb.cellOf (four.enc v.fst))) := rfl
  have hok : Tlb.currency.ok ⟨v.feesCollected.tokens, some (Tlb.cellOf (four.enc v.fst))⟩ := hf
  have hr2 := Tlb.currency_sound.ld.reads _ _ (Tlb.currency_sound.st.canon _ hok)
  have hte : ∃ l, VarKind.tokens.enc v.feesCollected.tokens = (Enc.bits l : Enc Cell) := ⟨_, rfl⟩
  obtain ⟨l, hl2⟩ := hte
  obtain ⟨s2, r2, wf2, c2, _⟩ := hr2 s1 (Enc.ref d ++ rest) wf1 (by
    rw [c1, hfe, hfe', hl2]
    show ([] ++ ((l ++ ([true] ++ [])) ++ rest.1), [Tlb.cellOf (four.enc v.fst)] ++ (([] ++ ([] ++ [d])) ++ rest.2)) =
      ((l ++ ([true] ++ [])) ++ ([] ++ rest.1), ([] ++ ([] ++ [Tlb.cellOf (four.enc v.fst)])) ++ ([d] ++ rest.2))
    simp)
  have key : ∀ c, (ValueFlow.loadBody c s1).1 = .ok w → w.feesCollected.other = some (Tlb.cellOf (four.enc v.fst)) := by
    intro c h
    have hb : ValueFlow.loadBody c s1 = _ := Prog.bind_ok r2
    rw [hb] at h
    obtain ⟨b, s3, _, h⟩ := Prog.bind_inv (Prod.ext h rfl)
    obtain ⟨t, s4, _, h⟩ := Prog.bind_inv h
    obtain ⟨u, s5, _, h⟩ := Prog.bind_inv h
    obtain ⟨p, s6, _, h⟩ := Prog.bind_inv h
    obtain ⟨q, s7, _, h⟩ := Prog.bind_inv h
    have h : ((.ok (ValueFlow.make ⟨v.feesCollected.tokens, some (Tlb.cellOf (four.enc v.fst))⟩ b p q) : Except Err ValueFlow), s7) = (.ok w, _) := h
    injection h with h _
    injection h with h
    rw [← h]; rfl
  have hload : (valueFlow acc).load s = _ := Prog.bind_ok r1
  rw [hload] at hl
  split at hl
  · exact key _ hl
  · split at hl
    · exact key _ hl
    · cases hl

/-- A header in the shard `0:8000000000000000`. -/
def exHeader (seqno vertSeqno flags : Nat) (software : GlobalVersion) (vert : Option Cell) : BlockInfo :=
  ⟨0, false, false, false, true, false, false, flags, seqno, vertSeqno, ⟨0, 0x8000000000000000⟩, 1700000000, 10, 20, 1, 2, 3, 4, software, none, .mk false [true] [], vert⟩

/-- **C69 fails for some headers** that can be made with the public fields: they are stored, but with the number zero, or with a previous vertical block and
the vertical number zero, what was stored is refused; and a software version without its flag is lost. -/
theorem C69_header_refused :
    (blockInfo.store (exHeader 0 0 0 ⟨0, 0⟩ none)).toSl.isOk = true ∧ (reloaded blockInfo (exHeader 0 0 0 ⟨0, 0⟩ none)).isOk = false ∧
    (blockInfo.store (exHeader 1 0 0 ⟨0, 0⟩ (some (.mk false [] [])))).toSl.isOk = true ∧
    (reloaded blockInfo (exHeader 1 0 0 ⟨0, 0⟩ (some (.mk false [] [])))).isOk = false ∧
    ((reloaded blockInfo (exHeader 1 0 0 ⟨3, 46⟩ none)).toOption.map fun v => v.genSoftware) = some ⟨0, 0⟩ := by decide +kernel

/-- A flow whose fees have extra currencies. -/
def exLostFees : ValueFlow := ⟨sampleA, sampleA, .zero, .zero, sampleB, .zero, .zero, .zero, .zero, sampleB⟩

/-- **C69 fails for this flow**: it is stored and in balance, but it does not come back. -/
theorem C69_fees_lost : ((valueFlow fun _ => true).store exLostFees).toSl.isOk = true ∧
    ((exLostFees.validate fun _ => true).toOption.map fun p => decide (listed p.1 = listed p.2)) = some true ∧
    (∀ w, reloaded (valueFlow fun _ => true) exLostFees = .ok w → (w.feesCollected.other.map fun c => c.bits) ≠ (exLostFees.feesCollected.other.map fun c => c.bits)) := by
  refine ⟨by decide +kernel, by decide +kernel, fun w h => ?_⟩
  have h1 : (exLostFees.feesCollected.other).isSome = true := by decide +kernel
  obtain ⟨d, hd⟩ := Option.isSome_iff_exists.1 h1
  have ok : ∀ n, n ≤ 10 → Tlb.currency.ok (⟨n, none⟩ : Currency) ∧ n ≤ VarKind.tokens.max := by
    intro n hn
    have : n ≤ VarKind.tokens.max := Nat.le_trans hn (by decide)
    exact ⟨this, this⟩
  have okA : Tlb.currency.ok sampleA := (ok 5 (by decide)).2
  have okB : Tlb.currency.ok sampleB := (ok 6 (by decide)).2
  have okZ : Tlb.currency.ok Currency.zero := (ok 0 (by decide)).2
  have e := C69_flow_extra (acc := fun _ => true) (v := exLostFees) (w := w) ⟨⟨okA, okA, okZ, okZ⟩, ⟨by decide +kernel, by decide +kernel⟩, rfl⟩
    ⟨⟨okZ, okZ, okZ, okB⟩, ⟨by decide +kernel, by decide +kernel⟩, rfl⟩ okB okZ hd h
  rw [e]
  decide +kernel

/-! ### The hypotheses are met -/

example : (exHeader 5 1 1 ⟨3, 46⟩ (some (.mk false [] []))).Typed ∧
    reloaded blockInfo (exHeader 5 1 1 ⟨3, 46⟩ (some (.mk false [] []))) = .ok (exHeader 5 1 1 ⟨3, 46⟩ (some (.mk false [] []))) := by
  have h : (exHeader 5 1 1 ⟨3, 46⟩ (some (.mk false [] []))).Typed :=
    ⟨by decide, by decide, by decide, by decide, by unfold IsI32; decide, ⟨[], rfl, by unfold ShardIdent.Denotes; decide⟩, by decide, by decide, by decide, by decide,
      by decide, by decide, by decide, by decide, by decide⟩
  exact ⟨h, (C69_header h).2.2 ⟨by decide, (fun c hc => by cases hc), (fun c hc => by injection hc with hc; subst hc; exact ⟨rfl, by decide⟩), (fun e => by cases e)⟩⟩

/-- Setting blocks before a merge in a header without the flag. -/
example : ∃ c, (exHeader 5 0 0 ⟨0, 0⟩ none).setPrevRef (fun _ => true) (.afterMerge ⟨1, 2, List.replicate 32 1, List.replicate 32 2⟩ ⟨3, 4, List.replicate 32 3, List.replicate 32 4⟩) =
      .ok { exHeader 5 0 0 ⟨0, 0⟩ none with prevRef := c } ∧ ({ exHeader 5 0 0 ⟨0, 0⟩ none with prevRef := c } : BlockInfo).loadPrevRef = .error .cellUnderflow :=
  C69_prev_ref (acc := fun _ => true) (fun _ _ => rfl) _ ⟨⟨by decide, by decide, rfl, rfl⟩, ⟨by decide, by decide, rfl, rfl⟩⟩

/-- A flow in balance, with extra currencies. -/
def exFlow : ValueFlow := ⟨sampleA, sampleA, ⟨6, none⟩, ⟨2, none⟩, ⟨4, none⟩, .zero, .zero, .zero, .zero, .zero⟩

/-- The amounts in the collections of `exFlow`. -/
def exAmounts (c : Currency) : Nat → Option Nat :=
  if c.other.isSome then fun id => (firstOf [(3, (⟨2 ^ 72, 0⟩ : V248)), (1, ⟨0, 7⟩)] id).map V248.val else fun _ => none

theorem exAmounts_A : CoinsC (fun _ => true) sampleA.other (exAmounts sampleA) ∧ NoZero (exAmounts sampleA) ∧ ∀ id, okId id → amount (exAmounts sampleA) id < 2 ^ 248 := by
  obtain ⟨d, h1, h2⟩ := C45_from_iter (acc := fun _ => true) (fun _ _ => rfl) [(3, ⟨2 ^ 72, 0⟩), (1, ⟨0, 7⟩)]
    (by
      intro e he
      rcases List.mem_cons.mp he with rfl | he
      · exact ⟨show (_ : Nat) < _ from by decide, ⟨by decide, by decide⟩, show (_ : Nat) < _ from by decide⟩
      · rw [List.mem_singleton.mp he]; exact ⟨show (_ : Nat) < _ from by decide, ⟨by decide, by decide⟩, show (_ : Nat) < _ from by decide⟩)
    (by simp)
  have ho : sampleA.other = d := by unfold sampleA; rw [h1]; rfl
  have hs : exAmounts sampleA = fun id => (firstOf [(3, (⟨2 ^ 72, 0⟩ : V248)), (1, ⟨0, 7⟩)] id).map V248.val := if_pos (by decide +kernel)
  have hv : ∀ id, exAmounts sampleA id = none ∨ exAmounts sampleA id = some (2 ^ 200) ∨ exAmounts sampleA id = some 7 := by
    intro id
    rw [hs]
    unfold firstOf
    by_cases e1 : id = 3
    · subst e1; right; left; decide +kernel
    · by_cases e2 : id = 1
      · subst e2; right; right; decide +kernel
      · left; simp [firstOf, Ne.symm e1, Ne.symm e2, e1, e2]
  refine ⟨by rw [ho, hs]; exact h2, fun id _ => ?_, fun id _ => ?_⟩
  · rcases hv id with h | h | h <;> rw [h] <;> decide
  · unfold amount
    rcases hv id with h | h | h <;> rw [h] <;> decide

example : ∃ a b, exFlow.validate (fun _ => true) = .ok (a, b) ∧ a = b := by
  obtain ⟨hA, hz, hb⟩ := exAmounts_A
  have hn : ∀ c : Currency, c.other = none → exAmounts c = fun _ => none := fun c h => if_neg (by rw [h]; decide)
  have hN : ∀ n, n ≤ 10 → Coins (fun _ => true) (⟨n, none⟩ : Currency).other (exAmounts ⟨n, none⟩) ∧ (⟨n, none⟩ : Currency).tokens ≤ VarKind.tokens.max ∧
      ∀ id, okId id → amount (exAmounts ⟨n, none⟩) id < 2 ^ 248 := by
    intro n hn'
    rw [hn _ rfl]
    exact ⟨coins_none _, Nat.le_trans hn' (by decide), fun _ _ => by show (0 : Nat) < _; decide⟩
  have hAA : Coins (fun _ => true) sampleA.other (exAmounts sampleA) ∧ sampleA.tokens ≤ VarKind.tokens.max ∧ ∀ id, okId id → amount (exAmounts sampleA) id < 2 ^ 248 :=
    ⟨coinsC_any hA, by decide, hb⟩
  have hin : ∀ id, extraOf exAmounts id exFlow.incoming = amount (exAmounts sampleA) id ∧ extraOf exAmounts id exFlow.outgoing = amount (exAmounts sampleA) id := by
    intro id
    have h0 : ∀ n, amount (exAmounts ⟨n, none⟩) id = 0 := fun n => by rw [hn _ rfl]; rfl
    constructor
    · show (amount (exAmounts sampleA) id + (amount (exAmounts ⟨6, none⟩) id + (amount (exAmounts ⟨0, none⟩) id + (amount (exAmounts ⟨0, none⟩) id +
        (amount (exAmounts ⟨0, none⟩) id + (amount (exAmounts ⟨0, none⟩) id + 0)))))) = _
      rw [h0, h0]; exact Nat.add_zero _
    · show (amount (exAmounts sampleA) id + (amount (exAmounts ⟨2, none⟩) id + (amount (exAmounts ⟨4, none⟩) id + (amount (exAmounts ⟨0, none⟩) id + 0)))) = _
      rw [h0, h0, h0]; exact Nat.add_zero _
  obtain ⟨a, b, h1, h2⟩ := (C69_flow (acc := fun _ => true) (fun _ _ => rfl) (v := exFlow) (m := exAmounts) (fun c hc => by
      have hc : c ∈ [sampleA, ⟨6, none⟩, ⟨0, none⟩, ⟨0, none⟩, ⟨0, none⟩, ⟨0, none⟩, sampleA, ⟨2, none⟩, ⟨4, none⟩, ⟨0, none⟩] := hc
      simp only [List.mem_cons, List.not_mem_nil, or_false] at hc
      rcases hc with rfl | rfl | rfl | rfl | rfl | rfl | rfl | rfl | rfl | rfl
      exacts [hAA, hN 6 (by decide), hN 0 (by decide), hN 0 (by decide), hN 0 (by decide), hN 0 (by decide), hAA, hN 2 (by decide), hN 4 (by decide), hN 0 (by decide)]) ⟨hA, hz⟩ ⟨hA, hz⟩).1
    ⟨⟨by decide +kernel, fun id hid => by rw [(hin id).1]; exact hb id hid⟩, ⟨by decide +kernel, fun id hid => by rw [(hin id).2]; exact hb id hid⟩⟩
  exact ⟨a, b, h1, h2.2 ⟨by decide +kernel, fun id _ => by rw [(hin id).1, (hin id).2]⟩⟩

end Verif
