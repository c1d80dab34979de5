import Verif.Level
import Verif.BuilderProps
import Verif.CellBuilderLemmas
import Verif.SliceScan
/-
C07, C08, C09: descriptors, level masks and the completion tag.
-/
set_option linter.unusedVariables false
namespace Verif

/-- Every level mask is one of the eight values. -/
theorem LevelMask.all_lt {P : LevelMask → Prop} (h : ∀ k : Fin 8, P (BitVec.ofNat 8 k)) {m : LevelMask}
    (hm : m.toNat < 8) : P m := by
  have := h ⟨m.toNat, hm⟩
  simpa using this

/-! ### C07 -/

/-- C07: the first descriptor byte is an exact codec of mask, exotic flag and reference count. -/
theorem C07_d1 (mask : LevelMask) (hm : mask.toNat < 8) (exotic : Bool) (refs : Nat) (hr : refs ≤ 7) (d2 : Byte) :
    let d : CellDescriptor := ⟨CellDescriptor.computeD1 mask exotic refs, d2⟩
    d.levelMask = mask ∧ d.isExotic = exotic ∧ d.referenceCount = refs ∧ d.storeHashes = false := by
  have key : ∀ k : Fin 8, ∀ exotic : Bool, ∀ refs : Fin 8,
      let d : CellDescriptor := ⟨CellDescriptor.computeD1 (BitVec.ofNat 8 k) exotic refs, 0⟩
      d.levelMask = BitVec.ofNat 8 k ∧ d.isExotic = exotic ∧ d.referenceCount = refs ∧ d.storeHashes = false := by
    decide +kernel
  have h := key ⟨mask.toNat, hm⟩ exotic ⟨refs, by omega⟩
  simp only [BitVec.ofNat_toNat, BitVec.setWidth_eq] at h
  exact h

/-- C07: the second descriptor byte gives back the byte length and the alignment. -/
theorem C07_d2 (bitLen : Nat) (hb : bitLen ≤ 1023) (d1 : Byte) :
    let d : CellDescriptor := ⟨d1, CellDescriptor.computeD2 bitLen⟩
    d.byteLen = (bitLen + 7) / 8 ∧ d.isAligned = decide (bitLen % 8 = 0) := by
  have key : ∀ n : Fin 1024, (CellDescriptor.mk 0 (CellDescriptor.computeD2 n)).byteLen = (n.val + 7) / 8 ∧
      (CellDescriptor.mk 0 (CellDescriptor.computeD2 n)).isAligned = decide (n.val % 8 = 0) := by
    decide +kernel
  exact key ⟨bitLen, by omega⟩

/-- C07: descriptors of different masks, flags, counts, byte lengths or alignments differ. -/
theorem C07_injective {m m' : LevelMask} (hm : m.toNat < 8) (hm' : m'.toNat < 8) {e e' : Bool} {r r' n n' : Nat}
    (hr : r ≤ 7) (hr' : r' ≤ 7) (hn : n ≤ 1023) (hn' : n' ≤ 1023)
    (h : CellDescriptor.mk (CellDescriptor.computeD1 m e r) (CellDescriptor.computeD2 n)
       = CellDescriptor.mk (CellDescriptor.computeD1 m' e' r') (CellDescriptor.computeD2 n')) :
    m = m' ∧ e = e' ∧ r = r' ∧ (n + 7) / 8 = (n' + 7) / 8 ∧ (n % 8 = 0 ↔ n' % 8 = 0) := by
  obtain ⟨a1, a2, a3, _⟩ := C07_d1 m hm e r hr (CellDescriptor.computeD2 n)
  obtain ⟨b1, b2, b3, _⟩ := C07_d1 m' hm' e' r' hr' (CellDescriptor.computeD2 n')
  obtain ⟨a4, a5⟩ := C07_d2 n hn (CellDescriptor.computeD1 m e r)
  obtain ⟨b4, b5⟩ := C07_d2 n' hn' (CellDescriptor.computeD1 m' e' r')
  rw [h] at a1 a2 a3 a4 a5
  refine ⟨a1.symm.trans b1, a2.symm.trans b2, a3.symm.trans b3, a4.symm.trans b4, ?_⟩
  have := a5.symm.trans b5
  exact decide_eq_decide.mp this

/-- C07: `virtualize` on the descriptor shifts exactly the level mask. -/
theorem C07_virtualize (d : CellDescriptor) (o : Nat) (ho : o < 8) :
    (d.virtualize o).levelMask = d.levelMask.virtualize o ∧ (d.virtualize o).isExotic = d.isExotic ∧
    (d.virtualize o).referenceCount = d.referenceCount ∧ (d.virtualize o).d2 = d.d2 := by
  have key : ∀ x : Fin 256, ∀ o : Fin 8,
      let d : CellDescriptor := ⟨BitVec.ofNat 8 x, 0⟩
      (d.virtualize o).levelMask = d.levelMask.virtualize o ∧ (d.virtualize o).isExotic = d.isExotic ∧
      (d.virtualize o).referenceCount = d.referenceCount := by decide +kernel
  have h := key ⟨d.d1.toNat, d.d1.isLt⟩ ⟨o, ho⟩
  simp only [BitVec.ofNat_toNat, BitVec.setWidth_eq] at h
  exact ⟨h.1, h.2.1, h.2.2, rfl⟩

example : CellDescriptor.mk (CellDescriptor.computeD1 5 true 2) (CellDescriptor.computeD2 1021) = ⟨0xaa, 0xff⟩ := by decide

/-! ### C08 -/

/-- C08: `level()` is the number of set bits; `hash_index(l)` the number of significant levels in `1..=l`;
`contains(l)` tells whether `l` is significant; `virtualize` composes additively. -/
theorem C08_mask (m : LevelMask) (hm : m.toNat < 8) :
    m.level = m.countUpTo 3 ∧
    (∀ l, l ≤ 3 → m.hashIndex l = m.countUpTo l) ∧
    (∀ l, l ≤ 3 → (m.contains l = true ↔ m.Significant l)) ∧
    (∀ l, m.hashIndex l ≤ m.hashIndex (l + 1)) ∧
    (∀ l, 3 ≤ l → m.hashIndex l = m.level) ∧
    (∀ a b, (m.virtualize a).virtualize b = m.virtualize (a + b)) := by
  have k1 : ∀ k : Fin 8, LevelMask.level (BitVec.ofNat 8 k) = LevelMask.countUpTo (BitVec.ofNat 8 k) 3 := by decide +kernel
  have k2 : ∀ k : Fin 8, ∀ l : Fin 4, LevelMask.hashIndex (BitVec.ofNat 8 k) l = LevelMask.countUpTo (BitVec.ofNat 8 k) l := by
    decide +kernel
  have k3 : ∀ k : Fin 8, ∀ l : Fin 4, (LevelMask.contains (BitVec.ofNat 8 k) l = true ↔
      (l.val = 0 ∨ (BitVec.ofNat 8 k).getLsbD (l - 1) = true)) := by decide +kernel
  have k4 : ∀ k : Fin 8, LevelMask.level (BitVec.ofNat 8 k &&& 7) = LevelMask.level (BitVec.ofNat 8 k) := by decide +kernel
  have top : ∀ l, 3 ≤ l → m.hashIndex l = m.level := by
    intro l hl
    unfold LevelMask.hashIndex
    have : LevelMask.fromLevel l = 7 := by
      match l, hl with
      | 3, _ => rfl
      | n + 4, _ => rfl
    rw [this]
    exact LevelMask.all_lt (P := fun m => LevelMask.level (m &&& 7) = m.level) k4 hm
  have idx : ∀ l, l ≤ 3 → m.hashIndex l = m.countUpTo l := by
    intro l hl
    exact LevelMask.all_lt (P := fun m => m.hashIndex l = m.countUpTo l) (fun k => k2 k ⟨l, by omega⟩) hm
  refine ⟨LevelMask.all_lt (P := fun m => m.level = m.countUpTo 3) k1 hm, idx, ?_, ?_, top, ?_⟩
  · intro l hl
    exact LevelMask.all_lt (P := fun m => m.contains l = true ↔ m.Significant l) (fun k => k3 k ⟨l, by omega⟩) hm
  · intro l
    by_cases h : l < 3
    · rw [idx l (by omega), idx (l + 1) (by omega), LevelMask.countUpTo]
      omega
    · rw [top l (by omega), top (l + 1) (by omega)]
      omega
  · intro a b
    unfold LevelMask.virtualize
    rw [BitVec.shiftRight_add]

/-- C08: the hash slots are a gap-free numbering of the significant levels: the index goes up by exactly one at a
significant level and stays the same otherwise. -/
theorem C08_slots (m : LevelMask) (hm : m.toNat < 8) (l : Nat) (hl : l < 3) :
    m.hashIndex (l + 1) = m.hashIndex l + (if m.contains (l + 1) then 1 else 0) := by
  have k : ∀ k : Fin 8, ∀ l : Fin 3, LevelMask.hashIndex (BitVec.ofNat 8 k) (l + 1) =
      LevelMask.hashIndex (BitVec.ofNat 8 k) l + (if LevelMask.contains (BitVec.ofNat 8 k) (l + 1) then 1 else 0) := by
    decide +kernel
  exact LevelMask.all_lt (P := fun m => m.hashIndex (l + 1) = m.hashIndex l + (if m.contains (l + 1) then 1 else 0))
    (fun i => k i ⟨l, hl⟩) hm

/-- C08: the iterator yields exactly the significant levels `0..=3`, in increasing order. -/
theorem C08_iter (m : LevelMask) (hm : m.toNat < 8) :
    m.toList = (List.range 4).filter (fun l => l = 0 ∨ m.getLsbD (l - 1) = true) ∧ m.toList.length = m.level + 1 := by
  have k : ∀ k : Fin 8, LevelMask.toList (BitVec.ofNat 8 k) =
      (List.range 4).filter (fun l => l = 0 ∨ (BitVec.ofNat 8 k.val).getLsbD (l - 1) = true) ∧
      (LevelMask.toList (BitVec.ofNat 8 k)).length = LevelMask.level (BitVec.ofNat 8 k) + 1 := by decide +kernel
  exact LevelMask.all_lt (P := fun m => m.toList = (List.range 4).filter (fun l => l = 0 ∨ m.getLsbD (l - 1) = true) ∧
    m.toList.length = m.level + 1) k hm

example : LevelMask.toList 5 = [0, 1, 3] ∧ LevelMask.level 5 = 2 ∧ LevelMask.hashIndex 5 2 = 1 := by decide

/-- The representation mask of `compute_hashes` is `from_level(l)`. It agrees with the reference implementation's
"own mask cut to the levels below" exactly for gap-free masks; for a mask with a gap (a pruned branch can have one) the
two differ, so higher hashes of such cells are not the ones of the reference implementation. -/
theorem C08_from_level_vs_cut (m : LevelMask) (hm : m.toNat < 8) :
    ((∀ l, l ≤ 3 → m.contains l = true → LevelMask.fromLevel l = m &&& LevelMask.fromLevel l) ↔
      (m = 0 ∨ m = 1 ∨ m = 3 ∨ m = 7)) := by
  have k : ∀ k : Fin 8, ((∀ l : Fin 4, LevelMask.contains (BitVec.ofNat 8 k) l = true →
      LevelMask.fromLevel l = BitVec.ofNat 8 k &&& LevelMask.fromLevel l) ↔
      (BitVec.ofNat 8 k = 0 ∨ BitVec.ofNat 8 k = 1 ∨ BitVec.ofNat 8 k = 3 ∨ BitVec.ofNat 8 k = 7#8)) := by decide +kernel
  have h := LevelMask.all_lt (P := fun m => ((∀ l : Fin 4, m.contains l = true →
      LevelMask.fromLevel l = m &&& LevelMask.fromLevel l) ↔ (m = 0 ∨ m = 1 ∨ m = 3 ∨ m = 7#8))) k hm
  exact ⟨fun h1 => h.mp fun l => h1 l (by omega), fun h1 l hl => h.mpr h1 ⟨l, by omega⟩⟩

/-! ### C09 -/

theorem tagged_length (l : Bits) : (tagged l).length = 8 * ((l.length + 7) / 8) := by
  unfold tagged
  split
  · omega
  · simp only [List.length_append, List.length_cons, List.length_replicate]; omega

/-- C09: the data bits are recovered from the finished bytes and the descriptor the decoder sees. -/
theorem C09_decode {b : DataBuilder} (hb : b.WF) (d1 : Byte) :
    let d : CellDescriptor := ⟨d1, CellDescriptor.computeD2 b.bitLen⟩
    b.finish.length = d.byteLen ∧ decodeBitLen d b.finish = b.bits.length ∧
    (bytesToBits b.finish).take (decodeBitLen d b.finish) = b.bits := by
  have hm : maxBitLen = 1023 := rfl
  have hle := hb.le
  obtain ⟨h1, h2⟩ := C07_d2 b.bitLen (by omega) d1
  obtain ⟨f1, f2⟩ := DataBuilder.finish_spec hb
  have hbl := DataBuilder.bits_length b
  have hdec : decodeBitLen ⟨d1, CellDescriptor.computeD2 b.bitLen⟩ b.finish = b.bits.length := by
    unfold decodeBitLen
    rw [h2, hbl, f1]
    by_cases h : b.bitLen % 8 = 0
    · simp only [h, decide_true, if_true]; omega
    · simp only [h, decide_false, Bool.false_eq_true, if_false]
      have hne : b.finish ≠ [] := by
        intro e; rw [e] at f1; simp at f1; omega
      rw [List.getLast?_eq_some_getLast hne]
      dsimp only
      -- the last byte's bits
      have hl : ∀ j, j < 8 → (b.finish.getLast hne).getMsbD j = (tagged b.bits).getD (8 * (b.bitLen / 8) + j) false := by
        intro j hj
        rw [← f2, bytesToBits_getD, ← bitAt_byte _ _ _ hj]
        congr 1
        rw [List.getLast_eq_getElem, List.getD_eq_getElem?_getD, List.getElem?_eq_getElem (by omega)]
        simp only [Option.getD_some]
        congr 1
        omega
      have ht : ∀ j, 8 * (b.bitLen / 8) + j ≥ b.bitLen → (tagged b.bits).getD (8 * (b.bitLen / 8) + j) false
          = decide (8 * (b.bitLen / 8) + j = b.bitLen) := by
        intro j hj
        unfold tagged
        rw [hbl, if_neg h, getD_append_bits, if_neg (by omega), hbl]
        by_cases e : 8 * (b.bitLen / 8) + j = b.bitLen
        · rw [e]; simp
        · obtain ⟨k, hk⟩ : ∃ k, 8 * (b.bitLen / 8) + j - b.bitLen = k + 1 := ⟨_, (Nat.succ_pred_eq_of_pos (by omega)).symm⟩
          rw [hk, List.getD_cons_succ, getD_replicate_false]
          simp [e]
      obtain ⟨t1, t2, t3⟩ := trailingZeros_spec (b.finish.getLast hne)
      have hlsb : ∀ i, i < 8 → (b.finish.getLast hne).getLsbD i = (b.finish.getLast hne).getMsbD (7 - i) := by
        intro i hi
        simp only [BitVec.getMsbD]
        simp [show 7 - i < 8 by omega, show 7 - (7 - i) = i by omega]
      have tz : trailingZeros (b.finish.getLast hne) = 7 - b.bitLen % 8 := by
        have hone : (b.finish.getLast hne).getLsbD (7 - b.bitLen % 8) = true := by
          rw [hlsb _ (by omega), hl _ (by omega), ht _ (by omega)]
          simp; omega
        have h1 : ¬ 7 - b.bitLen % 8 < trailingZeros (b.finish.getLast hne) := by
          intro hlt
          rw [t2 _ hlt] at hone
          cases hone
        have h2 : ¬ trailingZeros (b.finish.getLast hne) < 7 - b.bitLen % 8 := by
          intro hlt
          have := t3 (by omega)
          rw [hlsb _ (by omega), hl _ (by omega), ht _ (by omega)] at this
          simp at this; omega
        omega
      rw [tz]; omega
  refine ⟨by rw [f1, h1], hdec, ?_⟩
  rw [hdec, f2]
  unfold tagged
  split
  · simp
  · rw [List.take_left]

/-- C09: equal finished bytes and equal second descriptor byte mean equal data bits. -/
theorem C09_unique {a b : DataBuilder} (ha : a.WF) (hb : b.WF)
    (h2 : CellDescriptor.computeD2 a.bitLen = CellDescriptor.computeD2 b.bitLen) (hd : a.finish = b.finish) : a.bits = b.bits := by
  have x := (C09_decode ha 0).2.2
  have y := (C09_decode hb 0).2.2
  rw [h2, hd] at x
  exact x.symm.trans y

/-- Without the descriptor the bytes alone do not determine the bits (so its presence in the statement matters). -/
example : ∃ a b : DataBuilder, a.WF ∧ b.WF ∧ a.finish = b.finish ∧ a.bits ≠ b.bits := by
  have wa := (DataBuilder.C01_store DataBuilder.wf_new (.uint 0x8c 8) (by simp [DataBuilder.StoreOp.Valid])).2.2.1
  have wb := (DataBuilder.C01_store DataBuilder.wf_new (.uint 0x11 5) (by simp [DataBuilder.StoreOp.Valid])).2.2.1
  refine ⟨_, _, wa, wb, ?_, ?_⟩ <;> decide +kernel

end Verif
