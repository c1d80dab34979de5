import Verif.SliceLemmas
import Verif.CellBuilder
set_option linter.unusedVariables false
set_option linter.unusedSimpArgs false
/-
Refinement lemmas for raw reads, windows and references.
-/
namespace Verif
open DataBuilder (u16add_eq bind_ok getMsbD_shr getMsbD_mask bitAt_mask bitAt_singleton)

theorem bitAt_cons (x : Byte) (l : List Byte) (j : Nat) :
    bitAt (x :: l) j = if j < 8 then x.getMsbD j else bitAt l (j - 8) := by
  have := bitAt_append [x] l j
  simp only [List.singleton_append, List.length_singleton, Nat.mul_one] at this
  rw [this]
  split
  · rw [bitAt_singleton _ _ (by assumption)]
  · rfl

namespace CSlice
variable {ρ : Type}

theorem rawLoop_spec (data : List Byte) {r : Nat} (hr0 : 0 < r) (hr : r < 8) (n : Nat) :
    ∀ p, p + n < data.length → ∃ t, rawLoop data r n p = .ok t ∧ t.length = n ∧
      ∀ j, j < 8 * n → bitAt t j = bitAt data (8 * p + r + j) := by
  induction n with
  | zero => intro p _; exact ⟨[], rfl, rfl, fun j hj => by omega⟩
  | succ n ih =>
    intro p hp
    obtain ⟨t, e, hl, ht⟩ := ih (p + 1) (by omega)
    unfold rawLoop
    rw [rd_ok (by omega), bind_ok, rd_ok (by omega), bind_ok, e, bind_ok]
    refine ⟨_, rfl, by simp [hl], ?_⟩
    intro j hj
    rw [bitAt_cons]
    split
    · rename_i h8
      rw [BitVec.getMsbD_or, getMsbD_shr _ _ h8]
      by_cases hc : j + r < 8
      · rw [getMsbD_shl _ _ _ hc, bitAt_byte _ _ _ hc]
        have : ¬ (8 - r ≤ j) := by omega
        simp only [this, decide_false, Bool.false_and, Bool.or_false]
        exact bitAt_congr _ (by omega)
      · rw [getMsbD_shl_out _ _ _ (by omega), bitAt_byte _ _ _ (by omega)]
        have : (8 - r ≤ j) := by omega
        simp only [this, decide_true, Bool.true_and, Bool.false_or]
        exact bitAt_congr _ (by omega)
    · rw [ht _ (by omega)]
      exact bitAt_congr _ (by omega)

theorem mask_tail {t : List Byte} {n : Nat} {f : Nat → Bool} (hn : 0 < n) (hl : t.length = (n + 7) / 8)
    (ht : ∀ j, j < n → bitAt t j = f j) :
    ∃ v, (if n % 8 ≠ 0 then do
          let x ← rd t ((n + 7) / 8 - 1)
          wr t ((n + 7) / 8 - 1) (x &&& ((0xff#8) <<< (8 - n % 8)))
        else .ok t : Except Err (List Byte)) = .ok v ∧ v.length = (n + 7) / 8 ∧
      ∀ j, bitAt v j = (decide (j < n) && f j) := by
  by_cases h : n % 8 = 0
  · refine ⟨t, by simp [h], hl, ?_⟩
    intro j
    by_cases hj : j < n
    · simp [hj, ht j hj]
    · rw [bitAt_of_le (by omega)]; simp [hj]
  · rw [if_pos h, rd_ok (by omega), bind_ok, wr_ok (by omega)]
    refine ⟨_, rfl, by simp [hl], ?_⟩
    intro j
    rw [bitAt_mask (by omega) (by omega)]
    by_cases hj : j < n
    · rw [ht j hj]
      split
      · have : j % 8 < n % 8 := by omega
        simp [this, hj]
      · simp [hj]
    · split
      · have : ¬ (j % 8 < n % 8) := by omega
        simp [this, hj]
      · rw [bitAt_of_le (by omega)]; simp [hj]

/-- The bytes `get_raw` returns for a bit string: packed, zero padded at the end. -/
def PackedAs (v : List Byte) (l : Bits) : Prop :=
  v.length = (l.length + 7) / 8 ∧ ∀ j, bitAt v j = l.getD j false

theorem getRaw_ok {s : CSlice ρ} (hs : WF s) {off cap n : Nat} (hcap : (n + 7) / 8 ≤ cap)
    (h : off + n ≤ s.bits.length) : ∃ v, s.getRaw off cap n = .ok v ∧ PackedAs v (s.seg off n) := by
  have h1 := hs.start_le
  have h2 := hs.end_le
  have h3 := hs.data_le
  have h' := h
  rw [bits_length] at h
  have hsl := seg_length h'
  have hsg := fun j (hj : j < n) => seg_getD (s := s) h' hj
  unfold getRaw
  by_cases hn0 : n = 0
  · subst hn0
    exact ⟨[], by simp, by simp [seg], by intro j; simp [seg, bitAt]⟩
  rw [if_neg hn0, u16add_eq (by omega), if_pos (by omega)]
  dsimp only
  rw [if_pos hcap, u16add_eq (by omega)]
  have fin : ∀ t : List Byte, t.length = (n + 7) / 8 →
      (∀ j, j < n → bitAt t j = bitAt s.data (s.range.bitsStart + off + j)) →
      ∃ v, (if n % 8 ≠ 0 then do
          let x ← rd t ((n + 7) / 8 - 1)
          wr t ((n + 7) / 8 - 1) (x &&& ((0xff#8) <<< (8 - n % 8)))
        else .ok t : Except Err (List Byte)) = .ok v ∧ PackedAs v (s.seg off n) := by
    intro t hl ht
    obtain ⟨v, e, hvl, hv⟩ := mask_tail (f := fun j => bitAt s.data (s.range.bitsStart + off + j)) (by omega) hl ht
    refine ⟨v, e, by rw [hvl, hsl], ?_⟩
    intro j
    rw [hv]
    by_cases hj : j < n
    · rw [hsg j hj]; simp [hj]
    · rw [List.getD_eq_getElem?_getD, List.getElem?_eq_none (by omega)]
      simp [hj]
  generalize hp : s.range.bitsStart + off = p at *
  by_cases hr : p % 8 = 0
  · rw [if_pos ⟨hr, by omega⟩, rdN_ok (by omega), bind_ok]
    apply fin _ (by simp; omega)
    intro j hj
    rw [bitAt_take_drop]
    have : j < 8 * ((n + 7) / 8) := by omega
    simp only [this, decide_true, Bool.true_and]
    exact bitAt_congr _ (by omega)
  · rw [if_neg (by omega), if_pos hr, u16add_eq (by omega)]
    rw [if_neg (by omega)]
    obtain ⟨t, e, hl, ht⟩ := rawLoop_spec s.data (r := p % 8) (by omega) (by omega) ((n + p % 8 + 7) / 8 - 1) (p / 8) (by omega)
    rw [e, bind_ok]
    by_cases hc : (n + p % 8 + 7) / 8 - 1 < (n + 7) / 8
    · rw [if_pos hc, rd_ok (by omega), bind_ok]
      apply fin _ (by simp; omega)
      intro j hj
      rw [bitAt_append, hl]
      split
      · rw [ht _ (by assumption)]
        exact bitAt_congr _ (by omega)
      · rw [bitAt_singleton _ _ (by omega), getMsbD_shl _ _ _ (by omega), bitAt_byte _ _ _ (by omega)]
        exact bitAt_congr _ (by omega)
    · rw [if_neg hc]
      apply fin _ (by omega)
      intro j hj
      rw [ht _ (by omega)]
      exact bitAt_congr _ (by omega)

theorem getRaw_zero_err {s : CSlice ρ} (hs : WF s) {cap n : Nat} (hno : s.range.bitsStart + n < 65536)
    (h : ¬ n ≤ s.bits.length) : s.getRaw 0 cap n = .error .cellUnderflow := by
  have h1 := hs.start_le
  rw [bits_length] at h
  unfold getRaw
  rw [if_neg (by omega), u16add_eq hno, if_neg (by omega)]

theorem getRaw_small_target {s : CSlice ρ} {off cap n : Nat} (hcap : ¬ (n + 7) / 8 ≤ cap) :
    s.getRaw off cap n = .error .cellUnderflow := by
  unfold getRaw
  rw [if_neg (by omega)]
  split
  · dsimp only
    rw [if_neg hcap]
  · rfl

theorem rawBits_packed {v : List Byte} {l : Bits} (h : PackedAs v l) : rawBits v l.length = l := by
  apply list_ext_getD (by simp)
  intro i hi
  rw [rawBits_length] at hi
  rw [rawBits_getD, if_pos (by have := h.1; omega), h.2]
  simp [hi]

/-! ### Windows -/

/-- The window moved by a successful range operation. -/
theorem tooSmall_eq {s : CSlice ρ} (hs : WF s) {bits refs : Nat} (hno : s.range.bitsStart + bits < 65536)
    (hnr : s.range.refsStart + refs < 256) :
    s.range.tooSmall bits refs = !(decide (bits ≤ s.bits.length) && decide (refs ≤ s.refList.length)) := by
  have h1 := hs.start_le
  have h2 := hs.rstart_le
  have h3 := hs.rend_le
  have hb : s.refList.length = s.range.refsEnd - s.range.refsStart := by simp [refList]; omega
  unfold SliceRange.tooSmall
  rw [u16add_eq hno, u8add_eq hnr, bits_length, hb]
  by_cases a : bits ≤ s.range.bitsEnd - s.range.bitsStart <;>
    by_cases b : refs ≤ s.range.refsEnd - s.range.refsStart <;> simp [a, b] <;> omega

/-- The sub-window `[a, b)` of bits and `[c, d)` of references. -/
theorem window_bits (s : CSlice ρ) (r : SliceRange) (h1 : s.range.bitsStart ≤ r.bitsStart) (h2 : r.bitsEnd ≤ s.range.bitsEnd) :
    ({ s with range := r } : CSlice ρ).bits
      = (s.bits.drop (r.bitsStart - s.range.bitsStart)).take (r.bitsEnd - r.bitsStart) := by
  apply list_ext_getD
  · simp [bits_length]; omega
  · intro i hi
    rw [bits_length] at hi
    dsimp only at hi
    rw [bits_getD _ hi, getD_take_bits, getD_drop_bits, bits_getD _ (by omega)]
    simp only [hi, decide_true, Bool.true_and]
    exact bitAt_congr _ (by omega)

theorem window_refs (s : CSlice ρ) (r : SliceRange) (h1 : s.range.refsStart ≤ r.refsStart) (h2 : r.refsEnd ≤ s.range.refsEnd) :
    ({ s with range := r } : CSlice ρ).refList
      = (s.refList.drop (r.refsStart - s.range.refsStart)).take (r.refsEnd - r.refsStart) := by
  unfold refList
  simp only
  rw [List.drop_take, List.take_take, List.drop_drop]
  have e1 : s.range.refsStart + (r.refsStart - s.range.refsStart) = r.refsStart := by omega
  have e2 : min (r.refsEnd - r.refsStart) (s.range.refsEnd - s.range.refsStart - (r.refsStart - s.range.refsStart))
      = r.refsEnd - r.refsStart := by omega
  rw [e1, e2]

theorem window_wf {s : CSlice ρ} (hs : WF s) {r : SliceRange} (h1 : r.bitsStart ≤ r.bitsEnd)
    (h2 : r.bitsEnd ≤ s.range.bitsEnd) (h3 : r.refsStart ≤ r.refsEnd) (h4 : r.refsEnd ≤ s.range.refsEnd) :
    WF ({ s with range := r } : CSlice ρ) :=
  ⟨h1, Nat.le_trans h2 hs.end_le, hs.data_le, h3, Nat.le_trans h4 hs.rend_le, hs.refs_le⟩

theorem refList_length {s : CSlice ρ} (hs : WF s) : s.refList.length = s.range.refsEnd - s.range.refsStart := by
  have h2 := hs.rstart_le
  have h3 := hs.rend_le
  simp [refList]; omega

theorem advance_bits {s : CSlice ρ} (hs : WF s) {w : Nat} (h : w ≤ s.bits.length) :
    let s' : CSlice ρ := { s with range := { s.range with bitsStart := u16add s.range.bitsStart w } }
    WF s' ∧ s'.bits = s.bits.drop w ∧ s'.refList = s.refList := by
  have h1 := hs.start_le
  have h2 := hs.end_le
  have h3 := hs.data_le
  have hl := h
  rw [bits_length] at h
  have e : u16add s.range.bitsStart w = s.range.bitsStart + w := u16add_eq (by omega)
  rw [e]
  refine ⟨window_wf hs (by dsimp only; omega) (by simp) hs.rstart_le (by simp), ?_, rfl⟩
  rw [window_bits _ _ (by simp) (by simp)]
  simp only [Nat.add_sub_cancel_left]
  rw [List.take_of_length_le]
  simp [bits_length]; omega

theorem getReference_spec {s : CSlice ρ} (hs : WF s) {i : Nat} (hno : s.range.refsStart + i < 256) :
    s.getReference i = (match s.refList[i]? with | some c => .ok c | none => .error .cellUnderflow) := by
  have h2 := hs.rstart_le
  have h3 := hs.rend_le
  unfold getReference
  rw [u8add_eq hno]
  unfold refList
  rw [List.getElem?_take, List.getElem?_drop]
  by_cases h : s.range.refsStart + i < s.range.refsEnd
  · rw [if_pos h, if_pos (by omega)]
    cases s.refs[s.range.refsStart + i]? <;> rfl
  · rw [if_neg h, if_neg (by omega)]

theorem loadReference_spec {s : CSlice ρ} (hs : WF s) :
    (∀ c cs, s.refList = c :: cs → ∃ s', s.loadReference = (.ok c, s') ∧ WF s' ∧ s'.bits = s.bits ∧ s'.refList = cs) ∧
    (s.refList = [] → s.loadReference = (.error .cellUnderflow, s)) := by
  have h2 := hs.rstart_le
  have h3 := hs.rend_le
  have hlen := refList_length hs
  unfold loadReference
  constructor
  · intro c cs e
    rw [e] at hlen
    simp only [List.length_cons] at hlen
    rw [if_pos (by omega)]
    have hg : s.refs[s.range.refsStart]? = some c := by
      have : s.refList[0]? = some c := by rw [e]; rfl
      unfold refList at this
      rw [List.getElem?_take, List.getElem?_drop, if_pos (by omega)] at this
      simpa using this
    rw [hg]
    refine ⟨_, rfl, window_wf hs hs.start_le (by simp) (by dsimp only; omega) (by simp), ?_, ?_⟩
    · rw [window_bits _ _ (by simp) (by simp)]
      simp only [Nat.sub_self, List.drop_zero]
      rw [List.take_of_length_le]
      simp [bits_length]
    · rw [window_refs _ _ (by simp) (by simp), e]
      simp only [Nat.add_sub_cancel_left, List.drop_succ_cons, List.drop_zero]
      rw [List.take_of_length_le]
      omega
  · intro e
    rw [e] at hlen
    simp only [List.length_nil] at hlen
    rw [if_neg (by omega)]

end CSlice

/-! ### Storing a slice -/

theorem DataBuilder.storeSliceData_spec {ρ : Type} {b : DataBuilder} (hb : b.WF) {s : CSlice ρ} (hs : s.WF) :
    (b.bitLen + s.bits.length ≤ maxBitLen → DataBuilder.Appends b (b.storeSliceData s) s.bits) ∧
    (¬ b.bitLen + s.bits.length ≤ maxBitLen → b.storeSliceData s = (.error .cellOverflow, b)) := by
  have hm : maxBitLen = 1023 := rfl
  have h1 := hs.start_le
  have h2 := hs.end_le
  have h3 := hs.data_le
  have hle := hb.le
  have hl := s.bits_length
  unfold storeSliceData
  dsimp only
  unfold SliceRange.sizeBits
  rw [← hl, u16add_eq (by omega)]
  constructor
  · intro h
    rw [if_pos h]
    obtain ⟨v, e, hv⟩ := CSlice.getRaw_ok hs (off := 0) (cap := 128) (n := s.bits.length) (by omega) (by omega)
    rw [e]
    have hseg : s.seg 0 s.bits.length = s.bits := by simp [CSlice.seg]
    rw [hseg] at hv
    have := storeRaw_spec hb v (by have := hv.1; omega) h
    rwa [CSlice.rawBits_packed hv] at this
  · intro h
    rw [if_neg h]

end Verif
