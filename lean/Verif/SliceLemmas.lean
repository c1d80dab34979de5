import Verif.Slice
import Verif.BuilderLemmas
set_option linter.unusedVariables false
set_option linter.unusedSimpArgs false
/-
Refinement lemmas for the slice readers: every byte-level read returns exactly the bits of the window.
-/
namespace Verif
open DataBuilder (u16add_eq bind_ok getMsbD_shr getMsbD_mask)

theorem getMsbD_and {w : Nat} (x y : BitVec w) (j : Nat) : (x &&& y).getMsbD j = (x.getMsbD j && y.getMsbD j) :=
  BitVec.getMsbD_and

theorem getMsbD_shl {w : Nat} (x : BitVec w) (r j : Nat) (h : j + r < w) : (x <<< r).getMsbD j = x.getMsbD (j + r) := by
  rw [BitVec.getMsbD_shiftLeft]

theorem getMsbD_shl_out {w : Nat} (x : BitVec w) (r j : Nat) (h : w ≤ j + r) : (x <<< r).getMsbD j = false := by
  rw [BitVec.getMsbD_shiftLeft]
  simp [BitVec.getMsbD]
  try omega

theorem getMsbD_shr_setWidth {w n : Nat} (x : BitVec w) (k j : Nat) (hj : j < n) (hw : n + k ≤ w) :
    ((x >>> k).setWidth n).getMsbD j = x.getMsbD (w - n - k + j) := by
  simp only [BitVec.getMsbD, BitVec.getLsbD_setWidth, BitVec.getLsbD_ushiftRight]
  have e : k + (n - 1 - j) = w - 1 - (w - n - k + j) := by omega
  have h1 : n - 1 - j < n := by omega
  have h2 : w - n - k + j < w := by omega
  simp [hj, h1, h2, e]

theorem getMsbD_zext {w n : Nat} (x : BitVec w) (j : Nat) (hj : j < n) (hw : w ≤ n) :
    (x.setWidth n).getMsbD j = (decide (n - w ≤ j) && x.getMsbD (j - (n - w))) := by
  simp only [BitVec.getMsbD, BitVec.getLsbD_setWidth]
  have h1 : n - 1 - j < n := by omega
  by_cases h : n - w ≤ j
  · have e : n - 1 - j = w - 1 - (j - (n - w)) := by omega
    have h2 : j - (n - w) < w := by omega
    rw [e]
    simp [hj, h, h2]
    intro _
    omega
  · have : x.getLsbD (n - 1 - j) = false := BitVec.getLsbD_of_ge _ _ (by omega)
    simp [this, h]

theorem toNat_of_msb {N : Nat} (v : BitVec N) (l : Bits) (h : l.length ≤ N)
    (hj : ∀ j, j < N → v.getMsbD j = if j < N - l.length then false else l.getD (j - (N - l.length)) false) :
    v.toNat = natOfBits l := by
  have e : wordBits v = List.replicate (N - l.length) false ++ l := by
    apply list_ext_getD (by simp; omega)
    intro i hi
    rw [wordBits_length] at hi
    rw [wordBits_getD, hj i hi, getD_append_bits, List.length_replicate]
    split
    · rw [List.getD_eq_getElem?_getD, List.getElem?_replicate]; split <;> rfl
    · rfl
  rw [← natOfBits_wordBits, e, natOfBits_append]
  have : natOfBits (List.replicate (N - l.length) false) = 0 := by
    generalize N - l.length = k
    induction k with
    | zero => rfl
    | succ k ih => rw [List.replicate_succ, natOfBits_cons, ih]; simp
  rw [this]
  simp

theorem bitAt_congr (d : List Byte) {i j : Nat} (h : i = j) : bitAt d i = bitAt d j := by rw [h]

theorem u8add_eq {a b : Nat} (h : a + b < 256) : u8add a b = a + b := Nat.mod_eq_of_lt h

namespace CSlice
variable {ρ : Type}

theorem bits_length (s : CSlice ρ) : s.bits.length = s.range.bitsEnd - s.range.bitsStart := by simp [bits]

theorem bits_getD (s : CSlice ρ) {j : Nat} (h : j < s.range.bitsEnd - s.range.bitsStart) :
    s.bits.getD j false = bitAt s.data (s.range.bitsStart + j) := by
  simp [bits, List.getD_eq_getElem?_getD, List.getElem?_range h]

/-- `w` bits of the window, from `off`. -/
def seg (s : CSlice ρ) (off w : Nat) : Bits := (s.bits.drop off).take w

theorem seg_length {s : CSlice ρ} {off w : Nat} (h : off + w ≤ s.bits.length) : (s.seg off w).length = w := by
  simp [seg]; omega

theorem seg_getD {s : CSlice ρ} {off w j : Nat} (h : off + w ≤ s.bits.length) (hj : j < w) :
    (s.seg off w).getD j false = bitAt s.data (s.range.bitsStart + off + j) := by
  rw [bits_length] at h
  rw [seg, getD_take_bits, getD_drop_bits, bits_getD _ (by omega)]
  simp [hj, Nat.add_assoc]

theorem wordBits_eq_seg {s : CSlice ρ} {off w : Nat} (h : off + w ≤ s.bits.length) (v : BitVec w)
    (hv : ∀ j, j < w → v.getMsbD j = bitAt s.data (s.range.bitsStart + off + j)) : wordBits v = s.seg off w := by
  apply list_ext_getD (by rw [seg_length h, wordBits_length])
  intro i hi
  rw [wordBits_length] at hi
  rw [wordBits_getD, hv i hi, seg_getD h hi]

theorem getBit_spec {s : CSlice ρ} (hs : WF s) {off : Nat} (hno : s.range.bitsStart + off < 65536) :
    s.getBit off = if off < s.bits.length then .ok (s.bits.getD off false) else .error .cellUnderflow := by
  have h1 := hs.start_le
  have h2 := hs.end_le
  unfold getBit
  rw [u16add_eq hno, bits_length]
  by_cases h : off < s.range.bitsEnd - s.range.bitsStart
  · rw [if_pos (by omega), if_pos h]
    dsimp only
    have hq : (s.range.bitsStart + off) / 8 < s.data.length := by omega
    rw [List.getElem?_eq_getElem hq, bits_getD s h]
    dsimp only
    congr 1
    have e : bitAt s.data (s.range.bitsStart + off)
        = (s.data[(s.range.bitsStart + off) / 8]).getMsbD ((s.range.bitsStart + off) % 8) := by
      unfold bitAt
      simp [List.getD_eq_getElem?_getD, List.getElem?_eq_getElem hq]
    rw [e]
    generalize s.data[(s.range.bitsStart + off) / 8] = x
    have hr : (s.range.bitsStart + off) % 8 < 8 := by omega
    generalize (s.range.bitsStart + off) % 8 = r at *
    have hx : ((x >>> (7 - r)) &&& 1#8) = if x.getMsbD r then 1#8 else 0 := by
      apply BitVec.eq_of_getLsbD_eq
      intro i hi
      rw [BitVec.getLsbD_and, BitVec.getLsbD_ushiftRight]
      have : x.getMsbD r = x.getLsbD (7 - r) := by simp [BitVec.getMsbD, hr]
      rw [this]
      rcases Nat.eq_zero_or_pos i with hi0 | hi0
      · subst hi0
        cases hb : x.getLsbD (7 - r) <;> simp [hb]
      · have : BitVec.getLsbD (1#8) i = false := by
          rw [BitVec.getLsbD_one]; simp; omega
        rw [this]
        have h0 : i ≠ 0 := by omega
        cases hb : x.getLsbD (7 - r) <;> simp [this]
    show ((x >>> (7 - r) &&& 1#8) != 0) = _
    rw [hx]
    cases x.getMsbD r <;> rfl
  · rw [if_neg (by omega), if_neg h]

theorem loadBit_spec {s : CSlice ρ} (hs : WF s) :
    s.loadBit = if 0 < s.bits.length then
      (.ok (s.bits.getD 0 false), { s with range := { s.range with bitsStart := s.range.bitsStart + 1 } })
    else (.error .cellUnderflow, s) := by
  have h1 := hs.start_le
  have h2 := hs.end_le
  have h3 := hs.data_le
  have hg := getBit_spec hs (off := 0) (by omega)
  unfold getBit at hg
  unfold loadBit
  rw [u16add_eq (by omega), Nat.add_zero] at hg
  rw [bits_length] at hg ⊢
  by_cases h : s.range.bitsStart < s.range.bitsEnd
  · rw [if_pos h] at hg ⊢
    rw [if_pos (by omega)] at hg ⊢
    dsimp only at hg ⊢
    have hq : s.range.bitsStart / 8 < s.data.length := by omega
    rw [List.getElem?_eq_getElem hq] at hg ⊢
    dsimp only at hg ⊢
    rw [hg]
  · rw [if_neg h, if_neg (by omega)]

theorem getWord_spec {n : Nat} (hn : 0 < n) {s : CSlice ρ} (hs : WF s) {off : Nat}
    (hno : s.range.bitsStart + off + 8 * n < 65536) :
    (off + 8 * n ≤ s.bits.length → ∃ v, s.getWord n off = .ok v ∧ wordBits v = s.seg off (8 * n)) ∧
    (¬ off + 8 * n ≤ s.bits.length → s.getWord n off = .error .cellUnderflow) := by
  have h1 := hs.start_le
  have h2 := hs.end_le
  unfold getWord
  rw [u16add_eq (a := s.range.bitsStart) (by omega), u16add_eq hno]
  constructor
  · intro h
    have h' := h
    rw [bits_length] at h
    rw [if_pos (by omega)]
    dsimp only
    generalize hp : s.range.bitsStart + off = p at *
    by_cases hr : p % 8 = 0
    · rw [if_pos ⟨hr, by omega⟩, rdN_ok (by omega), bind_ok]
      refine ⟨_, rfl, wordBits_eq_seg h' _ ?_⟩
      intro j hj
      rw [fromBE_getMsbD (by simp; omega), bitAt_take_drop, hp]
      simp only [hj, decide_true, Bool.true_and]
      congr 1
      omega
    · rw [if_neg (by omega), if_pos ⟨hr, by omega⟩, rdN_ok (by omega), bind_ok]
      refine ⟨_, rfl, wordBits_eq_seg h' _ ?_⟩
      intro j hj
      rw [getMsbD_shr_setWidth _ _ _ hj (by omega), fromBE_getMsbD (by simp; omega), bitAt_append, hp,
        List.length_replicate, if_neg (by omega), bitAt_take_drop]
      have e : decide (8 * (2 * n) - 8 * n - (8 - p % 8) + j - 8 * (n - 1) < 8 * (n + 1)) = true := by
        simp; omega
      rw [e, Bool.true_and]
      congr 1
      omega
  · intro h
    rw [bits_length] at h
    rw [if_neg (by omega)]

theorem getU128_spec {s : CSlice ρ} (hs : WF s) {off : Nat} (hno : s.range.bitsStart + off + 128 < 65536) :
    (off + 128 ≤ s.bits.length → ∃ v, s.getU128 off = .ok v ∧ wordBits v = s.seg off 128) ∧
    (¬ off + 128 ≤ s.bits.length → s.getU128 off = .error .cellUnderflow) := by
  have h1 := hs.start_le
  have h2 := hs.end_le
  unfold getU128
  rw [u16add_eq (a := s.range.bitsStart) (by omega), u16add_eq hno]
  constructor
  · intro h
    have h' := h
    rw [bits_length] at h
    rw [if_pos (by omega)]
    dsimp only
    generalize hp : s.range.bitsStart + off = p at *
    by_cases hr : p % 8 = 0
    · rw [if_pos ⟨hr, by omega⟩, rdN_ok (by omega), bind_ok]
      refine ⟨_, rfl, wordBits_eq_seg h' _ ?_⟩
      intro j hj
      rw [fromBE_getMsbD (n := 16) (by simp; omega), bitAt_take_drop, hp]
      simp only [hj, Nat.reduceMul, decide_true, Bool.true_and]
      congr 1
      omega
    · rw [if_neg (by omega), if_pos ⟨hr, by omega⟩, rdN_ok (by omega), bind_ok]
      refine ⟨_, rfl, wordBits_eq_seg h' _ ?_⟩
      intro j hj
      rw [BitVec.getMsbD_or, hp]
      have hb : ∀ k, k < 8 * 17 → bitAt ((s.data.drop (p / 8)).take 17) k = bitAt s.data (8 * (p / 8) + k) := by
        intro k hk
        rw [bitAt_take_drop]; simp [hk]
      have hlo : BitVec.getMsbD (w := 128) (fromBE 16 (((s.data.drop (p / 8)).take 17).drop 1) >>> (8 - p % 8)) j
          = (decide (8 - p % 8 ≤ j) && bitAt s.data (8 * (p / 8) + (p % 8 + j))) := by
        rw [getMsbD_shr _ _ hj, fromBE_getMsbD (n := 16) (by simp; omega)]
        by_cases hc : 8 - p % 8 ≤ j
        · have e := bitAt_take_drop ((s.data.drop (p / 8)).take 17) 1 16 (j - (8 - p % 8))
          rw [List.take_of_length_le (by simp; omega)] at e
          rw [e, hb _ (by omega)]
          have hd : decide (j - (8 - p % 8) < 8 * 16) = true := by simp; omega
          rw [hd]
          simp only [hc, decide_true, Bool.true_and]
          congr 1
          omega
        · simp [hc]
      rw [hlo]
      have hhi : (((((s.data.drop (p / 8)).take 17).getD 0 0).setWidth 128) <<< (120 + p % 8)).getMsbD j
          = (decide (j < 8 - p % 8) && bitAt s.data (8 * (p / 8) + (p % 8 + j))) := by
        by_cases hc : j < 8 - p % 8
        · rw [getMsbD_shl _ _ _ (by omega), getMsbD_zext _ _ (by omega) (by omega)]
          have e1 : decide (128 - 8 ≤ j + (120 + p % 8)) = true := by simp; omega
          rw [e1, bitAt_byte _ 0 _ (by omega), hb _ (by omega)]
          simp only [hc, decide_true, Bool.true_and]
          refine bitAt_congr _ ?_
          omega
        · rw [getMsbD_shl_out _ _ _ (by omega)]
          simp [hc]
      rw [hhi]
      have e : p + j = 8 * (p / 8) + (p % 8 + j) := by omega
      rw [e]
      by_cases hc : j < 8 - p % 8
      · have : ¬ (8 - p % 8 ≤ j) := by omega
        simp [hc, this]
      · have : (8 - p % 8 ≤ j) := by omega
        simp [hc, this]
  · intro h
    rw [bits_length] at h
    rw [if_neg (by omega)]

theorem bytesToBits_eq_seg {s : CSlice ρ} {off w : Nat} (h : off + w ≤ s.bits.length) (l : List Byte)
    (hl : 8 * l.length = w)
    (hv : ∀ j, j < w → bitAt l j = bitAt s.data (s.range.bitsStart + off + j)) : bytesToBits l = s.seg off w := by
  apply list_ext_getD (by rw [seg_length h, bytesToBits_length, hl])
  intro i hi
  rw [bytesToBits_length, hl] at hi
  rw [bytesToBits_getD, hv i hi, seg_getD h hi]

theorem getU256_spec {s : CSlice ρ} (hs : WF s) {off : Nat} (hno : s.range.bitsStart + off + 256 < 65536) :
    (off + 256 ≤ s.bits.length → ∃ v, s.getU256 off = .ok v ∧ v.length = 32 ∧ bytesToBits v = s.seg off 256) ∧
    (¬ off + 256 ≤ s.bits.length → s.getU256 off = .error .cellUnderflow) := by
  have h1 := hs.start_le
  have h2 := hs.end_le
  unfold getU256
  rw [u16add_eq (a := s.range.bitsStart) (by omega), u16add_eq hno]
  constructor
  · intro h
    have h' := h
    rw [bits_length] at h
    rw [if_pos (by omega)]
    dsimp only
    generalize hp : s.range.bitsStart + off = p at *
    by_cases hr : p % 8 = 0
    · rw [if_pos ⟨hr, by omega⟩, rdN_ok (by omega)]
      refine ⟨_, rfl, by simp; omega, bytesToBits_eq_seg h' _ (by simp; omega) ?_⟩
      intro j hj
      rw [bitAt_take_drop, hp]
      have hj' : j < 8 * 32 := hj
      simp only [hj', decide_true, Bool.true_and]
      congr 1
      omega
    · rw [if_neg (by omega), if_pos ⟨hr, by omega⟩, rdN_ok (by omega), bind_ok]
      refine ⟨_, rfl, by simp, bytesToBits_eq_seg h' _ (by simp) ?_⟩
      intro j hj
      have hb : ∀ k, k < 8 * 33 → bitAt ((s.data.drop (p / 8)).take 33) k = bitAt s.data (8 * (p / 8) + k) := by
        intro k hk
        rw [bitAt_take_drop]; simp [hk]
      have hlen : ((s.data.drop (p / 8)).take 33).length = 33 := by simp; omega
      generalize (s.data.drop (p / 8)).take 33 = bytes at *
      have hhi : ∀ k, k < 128 → BitVec.getMsbD (w := 8 * 16) (fromBE 16 ((bytes.drop 1).take 16)) k
          = bitAt s.data (8 * (p / 8) + (8 + k)) := by
        intro k hk
        rw [fromBE_getMsbD (by simp; omega), bitAt_take_drop, hb _ (by omega)]
        have : k < 8 * 16 := hk
        simp [this]
      have hlo : ∀ k, k < 128 → BitVec.getMsbD (w := 8 * 16) (fromBE 16 (bytes.drop 17)) k
          = bitAt s.data (8 * (p / 8) + (136 + k)) := by
        intro k hk
        rw [fromBE_getMsbD (by simp; omega)]
        have e := bitAt_take_drop bytes 17 16 k
        rw [List.take_of_length_le (by simp; omega)] at e
        rw [e, hb _ (by omega)]
        have : k < 8 * 16 := hk
        simp [this]
      rw [bitAt_append, length_toBE, hp]
      have e : p + j = 8 * (p / 8) + (p % 8 + j) := by omega
      rw [e]
      by_cases hj1 : j < 8 * 16
      · rw [if_pos hj1, bitAt_toBE, BitVec.getMsbD_or, getMsbD_shr _ _ hj1]
        by_cases hc : j < 8 - p % 8
        · have : ¬ (8 - p % 8 ≤ j) := by omega
          simp only [this, decide_false, Bool.false_and, Bool.false_or]
          rw [getMsbD_shl _ _ _ (by omega), getMsbD_zext _ _ (by omega) (by omega)]
          have e1 : decide (8 * 16 - 8 ≤ j + (120 + p % 8)) = true := by simp; omega
          rw [e1, bitAt_byte _ 0 _ (by omega), hb _ (by omega), Bool.true_and]
          refine bitAt_congr _ ?_
          omega
        · have : (8 - p % 8 ≤ j) := by omega
          rw [getMsbD_shl_out _ _ _ (by omega), hhi _ (by omega)]
          simp only [this, decide_true, Bool.true_and, Bool.or_false]
          congr 1
          omega
      · rw [if_neg hj1, bitAt_toBE, BitVec.getMsbD_or, getMsbD_shr _ _ (by omega)]
        by_cases hc : j - 8 * 16 < 8 - p % 8
        · have : ¬ (8 - p % 8 ≤ j - 8 * 16) := by omega
          simp only [this, decide_false, Bool.false_and, Bool.false_or]
          rw [getMsbD_shl _ _ _ (by omega), hhi _ (by omega)]
          congr 1
          omega
        · have : (8 - p % 8 ≤ j - 8 * 16) := by omega
          rw [getMsbD_shl_out _ _ _ (by omega), hlo _ (by omega)]
          simp only [this, decide_true, Bool.true_and, Bool.or_false]
          congr 1
          omega
  · intro h
    rw [bits_length] at h
    rw [if_neg (by omega)]

theorem getMsbD_shr8 (x : Byte) (k j : Nat) (hj : j < 8) : (x >>> k).getMsbD j = (decide (k ≤ j) && x.getMsbD (j - k)) :=
  getMsbD_shr x k hj

theorem getMsbD_lowmask {bits j : Nat} (hb : bits ≤ 8) (hj : j < 8) :
    (((1#8) <<< bits) - 1).getMsbD j = decide (8 - bits ≤ j) := by
  have : ∀ k : Fin 9, ∀ j : Fin 8, (((1#8) <<< k.val) - 1).getMsbD j.val = decide (8 - k.val ≤ j.val) := by decide
  exact this ⟨bits, by omega⟩ ⟨j, hj⟩

theorem getSmallUint_spec {s : CSlice ρ} (hs : WF s) {off n : Nat} (hn : n ≤ 8)
    (hno : s.range.bitsStart + off + n < 65536) :
    (off + n ≤ s.bits.length → ∃ v, s.getSmallUint off n = .ok v ∧ v.toNat = natOfBits (s.seg off n)) ∧
    (¬ off + n ≤ s.bits.length → n ≠ 0 → s.getSmallUint off n = .error .cellUnderflow) := by
  have h1 := hs.start_le
  have h2 := hs.end_le
  unfold getSmallUint
  rw [u16add_eq (a := s.range.bitsStart) (by omega), u16add_eq hno]
  constructor
  · intro h
    have h' := h
    rw [bits_length] at h
    by_cases hn0 : n = 0
    · subst hn0
      exact ⟨0, by simp, by simp [seg]⟩
    rw [if_neg hn0, if_pos ⟨hn, by omega⟩]
    dsimp only
    have hsl := seg_length h'
    have hsg := fun j (hj : j < n) => seg_getD (s := s) h' hj
    generalize hp : s.range.bitsStart + off = p at *
    have hq : p / 8 < s.data.length := by omega
    rw [List.getElem?_eq_getElem hq]
    dsimp only
    have hx : ∀ j, j < 8 → (s.data[p / 8]).getMsbD j = bitAt s.data (8 * (p / 8) + j) := by
      intro j hj
      rw [← bitAt_byte _ _ _ hj]
      simp [List.getD_eq_getElem?_getD, List.getElem?_eq_getElem hq]
    by_cases hr : p % 8 = 0
    · rw [if_pos hr]
      refine ⟨_, rfl, toNat_of_msb _ _ (by omega) ?_⟩
      intro j hj
      rw [getMsbD_shr8 _ _ _ hj, hsl]
      split
      · have : ¬ (8 - n ≤ j) := by omega
        simp [this]
      · have : 8 - n ≤ j := by omega
        rw [hx _ (by omega), hsg _ (by omega)]
        simp only [this, decide_true, Bool.true_and]
        congr 1
        omega
    · rw [if_neg hr]
      by_cases hc : n ≤ 8 - p % 8
      · rw [if_pos hc]
        refine ⟨_, rfl, toNat_of_msb _ _ (by omega) ?_⟩
        intro j hj
        rw [getMsbD_and, getMsbD_lowmask hn hj, getMsbD_shr8 _ _ _ hj, hsl]
        split
        · have : ¬ (8 - n ≤ j) := by omega
          simp [this]
        · have : 8 - n ≤ j := by omega
          have t2 : 8 - p % 8 - n ≤ j := by omega
          rw [hx _ (by omega), hsg _ (by omega)]
          simp only [this, t2, decide_true, Bool.true_and, Bool.and_true]
          congr 1
          omega
      · rw [if_neg hc]
        have hq1 : p / 8 + 1 < s.data.length := by omega
        rw [List.getElem?_eq_getElem hq1]
        dsimp only
        have hy : ∀ j, j < 8 → (s.data[p / 8 + 1]).getMsbD j = bitAt s.data (8 * (p / 8 + 1) + j) := by
          intro j hj
          rw [← bitAt_byte _ _ _ hj]
          simp [List.getD_eq_getElem?_getD, List.getElem?_eq_getElem hq1]
        refine ⟨_, rfl, toNat_of_msb _ _ (by omega) ?_⟩
        intro j hj
        rw [getMsbD_shr8 _ _ _ hj, hsl]
        split
        · have : ¬ (8 - n ≤ j) := by omega
          simp [this]
        · have : 8 - n ≤ j := by omega
          rw [hsg _ (by omega), getMsbD_shr_setWidth _ _ _ (by omega) (by omega), BitVec.getMsbD_or]
          simp only [this, decide_true, Bool.true_and]
          generalize hk : 16 - 8 - (8 - p % 8) + (j - (8 - n)) = k
          by_cases hk8 : k < 8
          · rw [getMsbD_shl _ _ _ (by omega), getMsbD_zext _ _ (by omega) (by omega), getMsbD_zext _ _ (by omega) (by omega)]
            have a1 : 16 - 8 ≤ k + 8 := by omega
            have a2 : ¬ (16 - 8 ≤ k) := by omega
            rw [hx _ (by omega)]
            simp only [a1, a2, decide_true, decide_false, Bool.true_and, Bool.false_and, Bool.or_false]
            congr 1
            omega
          · rw [getMsbD_shl_out _ _ _ (by omega), getMsbD_zext _ _ (by omega) (by omega), hy _ (by omega)]
            have a2 : (16 - 8 ≤ k) := by omega
            simp only [a2, decide_true, Bool.true_and, Bool.false_or]
            congr 1
            omega
  · intro h hn0
    rw [bits_length] at h
    rw [if_neg hn0, if_neg (by omega)]

theorem getSmallUint_wide {s : CSlice ρ} {off n : Nat} (hn : 8 < n) : s.getSmallUint off n = .error .cellUnderflow := by
  unfold getSmallUint
  rw [if_neg (by omega), if_neg (by omega)]

theorem getMsbD_ffshr {r j : Nat} (hr : r < 8) (hj : j < 8) : ((0xff#8) >>> r).getMsbD j = decide (r ≤ j) := by
  have : ∀ r : Fin 8, ∀ j : Fin 8, ((0xff#8) >>> r.val).getMsbD j.val = decide (r.val ≤ j.val) := by decide
  exact this ⟨r, hr⟩ ⟨j, hj⟩

theorem getUint_spec {s : CSlice ρ} (hs : WF s) {off n : Nat} (hn : n ≤ 64)
    (hno : s.range.bitsStart + off + n < 65536) :
    (off + n ≤ s.bits.length → ∃ v, s.getUint off n = .ok v ∧ v.toNat = natOfBits (s.seg off n)) ∧
    (¬ off + n ≤ s.bits.length → n ≠ 0 → s.getUint off n = .error .cellUnderflow) := by
  have h1 := hs.start_le
  have h2 := hs.end_le
  unfold getUint
  rw [u16add_eq (a := s.range.bitsStart) (by omega), u16add_eq hno]
  constructor
  · intro h
    have h' := h
    rw [bits_length] at h
    by_cases hn0 : n = 0
    · subst hn0
      exact ⟨0, by simp, by simp [seg]⟩
    rw [if_neg hn0, if_pos ⟨hn, by omega⟩]
    dsimp only
    rw [if_neg (by omega)]
    have hsl := seg_length h'
    have hsg := fun j (hj : j < n) => seg_getD (s := s) h' hj
    generalize hp : s.range.bitsStart + off = p at *
    have hq : p / 8 < s.data.length := by omega
    rw [rd_ok hq, bind_ok]
    have hr8 : p % 8 < 8 := by omega
    have hx : ∀ j, j < 8 → (s.data.getD (p / 8) 0 &&& ((0xff#8) >>> (p % 8))).getMsbD j
        = (decide (p % 8 ≤ j) && bitAt s.data (8 * (p / 8) + j)) := by
      intro j hj
      rw [getMsbD_and, bitAt_byte _ _ _ hj, getMsbD_ffshr hr8 hj, Bool.and_comm]
    generalize s.data.getD (p / 8) 0 &&& ((0xff#8) >>> (p % 8)) = fb at *
    by_cases hc : p % 8 + n ≤ 8
    · rw [if_pos hc]
      refine ⟨_, rfl, toNat_of_msb _ _ (by omega) ?_⟩
      intro j hj
      rw [getMsbD_zext _ _ hj (by omega), hsl]
      have hrs : (8 - (n + p % 8) % 8) % 8 = 8 - (n + p % 8) := by omega
      split
      · by_cases h56 : 64 - 8 ≤ j
        · rw [getMsbD_shr8 _ _ _ (by omega), hrs]
          by_cases h57 : 8 - (n + p % 8) ≤ j - (64 - 8)
          · rw [hx _ (by omega)]
            have : ¬ (p % 8 ≤ j - (64 - 8) - (8 - (n + p % 8))) := by omega
            simp [this]
          · simp [h57]
        · simp [h56]
      · have h56 : 64 - 8 ≤ j := by omega
        rw [getMsbD_shr8 _ _ _ (by omega), hrs, hx _ (by omega), hsg _ (by omega)]
        have a1 : 8 - (n + p % 8) ≤ j - (64 - 8) := by omega
        have a2 : (p % 8 ≤ j - (64 - 8) - (8 - (n + p % 8))) := by omega
        simp only [h56, a1, a2, decide_true, Bool.true_and]
        congr 1
        omega
    · rw [if_neg hc]
      rw [rdN_ok (by omega), bind_ok, copyTo_ok (by simp; omega), bind_ok]
      refine ⟨_, rfl, toNat_of_msb _ _ (by omega) ?_⟩
      intro j hj
      generalize hm : n - (8 - p % 8) = m
      have hml : ((s.data.drop (p / 8 + 1)).take ((m + 7) / 8)).length = (m + 7) / 8 := by simp; omega
      have hrd : ∀ k, k < m → bitAt ((s.data.drop (p / 8 + 1)).take ((m + 7) / 8)) k
          = bitAt s.data (8 * (p / 8 + 1) + k) := by
        intro k hk
        rw [bitAt_take_drop]
        have : k < 8 * ((m + 7) / 8) := by omega
        simp [this]
      generalize (s.data.drop (p / 8 + 1)).take ((m + 7) / 8) = src at *
      rw [BitVec.getMsbD_or, hsl]
      have hlow : BitVec.getMsbD (w := 64) (fromBE 8 ((List.replicate 8 (0 : Byte)).take 0 ++ src ++ (List.replicate 8 (0 : Byte)).drop (0 + src.length)) >>> (64 - m)) j
          = (decide (64 - m ≤ j) && bitAt s.data (8 * (p / 8 + 1) + (j - (64 - m)))) := by
        rw [getMsbD_shr _ _ hj, fromBE_getMsbD (n := 8) (by rw [length_copy] <;> simp; omega),
          bitAt_copy (by simp; omega)]
        by_cases hc2 : 64 - m ≤ j
        · rw [if_pos (by omega), Nat.mul_zero, Nat.sub_zero, hrd _ (by omega)]
        · simp [hc2]
      rw [hlow]
      have hhi : (fb.setWidth 64 <<< m).getMsbD j
          = (decide (64 - n ≤ j ∧ j < 64 - m) && bitAt s.data (8 * (p / 8) + (j + m - 56))) := by
        by_cases hc2 : j + m < 64
        · rw [getMsbD_shl _ _ _ hc2, getMsbD_zext _ _ hc2 (by omega)]
          by_cases h56 : 64 - 8 ≤ j + m
          · rw [hx _ (by omega)]
            have e2 : decide (p % 8 ≤ j + m - (64 - 8)) = decide (64 - n ≤ j ∧ j < 64 - m) :=
              decide_eq_decide.mpr (by omega)
            rw [e2]
            simp [h56]
          · have : ¬ (64 - n ≤ j) := by omega
            simp [h56, this]
        · rw [getMsbD_shl_out _ _ _ (by omega)]
          have : ¬ (j < 64 - m) := by omega
          simp [this]
      rw [hhi]
      split
      · have a1 : ¬ (64 - m ≤ j) := by omega
        have a2 : ¬ (64 - n ≤ j ∧ j < 64 - m) := by omega
        simp only [a1, a2, decide_false, Bool.false_and, Bool.or_false]
      · rw [hsg _ (by omega)]
        by_cases a1 : 64 - m ≤ j
        · have a2 : ¬ (64 - n ≤ j ∧ j < 64 - m) := by omega
          simp only [a1, a2, decide_true, decide_false, Bool.true_and, Bool.false_and, Bool.or_false]
          congr 1
          omega
        · have a2 : (64 - n ≤ j ∧ j < 64 - m) := by omega
          simp only [a1, a2, decide_true, decide_false, Bool.true_and, Bool.false_and, Bool.false_or]
          refine bitAt_congr _ ?_
          omega
  · intro h hn0
    rw [bits_length] at h
    rw [if_neg hn0, if_neg (by omega)]

theorem getUint_wide {s : CSlice ρ} {off n : Nat} (hn : 64 < n) : s.getUint off n = .error .cellUnderflow := by
  unfold getUint
  rw [if_neg (by omega), if_neg (by omega)]

end CSlice
end Verif
