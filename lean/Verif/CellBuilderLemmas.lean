import Verif.SliceScan2
set_option linter.unusedVariables false
set_option linter.unusedSimpArgs false
namespace Verif
open DataBuilder (u16add_eq bind_ok getMsbD_shr getMsbD_mask bitAt_mask bitAt_singleton)

theorem DataBuilder.tag_bits {rem j : Nat} (hr : 0 < rem) (hr8 : rem < 8) (hj : j < 8) :
    ((~~~ (((1#8) <<< (7 - rem)) - 1)).getMsbD j = decide (j ≤ rem)) ∧
    (((1#8) <<< (7 - rem)).getMsbD j = decide (j = rem)) := by
  have : ∀ (r : Fin 8) (j : Fin 8), ((~~~ (((1#8) <<< (7 - r.val)) - 1)).getMsbD j.val = decide (j.val ≤ r.val)) ∧
    (((1#8) <<< (7 - r.val)).getMsbD j.val = decide (j.val = r.val)) := by decide
  exact this ⟨rem, hr8⟩ ⟨j, hj⟩

/-- The finished bytes are the data bits, the tag bit, and zeroes. -/
theorem DataBuilder.finish_spec {b : DataBuilder} (hb : b.WF) :
    b.finish.length = (b.bitLen + 7) / 8 ∧ bytesToBits b.finish = tagged b.bits := by
  have hm : maxBitLen = 1023 := rfl
  have hlen := hb.len
  have hle := hb.le
  have hl := b.bits_length
  have hmin : min ((b.bitLen + 7) / 8) 128 = (b.bitLen + 7) / 8 := by omega
  unfold finish
  dsimp only
  rw [hmin]
  by_cases hr : b.bitLen % 8 > 0
  · rw [if_pos hr]
    refine ⟨by simp; omega, ?_⟩
    have htl : (tagged b.bits).length = 8 * ((b.bitLen + 7) / 8) := by
      unfold tagged
      rw [if_neg (by omega)]
      simp; omega
    apply list_ext_getD
    · rw [htl]; simp; omega
    · intro i hi
      rw [bytesToBits_length] at hi
      simp only [List.length_take, List.length_set] at hi
      rw [bytesToBits_getD, bitAt_take, bitAt_set (by omega)]
      have h1 : i < 8 * ((b.bitLen + 7) / 8) := by omega
      simp only [h1, decide_true, Bool.true_and]
      have et : tagged b.bits = b.bits ++ true :: List.replicate (7 - b.bits.length % 8) false := by
        unfold tagged
        rw [if_neg (by omega)]
      rw [et, getD_append_bits, hl]
      by_cases hq : i / 8 = b.bitLen / 8
      · rw [if_pos hq, BitVec.getMsbD_or, getMsbD_and, bitAt_byte _ _ _ (by omega),
          (tag_bits hr (by omega) (by omega : i % 8 < 8)).1, (tag_bits hr (by omega) (by omega : i % 8 < 8)).2]
        have e : 8 * (b.bitLen / 8) + i % 8 = i := by omega
        rw [e]
        by_cases hi2 : i < b.bitLen
        · have a1 : i % 8 ≤ b.bitLen % 8 := by omega
          have a2 : ¬ (i % 8 = b.bitLen % 8) := by omega
          rw [if_pos hi2, b.bits_getD _ hi2]
          simp [a1, a2]
        · rw [if_neg hi2, hb.tail i (by omega)]
          by_cases hi3 : i = b.bitLen
          · subst hi3; simp
          · have a2 : ¬ (i % 8 = b.bitLen % 8) := by omega
            have e2 : i - b.bitLen = (i - b.bitLen - 1) + 1 := by omega
            rw [e2, List.getD_cons_succ, List.getD_eq_getElem?_getD, List.getElem?_replicate]
            simp only [a2, decide_false, Bool.false_and, Bool.or_false]
            split <;> rfl
      · rw [if_neg hq, if_pos (by omega), b.bits_getD _ (by omega)]
  · rw [if_neg hr]
    refine ⟨by simp; omega, ?_⟩
    unfold tagged
    rw [if_pos (by omega)]
    apply list_ext_getD
    · simp; omega
    · intro i hi
      rw [bytesToBits_length] at hi
      simp only [List.length_take] at hi
      rw [bytesToBits_getD, bitAt_take, b.bits_getD _ (by omega)]
      have h1 : i < 8 * ((b.bitLen + 7) / 8) := by omega
      simp [h1]

namespace CellB
variable {ρ : Type}

structure WF (b : CellB ρ) : Prop where
  inner : b.inner.WF
  refs : b.refs.length ≤ 4

theorem wf_new : WF (new : CellB ρ) := ⟨DataBuilder.wf_new, by simp [new]⟩

theorem asSlice_spec {b : CellB ρ} (hb : WF b) :
    b.asSlice.WF ∧ b.asSlice.bits = b.inner.bits ∧ b.asSlice.refList = b.refs := by
  have hm : maxBitLen = 1023 := rfl
  have hle := hb.inner.le
  obtain ⟨h1, h2⟩ := DataBuilder.finish_spec hb.inner
  refine ⟨⟨by simp [asSlice], ?_, ?_, by simp [asSlice], by simp [asSlice], hb.refs⟩, ?_, ?_⟩
  · show b.inner.bitLen ≤ 8 * b.inner.finish.length
    rw [h1]; omega
  · show b.inner.finish.length ≤ 128
    rw [h1]; omega
  · apply list_ext_getD
    · rw [CSlice.bits_length, DataBuilder.bits_length]; simp [asSlice]
    · intro i hi
      rw [CSlice.bits_length] at hi
      rw [CSlice.bits_getD _ hi]
      simp only [asSlice, Nat.sub_zero, Nat.zero_add] at hi ⊢
      rw [← bytesToBits_getD, h2]
      unfold tagged
      split
      · rfl
      · rw [getD_append_bits, DataBuilder.bits_length, if_pos hi]
  · simp [asSlice, CSlice.refList]

theorem storeReferences_spec (cs : List ρ) : ∀ {b : CellB ρ}, b.refs.length + cs.length ≤ 4 →
    b.storeReferences cs = (.ok (), { b with refs := b.refs ++ cs }) := by
  induction cs with
  | nil => intro b h; simp [storeReferences]
  | cons c cs ih =>
    intro b h
    have hm : maxRefCount = 4 := rfl
    simp only [List.length_cons] at h
    unfold storeReferences storeReference
    rw [if_pos (by omega)]
    dsimp only
    rw [ih (by simp; omega)]
    simp

/-- Appending both bits and references. -/
def AppendsBoth (b : CellB ρ) (r : Res ρ) (bits : Bits) (cs : List ρ) : Prop :=
  ∃ b', r = (.ok (), b') ∧ WF b' ∧ b'.inner.bits = b.inner.bits ++ bits ∧ b'.refs = b.refs ++ cs ∧ b'.exotic = b.exotic

theorem storeBuilder_spec {b o : CellB ρ} (hb : WF b) (ho : WF o) :
    (b.inner.bits.length + o.inner.bits.length ≤ 1023 ∧ b.refs.length + o.refs.length ≤ 4 →
      AppendsBoth b (b.storeBuilder o) o.inner.bits o.refs) ∧
    (¬ (b.inner.bits.length + o.inner.bits.length ≤ 1023 ∧ b.refs.length + o.refs.length ≤ 4) →
      b.storeBuilder o = (.error .cellOverflow, b)) := by
  have hm : maxBitLen = 1023 := rfl
  have hr : maxRefCount = 4 := rfl
  have h1 := hb.inner.le
  have h2 := ho.inner.le
  have h3 := ho.inner.len
  rw [DataBuilder.bits_length, DataBuilder.bits_length]
  unfold storeBuilder
  rw [u16add_eq (by omega)]
  constructor
  · rintro ⟨h4, h5⟩
    rw [if_pos ⟨by omega, by omega⟩]
    obtain ⟨d, e, w, hd⟩ := DataBuilder.storeRaw_spec hb.inner o.inner.data (by omega) (n := o.inner.bitLen) (by omega)
    rw [e]
    dsimp only
    rw [storeReferences_spec _ (by simpa using h5)]
    refine ⟨_, rfl, ⟨w, by simp; omega⟩, ?_, rfl, rfl⟩
    rw [hd, DataBuilder.rawBits_self ho.inner]
  · intro h4
    rw [if_neg (by rw [hm, hr]; exact h4)]

theorem storeSlice_spec {b : CellB ρ} (hb : WF b) {s : CSlice ρ} (hs : s.WF) :
    (b.inner.bits.length + s.bits.length ≤ 1023 ∧ b.refs.length + s.refList.length ≤ 4 →
      AppendsBoth b (b.storeSlice s) s.bits s.refList) ∧
    (¬ (b.inner.bits.length + s.bits.length ≤ 1023 ∧ b.refs.length + s.refList.length ≤ 4) →
      b.storeSlice s = (.error .cellOverflow, b)) := by
  have hm : maxBitLen = 1023 := rfl
  have hr : maxRefCount = 4 := rfl
  have h1 := hb.inner.le
  have s2 := hs.end_le
  have s3 := hs.data_le
  have hl := s.bits_length
  have hrl := CSlice.refList_length hs
  rw [DataBuilder.bits_length]
  unfold storeSlice SliceRange.sizeBits SliceRange.sizeRefs
  rw [← hl, ← hrl, u16add_eq (by omega)]
  constructor
  · rintro ⟨h4, h5⟩
    rw [if_pos ⟨by omega, by omega⟩]
    obtain ⟨d, e, w, hd⟩ := (DataBuilder.storeSliceData_spec hb.inner hs).1 (by omega)
    rw [e]
    dsimp only
    have e2 : (s.refs.drop s.range.refsStart).take s.refList.length = s.refList := by
      rw [hrl]; rfl
    rw [e2, storeReferences_spec _ (by simpa using h5)]
    exact ⟨_, rfl, ⟨w, by simp; omega⟩, hd, rfl, rfl⟩
  · intro h4
    rw [if_neg (by rw [hm, hr]; exact h4)]

end CellB
end Verif
