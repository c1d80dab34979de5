import Verif.Builder
/-
Helper lemmas: every store operation of the builder refines list append.
-/
set_option linter.unusedVariables false
set_option linter.unusedSimpArgs false
namespace Verif

theorem natBits_getD (w v j : Nat) : (natBits w v).getD j false = (decide (j < w) && v.testBit (w - 1 - j)) := by
  by_cases h : j < w
  · simp [natBits, List.getD_eq_getElem?_getD, List.getElem?_range h, h]
  · rw [List.getD_eq_getElem?_getD, List.getElem?_eq_none (by simp; omega)]
    simp [h]

theorem wordBits_getD {n : Nat} (v : BitVec n) (j : Nat) : (wordBits v).getD j false = v.getMsbD j := by
  by_cases h : j < n
  · simp [wordBits, List.getD_eq_getElem?_getD, List.getElem?_range h]
  · rw [List.getD_eq_getElem?_getD, List.getElem?_eq_none (by simp; omega)]
    simp [BitVec.getMsbD, h]

theorem getD_append_bits (a b : Bits) (i : Nat) :
    (a ++ b).getD i false = if i < a.length then a.getD i false else b.getD (i - a.length) false := by
  simp only [List.getD_eq_getElem?_getD, List.getElem?_append]
  split <;> rfl

@[simp] theorem getD_replicate_false (n i : Nat) : (List.replicate n false).getD i false = false := by
  simp only [List.getD_eq_getElem?_getD, List.getElem?_replicate]
  split <;> simp

theorem getD_take_bits (a : Bits) (n i : Nat) :
    (a.take n).getD i false = (decide (i < n) && a.getD i false) := by
  simp only [List.getD_eq_getElem?_getD, List.getElem?_take]
  by_cases h : i < n <;> simp [h]

theorem getD_drop_bits (a : Bits) (n i : Nat) : (a.drop n).getD i false = a.getD (n + i) false := by
  simp only [List.getD_eq_getElem?_getD, List.getElem?_drop]

@[simp] theorem rawBits_length (value : List Byte) (bits : Nat) : (rawBits value bits).length = bits := by
  unfold rawBits
  split
  · simp; omega
  · simp; omega

theorem rawBits_getD (value : List Byte) (bits j : Nat) : (rawBits value bits).getD j false =
    if bits ≤ 8 * value.length then (decide (j < bits) && bitAt value j)
    else if j < bits - 8 * value.length then false else bitAt value (j - (bits - 8 * value.length)) := by
  unfold rawBits
  split
  · rw [getD_take_bits, bytesToBits_getD]
  · rw [getD_append_bits, List.length_replicate, getD_replicate_false, bytesToBits_getD]

namespace DataBuilder

theorem bits_length (b : DataBuilder) : b.bits.length = b.bitLen := by simp [bits]

theorem bits_getD {b : DataBuilder} (j : Nat) (h : j < b.bitLen) : b.bits.getD j false = bitAt b.data j := by
  simp [bits, List.getD_eq_getElem?_getD, List.getElem?_range h]

theorem WF.bits_getD {b : DataBuilder} (hb : WF b) (j : Nat) : b.bits.getD j false = bitAt b.data j := by
  by_cases h : j < b.bitLen
  · exact DataBuilder.bits_getD j h
  · rw [List.getD_eq_getElem?_getD, List.getElem?_eq_none (by simp [bits]; omega), hb.tail j (by omega)]
    rfl

theorem wf_new : WF new := by
  refine ⟨by simp [new], by simp [new], ?_⟩
  intro i _
  exact bitAt_replicate_zero _ _

/-- A builder is determined by its bits. -/
theorem WF.ext {a b : DataBuilder} (ha : WF a) (hb : WF b) (h : a.bits = b.bits) : a = b := by
  have hl : a.bitLen = b.bitLen := by rw [← bits_length, ← bits_length, h]
  have hd : a.data = b.data := by
    apply bytes_ext (by rw [ha.len, hb.len])
    intro i
    rw [← ha.bits_getD, ← hb.bits_getD, h]
  cases a; cases b; simp_all

/-- `r` is the successful result of appending `new` to `b`. -/
def Appends (b : DataBuilder) (r : Res) (new : Bits) : Prop :=
  ∃ b', r = (.ok (), b') ∧ WF b' ∧ b'.bits = b.bits ++ new

theorem appends_of {b : DataBuilder} {d : List Byte} {n : Nat} {new : Bits} (hb : WF b)
    (hd : d.length = 128) (hn : n = b.bitLen + new.length) (hle : n ≤ maxBitLen)
    (h : ∀ i, bitAt d i = if i < b.bitLen then bitAt b.data i else new.getD (i - b.bitLen) false) :
    Appends b (.ok (), { data := d, bitLen := n }) new := by
  refine ⟨_, rfl, ⟨hd, hle, ?_⟩, ?_⟩
  · intro i hi
    simp only at hi ⊢
    rw [h i, if_neg (by omega), List.getD_eq_getElem?_getD, List.getElem?_eq_none (by omega)]
    rfl
  · apply list_ext_getD
    · simp only [bits_length, List.length_append]; omega
    · intro i hi
      simp only [bits_length] at hi
      rw [DataBuilder.bits_getD i hi, h i, getD_append_bits, bits_length]
      split
      · rw [DataBuilder.bits_getD i (by omega)]
      · rfl

theorem commit_ok (b : DataBuilder) (d : List Byte) (n : Nat) :
    commit b (.ok d) n = (.ok (), { data := d, bitLen := n }) := rfl

theorem bind_ok {α β : Type} (a : α) (f : α → Except Err β) : ((.ok a : Except Err α) >>= f) = f a := rfl

theorem u16add_eq {a b : Nat} (h : a + b < 65536) : u16add a b = a + b := Nat.mod_eq_of_lt h

theorem storeZeros_spec {b : DataBuilder} (hb : WF b) {n : Nat} (h : b.bitLen + n ≤ maxBitLen) :
    Appends b (storeZeros b n) (List.replicate n false) := by
  have hm : maxBitLen = 1023 := rfl
  unfold storeZeros
  rw [u16add_eq (by omega), if_pos h]
  apply appends_of hb hb.len (by simp) h
  intro i
  rw [getD_replicate_false]
  split
  · rfl
  · exact hb.tail i (by omega)

theorem storeZeros_err {b : DataBuilder} {n : Nat} (hn : b.bitLen + n < 65536) (h : ¬ b.bitLen + n ≤ maxBitLen) :
    storeZeros b n = (.error .cellOverflow, b) := by
  unfold storeZeros
  rw [u16add_eq hn, if_neg h]

theorem storeBitZero_spec {b : DataBuilder} (hb : WF b) (h : b.bitLen + 1 ≤ maxBitLen) :
    Appends b (storeBitZero b) [false] := by
  unfold storeBitZero
  rw [if_pos (by omega)]
  apply appends_of hb hb.len (by simp) h
  intro i
  have : ∀ j, [false].getD j false = false := by
    intro j; exact getD_replicate_false 1 j
  rw [this]
  split
  · rfl
  · exact hb.tail i (by omega)

theorem storeBitOne_spec {b : DataBuilder} (hb : WF b) (h : b.bitLen + 1 ≤ maxBitLen) :
    Appends b (storeBitOne b) [true] := by
  have hm : maxBitLen = 1023 := rfl
  have hlen := hb.len
  unfold storeBitOne
  rw [if_pos (by omega)]
  have hq : b.bitLen / 8 < b.data.length := by omega
  simp only [rd_ok hq, bind_ok, wr_ok hq, commit_ok]
  apply appends_of hb (by simpa using hlen) (by simp) h
  intro i
  rw [bitAt_set hq]
  by_cases h1 : i / 8 = b.bitLen / 8
  · rw [if_pos h1, BitVec.getMsbD_or, bitAt_byte _ _ _ (by omega)]
    have e : 8 * (b.bitLen / 8) + i % 8 = i := by omega
    rw [e]
    have hone : ((1#8) <<< (7 - b.bitLen % 8)).getMsbD (i % 8) = decide (i = b.bitLen) := by
      have hiff : (i = b.bitLen) ↔ (i % 8 = b.bitLen % 8) := by omega
      rw [decide_eq_decide.mpr hiff]
      have : ∀ x : Fin 8, ∀ y : Fin 8, ((1#8) <<< (7 - y.val)).getMsbD x.val = decide (x.val = y.val) := by decide
      exact this ⟨i % 8, by omega⟩ ⟨b.bitLen % 8, by omega⟩
    rw [hone]
    by_cases h2 : i < b.bitLen
    · rw [if_pos h2]
      have : ¬ i = b.bitLen := by omega
      simp [this]
    · rw [if_neg h2, hb.tail i (by omega)]
      by_cases h3 : i = b.bitLen
      · subst h3; simp
      · have : i - b.bitLen = (i - b.bitLen - 1) + 1 := by omega
        rw [this]; simp [h3]
  · rw [if_neg h1]
    by_cases h2 : i < b.bitLen
    · rw [if_pos h2]
    · rw [if_neg h2, hb.tail i (by omega)]
      have : i - b.bitLen = (i - b.bitLen - 1) + 1 := by omega
      rw [this]; simp

theorem storeBit_spec {b : DataBuilder} (hb : WF b) (v : Bool) (h : b.bitLen + 1 ≤ maxBitLen) :
    Appends b (storeBit b v) [v] := by
  cases v
  · exact storeBitZero_spec hb h
  · exact storeBitOne_spec hb h

theorem storeBit_err {b : DataBuilder} (v : Bool) (h : ¬ b.bitLen + 1 ≤ maxBitLen) :
    storeBit b v = (.error .cellOverflow, b) := by
  have : ¬ b.bitLen < maxBitLen := by omega
  cases v <;> simp [storeBit, storeBitZero, storeBitOne, this]

/-- The common pattern of an unaligned store: OR the head into byte `q`, overwrite the following
bytes with the shifted rest. -/
theorem unaligned_bits {b : DataBuilder} (hb : WF b) {L : Nat} (hL : b.bitLen ≤ L)
    {x : Byte} {rest : List Byte} {new : Nat → Bool}
    (hr : L % 8 ≠ 0)
    (hq : L / 8 + 1 + rest.length ≤ 128)
    (hx : ∀ j, j < 8 → x.getMsbD j = (decide (L % 8 ≤ j) && new (j - L % 8)))
    (hrest : ∀ j, j < 8 * rest.length → bitAt rest j = new (j + (8 - L % 8)))
    (hnew : ∀ j, 8 - L % 8 + 8 * rest.length ≤ j → new j = false) (i : Nat) :
    bitAt (((b.data.set (L / 8) ((b.data.getD (L / 8) 0) ||| x))).take (L / 8 + 1) ++ rest ++
        (b.data.set (L / 8) ((b.data.getD (L / 8) 0) ||| x)).drop (L / 8 + 1 + rest.length)) i =
      if i < L then bitAt b.data i else new (i - L) := by
  have hlen := hb.len
  have hm8 : L % 8 < 8 := Nat.mod_lt _ (by omega)
  rw [bitAt_copy (by simp; omega)]
  have hq' : L / 8 < b.data.length := by omega
  by_cases h1 : 8 * (L / 8 + 1) ≤ i ∧ i < 8 * (L / 8 + 1 + rest.length)
  · rw [if_pos h1, if_neg (by omega), hrest _ (by omega)]
    congr 1; omega
  · rw [if_neg h1, bitAt_set hq']
    by_cases h2 : i / 8 = L / 8
    · rw [if_pos h2, BitVec.getMsbD_or, bitAt_byte _ _ _ (by omega), hx _ (by omega)]
      have e : 8 * (L / 8) + i % 8 = i := by omega
      rw [e]
      by_cases h3 : i < L
      · rw [if_pos h3]
        have : ¬ L % 8 ≤ i % 8 := by omega
        simp [this]
      · rw [if_neg h3, hb.tail i (by omega)]
        have h4 : L % 8 ≤ i % 8 := by omega
        have h5 : i % 8 - L % 8 = i - L := by omega
        simp [h4, h5]
    · rw [if_neg h2]
      by_cases h3 : i < L
      · rw [if_pos h3]
      · rw [if_neg h3, hb.tail i (by omega), hnew _ (by omega)]

/-- The common pattern of an aligned store. -/
theorem aligned_bits {b : DataBuilder} (hb : WF b) {L : Nat} (hL : b.bitLen ≤ L)
    {rest : List Byte} {new : Nat → Bool}
    (hr : L % 8 = 0)
    (hq : L / 8 + rest.length ≤ 128)
    (hrest : ∀ j, j < 8 * rest.length → bitAt rest j = new j)
    (hnew : ∀ j, 8 * rest.length ≤ j → new j = false) (i : Nat) :
    bitAt (b.data.take (L / 8) ++ rest ++ b.data.drop (L / 8 + rest.length)) i =
      if i < L then bitAt b.data i else new (i - L) := by
  have hlen := hb.len
  rw [bitAt_copy (by omega)]
  by_cases h1 : 8 * (L / 8) ≤ i ∧ i < 8 * (L / 8 + rest.length)
  · rw [if_pos h1, if_neg (by omega), hrest _ (by omega)]
    congr 1; omega
  · rw [if_neg h1]
    by_cases h3 : i < L
    · rw [if_pos h3]
    · rw [if_neg h3, hb.tail i (by omega), hnew _ (by omega)]

theorem set_eq_copy {d : List Byte} {q : Nat} (x : Byte) (h : q < d.length) :
    d.set q x = d.take q ++ [x] ++ d.drop (q + [x].length) := by
  have : d.set q x = d.take q ++ x :: d.drop (q + 1) := by
    rw [List.set_eq_take_append_cons_drop]; simp [h]
  simp [this]

theorem copyTo_nil {d : List Byte} {q : Nat} (h : q ≤ d.length) : d.take q ++ [] ++ d.drop (q + ([] : List Byte).length) = d := by
  simp

theorem bitAt_singleton (x : Byte) (j : Nat) (h : j < 8) : bitAt [x] j = x.getMsbD j := by
  unfold bitAt
  have e1 : j / 8 = 0 := by omega
  have e2 : j % 8 = j := by omega
  simp [e1, e2]

theorem storeU8_spec {b : DataBuilder} (hb : WF b) (v : Byte) (h : b.bitLen + 8 ≤ maxBitLen) :
    Appends b (storeU8 b v) (wordBits v) := by
  have hm : maxBitLen = 1023 := rfl
  have hlen := hb.len
  have hm8 : b.bitLen % 8 < 8 := Nat.mod_lt _ (by omega)
  unfold storeU8
  rw [if_pos h]
  have hq : b.bitLen / 8 < b.data.length := by omega
  by_cases hr : b.bitLen % 8 = 0
  · simp only [hr, if_true, wr_ok hq, commit_ok]
    apply appends_of hb (by simpa using hlen) (by simp) h
    intro i
    rw [set_eq_copy v hq, aligned_bits hb (Nat.le_refl _) (new := v.getMsbD) hr (by simp; omega)
      (fun j hj => bitAt_singleton v j (by simpa using hj))
      (fun j hj => by simp at hj; simp [BitVec.getMsbD]; omega), wordBits_getD]
  · simp only [hr, if_false, rd_ok hq, bind_ok, wr_ok hq]
    have hq1 : b.bitLen / 8 + 1 < (b.data.set (b.bitLen / 8) (b.data.getD (b.bitLen / 8) 0 ||| v >>> (b.bitLen % 8))).length := by
      simp; omega
    rw [wr_ok hq1, commit_ok]
    apply appends_of hb (by simpa using hlen) (by simp) h
    intro i
    rw [set_eq_copy _ hq1, unaligned_bits hb (Nat.le_refl _) (new := v.getMsbD) hr (by simp; omega), wordBits_getD]
    · intro j hj
      rw [BitVec.getMsbD_ushiftRight]
      by_cases h1 : j < b.bitLen % 8
      · have : ¬ b.bitLen % 8 ≤ j := by omega
        simp [h1, this]
      · have : b.bitLen % 8 ≤ j := by omega
        simp [h1, this, hj]
    · intro j hj
      simp at hj
      rw [bitAt_singleton _ _ hj, BitVec.getMsbD_shiftLeft]
    · intro j hj
      simp at hj; simp [BitVec.getMsbD]; omega

theorem storeU8_err {b : DataBuilder} (v : Byte) (h : ¬ b.bitLen + 8 ≤ maxBitLen) :
    storeU8 b v = (.error .cellOverflow, b) := by
  simp [storeU8, h]

theorem getMsbD_setWidth8_shift {n : Nat} (hn : 0 < n) (v : BitVec (8 * n)) (s : Nat) (hs : s ≤ 8) {j : Nat} (hj : j < 8) :
    ((v >>> (8 * n - 8 + s)).setWidth 8).getMsbD j = (decide (s ≤ j) && v.getMsbD (j - s)) := by
  simp only [BitVec.getMsbD, BitVec.getLsbD_setWidth, BitVec.getLsbD_ushiftRight]
  have h1 : 8 - 1 - j < 8 := by omega
  have h2 : j - s < 8 * n := by omega
  simp only [hj, h1, h2, decide_true, Bool.true_and]
  by_cases h3 : s ≤ j
  · simp only [h3, decide_true, Bool.true_and]
    congr 1; omega
  · simp only [h3, decide_false, Bool.false_and]
    apply BitVec.getLsbD_of_ge
    omega

theorem storeWord_spec {n : Nat} (hn : 0 < n) {b : DataBuilder} (hb : WF b) (v : BitVec (8 * n))
    (h : b.bitLen + 8 * n ≤ maxBitLen) : Appends b (storeWord n b v) (wordBits v) := by
  have hm : maxBitLen = 1023 := rfl
  have hlen := hb.len
  have hm8 : b.bitLen % 8 < 8 := Nat.mod_lt _ (by omega)
  unfold storeWord
  rw [if_pos h]
  have hq : b.bitLen / 8 < b.data.length := by omega
  by_cases hr : b.bitLen % 8 = 0
  · simp only [hr, if_true]
    rw [copyTo_ok (by simp; omega), commit_ok]
    apply appends_of hb (by rw [length_copy (by simp; omega)]; exact hlen) (by simp) h
    intro i
    rw [aligned_bits hb (Nat.le_refl _) (new := v.getMsbD) hr (by simp; omega)
      (fun j hj => bitAt_toBE n v j)
      (fun j hj => by simp at hj; simp [BitVec.getMsbD]; omega), wordBits_getD]
  · simp only [hr, if_false, rd_ok hq, bind_ok, wr_ok hq]
    rw [copyTo_ok (by simp; omega), commit_ok]
    apply appends_of hb (by rw [length_copy (by simp; omega)]; simpa using hlen) (by simp) h
    intro i
    rw [unaligned_bits hb (Nat.le_refl _) (new := v.getMsbD) hr (by simp; omega), wordBits_getD]
    · intro j hj
      exact getMsbD_setWidth8_shift hn v _ (by omega) hj
    · intro j hj
      simp at hj
      rw [bitAt_toBE, BitVec.getMsbD_shiftLeft]
    · intro j hj
      simp at hj; simp [BitVec.getMsbD]; omega

theorem storeWord_err {n : Nat} {b : DataBuilder} (v : BitVec (8 * n)) (h : ¬ b.bitLen + 8 * n ≤ maxBitLen) :
    storeWord n b v = (.error .cellOverflow, b) := by
  simp [storeWord, h]

theorem storeU256_spec {b : DataBuilder} (hb : WF b) {v : List Byte} (hv : v.length = 32)
    (h : b.bitLen + 256 ≤ maxBitLen) : Appends b (storeU256 b v) (bytesToBits v) := by
  have hm : maxBitLen = 1023 := rfl
  have hlen := hb.len
  have hm8 : b.bitLen % 8 < 8 := Nat.mod_lt _ (by omega)
  unfold storeU256
  rw [if_pos h]
  have hq : b.bitLen / 8 < b.data.length := by omega
  by_cases hr : b.bitLen % 8 = 0
  · simp only [hr, if_true]
    rw [copyTo_ok (by omega), commit_ok]
    apply appends_of hb (by rw [length_copy (by omega)]; exact hlen) (by simp [hv]) h
    intro i
    rw [aligned_bits hb (Nat.le_refl _) (new := bitAt v) hr (by omega) (fun j hj => rfl)
      (fun j hj => bitAt_of_le hj), bytesToBits_getD]
  · simp only [hr, if_false, rd_ok hq, bind_ok, wr_ok hq]
    have hhi : ∀ i, (fromBE 16 (v.take 16)).getMsbD i = (decide (i < 128) && bitAt v i) := by
      intro i
      rw [fromBE_getMsbD (by simp [hv]), bitAt_take]
    have hlo : ∀ i, (fromBE 16 (v.drop 16)).getMsbD i = bitAt v (128 + i) := by
      intro i
      rw [fromBE_getMsbD (by simp [hv])]
      have := bitAt_take_drop v 16 16 i
      rw [List.take_of_length_le (by simp [hv])] at this
      rw [this]
      by_cases h1 : i < 128
      · simp [h1]
      · have h2 : bitAt v (8 * 16 + i) = false := bitAt_of_le (by omega)
        rw [h2]
        have h3 : bitAt v (128 + i) = false := bitAt_of_le (by omega)
        simp [h3]
    generalize fromBE 16 (v.take 16) = hi at hhi
    generalize fromBE 16 (v.drop 16) = lo at hlo
    generalize hs : 8 - b.bitLen % 8 = s
    rw [copyTo_ok (by simp; omega), bind_ok]
    have hA : b.bitLen / 8 + 1 + (toBE 16 (hi <<< s ||| lo >>> (128 - s))).length ≤
      (b.data.set (b.bitLen / 8) (b.data.getD (b.bitLen / 8) 0 ||| BitVec.setWidth 8 (hi >>> (128 - s)))).length := by
      simp; omega
    have hB : b.bitLen / 8 + 17 + (toBE 16 (lo <<< s)).length ≤ ((b.data.set (b.bitLen / 8) (b.data.getD (b.bitLen / 8) 0 ||| BitVec.setWidth 8 (hi >>> (128 - s)))).take (b.bitLen / 8 + 1) ++ (toBE 16 (hi <<< s ||| lo >>> (128 - s))) ++ (b.data.set (b.bitLen / 8) (b.data.getD (b.bitLen / 8) 0 ||| BitVec.setWidth 8 (hi >>> (128 - s)))).drop (b.bitLen / 8 + 1 + (toBE 16 (hi <<< s ||| lo >>> (128 - s))).length)).length := by
      rw [length_copy hA]; simp; omega
    rw [copyTo_ok hB, commit_ok]
    apply appends_of hb (by rw [length_copy hB, length_copy hA]; simpa using hlen) (by simp [hv]) h
    intro i
    rw [bitAt_copy hB, bitAt_copy hA]
    have key := unaligned_bits hb (Nat.le_refl b.bitLen) (x := BitVec.setWidth 8 (hi >>> (128 - s)))
      (rest := toBE 16 (hi <<< s ||| lo >>> (128 - s)) ++ toBE 16 (lo <<< s)) (new := bitAt v) hr
      (by simp; omega) ?_ ?_ ?_ i
    · rw [bytesToBits_getD, ← key, bitAt_copy (by simp; omega)]
      simp only [length_toBE, List.length_append]
      by_cases c1 : 8 * (b.bitLen / 8 + 17) ≤ i ∧ i < 8 * (b.bitLen / 8 + 17 + 16)
      · rw [if_pos c1, if_pos (by omega), bitAt_append, if_neg (by simp; omega)]
        simp only [length_toBE]
        congr 1
      · rw [if_neg c1]
        by_cases c2 : 8 * (b.bitLen / 8 + 1) ≤ i ∧ i < 8 * (b.bitLen / 8 + 1 + 16)
        · rw [if_pos c2, if_pos (by omega), bitAt_append, if_pos (by simp; omega)]
        · rw [if_neg c2, if_neg (by omega)]
    · intro j hj
      have e : 128 - s = 8 * 16 - 8 + b.bitLen % 8 := by omega
      rw [e, getMsbD_setWidth8_shift (by omega) hi _ (by omega) hj, hhi]
      have : j - b.bitLen % 8 < 128 := by omega
      simp [this]
    · intro j hj
      simp only [length_toBE, List.length_append] at hj
      rw [bitAt_append, length_toBE, bitAt_toBE, bitAt_toBE]
      have hs8 : 8 - b.bitLen % 8 = s := hs
      rw [hs8]
      by_cases c : j < 8 * 16
      · rw [if_pos c, BitVec.getMsbD_or, BitVec.getMsbD_shiftLeft, BitVec.getMsbD_ushiftRight, hhi, hlo]
        by_cases c2 : j + s < 128
        · have : j < 128 - s := by omega
          simp [c2, this]
        · have h1 : ¬ j < 128 - s := by omega
          have h2 : 128 + (j - (128 - s)) = j + s := by omega
          have h3 : j < 8 * 16 := c
          simp [c2, h1, h2]; omega
      · rw [if_neg c, BitVec.getMsbD_shiftLeft, hlo]
        congr 1; omega
    · intro j hj
      simp at hj
      exact bitAt_of_le (by omega)

theorem storeU256_err {b : DataBuilder} (v : List Byte) (h : ¬ b.bitLen + 256 ≤ maxBitLen) :
    storeU256 b v = (.error .cellOverflow, b) := by
  simp [storeU256, h]


theorem getMsbD_shr {w : Nat} (x : BitVec w) (r : Nat) {j : Nat} (hj : j < w) :
    (x >>> r).getMsbD j = (decide (r ≤ j) && x.getMsbD (j - r)) := by
  rw [BitVec.getMsbD_ushiftRight]
  by_cases h1 : j < r
  · have : ¬ r ≤ j := by omega
    simp [h1, this]
  · have : r ≤ j := by omega
    simp [h1, this, hj]

theorem getMsbD_shl_trunc {w : Nat} (v : BitVec w) {bits : Nat} (h : bits ≤ w) (j : Nat) :
    (v <<< (w - bits)).getMsbD j = (natBits bits v.toNat).getD j false := by
  rw [natBits_getD, BitVec.getMsbD_shiftLeft]
  simp only [BitVec.getMsbD, BitVec.getLsbD]
  by_cases h1 : j < bits
  · have h2 : j + (w - bits) < w := by omega
    simp only [h1, h2, decide_true, Bool.true_and]
    congr 1; omega
  · have h2 : ¬ j + (w - bits) < w := by omega
    simp [h1, h2]

theorem natBits_pad {w v : Nat} (hv : v < 2 ^ w) {n : Nat} (hn : w ≤ n) (j : Nat) :
    (natBits n v).getD j false = if j < n - w then false else (natBits w v).getD (j - (n - w)) false := by
  rw [natBits_getD, natBits_getD]
  by_cases h : j < n - w
  · rw [if_pos h]
    have : v.testBit (n - 1 - j) = false := by
      apply Nat.testBit_lt_two_pow
      exact Nat.lt_of_lt_of_le hv (Nat.pow_le_pow_right (by decide) (by omega))
    simp [this]
  · rw [if_neg h]
    by_cases h2 : j < n
    · have h3 : j - (n - w) < w := by omega
      have h4 : w - 1 - (j - (n - w)) = n - 1 - j := by omega
      simp [h2, h3, h4]
    · have h3 : ¬ j - (n - w) < w := by omega
      simp [h2, h3]

theorem storeSmallUint_spec {b : DataBuilder} (hb : WF b) (v : Byte) {n : Nat}
    (h : b.bitLen + n ≤ maxBitLen) : Appends b (storeSmallUint b v n) (natBits n v.toNat) := by
  have hm : maxBitLen = 1023 := rfl
  have hlen := hb.len
  unfold storeSmallUint
  dsimp only
  by_cases h0 : n = 0
  · subst h0
    simp only [if_true]
    refine ⟨b, rfl, hb, ?_⟩
    simp [natBits]
  rw [if_neg h0, u16add_eq (by omega), if_pos h]
  -- the effective position and width
  generalize hL : (if 8 ≤ n then b.bitLen + (n - 8) else b.bitLen) = L
  generalize hW : (if 8 ≤ n then 8 else n) = W
  have hLW : L + W = b.bitLen + n := by subst hL hW; split <;> omega
  have hW8 : W ≤ 8 := by subst hW; split <;> omega
  have hW0 : 0 < W := by subst hW; split <;> omega
  have hbL : b.bitLen ≤ L := by subst hL; split <;> omega
  have hpad : ∀ j, (natBits n v.toNat).getD j false =
      if j < L - b.bitLen then false else (natBits W v.toNat).getD (j - (L - b.bitLen)) false := by
    intro j
    subst hL hW
    split
    · rename_i h8
      have := natBits_pad (w := 8) (v := v.toNat) v.isLt h8 j
      rw [this]
      have : b.bitLen + (n - 8) - b.bitLen = n - 8 := by omega
      rw [this]
    · simp
  have hfin : ∀ d : List Byte, d.length = 128 →
      (∀ i, bitAt d i = if i < L then bitAt b.data i else (natBits W v.toNat).getD (i - L) false) →
      Appends b (.ok (), { data := d, bitLen := L + W }) (natBits n v.toNat) := by
    intro d hd hbits
    apply appends_of hb hd (by simpa using hLW) (by omega)
    intro i
    rw [hbits, hpad]
    by_cases c1 : i < b.bitLen
    · rw [if_pos (by omega), if_pos c1]
    · rw [if_neg c1]
      by_cases c2 : i < L
      · rw [if_pos c2, if_pos (by omega), hb.tail i (by omega)]
      · rw [if_neg c2, if_neg (by omega)]
        congr 1; omega
  have hnew : ∀ j, W ≤ j → (natBits W v.toNat).getD j false = false := by
    intro j hj
    rw [natBits_getD]
    have : ¬ j < W := by omega
    simp [this]
  have hq : L / 8 < b.data.length := by omega
  have hm8 : L % 8 < 8 := Nat.mod_lt _ (by omega)
  by_cases hr : L % 8 = 0
  · simp only [hr, if_true, wr_ok hq, commit_ok]
    apply hfin _ (by simpa using hlen)
    intro i
    rw [set_eq_copy _ hq, aligned_bits hb hbL (new := fun j => (natBits W v.toNat).getD j false) hr (by simp; omega)]
    · intro j hj
      rw [bitAt_singleton _ j (by simpa using hj), getMsbD_shl_trunc v hW8]
    · intro j hj
      simp at hj; exact hnew _ (by omega)
  · simp only [hr, if_false, rd_ok hq, bind_ok, wr_ok hq]
    have hx : ∀ j, j < 8 → ((v <<< (8 - W)) >>> (L % 8)).getMsbD j = (decide (L % 8 ≤ j) && (natBits W v.toNat).getD (j - L % 8) false) := by
      intro j hj
      rw [getMsbD_shr _ _ hj, getMsbD_shl_trunc v hW8]
    by_cases hov : W + L % 8 > 8
    · rw [if_pos hov]
      have hq1 : L / 8 + 1 < (b.data.set (L / 8) (b.data.getD (L / 8) 0 ||| (v <<< (8 - W)) >>> (L % 8))).length := by
        simp; omega
      rw [wr_ok hq1, commit_ok]
      apply hfin _ (by simpa using hlen)
      intro i
      rw [set_eq_copy _ hq1, unaligned_bits hb hbL (new := fun j => (natBits W v.toNat).getD j false) hr (by simp; omega) hx]
      · intro j hj
        simp at hj
        rw [bitAt_singleton _ _ hj, BitVec.getMsbD_shiftLeft, getMsbD_shl_trunc v hW8]
      · intro j hj
        simp at hj; exact hnew _ (by omega)
    · rw [if_neg hov, commit_ok]
      apply hfin _ (by simpa using hlen)
      intro i
      have key := unaligned_bits hb hbL (rest := []) (new := fun j => (natBits W v.toNat).getD j false) hr (by simp; omega) hx
        (by intro j hj; simp at hj) (by intro j hj; simp at hj; exact hnew _ (by omega)) i
      rw [← key]
      simp

theorem storeSmallUint_err {b : DataBuilder} (v : Byte) {n : Nat} (hn : b.bitLen + n < 65536) (hb : WF b)
    (h : ¬ b.bitLen + n ≤ maxBitLen) : storeSmallUint b v n = (.error .cellOverflow, b) := by
  have : n ≠ 0 := by have := hb.le; omega
  simp [storeSmallUint, u16add_eq hn, h, this]

theorem storeUint_spec {b : DataBuilder} (hb : WF b) (v : BitVec 64) {n : Nat}
    (h : b.bitLen + n ≤ maxBitLen) : Appends b (storeUint b v n) (natBits n v.toNat) := by
  have hm : maxBitLen = 1023 := rfl
  have hlen := hb.len
  unfold storeUint
  dsimp only
  by_cases h0 : n = 0
  · subst h0
    simp only [if_true]
    refine ⟨b, rfl, hb, ?_⟩
    simp [natBits]
  rw [if_neg h0, u16add_eq (by omega), if_pos h]
  generalize hL : (if 64 ≤ n then b.bitLen + (n - 64) else b.bitLen) = L
  generalize hW : (if 64 ≤ n then 64 else n) = W
  have hLW : L + W = b.bitLen + n := by subst hL hW; split <;> omega
  have hW64 : W ≤ 64 := by subst hW; split <;> omega
  have hW0 : 0 < W := by subst hW; split <;> omega
  have hbL : b.bitLen ≤ L := by subst hL; split <;> omega
  have hpad : ∀ j, (natBits n v.toNat).getD j false =
      if j < L - b.bitLen then false else (natBits W v.toNat).getD (j - (L - b.bitLen)) false := by
    intro j
    subst hL hW
    split
    · rename_i h8
      have := natBits_pad (w := 64) (v := v.toNat) v.isLt h8 j
      rw [this]
      have : b.bitLen + (n - 64) - b.bitLen = n - 64 := by omega
      rw [this]
    · simp
  have hfin : ∀ d : List Byte, d.length = 128 →
      (∀ i, bitAt d i = if i < L then bitAt b.data i else (natBits W v.toNat).getD (i - L) false) →
      Appends b (.ok (), { data := d, bitLen := L + W }) (natBits n v.toNat) := by
    intro d hd hbits
    apply appends_of hb hd (by simpa using hLW) (by omega)
    intro i
    rw [hbits, hpad]
    by_cases c1 : i < b.bitLen
    · rw [if_pos (by omega), if_pos c1]
    · rw [if_neg c1]
      by_cases c2 : i < L
      · rw [if_pos c2, if_pos (by omega), hb.tail i (by omega)]
      · rw [if_neg c2, if_neg (by omega)]
        congr 1; omega
  have hnew : ∀ j, W ≤ j → (natBits W v.toNat).getD j false = false := by
    intro j hj
    rw [natBits_getD]
    have : ¬ j < W := by omega
    simp [this]
  have hval : ∀ j, BitVec.getMsbD (w := 8 * 8) (v <<< (64 - W)) j = (natBits W v.toNat).getD j false := by
    intro j
    exact getMsbD_shl_trunc v hW64 j
  have hq : L / 8 < b.data.length := by omega
  have hm8 : L % 8 < 8 := Nat.mod_lt _ (by omega)
  by_cases hr : L % 8 = 0
  · simp only [hr, if_true]
    rw [copyTo_ok (by simp; omega), commit_ok]
    apply hfin _ (by rw [length_copy (by simp; omega)]; exact hlen)
    intro i
    rw [aligned_bits hb hbL (new := fun j => (natBits W v.toNat).getD j false) hr (by simp; omega)]
    · intro j hj
      simp at hj
      have : j < 8 * ((W + 7) / 8) := by omega
      rw [bitAt_take, bitAt_toBE, hval]
      simp only [this, decide_true, Bool.true_and]
    · intro j hj
      simp at hj; exact hnew _ (by omega)
  · simp only [hr, if_false, rd_ok hq, bind_ok, wr_ok hq]
    have hx : ∀ j, j < 8 → (BitVec.setWidth 8 (BitVec.ushiftRight (n := 8 * 8) (v <<< (64 - W)) (64 - (8 - L % 8)))).getMsbD j = (decide (L % 8 ≤ j) && (natBits W v.toNat).getD (j - L % 8) false) := by
      intro j hj
      have e : 64 - (8 - L % 8) = 8 * 8 - 8 + L % 8 := by omega
      rw [e]
      have := getMsbD_setWidth8_shift (n := 8) (by omega) (v <<< (64 - W)) (L % 8) (by omega) hj
      rw [hval] at this
      exact this
    by_cases hov : 8 - L % 8 ≤ W ∧ W - (8 - L % 8) > 0
    · rw [if_pos hov, copyTo_ok (by simp; omega), commit_ok]
      apply hfin _ (by rw [length_copy (by simp; omega)]; simpa using hlen)
      intro i
      apply unaligned_bits hb hbL (new := fun j => (natBits W v.toNat).getD j false) hr (by simp; omega) hx
      · intro j hj
        simp at hj
        have : j < 8 * ((W - (8 - L % 8) + 7) / 8) := by omega
        rw [bitAt_take, bitAt_toBE, BitVec.getMsbD_shiftLeft, hval]
        simp only [this, decide_true, Bool.true_and]
      · intro j hj
        simp at hj; exact hnew _ (by omega)
    · rw [if_neg hov, commit_ok]
      apply hfin _ (by simpa using hlen)
      intro i
      have key := unaligned_bits hb hbL (rest := []) (new := fun j => (natBits W v.toNat).getD j false) hr (by simp; omega) hx
        (by intro j hj; simp at hj) (by intro j hj; simp at hj; exact hnew _ (by omega)) i
      rw [← key]
      simp only [List.append_nil, List.length_nil, Nat.add_zero, List.take_append_drop]
      rfl

theorem storeUint_err {b : DataBuilder} (v : BitVec 64) {n : Nat} (hn : b.bitLen + n < 65536) (hb : WF b)
    (h : ¬ b.bitLen + n ≤ maxBitLen) : storeUint b v n = (.error .cellOverflow, b) := by
  have : n ≠ 0 := by have := hb.le; omega
  simp [storeUint, u16add_eq hn, h, this]

/-- The unaligned copy loop writes the next `8 * n` bits of `value`. -/
theorem shiftLoop_spec {r : Nat} (hr0 : 0 < r) (hr : r < 8) (value : List Byte) (n : Nat) :
    ∀ (d : List Byte) (p vp : Nat), p + n < d.length → vp + n ≤ value.length →
      (∀ i, 8 * p + r ≤ i → bitAt d i = false) →
      ∃ d', shiftLoop r value n d p vp = .ok d' ∧ d'.length = d.length ∧
        ∀ i, bitAt d' i = if i < 8 * p + r then bitAt d i
          else if i < 8 * p + r + 8 * n then bitAt value (8 * vp + (i - (8 * p + r))) else false := by
  induction n with
  | zero =>
    intro d p vp hp hv ht
    refine ⟨d, rfl, rfl, ?_⟩
    intro i
    by_cases h : i < 8 * p + r
    · rw [if_pos h]
    · rw [if_neg h, if_neg (by omega), ht i (by omega)]
  | succ n ih =>
    intro d p vp hp hv ht
    unfold shiftLoop
    rw [rd_ok (by omega), bind_ok, rd_ok (by omega), bind_ok, wr_ok (by omega), bind_ok,
      wr_ok (by simp; omega), bind_ok]
    have hb : ∀ i, bitAt ((d.set p (d.getD p 0 ||| value.getD vp 0 >>> r)).set (p + 1) (value.getD vp 0 <<< (8 - r))) i =
        if i < 8 * p + r then bitAt d i
        else if i < 8 * p + r + 8 then bitAt value (8 * vp + (i - (8 * p + r))) else false := by
      intro i
      rw [bitAt_set (by simp; omega), bitAt_set (by omega)]
      by_cases h1 : i / 8 = p + 1
      · rw [if_pos h1, if_neg (by omega), BitVec.getMsbD_shiftLeft]
        by_cases h2 : i < 8 * p + r + 8
        · rw [if_pos h2, bitAt_byte _ _ _ (by omega)]
          congr 1; omega
        · rw [if_neg h2]
          simp [BitVec.getMsbD]; omega
      · rw [if_neg h1]
        by_cases h2 : i / 8 = p
        · rw [if_pos h2, BitVec.getMsbD_or, getMsbD_shr _ _ (by omega), bitAt_byte _ _ _ (by omega)]
          have e : 8 * p + i % 8 = i := by omega
          rw [e]
          by_cases h3 : i < 8 * p + r
          · have : ¬ r ≤ i % 8 := by omega
            rw [if_pos h3]; simp [this]
          · have h4 : r ≤ i % 8 := by omega
            rw [if_neg h3, if_pos (by omega), ht i (by omega), bitAt_byte _ _ _ (by omega)]
            have h5 : 8 * vp + (i % 8 - r) = 8 * vp + (i - (8 * p + r)) := by omega
            simp only [h5, h4, decide_true, Bool.true_and, Bool.false_or]
        · rw [if_neg h2]
          by_cases h3 : i < 8 * p + r
          · rw [if_pos h3]
          · rw [if_neg h3, if_neg (by omega), ht i (by omega)]
    have hDl : ((d.set p (d.getD p 0 ||| value.getD vp 0 >>> r)).set (p + 1) (value.getD vp 0 <<< (8 - r))).length = d.length := by simp
    generalize (d.set p (d.getD p 0 ||| value.getD vp 0 >>> r)).set (p + 1) (value.getD vp 0 <<< (8 - r)) = D at hb hDl
    obtain ⟨d', h1, h2, h3⟩ := ih D (p + 1) (vp + 1) (by omega) (by omega) (by
      intro i hi
      rw [hb i, if_neg (by omega), if_neg (by omega)])
    refine ⟨d', h1, by omega, ?_⟩
    intro i
    rw [h3 i]
    by_cases c1 : i < 8 * p + r
    · rw [if_pos (by omega), hb i, if_pos c1, if_pos c1]
    · rw [if_neg c1]
      by_cases c2 : i < 8 * (p + 1) + r
      · rw [if_pos c2, hb i, if_neg c1, if_pos (by omega), if_pos (by omega)]
      · rw [if_neg c2]
        by_cases c3 : i < 8 * (p + 1) + r + 8 * n
        · rw [if_pos c3, if_pos (by omega)]; congr 1; omega
        · rw [if_neg c3, if_neg (by omega)]

theorem getMsbD_mask {k j : Nat} (hk : k ≤ 8) (hj : j < 8) :
    ((0xff#8) <<< (8 - k)).getMsbD j = decide (j < k) := by
  have : ∀ k : Fin 9, ∀ j : Fin 8, ((0xff#8) <<< (8 - k.val)).getMsbD j.val = decide (j.val < k.val) := by decide
  exact this ⟨k, by omega⟩ ⟨j, hj⟩

theorem bitAt_mask {d : List Byte} {q k : Nat} (hq : q < d.length) (hk : k ≤ 8) (i : Nat) :
    bitAt (d.set q (d.getD q 0 &&& ((0xff#8) <<< (8 - k)))) i =
      if i / 8 = q then (bitAt d i && decide (i % 8 < k)) else bitAt d i := by
  rw [bitAt_set hq]
  split
  · rename_i h
    rw [BitVec.getMsbD_and, getMsbD_mask hk (by omega), bitAt_byte _ _ _ (by omega)]
    have : 8 * q + i % 8 = i := by omega
    rw [this]
  · rfl

theorem storeRaw_spec {b : DataBuilder} (hb : WF b) (value : List Byte) (hv : value.length < 8192) {n : Nat}
    (h : b.bitLen + n ≤ maxBitLen) : Appends b (storeRaw b value n) (rawBits value n) := by
  have hm : maxBitLen = 1023 := rfl
  have hlen := hb.len
  unfold storeRaw
  dsimp only
  rw [u16add_eq (by omega), if_pos h]
  have hmv : valueBitLenU16 value = 8 * value.length := by
    unfold valueBitLenU16
    rw [Nat.min_eq_left (by omega), Nat.mod_eq_of_lt (by omega)]
  rw [hmv]
  generalize hL : (if 8 * value.length ≤ n then u16add b.bitLen (n - 8 * value.length) else b.bitLen) = L
  generalize hW : (if 8 * value.length ≤ n then 8 * value.length else n) = W
  have hL' : L = b.bitLen + (n - W) := by
    subst hL hW; split
    · rw [u16add_eq (by omega)]
    · omega
  have hWn : W ≤ n := by subst hW; split <;> omega
  have hWv : W ≤ 8 * value.length := by subst hW; split <;> omega
  have hLW : L + W = b.bitLen + n := by omega
  have hbL : b.bitLen ≤ L := by omega
  have hraw : ∀ j, (rawBits value n).getD j false =
      if j < L - b.bitLen then false else (decide (j - (L - b.bitLen) < W) && bitAt value (j - (L - b.bitLen))) := by
    intro j
    rw [rawBits_getD]
    by_cases c : 8 * value.length ≤ n
    · rw [if_pos c] at hW
      by_cases c2 : n ≤ 8 * value.length
      · have : L - b.bitLen = 0 := by omega
        have : n = W := by omega
        simp_all
      · rw [if_neg c2]
        have : n - 8 * value.length = L - b.bitLen := by omega
        rw [this]
        split
        · rfl
        · by_cases c3 : j - (L - b.bitLen) < W
          · simp [c3]
          · rw [bitAt_of_le (by omega)]; simp
    · rw [if_neg c] at hW
      rw [if_pos (by omega)]
      have : L - b.bitLen = 0 := by omega
      subst hW
      simp [this]
  have hfin : ∀ d : List Byte, d.length = 128 →
      (∀ i, bitAt d i = if i < L then bitAt b.data i else (decide (i - L < W) && bitAt value (i - L))) →
      Appends b (.ok (), { data := d, bitLen := L + W }) (rawBits value n) := by
    intro d hd hbits
    apply appends_of hb hd (by simpa using hLW) (by omega)
    intro i
    rw [hbits, hraw]
    by_cases c1 : i < b.bitLen
    · rw [if_pos (by omega), if_pos c1]
    · rw [if_neg c1]
      by_cases c2 : i < L
      · rw [if_pos c2, if_pos (by omega), hb.tail i (by omega)]
      · rw [if_neg c2, if_neg (by omega)]
        have : i - b.bitLen - (L - b.bitLen) = i - L := by omega
        rw [this]
  by_cases hW0 : W = 0
  · rw [if_pos hW0]
    have := hfin b.data hlen (by
      intro i
      split
      · rfl
      · rw [hb.tail i (by omega)]
        have : ¬ i - L < W := by omega
        simp [this])
    rw [hW0] at this
    exact this
  rw [if_neg hW0]
  have hq : L / 8 < b.data.length := by omega
  have hm8 : L % 8 < 8 := Nat.mod_lt _ (by omega)
  by_cases hr : L % 8 = 0
  · simp only [hr, if_true]
    rw [rdN_ok (by omega), bind_ok, List.drop_zero]
    have hsl : (value.take ((W + 7) / 8)).length = (W + 7) / 8 := by simp; omega
    have hcopy : L / 8 + (value.take ((W + 7) / 8)).length ≤ b.data.length := by omega
    rw [copyTo_ok hcopy, bind_ok]
    generalize hd : b.data.take (L / 8) ++ value.take ((W + 7) / 8) ++ b.data.drop (L / 8 + (value.take ((W + 7) / 8)).length) = d
    have hdl : d.length = 128 := by rw [← hd, length_copy hcopy, hlen]
    have hdb : ∀ i, bitAt d i = if i < L then bitAt b.data i else (decide (i - L < 8 * ((W + 7) / 8)) && bitAt value (i - L)) := by
      intro i
      rw [← hd]
      apply aligned_bits hb hbL (new := fun j => (decide (j < 8 * ((W + 7) / 8)) && bitAt value j)) hr (by omega)
      · intro j hj
        rw [bitAt_take]
      · intro j hj
        rw [hsl] at hj
        have : ¬ j < 8 * ((W + 7) / 8) := by omega
        simp [this]
    by_cases hw8 : W % 8 ≠ 0
    · rw [if_pos hw8, rd_ok (by omega), bind_ok, wr_ok (by omega), commit_ok]
      apply hfin _ (by simpa using hdl)
      intro i
      rw [bitAt_mask (by omega) (by omega), hdb]
      by_cases c : i < L
      · rw [if_pos c]
        split <;> try rfl
        omega
      · rw [if_neg c]
        by_cases c2 : i / 8 = L / 8 + ((W + 7) / 8 - 1)
        · rw [if_pos c2]
          have h1 : i - L < 8 * ((W + 7) / 8) := by omega
          have h2 : decide (i % 8 < W % 8) = decide (i - L < W) := decide_eq_decide.mpr (by omega)
          rw [h2]
          simp [h1, c, Bool.and_comm]
        · rw [if_neg c2, if_neg c]
          have h2 : decide (i - L < 8 * ((W + 7) / 8)) = decide (i - L < W) := decide_eq_decide.mpr (by omega)
          rw [h2]
    · rw [if_neg hw8, commit_ok]
      apply hfin _ hdl
      intro i
      rw [hdb]
      have : 8 * ((W + 7) / 8) = W := by omega
      rw [this]
  · simp only [hr, if_false]
    generalize hB : (W + L % 8 + 7) / 8 - 1 = B
    obtain ⟨d1, e1, l1, b1⟩ := shiftLoop_spec (r := L % 8) (by omega) hm8 value B b.data (L / 8) 0
      (by omega) (by omega) (by intro i hi; exact hb.tail i (by omega))
    rw [e1, bind_ok]
    have hL8 : 8 * (L / 8) + L % 8 = L := by omega
    rw [hL8] at b1
    simp only [Nat.mul_zero, Nat.zero_add] at b1
    -- after the optional last partial byte
    have step2 : ∃ d2, (if B < (W + 7) / 8 then (do
              let v ← rd value B
              let x ← rd d1 (L / 8 + B)
              wr d1 (L / 8 + B) (x ||| (v >>> (L % 8))))
            else .ok d1 : Except Err (List Byte)) = .ok d2 ∧ d2.length = 128 ∧
          (∀ i, i < 8 * (L / 8 + B) + 8 → (bitAt d2 i = (if i < L then bitAt b.data i else bitAt value (i - L))) ∨ (L + 8 * ((W + 7) / 8) ≤ i ∧ bitAt d2 i = false)) ∧
          (∀ i, 8 * (L / 8 + B) + 8 ≤ i → bitAt d2 i = false) := by
      by_cases c : B < (W + 7) / 8
      · rw [if_pos c, rd_ok (by omega), bind_ok, rd_ok (by omega), bind_ok, wr_ok (by omega)]
        refine ⟨_, rfl, by simp; omega, ?_, ?_⟩
        · intro i hi
          rw [bitAt_set (by omega)]
          by_cases c2 : i / 8 = L / 8 + B
          · rw [if_pos c2, BitVec.getMsbD_or, getMsbD_shr _ _ (by omega), bitAt_byte _ _ _ (by omega)]
            have e : 8 * (L / 8 + B) + i % 8 = i := by omega
            rw [e, b1]
            by_cases c3 : i % 8 < L % 8
            · have c3' : ¬ L % 8 ≤ i % 8 := by omega
              simp only [c3', decide_false, Bool.false_and, Bool.or_false]
              by_cases c4 : i < L
              · left; rw [if_pos c4, if_pos c4]
              · left; rw [if_neg c4, if_neg c4, if_pos (by omega)]
            · left
              have c3' : L % 8 ≤ i % 8 := by omega
              by_cases c4 : i < L
              · omega
              · rw [if_neg c4, if_neg (by omega), if_neg c4, bitAt_byte _ _ _ (by omega)]
                have h5 : 8 * B + (i % 8 - L % 8) = i - L := by omega
                simp only [h5, c3', decide_true, Bool.true_and, Bool.false_or]
          · rw [if_neg c2, b1]
            left
            by_cases c4 : i < L
            · rw [if_pos c4, if_pos c4]
            · rw [if_neg c4, if_neg c4, if_pos (by omega)]
        · intro i hi
          rw [bitAt_set (by omega), if_neg (by omega), b1, if_neg (by omega), if_neg (by omega)]
      · rw [if_neg c]
        refine ⟨d1, rfl, by omega, ?_, ?_⟩
        · intro i hi
          rw [b1]
          by_cases c4 : i < L
          · left; rw [if_pos c4, if_pos c4]
          · rw [if_neg c4, if_neg c4]
            by_cases c5 : i < L + 8 * B
            · left; rw [if_pos c5]
            · right; exact ⟨by omega, by rw [if_neg c5]⟩
        · intro i hi
          rw [b1, if_neg (by omega), if_neg (by omega)]
    obtain ⟨d2, e2, l2, b2, t2⟩ := step2
    rw [e2, bind_ok]
    by_cases hw8 : (L % 8 + W) % 8 ≠ 0
    · rw [if_pos hw8, rd_ok (by omega), bind_ok, wr_ok (by omega), commit_ok]
      apply hfin _ (by simpa using l2)
      intro i
      rw [bitAt_mask (by omega) (by omega)]
      by_cases c2 : i / 8 = L / 8 + B
      · rw [if_pos c2]
        by_cases c : i < L
        · rw [if_pos c]
          have h1 : i % 8 < (L % 8 + W) % 8 := by omega
          rcases b2 i (by omega) with h | ⟨h, _⟩
          · simp [h, c]; intro _; omega
          · omega
        · rw [if_neg c]
          have h2 : decide (i % 8 < (L % 8 + W) % 8) = decide (i - L < W) := decide_eq_decide.mpr (by omega)
          rw [h2]
          by_cases c3 : i - L < W
          · rcases b2 i (by omega) with h | ⟨h, _⟩
            · simp [h, c, c3]
            · omega
          · simp [c3]
      · rw [if_neg c2]
        by_cases c3 : i < 8 * (L / 8 + B) + 8
        · rcases b2 i c3 with h | ⟨h, _⟩
          · rw [h]
            by_cases c : i < L
            · rw [if_pos c, if_pos c]
            · rw [if_neg c, if_neg c]
              have : i - L < W := by omega
              simp [this]
          · omega
        · rw [t2 i (by omega), if_neg (by omega)]
          have : ¬ i - L < W := by omega
          simp [this]
    · rw [if_neg hw8, commit_ok]
      apply hfin _ l2
      intro i
      by_cases c3 : i < 8 * (L / 8 + B) + 8
      · rcases b2 i c3 with h | ⟨h, h'⟩
        · rw [h]
          by_cases c : i < L
          · rw [if_pos c, if_pos c]
          · rw [if_neg c, if_neg c]
            have : i - L < W := by omega
            simp [this]
        · omega
      · rw [t2 i (by omega), if_neg (by omega)]
        have : ¬ i - L < W := by omega
        simp [this]

theorem storeRaw_err {b : DataBuilder} (value : List Byte) {n : Nat} (hn : b.bitLen + n < 65536)
    (h : ¬ b.bitLen + n ≤ maxBitLen) : storeRaw b value n = (.error .cellOverflow, b) := by
  simp [storeRaw, u16add_eq hn, h]

theorem rewindBits_spec {b : DataBuilder} (hb : WF b) {n : Nat} (h : n ≤ b.bitLen) :
    ∃ b', rewindBits b n = (.ok (), b') ∧ WF b' ∧ b'.bits = b.bits.take (b.bitLen - n) := by
  have hm : maxBitLen = 1023 := rfl
  have hlen := hb.len
  have hle := hb.le
  unfold rewindBits
  dsimp only
  by_cases h0 : n = 0
  · subst h0
    refine ⟨b, by simp, hb, ?_⟩
    rw [Nat.sub_zero, List.take_of_length_le (by rw [bits_length]; omega)]
  rw [if_neg h0, if_neg (by omega)]
  generalize hN : b.bitLen - n = N
  have hfin : ∀ d : List Byte, d.length = 128 → (∀ i, bitAt d i = (decide (i < N) && bitAt b.data i)) →
      ∃ b', commit b (.ok d) N = (.ok (), b') ∧ WF b' ∧ b'.bits = b.bits.take N := by
    intro d hd hbits
    refine ⟨_, rfl, ⟨hd, by simp only; omega, ?_⟩, ?_⟩
    · intro i hi
      simp only at hi ⊢
      rw [hbits]
      have : ¬ i < N := by omega
      simp [this]
    · apply list_ext_getD
      · simp [bits]; omega
      · intro i hi
        simp only [bits_length] at hi
        rw [DataBuilder.bits_getD i hi, getD_take_bits, DataBuilder.bits_getD i (by omega), hbits]
  by_cases hr : N % 8 = 0
  · rw [if_neg (by simpa using hr)]
    unfold zeroBytes
    have hc : N / 8 + (List.replicate ((n + 7) / 8) (0 : Byte)).length ≤ b.data.length := by simp; omega
    rw [copyTo_ok hc]
    apply hfin _ (by rw [length_copy hc]; exact hlen)
    intro i
    rw [bitAt_copy hc, List.length_replicate]
    by_cases c : i < N
    · rw [if_neg (by omega)]; simp [c]
    · have : ¬ i < N := c
      simp only [this, decide_false, Bool.false_and]
      split
      · exact bitAt_replicate_zero _ _
      · exact hb.tail i (by omega)
  · rw [if_pos (by simpa using hr)]
    rw [rd_ok (by omega), bind_ok, wr_ok (by omega), bind_ok]
    unfold zeroBytes
    have hc : N / 8 + 1 + (List.replicate ((n - (8 - N % 8) + 7) / 8) (0 : Byte)).length ≤
        (b.data.set (N / 8) (b.data.getD (N / 8) 0 &&& ((0xff#8) <<< (8 - N % 8)))).length := by simp; omega
    rw [copyTo_ok hc]
    apply hfin _ (by rw [length_copy hc]; simpa using hlen)
    intro i
    rw [bitAt_copy hc, List.length_replicate, bitAt_mask (by omega) (by omega)]
    by_cases c : i < N
    · rw [if_neg (by omega)]
      split
      · have : i % 8 < N % 8 := by omega
        simp [c, this]
      · simp [c]
    · have hc' : ¬ i < N := c
      simp only [hc', decide_false, Bool.false_and]
      split
      · exact bitAt_replicate_zero _ _
      · split
        · have : ¬ i % 8 < N % 8 := by omega
          simp [this]
        · exact hb.tail i (by omega)

theorem rawBits_self {b : DataBuilder} (hb : WF b) : rawBits b.data b.bitLen = b.bits := by
  have hm : maxBitLen = 1023 := rfl
  have hle := hb.le
  have hlen := hb.len
  apply list_ext_getD (by simp [bits_length])
  intro i hi
  rw [rawBits_length] at hi
  rw [rawBits_getD, if_pos (by omega), DataBuilder.bits_getD i hi]
  simp [hi]

theorem prependRaw_spec {b : DataBuilder} (hb : WF b) (value : List Byte) (hv : value.length < 8192) {n : Nat}
    (h : b.bitLen + n ≤ maxBitLen) :
    ∃ b', prependRaw b value n = (.ok (), b') ∧ WF b' ∧ b'.bits = rawBits value n ++ b.bits := by
  have hm : maxBitLen = 1023 := rfl
  have hlen := hb.len
  unfold prependRaw
  by_cases h0 : n = 0
  · subst h0
    refine ⟨b, by simp, hb, ?_⟩
    have : (rawBits value 0) = [] := List.length_eq_zero_iff.mp (by simp)
    simp [this]
  rw [if_neg h0, u16add_eq (by omega), if_pos h]
  obtain ⟨t1, e1, w1, b1⟩ := storeRaw_spec wf_new value hv (n := n) (by simp [new]; omega)
  rw [e1]
  have hl1 : t1.bitLen = n := by
    rw [← bits_length, b1]; simp [new, bits]
  obtain ⟨t2, e2, w2, b2⟩ := storeRaw_spec w1 b.data (by omega) (n := b.bitLen) (by omega)
  simp only [e2]
  refine ⟨t2, rfl, w2, ?_⟩
  rw [b2, b1, rawBits_self hb]
  simp [new, bits]

theorem storeOnes_bits {n : Nat} (h : n ≤ 1023) : rawBits (List.replicate 128 0xff#8) n = List.replicate n true := by
  apply list_ext_getD (by simp)
  intro i hi
  rw [rawBits_length] at hi
  rw [rawBits_getD, List.length_replicate, if_pos (by omega)]
  have h1 : bitAt (List.replicate 128 (0xff#8)) i = true := by
    unfold bitAt
    have hq : i / 8 < 128 := by omega
    simp only [List.getD_eq_getElem?_getD, List.getElem?_replicate, hq, if_true, Option.getD_some]
    have : ∀ j : Fin 8, (0xff#8).getMsbD j.val = true := by decide
    exact this ⟨i % 8, by omega⟩
  rw [h1]
  simp [List.getD_eq_getElem?_getD, List.getElem?_replicate, hi]

end DataBuilder
end Verif
