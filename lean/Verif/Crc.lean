import Mathlib.Algebra.Polynomial.Div
import Mathlib.Algebra.Polynomial.Degree.Operations
import Mathlib.Data.ZMod.Basic
import Mathlib.Algebra.CharP.Two
import Mathlib.Algebra.CharP.Algebra
import Mathlib.RingTheory.Coprime.Lemmas
import Mathlib.Algebra.Field.ZMod
import Mathlib.Tactic.ComputeDegree
import Mathlib.Tactic.NormNum.Prime
import Mathlib.Tactic.Ring
import Mathlib.Tactic.LinearCombination
import Verif.CellLemmas
/-
C48: the CRC16 of addresses.
Specification: the remainder of a polynomial division over the field with two elements (Mathlib's polynomials).
-/
set_option linter.unusedVariables false
set_option linter.unusedSimpArgs false
namespace Verif
namespace Crc

instance : Fact (Nat.Prime 2) := ⟨Nat.prime_two⟩

/-! ### Model -/

/-- `crc.rs:14-37` `CRC16_TABLE` -/
def table : List (BitVec 16) := [
    0x0000, 0x1021, 0x2042, 0x3063, 0x4084, 0x50a5, 0x60c6, 0x70e7, 0x8108, 0x9129, 0xa14a, 0xb16b,
    0xc18c, 0xd1ad, 0xe1ce, 0xf1ef, 0x1231, 0x0210, 0x3273, 0x2252, 0x52b5, 0x4294, 0x72f7, 0x62d6,
    0x9339, 0x8318, 0xb37b, 0xa35a, 0xd3bd, 0xc39c, 0xf3ff, 0xe3de, 0x2462, 0x3443, 0x0420, 0x1401,
    0x64e6, 0x74c7, 0x44a4, 0x5485, 0xa56a, 0xb54b, 0x8528, 0x9509, 0xe5ee, 0xf5cf, 0xc5ac, 0xd58d,
    0x3653, 0x2672, 0x1611, 0x0630, 0x76d7, 0x66f6, 0x5695, 0x46b4, 0xb75b, 0xa77a, 0x9719, 0x8738,
    0xf7df, 0xe7fe, 0xd79d, 0xc7bc, 0x48c4, 0x58e5, 0x6886, 0x78a7, 0x0840, 0x1861, 0x2802, 0x3823,
    0xc9cc, 0xd9ed, 0xe98e, 0xf9af, 0x8948, 0x9969, 0xa90a, 0xb92b, 0x5af5, 0x4ad4, 0x7ab7, 0x6a96,
    0x1a71, 0x0a50, 0x3a33, 0x2a12, 0xdbfd, 0xcbdc, 0xfbbf, 0xeb9e, 0x9b79, 0x8b58, 0xbb3b, 0xab1a,
    0x6ca6, 0x7c87, 0x4ce4, 0x5cc5, 0x2c22, 0x3c03, 0x0c60, 0x1c41, 0xedae, 0xfd8f, 0xcdec, 0xddcd,
    0xad2a, 0xbd0b, 0x8d68, 0x9d49, 0x7e97, 0x6eb6, 0x5ed5, 0x4ef4, 0x3e13, 0x2e32, 0x1e51, 0x0e70,
    0xff9f, 0xefbe, 0xdfdd, 0xcffc, 0xbf1b, 0xaf3a, 0x9f59, 0x8f78, 0x9188, 0x81a9, 0xb1ca, 0xa1eb,
    0xd10c, 0xc12d, 0xf14e, 0xe16f, 0x1080, 0x00a1, 0x30c2, 0x20e3, 0x5004, 0x4025, 0x7046, 0x6067,
    0x83b9, 0x9398, 0xa3fb, 0xb3da, 0xc33d, 0xd31c, 0xe37f, 0xf35e, 0x02b1, 0x1290, 0x22f3, 0x32d2,
    0x4235, 0x5214, 0x6277, 0x7256, 0xb5ea, 0xa5cb, 0x95a8, 0x8589, 0xf56e, 0xe54f, 0xd52c, 0xc50d,
    0x34e2, 0x24c3, 0x14a0, 0x0481, 0x7466, 0x6447, 0x5424, 0x4405, 0xa7db, 0xb7fa, 0x8799, 0x97b8,
    0xe75f, 0xf77e, 0xc71d, 0xd73c, 0x26d3, 0x36f2, 0x0691, 0x16b0, 0x6657, 0x7676, 0x4615, 0x5634,
    0xd94c, 0xc96d, 0xf90e, 0xe92f, 0x99c8, 0x89e9, 0xb98a, 0xa9ab, 0x5844, 0x4865, 0x7806, 0x6827,
    0x18c0, 0x08e1, 0x3882, 0x28a3, 0xcb7d, 0xdb5c, 0xeb3f, 0xfb1e, 0x8bf9, 0x9bd8, 0xabbb, 0xbb9a,
    0x4a75, 0x5a54, 0x6a37, 0x7a16, 0x0af1, 0x1ad0, 0x2ab3, 0x3a92, 0xfd2e, 0xed0f, 0xdd6c, 0xcd4d,
    0xbdaa, 0xad8b, 0x9de8, 0x8dc9, 0x7c26, 0x6c07, 0x5c64, 0x4c45, 0x3ca2, 0x2c83, 0x1ce0, 0x0cc1,
    0xef1f, 0xff3e, 0xcf5d, 0xdf7c, 0xaf9b, 0xbfba, 0x8fd9, 0x9ff8, 0x6e17, 0x7e36, 0x4e55, 0x5e74,
    0x2e93, 0x3eb2, 0x0ed1, 0x1ef0]

/-- One round of the loop `crc.rs:7-10`. `crc` is kept in 32 bits but always below `2^16`, it is modelled with 16 bits. -/
def step (crc : BitVec 16) (c : Byte) : BitVec 16 :=
  table.getD (c ^^^ (crc >>> 8).setWidth 8).toNat 0 ^^^ (crc <<< 8)

/-- `crc.rs:5-12` `crc_16` -/
def crc16 (data : List Byte) : BitVec 16 := data.foldl step 0

/-! ### Specification -/

open Polynomial

/-- The polynomial of a bit string, the first bit being the highest coefficient. -/
noncomputable def polyOf : Bits → (ZMod 2)[X]
  | [] => 0
  | b :: t => (if b then X ^ t.length else 0) + polyOf t

/-- The CCITT polynomial. -/
noncomputable def G : (ZMod 2)[X] := X ^ 16 + X ^ 12 + X ^ 5 + 1

/-! ### Lemmas -/

theorem two_zero (p : (ZMod 2)[X]) : p + p = 0 := CharTwo.add_self_eq_zero p

theorem polyOf_append (a b : Bits) : polyOf (a ++ b) = polyOf a * X ^ b.length + polyOf b := by
  induction a with
  | nil => simp [polyOf]
  | cons c t ih =>
    show (if c then X ^ (t ++ b).length else 0) + polyOf (t ++ b) = ((if c then X ^ t.length else 0) + polyOf t) * X ^ b.length + polyOf b
    rw [ih, List.length_append]
    cases c
    · simp
    · simp only [if_true]; ring

theorem polyOf_zeros (n : Nat) : polyOf (List.replicate n false) = 0 := by
  induction n with
  | zero => rfl
  | succ n ih => rw [List.replicate_succ]; show (if false then _ else 0) + polyOf _ = 0; rw [ih]; simp

theorem polyOf_xor : ∀ (a b : Bits), a.length = b.length → polyOf (List.zipWith xor a b) = polyOf a + polyOf b
  | [], [], _ => by simp [polyOf]
  | [], _ :: _, h => by simp at h
  | _ :: _, [], h => by simp at h
  | x :: a, y :: b, h => by
    have h' : a.length = b.length := by simpa using h
    have ih := polyOf_xor a b h'
    have hl : (List.zipWith xor a b).length = b.length := by simp [h']
    show (if (x ^^ y) then X ^ (List.zipWith xor a b).length else 0) + polyOf (List.zipWith xor a b) =
      ((if x then X ^ a.length else 0) + polyOf a) + ((if y then X ^ b.length else 0) + polyOf b)
    rw [ih, hl, h']
    have h2 := two_zero (X ^ b.length)
    cases x <;> cases y
    · simp
    · simp; ring
    · simp; ring
    · simp; linear_combination -h2

theorem polyOf_degree : ∀ l : Bits, (polyOf l).degree < l.length
  | [] => by simp [polyOf]
  | b :: t => by
    have ih := polyOf_degree t
    have hlt : ((t.length : ℕ) : WithBot ℕ) < ((b :: t).length : ℕ) := by exact_mod_cast Nat.lt_succ_self _
    refine lt_of_le_of_lt (degree_add_le _ _) (max_lt ?_ (lt_trans ih hlt))
    cases b
    · simp
    · simp only [if_true]; exact lt_of_le_of_lt (degree_X_pow_le _) hlt

theorem polyOf_eq_zero : ∀ l : Bits, polyOf l = 0 → ∀ b ∈ l, b = false
  | [], _ => by simp
  | b :: t, h => by
    cases b
    · have : polyOf t = 0 := by
        have h : (if false then X ^ t.length else 0) + polyOf t = 0 := h
        simpa using h
      intro b hb
      rcases List.mem_cons.1 hb with e | hb
      · exact e
      · exact polyOf_eq_zero t this b hb
    · exfalso
      have h : X ^ t.length + polyOf t = 0 := h
      have hc := congrArg (coeff · t.length) h
      simp only [coeff_add, coeff_X_pow, if_true, coeff_zero] at hc
      rw [coeff_eq_zero_of_degree_lt (polyOf_degree t)] at hc
      simp at hc

theorem G_degree : G.degree = 16 := by
  unfold G
  compute_degree!

theorem G_monic : G.Monic := by
  unfold G
  monicity!

/-- `G` divides no multiple of a power of `X` by a polynomial of lower degree. -/
theorem G_coprime (k : Nat) : IsCoprime G (X ^ k) := by
  apply IsCoprime.pow_right
  refine ⟨1, -(X ^ 15 + X ^ 11 + X ^ 4), ?_⟩
  unfold G; ring

theorem G_dvd_shift {k : Nat} {p : (ZMod 2)[X]} (h : G ∣ p * X ^ k) : G ∣ p := (G_coprime k).dvd_of_dvd_mul_right h

/-- One step of a shift register. -/
def shift1 (s : BitVec 16) : BitVec 16 := (s <<< 1) ^^^ (if s.getMsbD 0 then 0x1021#16 else 0)

theorem wordBits_xor {n : Nat} (a b : BitVec n) : wordBits (a ^^^ b) = List.zipWith xor (wordBits a) (wordBits b) := by
  refine list_ext_getD (by simp) fun i hi => ?_
  have hi : i < n := by simpa using hi
  rw [wordBits_getD, BitVec.getMsbD_xor, List.getD_eq_getElem?_getD, List.getElem?_zipWith]
  have h1 : (wordBits a)[i]? = some (a.getMsbD i) := by
    unfold wordBits
    rw [List.getElem?_map, List.getElem?_range hi]; rfl
  have h2 : (wordBits b)[i]? = some (b.getMsbD i) := by
    unfold wordBits
    rw [List.getElem?_map, List.getElem?_range hi]; rfl
  rw [h1, h2]; rfl

theorem polyOf_word_xor {n : Nat} (a b : BitVec n) : polyOf (wordBits (a ^^^ b)) = polyOf (wordBits a) + polyOf (wordBits b) := by
  rw [wordBits_xor, polyOf_xor _ _ (by simp)]

theorem wordBits_shl {k : Nat} (s : BitVec 16) (h : k ≤ 16) : wordBits (s <<< k) = (wordBits s).drop k ++ List.replicate k false := by
  refine list_ext_getD (by simp; omega) fun i hi => ?_
  have hi : i < 16 := by simpa using hi
  rw [wordBits_getD, BitVec.getMsbD_shiftLeft, List.getD_eq_getElem?_getD]
  by_cases h1 : i < 16 - k
  · rw [List.getElem?_append_left (by simp; omega), List.getElem?_drop, ← List.getD_eq_getElem?_getD, wordBits_getD, Nat.add_comm]
  · rw [List.getElem?_append_right (by simp; omega), List.getElem?_replicate, BitVec.getMsbD_of_ge _ _ (by omega)]
    split <;> rfl

theorem wordBits_split (s : BitVec 16) (k : Nat) (h : k ≤ 16) : polyOf (wordBits s) =
    polyOf ((wordBits s).take k) * X ^ (16 - k) + polyOf ((wordBits s).drop k) := by
  conv_lhs => rw [← List.take_append_drop k (wordBits s), polyOf_append]
  simp

theorem shift1_poly (s : BitVec 16) : ∃ q, X * polyOf (wordBits s) = q * G + polyOf (wordBits (shift1 s)) := by
  have h1 := wordBits_split s 1 (by decide)
  have h21 : polyOf (wordBits (0x1021#16)) = X ^ 12 + X ^ 5 + 1 := by
    have : wordBits (0x1021#16) = [false, false, false, true, false, false, false, false, false, false, true, false, false, false, false, true] := by
      decide
    rw [this]
    simp [polyOf]
    ring
  have ht : (wordBits s).take 1 = [s.getMsbD 0] := by
    have hlen : (wordBits s).length = 16 := by simp
    cases hw : wordBits s with
    | nil => rw [hw] at hlen; cases hlen
    | cons b t =>
      have := wordBits_getD s 0
      rw [hw] at this
      have : b = s.getMsbD 0 := this
      rw [this]; rfl
  unfold shift1
  rw [polyOf_word_xor, wordBits_shl s (by decide), polyOf_append, polyOf_zeros, h1, ht]
  simp only [List.length_replicate]
  cases hb : s.getMsbD 0
  · refine ⟨0, ?_⟩
    have e0 : polyOf (wordBits (0 : BitVec 16)) = 0 := by
      have : wordBits (0 : BitVec 16) = List.replicate 16 false := by decide
      rw [this, polyOf_zeros]
    simp only [Bool.false_eq_true, if_false, e0]
    simp [polyOf]; ring
  · refine ⟨1, ?_⟩
    simp only [if_true, h21]
    have e := two_zero (X ^ 12 + X ^ 5 + 1)
    simp only [polyOf, if_true, List.length_nil, pow_zero]
    unfold G
    linear_combination -e

def shiftN : Nat → BitVec 16 → BitVec 16
  | 0, s => s
  | n + 1, s => shiftN n (shift1 s)

theorem shiftN_poly : ∀ n (s : BitVec 16), ∃ q, X ^ n * polyOf (wordBits s) = q * G + polyOf (wordBits (shiftN n s))
  | 0, s => ⟨0, by simp [shiftN]⟩
  | n + 1, s => by
    obtain ⟨q1, h1⟩ := shift1_poly s
    obtain ⟨q2, h2⟩ := shiftN_poly n (shift1 s)
    refine ⟨X ^ n * q1 + q2, ?_⟩
    show _ = _ + polyOf (wordBits (shiftN n (shift1 s)))
    linear_combination X ^ n * h1 + h2

/-- Every entry of the table is the remainder for its index. -/
theorem table_spec : ∀ t : Fin 256, table.getD t 0 = shiftN 8 (BitVec.ofNat 16 t <<< 8) := by decide +kernel

theorem table_poly (t : Byte) : ∃ q, X ^ 16 * polyOf (wordBits t) = q * G + polyOf (wordBits (table.getD t.toNat 0)) := by
  have h := table_spec ⟨t.toNat, t.isLt⟩
  obtain ⟨q, hq⟩ := shiftN_poly 8 (BitVec.ofNat 16 t.toNat <<< 8)
  have hw : wordBits (BitVec.ofNat 16 t.toNat <<< 8) = wordBits t ++ List.replicate 8 false := by
    have : ∀ n : Fin 256, wordBits (BitVec.ofNat 16 n <<< 8) = wordBits (BitVec.ofNat 8 n) ++ List.replicate 8 false := by decide +kernel
    have := this ⟨t.toNat, t.isLt⟩
    simpa using this
  rw [hw, polyOf_append, polyOf_zeros] at hq
  refine ⟨q, ?_⟩
  have h : table.getD t.toNat 0 = shiftN 8 (BitVec.ofNat 16 t.toNat <<< 8) := h
  rw [h]
  simp only [List.length_replicate, add_zero] at hq
  rw [← hq]; ring

theorem wordBits_hi (s : BitVec 16) : wordBits ((s >>> 8).setWidth 8) = (wordBits s).take 8 := by
  refine list_ext_getD (by simp) fun i hi => ?_
  have hi : i < 8 := by simpa using hi
  rw [wordBits_getD, List.getD_eq_getElem?_getD, List.getElem?_take, if_pos hi, ← List.getD_eq_getElem?_getD, wordBits_getD]
  rw [BitVec.getMsbD_eq_getLsbD, BitVec.getMsbD_eq_getLsbD]
  simp [hi]
  have h1 : i < 16 := by omega
  simp [h1]
  have h2 : 7 - i < 8 := by omega
  simp [h2]
  rw [show 8 + (7 - i) = 15 - i by omega]

theorem step_poly (crc : BitVec 16) (c : Byte) : ∃ q, X ^ 8 * polyOf (wordBits crc) + X ^ 16 * polyOf (wordBits c) =
    q * G + polyOf (wordBits (step crc c)) := by
  obtain ⟨q, hq⟩ := table_poly (c ^^^ (crc >>> 8).setWidth 8)
  refine ⟨q, ?_⟩
  unfold step
  rw [polyOf_word_xor, wordBits_shl crc (by decide), polyOf_append, polyOf_zeros, wordBits_split crc 8 (by decide)]
  rw [polyOf_word_xor, wordBits_hi] at hq
  simp only [List.length_replicate]
  linear_combination hq

theorem fold_poly : ∀ (data : List Byte) (crc : BitVec 16), ∃ q,
    X ^ (8 * data.length) * polyOf (wordBits crc) + X ^ 16 * polyOf (bytesToBits data) =
      q * G + polyOf (wordBits (data.foldl step crc))
  | [], crc => ⟨0, by simp [polyOf]⟩
  | c :: t, crc => by
    obtain ⟨q1, h1⟩ := step_poly crc c
    obtain ⟨q2, h2⟩ := fold_poly t (step crc c)
    refine ⟨X ^ (8 * t.length) * q1 + q2, ?_⟩
    rw [bytesToBits_cons, polyOf_append, bytesToBits_length, List.foldl_cons, List.length_cons]
    have e : (X : (ZMod 2)[X]) ^ (8 * (t.length + 1)) = X ^ (8 * t.length) * X ^ 8 := by ring
    rw [e]
    linear_combination X ^ (8 * t.length) * h1 + h2

theorem wordBits_zero16 : polyOf (wordBits (0 : BitVec 16)) = 0 := by
  have : wordBits (0 : BitVec 16) = List.replicate 16 false := by decide
  rw [this, polyOf_zeros]

/-! ### C48 -/

/-- C48: `crc_16` is the remainder of the data, as a polynomial, times `X^16`, divided by the CCITT polynomial. -/
theorem C48_remainder (data : List Byte) :
    (polyOf (bytesToBits data) * X ^ 16) %ₘ (X ^ 16 + X ^ 12 + X ^ 5 + 1) = polyOf (wordBits (crc16 data)) := by
  obtain ⟨q, h⟩ := fold_poly data 0
  rw [wordBits_zero16] at h
  have hd : (polyOf (wordBits (crc16 data))).degree < G.degree := by
    rw [G_degree]
    have := polyOf_degree (wordBits (crc16 data))
    simpa using this
  refine (div_modByMonic_unique q _ G_monic ⟨?_, hd⟩).2
  unfold crc16
  linear_combination -h

theorem crc_congr (data : List Byte) : ∃ q, X ^ 16 * polyOf (bytesToBits data) = q * G + polyOf (wordBits (crc16 data)) := by
  obtain ⟨q, h⟩ := fold_poly data 0
  rw [wordBits_zero16] at h
  exact ⟨q, by unfold crc16; linear_combination h⟩

theorem word_eq_of_poly {a b : BitVec 16} (h : G ∣ polyOf (wordBits a) + polyOf (wordBits b)) : a = b := by
  rw [← polyOf_word_xor] at h
  have hz : polyOf (wordBits (a ^^^ b)) = 0 := by
    apply eq_zero_of_dvd_of_degree_lt h
    rw [G_degree]
    have := polyOf_degree (wordBits (a ^^^ b))
    simpa using this
  have h0 := polyOf_eq_zero _ hz
  apply BitVec.eq_of_getMsbD_eq
  intro i hi
  have : (a ^^^ b).getMsbD i = false := by
    rw [← wordBits_getD, List.getD_eq_getElem?_getD]
    cases hg : (wordBits (a ^^^ b))[i]? with
    | none => rfl
    | some x => exact h0 x (List.mem_of_getElem? hg)
  rw [BitVec.getMsbD_xor] at this
  simpa using this

/-- C48: the data followed by two bytes has checksum zero exactly if the bytes are the checksum of the data. -/
theorem C48_append (data : List Byte) (h l : Byte) :
    crc16 (data ++ [h, l]) = 0 ↔ h = ((crc16 data) >>> 8).setWidth 8 ∧ l = (crc16 data).setWidth 8 := by
  have hbits : wordBits (h ++ l) = bytesToBits [h, l] := by
    rw [bytesToBits_cons, bytesToBits_singleton]
    refine list_ext_getD (by simp) fun i hi => ?_
    have hi : i < 16 := by simpa using hi
    rw [wordBits_getD, BitVec.getMsbD_append, List.getD_eq_getElem?_getD]
    by_cases h8 : i < 8
    · have : ¬ 8 ≤ i := by omega
      rw [List.getElem?_append_left (by simp; omega), ← List.getD_eq_getElem?_getD, wordBits_getD]
      simp [this]
    · have : 8 ≤ i := by omega
      rw [List.getElem?_append_right (by simp; omega), ← List.getD_eq_getElem?_getD, wordBits_getD]
      simp [this]
  have key : crc16 (data ++ [h, l]) = 0 ↔ crc16 data = h ++ l := by
    obtain ⟨q1, h1⟩ := crc_congr data
    obtain ⟨q2, h2⟩ := crc_congr (data ++ [h, l])
    rw [bytesToBits_append, polyOf_append, ← hbits] at h2
    simp only [wordBits_length] at h2
    constructor
    · intro e
      rw [e, wordBits_zero16] at h2
      apply word_eq_of_poly
      apply G_dvd_shift (k := 16)
      have t := two_zero (X ^ 16 * polyOf (wordBits (crc16 data)))
      refine ⟨q2 - X ^ 16 * q1, ?_⟩
      linear_combination h2 - X ^ 16 * h1
    · intro e
      apply word_eq_of_poly
      rw [wordBits_zero16]
      rw [← e] at h2
      have t := two_zero (X ^ 16 * polyOf (wordBits (crc16 data)))
      refine ⟨X ^ 16 * q1 - q2, ?_⟩
      linear_combination X ^ 16 * h1 - h2 + t
  rw [key]
  constructor
  · intro e
    rw [e]
    constructor
    · have : ∀ i, i < 8 → ((h ++ l) >>> 8).getLsbD i = h.getLsbD i := by
        intro i hi
        rw [BitVec.getLsbD_ushiftRight, BitVec.getLsbD_append]
        have : ¬ 8 + i < 8 := by omega
        simp [this]
      apply BitVec.eq_of_getLsbD_eq
      intro i hi
      rw [BitVec.getLsbD_setWidth, this i hi]; simp [hi]
    · apply BitVec.eq_of_getLsbD_eq
      intro i hi
      rw [BitVec.getLsbD_setWidth, BitVec.getLsbD_append]; simp [hi]
  · rintro ⟨e1, e2⟩
    apply BitVec.eq_of_getLsbD_eq
    intro i hi
    rw [BitVec.getLsbD_append, e1, e2]
    by_cases h8 : i < 8
    · simp [h8]
    · have : 8 + (i - 8) = i := by omega
      have h9 : i - 8 < 8 := by omega
      simp [h8, this, h9]

/-- C48: two different byte strings of one length that differ only within sixteen consecutive bits have different checksums. -/
theorem C48_burst {a b : List Byte} {pre m m' suf : Bits} (ha : bytesToBits a = pre ++ m ++ suf) (hb : bytesToBits b = pre ++ m' ++ suf)
    (hl : m.length = m'.length) (h16 : m.length ≤ 16) (hne : a ≠ b) : crc16 a ≠ crc16 b := by
  intro e
  apply hne
  apply bytesToBits_inj
  obtain ⟨q1, h1⟩ := crc_congr a
  obtain ⟨q2, h2⟩ := crc_congr b
  rw [ha, polyOf_append, polyOf_append] at h1
  rw [hb, polyOf_append, polyOf_append, ← e] at h2
  have hz : polyOf (List.zipWith xor m m') = 0 := by
    apply eq_zero_of_dvd_of_degree_lt (p := G)
    · apply G_dvd_shift (k := suf.length + 16)
      rw [polyOf_xor _ _ hl]
      refine ⟨q1 + q2, ?_⟩
      have t1 := two_zero (X ^ 16 * (polyOf pre * X ^ m.length * X ^ suf.length + polyOf suf))
      have t2 := two_zero (polyOf (wordBits (crc16 a)))
      rw [← hl] at h2
      rw [pow_add]
      linear_combination h1 + h2 - t1 + t2
    · rw [G_degree]
      refine lt_of_lt_of_le (polyOf_degree _) ?_
      rw [List.length_zipWith, ← hl, Nat.min_self]
      exact_mod_cast h16
  have h0 := polyOf_eq_zero _ hz
  have : m = m' := by
    refine list_ext_getD hl fun i hi => ?_
    have hg : (List.zipWith xor m m')[i]? = some (m.getD i false ^^ m'.getD i false) := by
      rw [List.getElem?_zipWith, List.getD_eq_getElem?_getD, List.getD_eq_getElem?_getD, List.getElem?_eq_getElem hi,
        List.getElem?_eq_getElem (hl ▸ hi)]
      rfl
    have := h0 _ (List.mem_of_getElem? hg)
    simpa using this
  rw [ha, hb, this]

/-- C48: so a checked string stops being valid if at most sixteen consecutive bits of it, checksum included, are changed. -/
theorem C48_detect {a b : List Byte} {pre m m' suf : Bits} (ha : bytesToBits a = pre ++ m ++ suf) (hb : bytesToBits b = pre ++ m' ++ suf)
    (hl : m.length = m'.length) (h16 : m.length ≤ 16) (hne : a ≠ b) (hv : crc16 a = 0) : crc16 b ≠ 0 :=
  fun h => C48_burst ha hb hl h16 hne (hv.trans h.symm)

example : crc16 [0x31, 0x32, 0x33, 0x34, 0x35, 0x36, 0x37, 0x38, 0x39] = 0x31c3 := by decide +kernel
example : crc16 [0x31, 0x32, 0x33, 0x34, 0x35, 0x36, 0x37, 0x38, 0x39, 0x31, 0xc3] = 0 := by decide +kernel
example : ∃ pre m m' suf, bytesToBits [0x12, 0x34] = pre ++ m ++ suf ∧ bytesToBits [0x1a, 0x34] = pre ++ m' ++ suf ∧ m.length = m'.length ∧
    m.length ≤ 16 := ⟨[], (bytesToBits [0x12, 0x34]), bytesToBits [0x1a, 0x34], [], by simp, by simp, by simp, by simp⟩

end Crc
end Verif
