import Verif.Basic
/-
Memory primitives: raw pointer reads and writes into a byte buffer.
An access outside of the buffer is the explicit outcome `Err.fault`.
-/
namespace Verif

/-- `*ptr.add(i)` (read). -/
def rd (d : List Byte) (i : Nat) : Except Err Byte :=
  match d[i]? with
  | some b => .ok b
  | none => .error .fault

/-- `*ptr.add(i) = b` (write). -/
def wr (d : List Byte) (i : Nat) (b : Byte) : Except Err (List Byte) :=
  if i < d.length then .ok (d.set i b) else .error .fault

/-- `ptr::copy_nonoverlapping(bs.as_ptr(), ptr.add(q), bs.len())`. -/
def copyTo (d : List Byte) (q : Nat) (bs : List Byte) : Except Err (List Byte) :=
  if q + bs.length ≤ d.length then .ok (d.take q ++ bs ++ d.drop (q + bs.length)) else .error .fault

/-- Read `n` bytes starting at `q` (source side of `copy_nonoverlapping`). -/
def rdN (d : List Byte) (q n : Nat) : Except Err (List Byte) :=
  if q + n ≤ d.length then .ok ((d.drop q).take n) else .error .fault

/-- `uN::to_be_bytes` for an `n`-byte word. -/
def toBE (n : Nat) (v : BitVec (8 * n)) : List Byte :=
  (List.range n).map fun k => v.extractLsb' (8 * (n - 1 - k)) 8

/-- `uN::from_be_bytes` for an `n`-byte word. -/
def fromBE (n : Nat) (bs : List Byte) : BitVec (8 * n) :=
  BitVec.ofNat (8 * n) (bs.foldl (fun a b => 256 * a + b.toNat) 0)

/-! ### Lemmas -/

theorem rd_ok {d : List Byte} {i : Nat} (h : i < d.length) : rd d i = .ok (d.getD i 0) := by
  simp [rd, h]

theorem wr_ok {d : List Byte} {i : Nat} {b : Byte} (h : i < d.length) : wr d i b = .ok (d.set i b) := by
  simp [wr, h]

theorem copyTo_ok {d : List Byte} {q : Nat} {bs : List Byte} (h : q + bs.length ≤ d.length) :
    copyTo d q bs = .ok (d.take q ++ bs ++ d.drop (q + bs.length)) := by
  simp [copyTo, h]

theorem rdN_ok {d : List Byte} {q n : Nat} (h : q + n ≤ d.length) :
    rdN d q n = .ok ((d.drop q).take n) := by
  simp [rdN, h]

theorem bitAt_of_le {d : List Byte} {i : Nat} (h : 8 * d.length ≤ i) : bitAt d i = false := by
  unfold bitAt
  rw [List.getD_eq_getElem?_getD, List.getElem?_eq_none (by omega)]
  simp

theorem getD_set_byte {d : List Byte} {q : Nat} {b : Byte} (hq : q < d.length) (j : Nat) :
    (d.set q b).getD j 0 = if j = q then b else d.getD j 0 := by
  simp only [List.getD_eq_getElem?_getD, List.getElem?_set]
  by_cases h : q = j
  · subst h; simp [hq]
  · have h' : ¬ j = q := fun e => h e.symm
    simp [h, h']

theorem bitAt_set {d : List Byte} {q : Nat} {b : Byte} (hq : q < d.length) (i : Nat) :
    bitAt (d.set q b) i = if i / 8 = q then b.getMsbD (i % 8) else bitAt d i := by
  unfold bitAt
  rw [getD_set_byte hq]
  split <;> rfl

theorem bitAt_byte (d : List Byte) (q j : Nat) (hj : j < 8) :
    (d.getD q 0).getMsbD j = bitAt d (8 * q + j) := by
  unfold bitAt
  have h1 : (8 * q + j) / 8 = q := by omega
  have h2 : (8 * q + j) % 8 = j := by omega
  rw [h1, h2]

theorem bitAt_copy {d : List Byte} {q : Nat} {bs : List Byte} (h : q + bs.length ≤ d.length) (i : Nat) :
    bitAt (d.take q ++ bs ++ d.drop (q + bs.length)) i =
      if 8 * q ≤ i ∧ i < 8 * (q + bs.length) then bitAt bs (i - 8 * q) else bitAt d i := by
  unfold bitAt
  simp only [List.getD_eq_getElem?_getD, List.getElem?_append, List.length_append,
    List.length_take, List.getElem?_take, List.getElem?_drop]
  have hm : min q d.length = q := by omega
  rw [hm]
  by_cases h1 : i / 8 < q
  · have : ¬ (8 * q ≤ i ∧ i < 8 * (q + bs.length)) := by omega
    simp only [this, if_false]
    have h2 : i / 8 < q + bs.length := by omega
    simp [h1, h2]
  · by_cases h2 : i / 8 < q + bs.length
    · have h3 : (8 * q ≤ i ∧ i < 8 * (q + bs.length)) := by omega
      simp only [h1, h2, h3, if_true, if_false, and_self]
      have e1 : (i - 8 * q) / 8 = i / 8 - q := by omega
      have e2 : (i - 8 * q) % 8 = i % 8 := by omega
      rw [e1, e2]
    · have h3 : ¬ (8 * q ≤ i ∧ i < 8 * (q + bs.length)) := by omega
      simp only [h2, h3, if_false]
      have e : q + bs.length + (i / 8 - (q + bs.length)) = i / 8 := by omega
      rw [e]

theorem length_copy {d : List Byte} {q : Nat} {bs : List Byte} (h : q + bs.length ≤ d.length) :
    (d.take q ++ bs ++ d.drop (q + bs.length)).length = d.length := by
  simp; omega

@[simp] theorem length_toBE (n : Nat) (v : BitVec (8 * n)) : (toBE n v).length = n := by
  simp [toBE]

theorem bitAt_toBE (n : Nat) (v : BitVec (8 * n)) (i : Nat) : bitAt (toBE n v) i = v.getMsbD i := by
  by_cases h : i < 8 * n
  · unfold bitAt toBE
    have hq : i / 8 < n := by omega
    simp only [List.getD_eq_getElem?_getD, List.getElem?_map, List.getElem?_range hq,
      Option.map_some, Option.getD_some]
    have hm : i % 8 < 8 := Nat.mod_lt _ (by omega)
    simp only [BitVec.getMsbD, BitVec.getLsbD_extractLsb', hm, h, decide_true, Bool.true_and]
    have h7 : 8 - 1 - i % 8 < 8 := by omega
    simp only [h7, decide_true, Bool.true_and]
    congr 1
    omega
  · rw [bitAt_of_le (by simp; omega)]
    simp [BitVec.getMsbD, h]

theorem bitAt_take_drop (d : List Byte) (q n i : Nat) :
    bitAt ((d.drop q).take n) i = (decide (i < 8 * n) && bitAt d (8 * q + i)) := by
  unfold bitAt
  simp only [List.getD_eq_getElem?_getD, List.getElem?_take, List.getElem?_drop]
  have e1 : (8 * q + i) / 8 = q + i / 8 := by omega
  have e2 : (8 * q + i) % 8 = i % 8 := by omega
  rw [e1, e2]
  by_cases h : i < 8 * n
  · have : i / 8 < n := by omega
    simp [h, this]
  · have : ¬ i / 8 < n := by omega
    simp [h, this]

theorem bitAt_take (d : List Byte) (n i : Nat) :
    bitAt (d.take n) i = (decide (i < 8 * n) && bitAt d i) := by
  have := bitAt_take_drop d 0 n i
  simpa using this

theorem bitAt_append (a b : List Byte) (i : Nat) :
    bitAt (a ++ b) i = if i < 8 * a.length then bitAt a i else bitAt b (i - 8 * a.length) := by
  unfold bitAt
  simp only [List.getD_eq_getElem?_getD, List.getElem?_append]
  by_cases h : i < 8 * a.length
  · have : i / 8 < a.length := by omega
    simp [h, this]
  · have h' : ¬ i / 8 < a.length := by omega
    have e1 : (i - 8 * a.length) / 8 = i / 8 - a.length := by omega
    have e2 : (i - 8 * a.length) % 8 = i % 8 := by omega
    simp [h, h', e1, e2]

@[simp] theorem bitAt_replicate_zero (n i : Nat) : bitAt (List.replicate n 0) i = false := by
  unfold bitAt
  simp only [List.getD_eq_getElem?_getD, List.getElem?_replicate]
  split <;> simp

/-- Two buffers of the same length with the same bits are equal. -/
theorem bytes_ext {a b : List Byte} (hl : a.length = b.length) (h : ∀ i, bitAt a i = bitAt b i) : a = b := by
  apply List.ext_getElem hl
  intro k h1 h2
  apply BitVec.eq_of_getMsbD_eq
  intro j hj
  have := h (8 * k + j)
  rw [← bitAt_byte _ _ _ hj, ← bitAt_byte _ _ _ hj] at this
  simpa [List.getD_eq_getElem?_getD, h1, h2] using this

/-! #### Numbers and bit strings -/

@[simp] theorem natBits_length (w v : Nat) : (natBits w v).length = w := by simp [natBits]
@[simp] theorem wordBits_length {n : Nat} (v : BitVec n) : (wordBits v).length = n := by simp [wordBits]

theorem natOfBits_append (a b : Bits) : natOfBits (a ++ b) = natOfBits a * 2 ^ b.length + natOfBits b := by
  unfold natOfBits
  rw [List.foldl_append]
  generalize List.foldl (fun a b => 2 * a + b.toNat) 0 a = x
  induction b generalizing x with
  | nil => simp
  | cons c b ih =>
    simp only [List.foldl_cons, List.length_cons]
    rw [ih (2 * x + c.toNat), ih (2 * 0 + c.toNat)]
    rw [Nat.pow_succ]
    generalize 2 ^ b.length = p
    have : (2 * x + c.toNat) * p = x * (p * 2) + c.toNat * p := by
      rw [Nat.add_mul, Nat.mul_comm 2 x, Nat.mul_assoc, Nat.mul_comm 2 p]
    rw [this, Nat.mul_zero, Nat.zero_add]; omega

theorem natOfBits_cons (c : Bool) (b : Bits) : natOfBits (c :: b) = c.toNat * 2 ^ b.length + natOfBits b := by
  have := natOfBits_append [c] b
  simpa [natOfBits] using this

@[simp] theorem natOfBits_nil : natOfBits [] = 0 := rfl

theorem natOfBits_lt (b : Bits) : natOfBits b < 2 ^ b.length := by
  induction b with
  | nil => simp
  | cons c b ih =>
    rw [natOfBits_cons, List.length_cons, Nat.pow_succ]
    cases c <;> simp <;> omega

theorem testBit_natOfBits (l : Bits) (i : Nat) :
    (natOfBits l).testBit i = if i < l.length then l.getD (l.length - 1 - i) false else false := by
  induction l with
  | nil => simp
  | cons c b ih =>
    rw [natOfBits_cons, List.length_cons]
    have hlt := natOfBits_lt b
    rw [Nat.mul_comm, Nat.testBit_two_pow_mul_add _ hlt]
    by_cases h : i < b.length
    · rw [if_pos h, ih, if_pos h, if_pos (by omega)]
      have : b.length + 1 - 1 - i = (b.length - 1 - i) + 1 := by omega
      rw [this, List.getD_cons_succ]
    · rw [if_neg h]
      by_cases h2 : i = b.length
      · subst h2
        cases c <;> simp
      · have : ¬ i < b.length + 1 := by omega
        rw [if_neg this]
        have : i - b.length ≠ 0 := by omega
        cases c
        · simp
        · simp only [Bool.toNat_true]
          rw [Nat.testBit_lt_two_pow]
          calc 1 < 2 ^ 1 := by decide
            _ ≤ 2 ^ (i - b.length) := Nat.pow_le_pow_right (by decide) (by omega)

theorem natOfBits_natBits (w v : Nat) : natOfBits (natBits w v) = v % 2 ^ w := by
  apply Nat.eq_of_testBit_eq
  intro i
  rw [testBit_natOfBits, Nat.testBit_mod_two_pow, natBits_length]
  by_cases h : i < w
  · rw [if_pos h]
    have h2 : w - 1 - i < w := by omega
    simp only [natBits, List.getD_eq_getElem?_getD, List.getElem?_map, List.getElem?_range h2]
    have : w - 1 - (w - 1 - i) = i := by omega
    simp [this, h]
  · simp [h]

theorem natBits_natOfBits (l : Bits) : natBits l.length (natOfBits l) = l := by
  apply List.ext_getElem (by simp)
  intro i h1 h2
  simp only [natBits, List.getElem_map, List.getElem_range]
  rw [testBit_natOfBits, if_pos (by omega)]
  have : l.length - 1 - (l.length - 1 - i) = i := by omega
  rw [this]; simp [h2]

theorem natOfBits_inj {a b : Bits} (hl : a.length = b.length) (h : natOfBits a = natOfBits b) : a = b := by
  rw [← natBits_natOfBits a, ← natBits_natOfBits b, hl, h]

theorem wordBits_eq_natBits {n : Nat} (v : BitVec n) : wordBits v = natBits n v.toNat := by
  apply List.ext_getElem (by simp)
  intro i h1 h2
  simp only [wordBits_length] at h1
  simp [wordBits, natBits, BitVec.getMsbD, h1, BitVec.getLsbD]

theorem natOfBits_wordBits {n : Nat} (v : BitVec n) : natOfBits (wordBits v) = v.toNat := by
  rw [wordBits_eq_natBits, natOfBits_natBits, Nat.mod_eq_of_lt v.isLt]

theorem wordBits_inj {n : Nat} {v w : BitVec n} (h : wordBits v = wordBits w) : v = w := by
  apply BitVec.eq_of_toNat_eq
  rw [← natOfBits_wordBits v, ← natOfBits_wordBits w, h]

theorem natBits_inj {w a b : Nat} (ha : a < 2 ^ w) (hb : b < 2 ^ w) (h : natBits w a = natBits w b) : a = b := by
  have := congrArg natOfBits h
  rwa [natOfBits_natBits, natOfBits_natBits, Nat.mod_eq_of_lt ha, Nat.mod_eq_of_lt hb] at this

@[simp] theorem bytesToBits_length (d : List Byte) : (bytesToBits d).length = 8 * d.length := by
  simp [bytesToBits]

theorem bytesToBits_getD (d : List Byte) (i : Nat) : (bytesToBits d).getD i false = bitAt d i := by
  by_cases h : i < 8 * d.length
  · simp [bytesToBits, List.getD_eq_getElem?_getD, List.getElem?_range h]
  · rw [List.getD_eq_getElem?_getD, List.getElem?_eq_none (by simp; omega), bitAt_of_le (by omega)]
    rfl

@[simp] theorem bytesToBits_nil : bytesToBits [] = [] := rfl

theorem list_ext_getD {a b : Bits} (hl : a.length = b.length)
    (h : ∀ i, i < a.length → a.getD i false = b.getD i false) : a = b := by
  apply List.ext_getElem hl
  intro i h1 h2
  have := h i h1
  simpa [List.getD_eq_getElem?_getD, h1, h2] using this

theorem bytesToBits_append (a b : List Byte) : bytesToBits (a ++ b) = bytesToBits a ++ bytesToBits b := by
  apply list_ext_getD (by simp; omega)
  intro i hi
  rw [bytesToBits_getD, bitAt_append]
  simp only [List.getD_eq_getElem?_getD, List.getElem?_append, bytesToBits_length]
  split
  · rw [← List.getD_eq_getElem?_getD, bytesToBits_getD]
  · rw [← List.getD_eq_getElem?_getD, bytesToBits_getD]

theorem bytesToBits_inj {a b : List Byte} (h : bytesToBits a = bytesToBits b) : a = b := by
  have hl : a.length = b.length := by
    have := congrArg List.length h
    simp at this; omega
  apply bytes_ext hl
  intro i
  rw [← bytesToBits_getD, ← bytesToBits_getD, h]

theorem bytesToBits_singleton (b : Byte) : bytesToBits [b] = wordBits b := by
  apply list_ext_getD (by simp)
  intro i hi
  simp only [bytesToBits_length, List.length_cons, List.length_nil] at hi
  rw [bytesToBits_getD]
  have h8 : i < 8 := by omega
  have e1 : i / 8 = 0 := by omega
  have e2 : i % 8 = i := by omega
  simp [bitAt, wordBits, e1, e2, List.getD_eq_getElem?_getD, List.getElem?_range h8]

theorem bytesToBits_cons (b : Byte) (l : List Byte) : bytesToBits (b :: l) = wordBits b ++ bytesToBits l := by
  have := bytesToBits_append [b] l
  rwa [bytesToBits_singleton] at this

/-- Big-endian bytes as one number. -/
theorem foldl_bytes_eq (bs : List Byte) (a : Nat) :
    bs.foldl (fun a b => 256 * a + b.toNat) a = a * 2 ^ (8 * bs.length) + natOfBits (bytesToBits bs) := by
  induction bs generalizing a with
  | nil => simp
  | cons b bs ih =>
    rw [List.foldl_cons, ih, bytesToBits_cons, natOfBits_append, natOfBits_wordBits,
      bytesToBits_length, List.length_cons]
    have : 2 ^ (8 * (bs.length + 1)) = 2 ^ (8 * bs.length) * 256 := by
      rw [Nat.mul_add, Nat.pow_add]
    rw [this]
    generalize 2 ^ (8 * bs.length) = p
    rw [Nat.add_mul, Nat.mul_comm 256 a, Nat.mul_assoc, Nat.mul_comm 256 p]
    omega

theorem fromBE_toNat {n : Nat} {bs : List Byte} (h : bs.length = n) :
    (fromBE n bs).toNat = natOfBits (bytesToBits bs) := by
  unfold fromBE
  rw [BitVec.toNat_ofNat, foldl_bytes_eq]
  have := natOfBits_lt (bytesToBits bs)
  rw [bytesToBits_length, h] at this
  simp [Nat.mod_eq_of_lt this]

theorem fromBE_getMsbD {n : Nat} {bs : List Byte} (h : bs.length = n) (i : Nat) :
    (fromBE n bs).getMsbD i = bitAt bs i := by
  by_cases hi : i < 8 * n
  · simp only [BitVec.getMsbD, hi, decide_true, Bool.true_and, BitVec.getLsbD]
    rw [fromBE_toNat h, testBit_natOfBits, bytesToBits_length, h, if_pos (by omega), bytesToBits_getD]
    congr 1; omega
  · rw [bitAt_of_le (by omega)]
    simp [BitVec.getMsbD, hi]

end Verif
