import Verif.CodecRel
/-!
# Big integers in builders and slices

`store_biguint`, `store_bigint`, their truncating and variable-length forms (`cell/builder.rs:1153-1301`) and the loads of `cell/slice.rs:1564-1635`, over
the model of raw stores and loads. The operations of the `num-bigint` crate that are used (`bits`, `to_bytes_le`, `to_signed_bytes_le`, `from_bytes_be`,
`from_signed_bytes_be`, shifts) are modelled by what they are documented to compute.
-/
set_option linter.unusedVariables false
namespace Verif
namespace Big

/-- `BigUint::bits`: the fewest bits that can hold the number. -/
def bitLen (v : Nat) : Nat := if v = 0 then 0 else v.log2 + 1

/-- `n` bytes of a number, low byte first. -/
def leBytes : Nat → Nat → List Byte
  | 0, _ => []
  | n + 1, v => BitVec.ofNat 8 v :: leBytes n (v / 256)

def leNat : List Byte → Nat
  | [] => 0
  | b :: bs => b.toNat + 256 * leNat bs

/-- `BigUint::to_bytes_le`: no leading zero bytes, and one byte for zero. -/
def toBytesLe (v : Nat) : List Byte := leBytes (max 1 ((bitLen v + 7) / 8)) v

/-- `twos_complement_le` (`abi/value/ser.rs:656-666`, the same in `num-bigint`): all bytes are inverted, and one is added. -/
def twosGo : Bool → List Byte → List Byte
  | _, [] => []
  | carry, d :: ds =>
    let e := ~~~ d
    if carry then (e + 1) :: twosGo (e + 1 == 0) ds else e :: twosGo false ds

/-- `to_signed_bytes_le` of `num-bigint`; for negative numbers also `negative_to_signed_bytes_be` (`abi/value/ser.rs:668-679`) in the other order. -/
def toSignedBytesLe (x : Int) : List Byte :=
  let b := toBytesLe x.natAbs
  let last := b.getLastD 0
  let b := if last.toNat > 0x7f && !(last == 0x80 && b.dropLast.all (· == 0) && decide (x < 0)) then b ++ [0] else b
  if x < 0 then twosGo true b else b

/-- `Vec::resize` -/
def resize (m : Nat) (fill : Byte) (l : List Byte) : List Byte := l.take m ++ List.replicate (m - l.length) fill

/-- A bit string as a two's complement number (`BigInt::from_signed_bytes_be` on the bits of the bytes). -/
def sint (l : Bits) : Int := if l.head? = some true then (natOfBits l : Int) - 2 ^ l.length else natOfBits l

/-- `util.rs:51-55` `bitsize` of a `BigUint`; the number of bits is cut to 16 bits, overflow of the addition is not modelled. -/
def bitsizeU (v : Nat) (signed : Bool) : Nat :=
  let b := bitLen v % 65536
  b + (if signed && b != 0 then 1 else 0)

/-- `util.rs:22-43` `bitsize` of a `BigInt`; the loop over digits decides whether the magnitude is a power of two. -/
def bitsizeI (x : Int) (signed : Bool) : Nat :=
  let b := bitLen x.natAbs % 65536
  if signed then
    if x = 0 then b
    else if x > 0 then b + 1
    else if x.natAbs = 2 ^ x.natAbs.log2 then b else b + 1
  else b

/-- The shift that moves the low `n` bits to the front of whole bytes. -/
def align (n : Nat) : Nat := if n % 8 ≠ 0 then 8 - n % 8 else 0

variable {ρ : Type}

/-- `cell/builder.rs:1236-1264` `store_biguint_truncate` -/
def storeUTrunc (v n : Nat) : Wr ρ Unit :=
  if v < 2 ^ 64 then Wr.uint v n
  else Wr.raw (resize ((n + 7) / 8) 0 (toBytesLe (v * 2 ^ align n))).reverse n

/-- `cell/builder.rs:1218-1231` `store_biguint` -/
def storeU (v n : Nat) (signed : Bool) : Wr ρ Unit :=
  if bitsizeU v signed > n then Prog.fail .intOverflow else storeUTrunc v n

/-- `cell/builder.rs:1174-1214` `store_bigint_truncate`; the fill byte is the sign of the last byte. -/
def storeITrunc (x : Int) (n : Nat) (signed : Bool) : Wr ρ Unit :=
  if 0 ≤ x ∧ x < 2 ^ 64 then Wr.uint x.toNat n
  else
    let y := x * 2 ^ align n
    let b := if signed then toSignedBytesLe y else toBytesLe y.natAbs
    let fill : Byte := if signed ∧ (b.getLastD 0).toNat ≥ 0x80 then 255 else 0
    Wr.raw (resize ((n + 7) / 8) fill b).reverse n

/-- `cell/builder.rs:1156-1169` `store_bigint` -/
def storeI (x : Int) (n : Nat) (signed : Bool) : Wr ρ Unit :=
  if bitsizeI x signed > n then Prog.fail .intOverflow else storeITrunc x n signed

/-- `cell/builder.rs:1268-1284` `store_var_bigint` -/
def storeVarI (x : Int) (lenBits : Nat) (signed : Bool) : Wr ρ Unit :=
  let bytes := (bitsizeI x signed + 7) / 8
  if bytes ≥ 2 ^ lenBits then Prog.fail .intOverflow
  else Wr.small bytes lenBits >>= fun _ => storeITrunc x (bytes * 8) signed

/-- `cell/builder.rs:1288-1301` `store_var_biguint` -/
def storeVarU (v lenBits : Nat) : Wr ρ Unit :=
  let bytes := (bitLen v % 65536 + 7) / 8
  if bytes ≥ 2 ^ lenBits then Prog.fail .intOverflow
  else Wr.small bytes lenBits >>= fun _ => storeUTrunc v (bytes * 8)

/-- The bytes that were read, as numbers: `from_bytes_be` and `from_signed_bytes_be`, then the shift back. -/
def ofBytes (n : Nat) (b : List Byte) : Nat := natOfBits (bytesToBits b) / 2 ^ align n
def ofSignedBytes (n : Nat) (b : List Byte) : Int := sint (bytesToBits b) / 2 ^ align n

/-- The sign bit is copied into all high bits of a `u64` (`cell/slice.rs:1572-1578`, `abi/value/de.rs:355-361`). -/
def extend (n : Nat) (v : Nat) : Int :=
  let w := BitVec.ofNat 64 v
  (if n < 64 then w ||| (((w >>> (n - 1)) * BitVec.allOnes 64) <<< (n - 1)) else w).toInt

/-- `cell/slice.rs:1599-1617` `load_biguint` with a buffer of `cap = 128` bytes, and `abi/value/de.rs:343-360` `load_uint_plain` with one of the
right size. -/
def loadU (cap n : Nat) : Rd ρ Nat :=
  if n = 0 then Pure.pure 0
  else if n ≤ 64 then Rd.uint n
  else Rd.raw cap n >>= fun b => Pure.pure (ofBytes n b)

/-- `cell/slice.rs:1566-1595` `load_bigint`, and `abi/value/de.rs:362-385` `load_int_plain` (which is signed). -/
def loadI (cap n : Nat) (signed : Bool) : Rd ρ Int :=
  if n = 0 then Pure.pure 0
  else if n ≤ 64 then Rd.uint n >>= fun v => Pure.pure (if signed then extend n v else (v : Int))
  else Rd.raw cap n >>= fun b => Pure.pure (if signed then ofSignedBytes n b else (ofBytes n b : Int))

/-- `cell/slice.rs:1621-1628` `load_var_bigint`: the length is cut to 16 bits; the product is a 16-bit number. -/
def loadVarI (lenBits : Nat) (signed : Bool) : Rd ρ Int :=
  Rd.uint lenBits >>= fun len => loadI 128 (len % 65536 * 8) signed

/-- `cell/slice.rs:1632-1635` `load_var_biguint` -/
def loadVarU (lenBits : Nat) : Rd ρ Nat :=
  Rd.uint lenBits >>= fun len => loadU 128 (len % 65536 * 8)

/-! ### Specification -/

/-- The numbers that `n` bits can hold. -/
def FitsI (n : Nat) (x : Int) : Prop := -(2 : Int) ^ n ≤ 2 * x ∧ 2 * x < (2 : Int) ^ n

instance (n : Nat) (x : Int) : Decidable (FitsI n x) := by unfold FitsI; infer_instance

/-- The two's complement form in `n` bits. -/
def twoBits (n : Nat) (x : Int) : Bits := natBits n (x % (2 : Int) ^ n).toNat

/-! ### Lemmas -/

theorem bitLen_le {v n : Nat} : bitLen v ≤ n ↔ v < 2 ^ n := by
  unfold bitLen
  by_cases h : v = 0
  · subst h; rw [if_pos rfl]; have := Nat.two_pow_pos n; omega
  · rw [if_neg h, Nat.succ_le_iff, Nat.log2_lt h]

theorem leBytes_length (n v : Nat) : (leBytes n v).length = n := by
  induction n generalizing v with
  | zero => rfl
  | succ n ih => simp [leBytes, ih]

theorem bytesToBits_single (b : Byte) : bytesToBits [b] = natBits 8 b.toNat := by
  apply List.ext_getElem
  · simp [natBits]
  · intro i h1 h2
    simp only [natBits, List.getElem_map, List.getElem_range]
    have : (bytesToBits [b]).getD i false = bitAt [b] i := bytesToBits_getD _ _
    have hi : i < 8 := by simpa using h1
    rw [List.getD_eq_getElem?_getD, List.getElem?_eq_getElem h1, Option.getD_some] at this
    rw [this]
    unfold bitAt
    have : i / 8 = 0 := by omega
    simp only [this, List.getD_cons_zero, BitVec.getMsbD_eq_getLsbD, Nat.mod_eq_of_lt hi, hi, decide_true, Bool.true_and, BitVec.testBit_toNat]

theorem leBytes_bits (n v : Nat) : bytesToBits (leBytes n v).reverse = natBits (8 * n) v := by
  induction n generalizing v with
  | zero => rfl
  | succ n ih =>
    simp only [leBytes, List.reverse_cons]
    rw [bytesToBits_append, ih, bytesToBits_single, BitVec.toNat_ofNat, Wr.natBits_mod (Nat.le_refl 8)]
    have := natBits_split (8 * n) 8 v
    rw [show 8 * (n + 1) = 8 * n + 8 from by omega, this]

theorem leNat_lt (l : List Byte) : leNat l < 256 ^ l.length := by
  induction l with
  | nil => exact Nat.one_pos
  | cons b l ih =>
    simp only [leNat, List.length_cons, Nat.pow_succ]
    have := b.isLt
    omega

theorem leNat_leBytes (n v : Nat) : leNat (leBytes n v) = v % 256 ^ n := by
  induction n generalizing v with
  | zero => simp [leBytes, leNat, Nat.mod_one]
  | succ n ih =>
    simp only [leBytes, leNat, ih, BitVec.toNat_ofNat]
    rw [show 256 ^ (n + 1) = 256 * 256 ^ n from Nat.pow_succ', Nat.mod_mul]

theorem leBytes_leNat (l : List Byte) : leBytes l.length (leNat l) = l := by
  induction l with
  | nil => rfl
  | cons b l ih =>
    have hb := b.isLt
    have e1 : (b.toNat + 256 * leNat l) / 256 = leNat l := by omega
    have e2 : BitVec.ofNat 8 (b.toNat + 256 * leNat l) = b := by
      apply BitVec.eq_of_toNat_eq
      rw [BitVec.toNat_ofNat]
      omega
    simp only [List.length_cons, leBytes, leNat, e1, e2, ih]

theorem bits_of_le (l : List Byte) : bytesToBits l.reverse = natBits (8 * l.length) (leNat l) := by
  rw [← leBytes_bits, leBytes_leNat]

theorem leNat_append (a b : List Byte) : leNat (a ++ b) = leNat a + 256 ^ a.length * leNat b := by
  induction a with
  | nil => simp [leNat]
  | cons x a ih =>
    simp only [List.cons_append, leNat, ih, List.length_cons, Nat.pow_succ, Nat.mul_add]
    rw [Nat.mul_comm (256 ^ a.length) 256, Nat.mul_assoc, Nat.add_assoc]

theorem leNat_take (m : Nat) (l : List Byte) : leNat (l.take m) = leNat l % 256 ^ m := by
  by_cases h : m ≤ l.length
  · have e : leNat l = leNat (l.take m) + 256 ^ (l.take m).length * leNat (l.drop m) := by rw [← leNat_append, List.take_append_drop]
    have hl : (l.take m).length = m := by simp [h]
    have := leNat_lt (l.take m)
    rw [hl] at e this
    rw [e, Nat.add_mul_mod_self_left, Nat.mod_eq_of_lt this]
  · rw [List.take_of_length_le (by omega), Nat.mod_eq_of_lt]
    exact Nat.lt_of_lt_of_le (leNat_lt l) (Nat.pow_le_pow_right (by decide) (by omega))

theorem leNat_fill (k : Nat) : leNat (List.replicate k (255 : Byte)) = 256 ^ k - 1 := by
  induction k with
  | zero => rfl
  | succ k ih =>
    rw [List.replicate_succ]
    simp only [leNat, ih]
    have := Nat.pow_pos (n := k) (show 0 < 256 by decide)
    rw [Nat.pow_succ]
    have e : (255 : Byte).toNat = 255 := rfl
    omega

theorem leNat_zeros (k : Nat) : leNat (List.replicate k (0 : Byte)) = 0 := by
  induction k with
  | zero => rfl
  | succ k ih => rw [List.replicate_succ]; simp only [leNat, ih]; rfl

theorem twosGo_length (c : Bool) (l : List Byte) : (twosGo c l).length = l.length := by
  induction l generalizing c with
  | nil => rfl
  | cons d l ih =>
    cases c
    · simp [twosGo, ih]
    · simp [twosGo, ih]

theorem not_toNat (d : Byte) : (~~~ d).toNat = 255 - d.toNat := by
  rw [BitVec.toNat_not]

theorem twosGo_false (l : List Byte) : leNat (twosGo false l) + leNat l + 1 = 256 ^ l.length := by
  induction l with
  | nil => rfl
  | cons d l ih =>
    have := d.isLt
    simp only [twosGo, Bool.false_eq_true, if_false, leNat, List.length_cons, Nat.pow_succ, not_toNat]
    omega

theorem twosGo_true (l : List Byte) : leNat (twosGo true l) = (256 ^ l.length - leNat l) % 256 ^ l.length := by
  induction l with
  | nil => rfl
  | cons d l ih =>
    have hd := d.isLt
    have hl := leNat_lt l
    simp only [twosGo, if_true, leNat, List.length_cons, Nat.pow_succ]
    by_cases h0 : d = 0
    · subst h0
      have e : (~~~ (0 : Byte) + 1) = 0 := by decide
      rw [e]
      have e2 : ((0 : Byte) == 0) = true := by decide
      have e3 : (0 : Byte).toNat = 0 := rfl
      rw [e2, ih, e3, Nat.zero_add, Nat.zero_add, Nat.mul_comm (256 ^ l.length) 256, ← Nat.mul_sub, Nat.mul_mod_mul_left]
    · have hd0 : d.toNat ≠ 0 := fun h => h0 (BitVec.eq_of_toNat_eq h)
      have e : (~~~ d + 1).toNat = 256 - d.toNat := by
        rw [BitVec.toNat_add, not_toNat]
        show (255 - d.toNat + 1) % 256 = _
        omega
      have e2 : ((~~~ d + 1) == (0 : Byte)) = false := by
        rw [beq_eq_false_iff_ne]
        intro h
        rw [h] at e
        have : (0 : Byte).toNat = 0 := rfl
        omega
      rw [e2, e]
      have := twosGo_false l
      rw [Nat.mod_eq_of_lt (by omega)]
      omega

theorem two_pow_8 (k : Nat) : 256 ^ k = 2 ^ (8 * k) := by
  rw [Nat.pow_mul]

theorem getLastD_of (l : List Byte) : l ≠ [] → ((l.getLastD 0).toNat = leNat l / 256 ^ (l.length - 1)) := by
  intro h
  rcases List.eq_nil_or_concat l with rfl | ⟨a, b, rfl⟩
  · exact absurd rfl h
  · rw [List.concat_eq_append]
    have e1 : (a ++ [b]).getLastD 0 = b := by simp
    have ha := leNat_lt a
    have hp := Nat.pow_pos (n := a.length) (show 0 < 256 by decide)
    rw [e1, leNat_append]
    simp only [List.length_append, List.length_singleton, Nat.add_sub_cancel, leNat, Nat.mul_zero, Nat.add_zero]
    rw [Nat.add_mul_div_left _ _ hp, Nat.div_eq_of_lt ha, Nat.zero_add]

end Big
end Verif
