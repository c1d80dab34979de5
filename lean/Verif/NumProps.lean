import Verif.Num
/-
C41 (var-uints), C44 (small integers), C53 (their arithmetic).
-/
set_option linter.unusedVariables false
set_option linter.unusedSimpArgs false
namespace Verif

theorem nbits_le_iff (v k : Nat) : nbits v ≤ k ↔ v < 2 ^ k := by
  unfold nbits
  split
  · subst v; simp [Nat.pow_pos]
  · rename_i h
    rw [← Nat.log2_lt h]
    omega

/-- The byte count computed from the leading zeroes is the least sufficient one. -/
theorem bytes_le_iff (sz v j : Nat) (hv : v < 2 ^ (8 * sz)) : sz - lzc (8 * sz) v / 8 ≤ j ↔ v < 2 ^ (8 * j) := by
  rw [← nbits_le_iff] at hv ⊢
  unfold lzc
  omega

namespace VarKind

theorem bytes_spec (k : VarKind) {v j : Nat} (hv : v < 2 ^ (8 * k.size)) : k.bytes v ≤ j ↔ v < 2 ^ (8 * j) :=
  bytes_le_iff k.size v j hv

theorem lenBits_le (k : VarKind) : k.lenBits ≤ 8 := by cases k <;> decide
theorem maxBytes_lt (k : VarKind) : k.maxBytes < 2 ^ k.lenBits := by cases k <;> decide
theorem lenBits_pow (k : VarKind) : 2 ^ k.lenBits = k.maxBytes + 1 := by cases k <;> decide
theorem maxBytes_le (k : VarKind) : k.maxBytes ≤ 15 := by cases k <;> decide
theorem max_eq (k : VarKind) : k.max + 1 = 2 ^ (8 * k.maxBytes) := by cases k <;> decide

end VarKind

section Cells
variable {ρ : Type}

theorem writes_u128part (v bits : Nat) (h : bits ≤ 128) :
    Writes (storeU128Part v bits : Wr ρ Unit) (Enc.bits (natBits bits v)) := by
  unfold storeU128Part
  split <;> rename_i h64
  · refine ((Wr.writes_uint _ (by omega)).writes.seq (Wr.writes_uint v (Nat.le_refl 64)).writes).cast ?_
    rw [Enc.bits_append, Nat.shiftRight_eq_div_pow, ← natBits_split]
    congr 2; omega
  · exact (Wr.writes_uint v (by omega)).writes

theorem reads_u128part {v bytes : Nat} (h : bytes ≤ 16) (hv : v < 2 ^ (bytes * 8)) :
    Reads (loadU128Part bytes : Rd ρ Nat) (Enc.bits (natBits (bytes * 8) v)) v := by
  unfold loadU128Part
  split <;> rename_i h8
  · have e : natBits (bytes * 8) v = natBits ((bytes - 8) * 8) (v / 2 ^ 64) ++ natBits 64 (v % 2 ^ 64) := by
      rw [Wr.natBits_mod (Nat.le_refl _), ← natBits_split]
      congr 1; omega
    rw [e, ← Enc.bits_append]
    have hlo : v % 2 ^ 64 < 2 ^ (8 * 8) := Nat.mod_lt _ (by decide)
    have hhi : v / 2 ^ 64 < 2 ^ ((bytes - 8) * 8) := by
      rw [Nat.div_lt_iff_lt_mul (by decide), ← Nat.pow_add]
      rwa [show (bytes - 8) * 8 + 64 = bytes * 8 by omega]
    have r := Reads.bind (f := fun hi => Rd.uint (8 * 8) >>= fun lo => pure ((hi <<< 64) ||| lo))
      ((Rd.takes_uint (ρ := ρ) (n := (bytes - 8) * 8) (by omega)).reads_nat hhi)
      (Reads.bind ((Rd.takes_uint (ρ := ρ) (n := 8 * 8) (by omega)).reads_nat hlo) (Reads.pure _))
    rw [Enc.append_nil] at r
    have hval : (v / 2 ^ 64) <<< 64 ||| v % 2 ^ 64 = v := by
      rw [← Nat.shiftLeft_add_eq_or_of_lt (Nat.mod_lt _ (by decide)), Nat.shiftLeft_eq]
      omega
    rw [hval] at r
    exact r
  · exact (Rd.takes_uint (by omega)).reads_nat hv

theorem exact_u128part {bytes : Nat} (h : bytes ≤ 16) :
    Exact (loadU128Part bytes : Rd ρ Nat) (fun v e => v < 2 ^ (bytes * 8) ∧ e = Enc.bits (natBits (bytes * 8) v)) := by
  unfold loadU128Part
  split <;> rename_i h8
  · refine Exact.bind (R3 := fun hi v e => ∃ lo, lo < 2 ^ 64 ∧ v = (hi <<< 64 ||| lo) ∧ e = Enc.bits (natBits 64 lo))
      (Rd.takes_uint (n := (bytes - 8) * 8) (by omega)).exact_nat (fun hi => ?_) ?_
    · refine Exact.bind (R3 := fun lo v e => v = (hi <<< 64 ||| lo) ∧ e = Enc.nil)
        (Rd.takes_uint (n := 8 * 8) (by omega)).exact_nat (fun lo => Exact.pure _ ⟨rfl, rfl⟩) ?_
      rintro lo v e1 e2 ⟨h1, h2⟩ ⟨h3, h4⟩
      subst h2; subst h4
      exact ⟨lo, h1, h3, by rw [Enc.append_nil]⟩
    · rintro hi v e1 e2 ⟨h1, h2⟩ ⟨lo, h3, h4, h5⟩
      subst h2; subst h5
      rw [← Nat.shiftLeft_add_eq_or_of_lt h3, Nat.shiftLeft_eq] at h4
      subst h4
      constructor
      · have : 2 ^ (bytes * 8) = 2 ^ ((bytes - 8) * 8) * 2 ^ 64 := by rw [← Nat.pow_add]; congr 1; omega
        rw [this]
        have : (hi + 1) * 2 ^ 64 ≤ 2 ^ ((bytes - 8) * 8) * 2 ^ 64 := Nat.mul_le_mul_right _ h1
        omega
      · rw [Enc.bits_append]
        have : bytes * 8 = (bytes - 8) * 8 + 64 := by omega
        rw [this, natBits_split ((bytes - 8) * 8) 64]
        have d : (hi * 2 ^ 64 + lo) / 2 ^ 64 = hi := by omega
        have m : natBits 64 (hi * 2 ^ 64 + lo) = natBits 64 lo := by
          rw [← Wr.natBits_mod (Nat.le_refl 64) (v := hi * 2 ^ 64 + lo)]
          congr 1; omega
        rw [d, m]
  · exact (Rd.takes_uint (by omega)).exact_nat

theorem safe_u128part {bytes : Nat} (h : bytes ≤ 16) : Safe (loadU128Part bytes : Rd ρ Nat) := by
  unfold loadU128Part
  split
  · exact Safe.bind (Rd.takes_uint (by omega)).safe fun _ => Safe.bind (Rd.takes_uint (by omega)).safe fun _ => Safe.pure _
  · exact (Rd.takes_uint (by omega)).safe

theorem writes_digits (k : VarKind) (v n : Nat) (hn : n ≤ k.maxBytes) :
    Writes (k.storeDigits v (n * 8) : Wr ρ Unit) (Enc.bits (natBits (n * 8) v)) := by
  have := k.maxBytes_le
  cases k with
  | tokens => exact writes_u128part v (n * 8) (by omega)
  | vu24 => exact (Wr.writes_uint v (by simp only [VarKind.maxBytes] at hn; omega)).writes
  | vu56 => exact (Wr.writes_uint v (by simp only [VarKind.maxBytes] at hn; omega)).writes

theorem reads_digits (k : VarKind) {v n : Nat} (hn : n ≤ k.maxBytes) (hv : v < 2 ^ (n * 8)) :
    Reads (k.loadDigits n : Rd ρ Nat) (Enc.bits (natBits (n * 8) v)) v := by
  have := k.maxBytes_le
  cases k with
  | tokens => exact reads_u128part (by omega) hv
  | vu56 => exact (Rd.takes_uint (by simp only [VarKind.maxBytes] at hn; omega)).reads_nat hv
  | vu24 =>
    simp only [VarKind.maxBytes] at hn
    have r := Reads.bind (f := fun v => pure (v % 2 ^ 32)) ((Rd.takes_uint (ρ := ρ) (n := n * 8) (by omega)).reads_nat hv)
      (Reads.pure _)
    rw [Enc.append_nil, Nat.mod_eq_of_lt (Nat.lt_of_lt_of_le hv (Nat.pow_le_pow_right (by decide) (by omega)))] at r
    exact r

theorem exact_digits (k : VarKind) {n : Nat} (hn : n ≤ k.maxBytes) :
    Exact (k.loadDigits n : Rd ρ Nat) (fun v e => v < 2 ^ (n * 8) ∧ e = Enc.bits (natBits (n * 8) v)) := by
  have := k.maxBytes_le
  cases k with
  | tokens => exact exact_u128part (by omega)
  | vu56 => exact (Rd.takes_uint (by simp only [VarKind.maxBytes] at hn; omega)).exact_nat
  | vu24 =>
    simp only [VarKind.maxBytes] at hn
    refine Exact.bind (R3 := fun x v e => v = x % 2 ^ 32 ∧ e = Enc.nil)
      (Rd.takes_uint (n := n * 8) (by omega)).exact_nat (fun _ => Exact.pure _ ⟨rfl, rfl⟩) ?_
    rintro x v e1 e2 ⟨h1, h2⟩ ⟨h3, h4⟩
    rw [Nat.mod_eq_of_lt (Nat.lt_of_lt_of_le h1 (Nat.pow_le_pow_right (by decide) (by omega)))] at h3
    subst h3; subst h2; subst h4
    exact ⟨h1, by rw [Enc.append_nil]⟩

theorem safe_digits (k : VarKind) {n : Nat} (hn : n ≤ k.maxBytes) : Safe (k.loadDigits n : Rd ρ Nat) := by
  have := k.maxBytes_le
  cases k with
  | tokens => exact safe_u128part (by omega)
  | vu56 => exact (Rd.takes_uint (by simp only [VarKind.maxBytes] at hn; omega)).safe
  | vu24 =>
    simp only [VarKind.maxBytes] at hn
    exact Safe.bind (Rd.takes_uint (by omega)).safe fun _ => Safe.pure _

/-- Specification: `v` written with a length field of `len` bits and `n` whole bytes. -/
def varEnc (len n v : Nat) : Enc ρ := Enc.bits (natBits len n ++ natBits (8 * n) v)

/-- Specification: `n` is the least number of bytes that can hold `v`. -/
def LeastBytes (n v : Nat) : Prop := v < 2 ^ (8 * n) ∧ ∀ m, v < 2 ^ (8 * m) → n ≤ m

/-- C41: a valid value is stored as its length (2, 3 or 4 bits) and the least number of whole bytes,
a failure changes nothing, and `bit_len` is the number of stored bits; loading returns the value. -/
theorem C41_store (k : VarKind) {v n : Nat} (hv : v ≤ k.max) (hn : LeastBytes n v) :
    WritesAtomic (k.store v : Wr ρ Unit) (varEnc k.lenBits n v) ∧
    k.bitLen v = some (varEnc (ρ := ρ) k.lenBits n v).1.length ∧
    Reads (k.load : Rd ρ Nat) (varEnc k.lenBits n v) v := by
  have hm := k.max_eq
  have hs : v < 2 ^ (8 * k.size) := by
    have : 2 ^ (8 * k.maxBytes) ≤ 2 ^ (8 * k.size) := Nat.pow_le_pow_right (by decide) (by cases k <;> decide)
    omega
  have hnm : n ≤ k.maxBytes := hn.2 _ (by omega)
  have hb : k.bytes v = n := by
    have h1 := (k.bytes_spec hs (j := n)).2 hn.1
    have h2 := hn.2 (k.bytes v) ((k.bytes_spec hs).1 (Nat.le_refl _))
    omega
  have h15 := k.maxBytes_le
  have h8 := k.lenBits_le
  refine ⟨?_, ?_, ?_⟩
  · unfold VarKind.store
    rw [hb, show decide (n ≤ k.maxBytes) = true by simp [hnm], Prog.check_true, Prog.pure_bind']
    have hw := ((Wr.writes_small (ρ := ρ) n h8).writes).seq (f := fun _ => k.storeDigits v (n * 8)) (writes_digits k v n hnm)
    refine Wr.needs_then (hw.cast ?_) ?_ rfl (by omega)
    · rw [Enc.bits_append, Nat.mul_comm n 8]; rfl
    · simp [varEnc, Enc.bits]; omega
  · unfold VarKind.bitLen
    rw [hb, if_neg (by omega)]
    simp [varEnc, Enc.bits]; omega
  · unfold VarKind.load varEnc
    rw [← Enc.bits_append, Nat.mul_comm 8 n]
    exact Reads.bind ((Rd.takes_small h8).reads_nat (by have := k.maxBytes_lt; omega)) (reads_digits k hnm (by rw [Nat.mul_comm]; exact hn.1))

/-- C41: a value beyond the range is refused with `CellOverflow` without changing the builder, and has
no bit length; this is exactly the invalid values. -/
theorem C41_invalid (k : VarKind) {v : Nat} (hs : v < 2 ^ (8 * k.size)) (hv : k.max < v) (b : CellB ρ) :
    (k.store v : Wr ρ Unit) b = (.error .cellOverflow, b) ∧ k.bitLen v = none ∧ k.isValid v = false := by
  have hm := k.max_eq
  have hb : ¬ k.bytes v ≤ k.maxBytes := by
    rw [k.bytes_spec hs]; omega
  refine ⟨?_, ?_, ?_⟩
  · unfold VarKind.store
    rw [show decide (k.bytes v ≤ k.maxBytes) = false by simp [hb], Prog.check_false]
    rfl
  · unfold VarKind.bitLen
    rw [if_pos (by omega)]
  · unfold VarKind.isValid
    simp; omega

/-- C41: loading accepts exactly the encodings with some number of bytes (not necessarily the least)
up to the maximum, always returns a valid value, and never faults or panics. -/
theorem C41_load (k : VarKind) :
    (∀ n v, n ≤ k.maxBytes → v < 2 ^ (8 * n) → Reads (k.load : Rd ρ Nat) (varEnc k.lenBits n v) v) ∧
    Exact (k.load : Rd ρ Nat) (fun v e => v ≤ k.max ∧ ∃ n, n ≤ k.maxBytes ∧ v < 2 ^ (8 * n) ∧ e = varEnc k.lenBits n v) ∧
    Safe (k.load : Rd ρ Nat) := by
  have h8 := k.lenBits_le
  have hp := k.lenBits_pow
  have hm := k.max_eq
  refine ⟨fun n v hn hv => ?_, ?_, ?_⟩
  · unfold VarKind.load varEnc
    rw [← Enc.bits_append, Nat.mul_comm 8 n]
    exact Reads.bind ((Rd.takes_small h8).reads_nat (by omega)) (reads_digits k hn (by rw [Nat.mul_comm]; exact hv))
  · intro s s' v hs hl
    obtain ⟨n, s1, r1, r2⟩ := Prog.bind_inv hl
    obtain ⟨e1, ⟨p1, p2⟩, c1, wf1⟩ := (Rd.takes_small h8).exact_nat s s1 n hs r1
    have hn : n ≤ k.maxBytes := by omega
    obtain ⟨e2, ⟨p3, p4⟩, c2, wf2⟩ := exact_digits k hn s1 s' v wf1 r2
    refine ⟨e1 ++ e2, ⟨?_, n, hn, by rwa [Nat.mul_comm] at p3, ?_⟩, by rw [c1, c2, Enc.append_assoc], wf2⟩
    · have : 2 ^ (n * 8) ≤ 2 ^ (8 * k.maxBytes) := Nat.pow_le_pow_right (by decide) (by omega)
      omega
    · subst p2; subst p4
      rw [Enc.bits_append, Nat.mul_comm n 8]; rfl
  · intro s hs
    rcases hp1 : (Rd.small k.lenBits : Rd ρ Nat) s with ⟨r, s1⟩
    obtain ⟨wf1, ⟨e1, c1⟩, n1, n2⟩ := (Rd.takes_small (ρ := ρ) h8).safe s hs
    rw [hp1] at wf1 c1 n1 n2
    unfold VarKind.load
    cases r with
    | error e =>
      rw [Prog.bind_err hp1]
      exact ⟨wf1, ⟨e1, c1⟩, fun h => n1 (by injection h with h; rw [h]), fun h => n2 (by injection h with h; rw [h])⟩
    | ok n =>
      rw [Prog.bind_ok hp1]
      obtain ⟨e', ⟨q1, q2⟩, _, _⟩ := (Rd.takes_small h8).exact_nat s s1 n hs hp1
      obtain ⟨wf2, ⟨e2, c2⟩, m1, m2⟩ := safe_digits (ρ := ρ) k (n := n) (by omega) s1 wf1
      exact ⟨wf2, ⟨e1 ++ e2, by rw [c1, c2, Enc.append_assoc]⟩, m1, m2⟩

/-- Non-vacuity: 300 tokens are stored as the length 2 and two bytes; `2^120` is refused; and a
non-minimal encoding of 5 is accepted. -/
example : (VarKind.store (ρ := Nat) .tokens 300 CellB.new).1 = .ok () ∧
    (VarKind.store (ρ := Nat) .tokens 300 CellB.new).2.inner.bits = natBits 4 2 ++ natBits 16 300 ∧
    VarKind.bitLen .tokens 300 = some 20 ∧
    (VarKind.store (ρ := Nat) .tokens (2 ^ 120) CellB.new).1 = .error .cellOverflow ∧
    (VarKind.load (ρ := Nat) .vu24 { data := [0x80, 0x01, 0x40], refs := [], range := ⟨0, 18, 0, 0⟩ }).1 = .ok 5 := by
  decide +kernel

/-! ### C44 -/

theorem smallMax_eq {n : Nat} : smallMax n + 1 = 2 ^ n := by
  unfold smallMax
  rw [Nat.shiftLeft_eq, Nat.one_mul]
  have := Nat.two_pow_pos n
  omega

/-- C44: `Uint9`, `Uint12` and `Uint15`: a valid value is written as exactly its width, read back, also as
a dictionary key; every window of that width is read as a valid value; an invalid value is refused with
`IntOverflow` and nothing is written. -/
theorem C44_small {n : Nat} (hn : n = 9 ∨ n = 12 ∨ n = 15) :
    (∀ v, v ≤ smallMax n → WritesAtomic (smallStore n v : Wr ρ Unit) (Enc.bits (natBits n v)) ∧
      Reads (smallLoad n : Rd ρ Nat) (Enc.bits (natBits n v)) v) ∧
    (∀ v, smallMax n < v → ∀ b : CellB ρ, (smallStore n v : Wr ρ Unit) b = (.error .intOverflow, b)) ∧
    Exact (smallLoad n : Rd ρ Nat) (fun v e => v ≤ smallMax n ∧ e = Enc.bits (natBits n v)) ∧
    Safe (smallLoad n : Rd ρ Nat) := by
  have hm := smallMax_eq (n := n)
  have h15 : n ≤ 15 := by omega
  have hp : 2 ^ n ≤ 2 ^ 15 := Nat.pow_le_pow_right (by decide) h15
  refine ⟨fun v hv => ⟨?_, ?_⟩, fun v hv b => ?_, ?_, ?_⟩
  · unfold smallStore
    rw [show decide (v ≤ smallMax n) = true by simp [hv], Prog.check_true, Prog.pure_bind']
    exact Wr.writes_uint v (by omega)
  · have r := Reads.bind (f := fun v => pure (v % 2 ^ 16)) ((Rd.takes_uint (ρ := ρ) (n := n) (by omega)).reads_nat (v := v) (by omega))
      (Reads.pure _)
    rw [Enc.append_nil, Nat.mod_eq_of_lt (by omega)] at r
    exact r
  · unfold smallStore
    rw [show decide (v ≤ smallMax n) = false by simp; omega, Prog.check_false]
    rfl
  · refine Exact.bind (R3 := fun x v e => v = x % 2 ^ 16 ∧ e = Enc.nil)
      (Rd.takes_uint (n := n) (by omega)).exact_nat (fun _ => Exact.pure _ ⟨rfl, rfl⟩) ?_
    rintro x v e1 e2 ⟨h1, h2⟩ ⟨h3, h4⟩
    rw [Nat.mod_eq_of_lt (by omega)] at h3
    subst h3; subst h2; subst h4
    exact ⟨by omega, by rw [Enc.append_nil]⟩
  · exact Safe.bind (Rd.takes_uint (by omega)).safe fun _ => Safe.pure _

/-- C44: the dictionary key reader returns the number written in the first `n` bits of the key data. -/
theorem C44_small_key {n : Nat} (hn : n = 9 ∨ n = 12 ∨ n = 15) (data : List Byte) (hl : 2 ≤ data.length) :
    smallLoadKey n data = natOfBits ((bytesToBits data).take n) := by
  match data, hl with
  | a :: b :: t, _ =>
    unfold smallLoadKey
    rw [bytesToBits_cons, bytesToBits_cons, ← List.append_assoc]
    have hlen : (wordBits a ++ wordBits b).length = 16 := by simp
    rw [List.take_append_of_le_length (by rw [hlen]; omega)]
    have hnum : natOfBits (wordBits a ++ wordBits b) = a.toNat * 256 + b.toNat := by
      rw [natOfBits_append, natOfBits_wordBits, natOfBits_wordBits, wordBits_length]
    have hsplit := natOfBits_append ((wordBits a ++ wordBits b).take n) ((wordBits a ++ wordBits b).drop n)
    rw [List.take_append_drop, hnum, List.length_drop, hlen] at hsplit
    have hlt := natOfBits_lt ((wordBits a ++ wordBits b).drop n)
    rw [List.length_drop, hlen] at hlt
    simp only [List.getD_cons_zero, List.getD_cons_succ]
    rw [hsplit, Nat.shiftRight_eq_div_pow, Nat.mul_comm, Nat.mul_add_div (Nat.two_pow_pos _), Nat.div_eq_of_lt hlt, Nat.add_zero]

/-- C44 fails for `SplitDepth`: the constructor accepts values above the documented maximum 30; 32 is
then stored as five zero bits, which do not load, and 33 is stored as 1. -/
theorem C44_split_depth_unchecked :
    splitDepthNew 32 = .ok 32 ∧
    (splitDepthStore (ρ := Nat) 32 CellB.new).1 = .ok () ∧
    (splitDepthLoad (splitDepthStore (ρ := Nat) 32 CellB.new).2.asSlice).1 = .error .intOverflow ∧
    splitDepthNew 33 = .ok 33 ∧
    (splitDepthLoad (splitDepthStore (ρ := Nat) 33 CellB.new).2.asSlice).1 = .ok 1 := by
  decide +kernel

/-- C44 (partial: only up to 31, see `C44_split_depth_unchecked`): a split depth of at most 31 is written
as five bits and read back; zero is refused on construction and on load. The full claim would be that
values above 30 are refused on construction and on load. -/
theorem C44_split_depth_partial :
    (∀ v, 0 < v → v ≤ 31 → WritesAtomic (splitDepthStore v : Wr ρ Unit) (Enc.bits (natBits 5 v)) ∧
      Reads (splitDepthLoad : Rd ρ Nat) (Enc.bits (natBits 5 v)) v ∧ splitDepthNew v = .ok v ∧ splitDepthFromBitLen v = .ok v) ∧
    splitDepthNew 0 = .error .intOverflow ∧
    Exact (splitDepthLoad : Rd ρ Nat) (fun v e => 0 < v ∧ v ≤ 31 ∧ e = Enc.bits (natBits 5 v)) ∧
    Safe (splitDepthLoad : Rd ρ Nat) := by
  refine ⟨fun v h0 h31 => ⟨Wr.writes_small v (by omega), ?_, ?_, ?_⟩, rfl, ?_, ?_⟩
  · have r := Reads.bind (f := fun v => match splitDepthNew v with | .ok v => pure v | .error e => Prog.fail e)
      ((Rd.takes_small (ρ := ρ) (n := 5) (by omega)).reads_nat (v := v) (by omega)) (e2 := Enc.nil) (w := v) (by
        unfold splitDepthNew
        rw [if_neg (by omega)]
        exact Reads.pure v)
    rw [Enc.append_nil] at r
    exact r
  · unfold splitDepthNew; rw [if_neg (by omega)]
  · unfold splitDepthFromBitLen splitDepthNew
    rw [if_pos (by omega), Nat.mod_eq_of_lt (by omega), if_neg (by omega)]
  · refine Exact.bind (R3 := fun x v e => 0 < x ∧ v = x ∧ e = Enc.nil)
      (Rd.takes_small (n := 5) (by omega)).exact_nat (fun x => ?_) ?_
    · unfold splitDepthNew
      by_cases h : x = 0
      · rw [if_pos h]; exact Exact.fail _
      · rw [if_neg h]; exact Exact.pure _ ⟨by omega, rfl, rfl⟩
    · rintro x v e1 e2 ⟨h1, h2⟩ ⟨h3, h4, h5⟩
      subst h4; subst h2; subst h5
      exact ⟨h3, by omega, by rw [Enc.append_nil]⟩
  · refine Safe.bind (Rd.takes_small (by omega)).safe fun x => ?_
    unfold splitDepthNew
    by_cases h : x = 0
    · rw [if_pos h]; exact Safe.fail (by decide) (by decide)
    · rw [if_neg h]; exact Safe.pure _

end Cells

/-- Non-vacuity: 511 fits nine bits, 512 does not. -/
example : (smallStore (ρ := Nat) 9 511 CellB.new).2.inner.bits = List.replicate 9 true ∧
    (smallStore (ρ := Nat) 9 512 CellB.new).1 = .error .intOverflow ∧
    smallLoadKey 9 [0xff, 0x80] = 511 := by decide +kernel

/-! ### C53 -/

/-- A bounded integer type whose valid values fit the primitive type. -/
def IntKind.Proper (k : IntKind) : Prop := k.max < 2 ^ k.width

/-- C53: checked arithmetic of `VarUint24`, `VarUint56`, `Tokens`, `Uint9`, `Uint12`, `Uint15` returns the exact
mathematical result, or nothing exactly when the result is negative, undefined or exceeds the maximum;
the saturating forms clamp. This holds for all
underlying values, valid or not. -/
theorem C53_arith (k : IntKind) (hk : k.Proper) (a b : Nat) :
    k.checkedAdd a b = (if a + b ≤ k.max then some (a + b) else none) ∧
    k.checkedSub a b = (if b ≤ a ∧ a - b ≤ k.max then some (a - b) else none) ∧
    k.checkedMul a b = (if a * b ≤ k.max then some (a * b) else none) ∧
    k.checkedDiv a b = (if b ≠ 0 ∧ a / b ≤ k.max then some (a / b) else none) ∧
    k.saturatingAdd a b = min (a + b) k.max ∧
    k.saturatingSub a b = min (a - b) k.max ∧
    k.saturatingMul a b = min (a * b) k.max := by
  unfold IntKind.Proper at hk
  have cap : ∀ x, fitsMax k.max (if x < 2 ^ k.width then some x else none) = if x ≤ k.max then some x else none := by
    intro x
    by_cases h : x < 2 ^ k.width
    · rw [if_pos h]; rfl
    · rw [if_neg h, if_neg (by omega)]; rfl
  have sat : ∀ x, (if x ≤ k.max then some x else none).getD k.max = min x k.max := by
    intro x
    by_cases h : x ≤ k.max
    · rw [if_pos h]; simp; omega
    · rw [if_neg h]; simp; omega
  refine ⟨cap _, ?_, cap _, ?_, ?_, ?_, ?_⟩
  · unfold IntKind.checkedSub primSub
    by_cases h : b ≤ a
    · rw [if_pos h]; simp only [fitsMax, h, true_and]
    · rw [if_neg h, if_neg (by omega)]; rfl
  · unfold IntKind.checkedDiv primDiv
    by_cases h : b = 0
    · rw [if_pos h, if_neg (by omega)]; rfl
    · rw [if_neg h]; simp only [fitsMax, ne_eq, h, not_false_eq_true, true_and]
  · unfold IntKind.saturatingAdd primAdd
    rw [cap, sat]
  · unfold IntKind.saturatingSub primSub
    by_cases h : b ≤ a
    · rw [if_pos h]; dsimp only; split <;> omega
    · rw [if_neg h]; dsimp only; omega
  · unfold IntKind.saturatingMul primMul
    rw [cap, sat]

/-- C53: the assigning forms either put the exact result in place or report an overflow and keep the value. -/
theorem C53_assign (k : IntKind) (hk : k.Proper) (a b : Nat) :
    k.tryAddAssign a b = (if a + b ≤ k.max then (.ok (), a + b) else (.error .intOverflow, a)) ∧
    k.trySubAssign a b = (if b ≤ a ∧ a - b ≤ k.max then (.ok (), a - b) else (.error .intOverflow, a)) ∧
    k.tryMulAssign a b = (if a * b ≤ k.max then (.ok (), a * b) else (.error .intOverflow, a)) ∧
    k.tryDivAssign a b = (if b ≠ 0 ∧ a / b ≤ k.max then (.ok (), a / b) else (.error .intOverflow, a)) := by
  obtain ⟨h1, h2, h3, h4, _⟩ := C53_arith k hk a b
  unfold IntKind.tryAddAssign IntKind.trySubAssign IntKind.tryMulAssign IntKind.tryDivAssign
  rw [h1, h2, h3, h4]
  refine ⟨?_, ?_, ?_, ?_⟩ <;> (split <;> rfl)

/-- Every listed type is proper. -/
theorem C53_kinds : (∀ k : VarKind, k.kind.Proper) ∧ ∀ n, n = 9 ∨ n = 12 ∨ n = 15 → (smallKind n).Proper := by
  constructor
  · intro k; cases k <;> (unfold IntKind.Proper; decide)
  · rintro n (h | h | h) <;> (subst h; unfold IntKind.Proper; decide)

/-- Non-vacuity: the boundary of `Tokens`. -/
example : VarKind.tokens.kind.checkedAdd (2 ^ 120 - 1) 1 = none ∧ VarKind.tokens.kind.checkedAdd (2 ^ 120 - 2) 1 = some (2 ^ 120 - 1) ∧
    VarKind.tokens.kind.saturatingMul (2 ^ 64) (2 ^ 64) = 2 ^ 120 - 1 := by decide +kernel

end Verif
