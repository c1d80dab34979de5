import Verif.BuilderLemmas
/-
C01, C06, C51: the store operations of the cell builder append exactly the documented bits.
-/
namespace Verif
namespace DataBuilder

/-- The store operations of `CellDataBuilder`. -/
inductive StoreOp where
  | bit (v : Bool)
  | zeros (n : Nat)
  | ones (n : Nat)
  | u8 (v : BitVec 8)
  | u16 (v : BitVec 16)
  | u32 (v : BitVec 32)
  | u64 (v : BitVec 64)
  | u128 (v : BitVec 128)
  | u256 (v : List Byte)
  | smallUint (v : BitVec 8) (n : Nat)
  | uint (v : BitVec 64) (n : Nat)
  | raw (v : List Byte) (n : Nat)

/-- Specification: the bits an operation is documented to append. -/
def StoreOp.expected : StoreOp → Bits
  | .bit v => [v]
  | .zeros n => List.replicate n false
  | .ones n => List.replicate n true
  | .u8 v => natBits 8 v.toNat
  | .u16 v => natBits 16 v.toNat
  | .u32 v => natBits 32 v.toNat
  | .u64 v => natBits 64 v.toNat
  | .u128 v => natBits 128 v.toNat
  | .u256 v => bytesToBits v
  | .smallUint v n => natBits n v.toNat
  | .uint v n => natBits n v.toNat
  | .raw v n => rawBits v n

/-- Arguments as the Rust types admit them, with widths that do not overflow the `u16` length
computation (`1023 + n < 65536`) and buffers shorter than 8192 bytes; see `C51` for the rest. -/
def StoreOp.Valid : StoreOp → Prop
  | .u256 v => v.length = 32
  | .zeros n | .ones n | .smallUint _ n | .uint _ n => n ≤ 64512
  | .raw v n => n ≤ 64512 ∧ v.length < 8192
  | _ => True

/-- Run one operation of the modelled code. -/
def StoreOp.run (b : DataBuilder) : StoreOp → Res
  | .bit v => b.storeBit v
  | .zeros n => b.storeZeros n
  | .ones n => b.storeOnes n
  | .u8 v => b.storeU8 v
  | .u16 v => b.storeU16 v
  | .u32 v => b.storeU32 v
  | .u64 v => b.storeU64 v
  | .u128 v => b.storeU128 v
  | .u256 v => b.storeU256 v
  | .smallUint v n => b.storeSmallUint v n
  | .uint v n => b.storeUint v n
  | .raw v n => b.storeRaw v n

/-- Specification of one store on a bit string: append, or fail and keep the string. -/
def specStore (s new : Bits) : Except Err Unit × Bits :=
  if s.length + new.length ≤ 1023 then (.ok (), s ++ new) else (.error .cellOverflow, s)

theorem StoreOp.step {b : DataBuilder} (hb : WF b) (op : StoreOp) (hv : op.Valid) :
    (b.bitLen + op.expected.length ≤ maxBitLen → Appends b (op.run b) op.expected) ∧
    (¬ b.bitLen + op.expected.length ≤ maxBitLen → op.run b = (.error .cellOverflow, b)) := by
  have hm : maxBitLen = 1023 := rfl
  have hle := hb.le
  cases op with
  | bit v => exact ⟨fun h => storeBit_spec hb v h, fun h => storeBit_err v h⟩
  | zeros n =>
    simp only [Valid, expected, run, List.length_replicate] at hv ⊢
    exact ⟨fun h => storeZeros_spec hb h, fun h => storeZeros_err (by omega) h⟩
  | ones n =>
    simp only [Valid, expected, run, List.length_replicate] at hv ⊢
    refine ⟨fun h => ?_, fun h => storeRaw_err _ (by omega) h⟩
    rw [← storeOnes_bits (by omega)]
    exact storeRaw_spec hb _ (by simp) h
  | u8 v =>
    simp only [expected, run, natBits_length, ← wordBits_eq_natBits]
    exact ⟨fun h => storeU8_spec hb v h, fun h => storeU8_err v h⟩
  | u16 v =>
    simp only [expected, run, natBits_length, ← wordBits_eq_natBits]
    exact ⟨fun h => storeWord_spec (n := 2) (by omega) hb v h, fun h => storeWord_err (n := 2) v h⟩
  | u32 v =>
    simp only [expected, run, natBits_length, ← wordBits_eq_natBits]
    exact ⟨fun h => storeWord_spec (n := 4) (by omega) hb v h, fun h => storeWord_err (n := 4) v h⟩
  | u64 v =>
    simp only [expected, run, natBits_length, ← wordBits_eq_natBits]
    exact ⟨fun h => storeWord_spec (n := 8) (by omega) hb v h, fun h => storeWord_err (n := 8) v h⟩
  | u128 v =>
    simp only [expected, run, natBits_length, ← wordBits_eq_natBits]
    exact ⟨fun h => storeWord_spec (n := 16) (by omega) hb v h, fun h => storeWord_err (n := 16) v h⟩
  | u256 v =>
    simp only [Valid] at hv
    simp only [expected, run, bytesToBits_length, hv]
    exact ⟨fun h => storeU256_spec hb hv h, fun h => storeU256_err v h⟩
  | smallUint v n =>
    simp only [Valid] at hv
    simp only [expected, run, natBits_length]
    exact ⟨fun h => storeSmallUint_spec hb v h, fun h => storeSmallUint_err v (by omega) hb h⟩
  | uint v n =>
    simp only [Valid] at hv
    simp only [expected, run, natBits_length]
    exact ⟨fun h => storeUint_spec hb v h, fun h => storeUint_err v (by omega) hb h⟩
  | raw v n =>
    simp only [Valid] at hv
    simp only [expected, run, rawBits_length]
    exact ⟨fun h => storeRaw_spec hb v hv.2 h, fun h => storeRaw_err v (by omega) h⟩

/-- C01: one store operation appends exactly the documented bits, or fails with `CellOverflow`
exactly when more than 1023 bits would result and then changes nothing. -/
theorem C01_store {b : DataBuilder} (hb : WF b) (op : StoreOp) (hv : op.Valid) :
    (op.run b).1 = (specStore b.bits op.expected).1 ∧
    (op.run b).2.bits = (specStore b.bits op.expected).2 ∧
    WF (op.run b).2 ∧
    ((op.run b).1 = .error .cellOverflow → (op.run b).2 = b) := by
  have hs := op.step hb hv
  unfold specStore
  rw [bits_length]
  by_cases h : b.bitLen + op.expected.length ≤ 1023
  · obtain ⟨b', e, w, hbits⟩ := hs.1 h
    rw [if_pos h, e]
    exact ⟨rfl, hbits, w, fun h => by cases h⟩
  · rw [hs.2 h, if_neg h]
    exact ⟨rfl, rfl, hb, fun _ => rfl⟩

/-- Run a program of stores, ignoring failures, and collect the results. -/
def runStores (b : DataBuilder) : List StoreOp → List (Except Err Unit) × DataBuilder
  | [] => ([], b)
  | op :: ops =>
    let r := op.run b
    let rest := runStores r.2 ops
    (r.1 :: rest.1, rest.2)

/-- The same program on a plain bit string. -/
def specStores (s : Bits) : List StoreOp → List (Except Err Unit) × Bits
  | [] => ([], s)
  | op :: ops =>
    let r := specStore s op.expected
    let rest := specStores r.2 ops
    (r.1 :: rest.1, rest.2)

/-- C01 (histories): any sequence of stores, failing ones included, behaves as on a plain bit
string, and the representation invariant (zero tail, length ≤ 1023) always holds. -/
theorem C01_store_history (ops : List StoreOp) (hv : ∀ op ∈ ops, op.Valid) {b : DataBuilder} (hb : WF b) :
    (runStores b ops).1 = (specStores b.bits ops).1 ∧
    (runStores b ops).2.bits = (specStores b.bits ops).2 ∧ WF (runStores b ops).2 := by
  induction ops generalizing b with
  | nil => exact ⟨rfl, rfl, hb⟩
  | cons op ops ih =>
    obtain ⟨h1, h2, h3, _⟩ := C01_store hb op (hv op (by simp))
    obtain ⟨i1, i2, i3⟩ := ih (fun o ho => hv o (by simp [ho])) h3
    rw [h2] at i1 i2
    simp only [runStores, specStores]
    exact ⟨by rw [h1, i1], i2, i3⟩

/-- C01 from an empty builder, with the buffer's unused part zero. -/
theorem C01_store_from_new (ops : List StoreOp) (hv : ∀ op ∈ ops, op.Valid) :
    (runStores new ops).1 = (specStores [] ops).1 ∧
    (runStores new ops).2.bits = (specStores [] ops).2 ∧
    (runStores new ops).2.bitLen ≤ 1023 ∧
    (∀ i, (runStores new ops).2.bitLen ≤ i → bitAt (runStores new ops).2.data i = false) := by
  have h := C01_store_history ops hv wf_new
  have e : new.bits = [] := rfl
  rw [e] at h
  exact ⟨h.1, h.2.1, h.2.2.le, h.2.2.tail⟩

/-- Non-vacuity: an unaligned program with a failing step in the middle. -/
example : (∀ op ∈ [StoreOp.bit true, .uint 0x1ff 9, .ones 1020, .raw [0xab, 0xcd] 12, .u256 (List.replicate 32 7)], op.Valid) ∧
    (runStores new [StoreOp.bit true, .uint 0x1ff 9, .ones 1020, .raw [0xab, 0xcd] 12]).1
      = [.ok (), .ok (), .error .cellOverflow, .ok ()] ∧
    (runStores new [StoreOp.bit true, .uint 0x1ff 9, .ones 1020, .raw [0xab, 0xcd] 12]).2.bits
      = List.replicate 10 true ++ natBits 12 0xabc := by
  refine ⟨by simp [StoreOp.Valid], ?_, ?_⟩
  · decide +kernel
  · decide +kernel

/-- C06: `prepend_raw` puts exactly the given bits before the existing ones, or fails unchanged. -/
theorem C06_prepend_raw {b : DataBuilder} (hb : WF b) (value : List Byte) (hv : value.length < 8192)
    (n : Nat) (hn : n ≤ 64512) :
    (b.bits.length + n ≤ 1023 →
      ∃ b', prependRaw b value n = (.ok (), b') ∧ WF b' ∧ b'.bits = rawBits value n ++ b.bits) ∧
    (¬ b.bits.length + n ≤ 1023 → prependRaw b value n = (.error .cellOverflow, b)) := by
  rw [bits_length]
  have hle := hb.le
  have hm : maxBitLen = 1023 := rfl
  refine ⟨fun h => prependRaw_spec hb value hv h, fun h => ?_⟩
  have : n ≠ 0 := by omega
  have h' : ¬ b.bitLen + n ≤ maxBitLen := h
  simp [prependRaw, this, u16add_eq (show b.bitLen + n < 65536 by omega), h']

/-- C06: `rewind(n)` removes exactly the last `n` bits, or fails with `CellUnderflow` unchanged. -/
theorem C06_rewind {b : DataBuilder} (hb : WF b) (n : Nat) :
    (n ≤ b.bits.length →
      ∃ b', rewindBits b n = (.ok (), b') ∧ WF b' ∧ b'.bits = b.bits.take (b.bits.length - n)) ∧
    (¬ n ≤ b.bits.length → rewindBits b n = (.error .cellUnderflow, b)) := by
  rw [bits_length]
  refine ⟨fun h => rewindBits_spec hb h, fun h => ?_⟩
  have h1 : n ≠ 0 := by omega
  have h2 : b.bitLen < n := by omega
  simp [rewindBits, h1, h2]

/-- C06: storing something and rewinding it gives back the very same builder (bytes included). -/
theorem C06_store_rewind {b : DataBuilder} (hb : WF b) (op : StoreOp) (hv : op.Valid)
    (h : (op.run b).1 = .ok ()) :
    rewindBits (op.run b).2 op.expected.length = (.ok (), b) := by
  obtain ⟨h1, h2, h3, _⟩ := C01_store hb op hv
  rw [h] at h1
  unfold specStore at h1 h2
  split at h1
  · rw [if_pos (by assumption)] at h2
    obtain ⟨b', e, w, hbits⟩ := (C06_rewind h3 op.expected.length).1 (by simp [h2])
    rw [e]
    congr 1
    apply w.ext hb
    simp [hbits, h2]
  · cases h1

example : WF (runStores new [StoreOp.uint 5 3]).2 ∧
    (prependRaw (runStores new [StoreOp.uint 5 3]).2 [0xf0] 6).2.bits
      = [true, true, true, true, false, false, true, false, true] ∧
    (rewindBits (runStores new [StoreOp.uint 5 3]).2 2).2.bits = [true] := by
  refine ⟨(C01_store_history _ (by simp [StoreOp.Valid]) wf_new).2.2, by decide +kernel, by decide +kernel⟩

/-! ### C51: extreme arguments

The full property would be `C01_store` without `StoreOp.Valid`'s bounds. It does not hold: -/

/-- C51 (violation): with `bit_len = 600`, `store_zeros(65000)` succeeds in a release build and
*shrinks* the builder to 64 bits (in a debug build the addition panics). -/
theorem C51_wide_store_zeros_wraps :
    let b : DataBuilder := { data := List.replicate 128 0, bitLen := 600 }
    WF b ∧ (storeZeros b 65000).1 = .ok () ∧ (storeZeros b 65000).2.bits.length = 64 := by
  refine ⟨⟨by simp, by decide, fun i _ => bitAt_replicate_zero _ _⟩, by decide, ?_⟩
  rw [bits_length]
  decide

/-- C51 (violation): `store_raw` of an 8192-byte buffer stores zeroes instead of its bits, because
`value.len() * 8` is truncated to 16 bits. -/
theorem C51_long_raw_truncated :
    let v := List.replicate 8192 (0xff#8)
    (storeRaw new v 8).1 = .ok () ∧ (storeRaw new v 8).2.bits = List.replicate 8 false ∧
    rawBits v 8 = List.replicate 8 true := by
  have e : storeRaw new (List.replicate 8192 (0xff#8)) 8 = (.ok (), { data := List.replicate 128 0, bitLen := 8 }) := by
    have h : valueBitLenU16 (List.replicate 8192 (0xff#8)) = 0 := by
      unfold valueBitLenU16
      rw [List.length_replicate]
      decide
    unfold storeRaw
    rw [h]
    rfl
  refine ⟨by rw [e], ?_, ?_⟩
  · rw [e]
    decide
  · unfold rawBits
    rw [List.length_replicate, if_pos (by omega),
      show List.replicate 8192 (0xff#8) = [0xff#8] ++ List.replicate 8191 (0xff#8) from rfl,
      bytesToBits_append, List.take_append_of_le_length (by simp [bytesToBits_length])]
    decide

end DataBuilder
end Verif
