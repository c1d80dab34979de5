import Verif.Addr
import Verif.TextProps
/-
Typed dictionary keys: `DictKey`, `StoreDictKey`, `LoadDictKey` (`dict/mod.rs:42-201`, `num/mod.rs:845-866`,
`models/block/block_extra.rs:318-335`, `models/message/address.rs:473-533`).
-/
set_option linter.unusedVariables false
set_option linter.unusedSimpArgs false
namespace Verif
open DataBuilder

/-- A key type: `DictKey::BITS`, `StoreDictKey::store_into_data` and `LoadDictKey::load_from_data`; the latter sees only
`raw_data()`, the buffer of 128 bytes. -/
structure KeyType (α : Type) where
  bits : Nat
  store : α → DataBuilder → Res
  load : List Byte → Option α

/-- Specification: `enc` is the bit form of the keys that satisfy `ok`.
* storing such a key appends its form or, when there is no room, fails;
* reading back a builder with `bits` bits gives exactly the key whose form it holds. -/
structure KeyCodes {α : Type} (k : KeyType α) (ok : α → Prop) (enc : α → Bits) : Prop where
  length : ∀ v, ok v → (enc v).length = k.bits
  store : ∀ v, ok v → ∀ b : DataBuilder, b.WF →
    (b.bits.length + k.bits ≤ 1023 → ∃ b', k.store v b = (.ok (), b') ∧ b'.WF ∧ b'.bits = b.bits ++ enc v) ∧
    (1023 < b.bits.length + k.bits → ∃ e b', k.store v b = (.error e, b'))
  load : ∀ b : DataBuilder, b.WF → b.bits.length = k.bits → ∀ v, (k.load b.data = some v ↔ ok v ∧ b.bits = enc v)

/-! ### Model -/

/-- Two's complement of a signed integer of `w` bits: `x as uN`. -/
def twos (w : Nat) (v : Int) : Nat := (v % 2 ^ w).toNat
/-- `x as iN` -/
def untwos (w : Nat) (n : Nat) : Int := if n < 2 ^ (w - 1) then n else (n : Int) - 2 ^ w
def IsSigned (w : Nat) (v : Int) : Prop := -(2 ^ (w - 1) : Int) ≤ v ∧ v < 2 ^ (w - 1)

namespace Key

/-- `d[..n]` read as a big endian number. -/
def be (d : List Byte) (off n : Nat) : Nat := (fromBE n ((d.drop off).take n)).toNat

/-- `dict/mod.rs:104-108` -/
def bool : KeyType Bool := ⟨1, fun x b => b.storeBit x, fun d => some ((d.getD 0 0 &&& 0x80) != 0)⟩
/-- `dict/mod.rs:109-113` -/
def u8 : KeyType Nat := ⟨8, fun x b => b.storeU8 (BitVec.ofNat 8 x), fun d => some (d.getD 0 0).toNat⟩
/-- `dict/mod.rs:114-118` -/
def i8 : KeyType Int := ⟨8, fun x b => b.storeU8 (BitVec.ofNat 8 (twos 8 x)), fun d => some (untwos 8 (d.getD 0 0).toNat)⟩
/-- `dict/mod.rs:119-123` -/
def u16 : KeyType Nat := ⟨16, fun x b => b.storeU16 (BitVec.ofNat 16 x), fun d => some (be d 0 2)⟩
/-- `dict/mod.rs:124-128` -/
def i16 : KeyType Int := ⟨16, fun x b => b.storeU16 (BitVec.ofNat 16 (twos 16 x)), fun d => some (untwos 16 (be d 0 2))⟩
/-- `dict/mod.rs:129-133` -/
def u32 : KeyType Nat := ⟨32, fun x b => b.storeU32 (BitVec.ofNat 32 x), fun d => some (be d 0 4)⟩
/-- `dict/mod.rs:134-138` -/
def i32 : KeyType Int := ⟨32, fun x b => b.storeU32 (BitVec.ofNat 32 (twos 32 x)), fun d => some (untwos 32 (be d 0 4))⟩
/-- `dict/mod.rs:139-143` -/
def u64 : KeyType Nat := ⟨64, fun x b => b.storeU64 (BitVec.ofNat 64 x), fun d => some (be d 0 8)⟩
/-- `dict/mod.rs:144-148` -/
def i64 : KeyType Int := ⟨64, fun x b => b.storeU64 (BitVec.ofNat 64 (twos 64 x)), fun d => some (untwos 64 (be d 0 8))⟩
/-- `dict/mod.rs:149-153` -/
def u128 : KeyType Nat := ⟨128, fun x b => b.storeU128 (BitVec.ofNat 128 x), fun d => some (be d 0 16)⟩
/-- `dict/mod.rs:154-158` -/
def i128 : KeyType Int := ⟨128, fun x b => b.storeU128 (BitVec.ofNat 128 (twos 128 x)), fun d => some (untwos 128 (be d 0 16))⟩
/-- `dict/mod.rs:159-173`: `[u8; 16]`, `[u8; 20]`, `[u8; 32]` -/
def bytes (n : Nat) : KeyType (List Byte) := ⟨8 * n, fun x b => b.storeRaw x (8 * n), fun d => some (d.take n)⟩
/-- `dict/mod.rs:174-178` `HashBytes` -/
def hash : KeyType (List Byte) := ⟨256, fun x b => b.storeU256 x, fun d => some (d.take 32)⟩
/-- Run a second store if the first one succeeded (`ok!`). -/
def andThen (r : Res) (f : DataBuilder → Res) : Res :=
  match r with
  | (.ok (), b) => f b
  | (.error e, b) => (.error e, b)
/-- `dict/mod.rs:179-188` -/
def u64u32 : KeyType (Nat × Nat) := ⟨96,
  fun x b => andThen (b.storeU64 (BitVec.ofNat 64 x.1)) fun b => b.storeU32 (BitVec.ofNat 32 x.2),
  fun d => some (be d 0 8, be d 8 4)⟩
/-- `models/block/block_extra.rs:318-335` `ShardIdentFull`: workchain and prefix -/
def shardFull : KeyType (Int × Nat) := ⟨96,
  fun x b => andThen (b.storeU32 (BitVec.ofNat 32 (twos 32 x.1))) fun b => b.storeU64 (BitVec.ofNat 64 x.2),
  fun d => some (untwos 32 (be d 0 4), be d 4 8)⟩
/-- `num/mod.rs:845-866`: `Uint9`, `Uint12`, `Uint15`, held in a `u16` -/
def smallUint (n : Nat) : KeyType Nat := ⟨n,
  fun x b => if x ≤ smallMax n then b.storeUint (BitVec.ofNat 64 x) n else (.error .intOverflow, b),
  fun d => some ((BitVec.ofNat 16 (be d 0 2)) >>> (16 - n)).toNat⟩
/-- `models/message/address.rs:477-487` `store_into_data` -/
def stdAddrStore (a : StdAddr) (b : DataBuilder) : Res :=
  if a.anycast.isSome || !b.hasCapacityBits 267 then (.error .invalidData, b)
  else andThen (b.storeSmallUint 4 3) fun b => andThen (b.storeU8 (BitVec.ofNat 8 (i8ToU8 a.workchain))) fun b => b.storeU256 a.address
/-- `models/message/address.rs:489-532` `load_from_data` -/
def stdAddrLoad (d : List Byte) : Option StdAddr :=
  let f := d.getD 0 0
  let s := d.getD 1 0
  if (f ^^^ 0x80) &&& 0xe0 ≠ 0 then none
  else
    let hi : BitVec (8 * 16) := fromBE 16 ((d.drop 2).take 16)
    let lo : BitVec (8 * 16) := fromBE 16 ((d.drop 18).take 16)
    some ⟨none, u8ToI8 ((f <<< 3) ||| (s >>> 5)).toNat,
      toBE 16 ((hi >>> 5) ||| (s.setWidth (8 * 16) <<< 123)) ++ toBE 16 ((lo >>> 5) ||| (hi <<< 123))⟩
def stdAddr : KeyType StdAddr := ⟨267, stdAddrStore, stdAddrLoad⟩

end Key

/-! ### Proofs -/

theorem twos_lt (w : Nat) (v : Int) : twos w v < 2 ^ w := by
  unfold twos
  have h0 : (0 : Int) < 2 ^ w := Int.pow_pos (by decide)
  have h1 := Int.emod_nonneg v (Int.ne_of_gt h0)
  have h2 := Int.emod_lt_of_pos v h0
  have e : ((2 ^ w : Nat) : Int) = (2 : Int) ^ w := by push_cast; rfl
  omega

theorem untwos_twos {w : Nat} (hw : 0 < w) {v : Int} (h : IsSigned w v) : untwos w (twos w v) = v := by
  unfold untwos twos
  have e : (2 : Int) ^ w = 2 * 2 ^ (w - 1) := by
    obtain ⟨k, rfl⟩ : ∃ k, w = k + 1 := ⟨w - 1, by omega⟩
    rw [Int.pow_succ, Nat.add_sub_cancel, Int.mul_comm]
  have e2 : ((2 ^ (w - 1) : Nat) : Int) = (2 : Int) ^ (w - 1) := by push_cast; rfl
  have h0 : (0 : Int) < 2 ^ (w - 1) := Int.pow_pos (by decide)
  obtain ⟨h1, h2⟩ := h
  rw [e]
  generalize (2 : Int) ^ (w - 1) = H at *
  generalize (2 : Nat) ^ (w - 1) = h at *
  by_cases hv : 0 ≤ v
  · rw [Int.emod_eq_of_lt hv (by omega), if_pos (by omega)]; omega
  · rw [← Int.add_emod_right, Int.emod_eq_of_lt (by omega) (by omega), if_neg (by omega)]; omega

theorem twos_untwos {w : Nat} (hw : 0 < w) {n : Nat} (h : n < 2 ^ w) : twos w (untwos w n) = n ∧ IsSigned w (untwos w n) := by
  have e : (2 : Int) ^ w = 2 * 2 ^ (w - 1) := by
    obtain ⟨k, rfl⟩ : ∃ k, w = k + 1 := ⟨w - 1, by omega⟩
    rw [Int.pow_succ, Nat.add_sub_cancel, Int.mul_comm]
  have e1 : ((2 ^ w : Nat) : Int) = (2 : Int) ^ w := by push_cast; rfl
  have e2 : ((2 ^ (w - 1) : Nat) : Int) = (2 : Int) ^ (w - 1) := by push_cast; rfl
  have h0 : (0 : Int) < 2 ^ (w - 1) := Int.pow_pos (by decide)
  unfold untwos twos IsSigned
  rw [e] at e1 ⊢
  generalize (2 : Int) ^ (w - 1) = H at *
  generalize (2 : Nat) ^ (w - 1) = g at *
  generalize (2 : Nat) ^ w = f at *
  by_cases hn : n < g
  · rw [if_pos hn, Int.emod_eq_of_lt (by omega) (by omega)]
    exact ⟨by omega, by omega, by omega⟩
  · rw [if_neg hn, ← Int.add_emod_right, Int.emod_eq_of_lt (by omega) (by omega)]
    exact ⟨by omega, by omega, by omega⟩

namespace Key

theorem bits_len (b : DataBuilder) : b.bits.length = b.bitLen := by simp [DataBuilder.bits]

theorem store_op {α : Type} {k : KeyType α} (f : α → StoreOp) (ok : α → Prop) (enc : α → Bits) (hk : ∀ v b, k.store v b = (f v).run b)
    (hv : ∀ v, ok v → (f v).Valid ∧ (f v).expected = enc v ∧ (enc v).length = k.bits) : ∀ v, ok v → ∀ b : DataBuilder, b.WF →
    (b.bits.length + k.bits ≤ 1023 → ∃ b', k.store v b = (.ok (), b') ∧ b'.WF ∧ b'.bits = b.bits ++ enc v) ∧
    (1023 < b.bits.length + k.bits → ∃ e b', k.store v b = (.error e, b')) := by
  intro v h b hb
  obtain ⟨h1, h2, h3⟩ := hv v h
  have hs := (f v).step hb h1
  rw [hk, bits_len]
  rw [h2, h3] at hs
  have hm : maxBitLen = 1023 := rfl
  rw [hm] at hs
  refine ⟨fun hl => ?_, fun hl => ?_⟩
  · obtain ⟨b', e, w, hbits⟩ := hs.1 hl
    exact ⟨b', e, w, by rw [hbits]⟩
  · exact ⟨_, _, hs.2 (by omega)⟩

theorem be_bits {d : List Byte} {off n : Nat} (h : off + n ≤ d.length) : be d off n = natOfBits (((bytesToBits d).drop (8 * off)).take (8 * n)) := by
  unfold be
  have hl : ((d.drop off).take n).length = n := by simp; omega
  rw [fromBE_toNat hl]
  congr 1
  refine list_ext_getD (by simp [bytesToBits_length, hl]; omega) fun i hi => ?_
  rw [bytesToBits_length, hl] at hi
  rw [bytesToBits_getD, bitAt_take_drop, List.getD_eq_getElem?_getD, List.getElem?_take_of_lt (by omega), List.getElem?_drop,
    ← List.getD_eq_getElem?_getD, bytesToBits_getD]
  simp [hi]

theorem bits_eq {b : DataBuilder} (hb : b.WF) : b.bits = (bytesToBits b.data).take b.bitLen := by
  have hle := hb.le
  have hm : maxBitLen = 1023 := rfl
  refine list_ext_getD (by rw [bits_len, List.length_take, bytesToBits_length, hb.len]; omega) fun i hi => ?_
  rw [bits_len] at hi
  rw [List.getD_eq_getElem?_getD (l := (bytesToBits b.data).take b.bitLen), List.getElem?_take_of_lt hi, ← List.getD_eq_getElem?_getD, bytesToBits_getD]
  simp [DataBuilder.bits, hi]

theorem be_full {b : DataBuilder} (hb : b.WF) {n : Nat} (h : b.bits.length = 8 * n) (hn : n ≤ 128) : be b.data 0 n = natOfBits b.bits := by
  rw [be_bits (by rw [hb.len]; omega), bits_eq hb]
  rw [bits_len] at h
  rw [h]; rfl

theorem byte_full {b : DataBuilder} (hb : b.WF) (h : b.bits.length = 8) : (b.data.getD 0 0).toNat = natOfBits b.bits := by
  have hl := hb.len
  rw [← natOfBits_wordBits, bits_eq hb]
  rw [bits_len] at h
  rw [h]
  obtain ⟨x, t, e⟩ : ∃ x t, b.data = x :: t := by
    cases hd : b.data with
    | nil => rw [hd] at hl; cases hl
    | cons x t => exact ⟨x, t, rfl⟩
  rw [e, bytesToBits_cons, List.take_left' (by simp)]; rfl

theorem nat_codes {k : KeyType Nat} (f : Nat → StoreOp) (w : Nat) (hk : ∀ v b, k.store v b = (f v).run b) (hw : k.bits = w)
    (hv : ∀ v, v < 2 ^ w → (f v).Valid ∧ (f v).expected = natBits w v)
    (hl : ∀ b : DataBuilder, b.WF → b.bits.length = w → k.load b.data = some (natOfBits b.bits)) :
    KeyCodes k (fun v => v < 2 ^ w) (natBits w) := by
  refine ⟨fun v _ => by rw [natBits_length, hw], store_op f _ _ hk fun v h => ⟨(hv v h).1, (hv v h).2, by rw [natBits_length, hw]⟩, ?_⟩
  intro b hb h v
  rw [hw] at h
  rw [hl b hb h]
  constructor
  · intro e
    injection e with e
    rw [← e]
    exact ⟨h ▸ natOfBits_lt _, by have := natBits_natOfBits b.bits; rw [h] at this; exact this.symm⟩
  · rintro ⟨h1, h2⟩
    rw [h2, natOfBits_natBits, Nat.mod_eq_of_lt h1]

theorem int_codes {k : KeyType Int} {k' : KeyType Nat} (w : Nat) (hw : 0 < w) (h : KeyCodes k' (fun v => v < 2 ^ w) (natBits w))
    (hb : k.bits = k'.bits) (hs : ∀ v b, k.store v b = k'.store (twos w v) b) (hl : ∀ d, k.load d = (k'.load d).map (untwos w)) :
    KeyCodes k (IsSigned w) (fun v => natBits w (twos w v)) := by
  refine ⟨fun v _ => hb ▸ h.length _ (twos_lt w v), fun v hv b hwf => ?_, fun b hwf hlen v => ?_⟩
  · rw [hb, hs]
    exact h.store _ (twos_lt w v) b hwf
  · rw [hb] at hlen
    rw [hl]
    have := h.load b hwf hlen
    constructor
    · intro e
      cases hd : k'.load b.data with
      | none => rw [hd] at e; cases e
      | some n =>
        rw [hd] at e
        have hn := (this n).1 hd
        injection e with e
        rw [← e]
        have := twos_untwos hw hn.1
        exact ⟨this.2, by rw [this.1]; exact hn.2⟩
    · rintro ⟨h1, h2⟩
      rw [(this (twos w v)).2 ⟨twos_lt w v, h2⟩, Option.map_some, untwos_twos hw h1]

theorem ofNat_toNat' {w v : Nat} (h : v < 2 ^ w) : (BitVec.ofNat w v).toNat = v := by
  rw [BitVec.toNat_ofNat, Nat.mod_eq_of_lt h]

theorem u8_codes : KeyCodes u8 (fun v => v < 2 ^ 8) (natBits 8) :=
  nat_codes (fun v => .u8 (BitVec.ofNat 8 v)) 8 (fun _ _ => rfl) rfl (fun v h => ⟨trivial, by show natBits 8 _ = _; rw [ofNat_toNat' h]⟩)
    fun b hb h => congrArg some (byte_full hb h)
theorem u16_codes : KeyCodes u16 (fun v => v < 2 ^ 16) (natBits 16) :=
  nat_codes (fun v => .u16 (BitVec.ofNat 16 v)) 16 (fun _ _ => rfl) rfl (fun v h => ⟨trivial, by show natBits 16 _ = _; rw [ofNat_toNat' h]⟩)
    fun b hb h => congrArg some (be_full hb h (by decide))
theorem u32_codes : KeyCodes u32 (fun v => v < 2 ^ 32) (natBits 32) :=
  nat_codes (fun v => .u32 (BitVec.ofNat 32 v)) 32 (fun _ _ => rfl) rfl (fun v h => ⟨trivial, by show natBits 32 _ = _; rw [ofNat_toNat' h]⟩)
    fun b hb h => congrArg some (be_full hb h (by decide))
theorem u64_codes : KeyCodes u64 (fun v => v < 2 ^ 64) (natBits 64) :=
  nat_codes (fun v => .u64 (BitVec.ofNat 64 v)) 64 (fun _ _ => rfl) rfl (fun v h => ⟨trivial, by show natBits 64 _ = _; rw [ofNat_toNat' h]⟩)
    fun b hb h => congrArg some (be_full hb h (by decide))
theorem u128_codes : KeyCodes u128 (fun v => v < 2 ^ 128) (natBits 128) :=
  nat_codes (fun v => .u128 (BitVec.ofNat 128 v)) 128 (fun _ _ => rfl) rfl (fun v h => ⟨trivial, by show natBits 128 _ = _; rw [ofNat_toNat' h]⟩)
    fun b hb h => congrArg some (be_full hb h (by decide))

theorem take_bits {b : DataBuilder} (hb : b.WF) {n : Nat} (h : b.bits.length = 8 * n) (hn : n ≤ 128) :
    bytesToBits (b.data.take n) = b.bits ∧ (b.data.take n).length = n := by
  have hl := hb.len
  have : (b.data.take n).length = n := by simp; omega
  refine ⟨?_, this⟩
  rw [bits_len] at h
  rw [bits_eq hb, h]
  conv => rhs; rw [← List.take_append_drop n b.data, bytesToBits_append, List.take_left' (by rw [bytesToBits_length, this])]

theorem bytes_codes (n : Nat) (hn : n ≤ 127) : KeyCodes (bytes n) (fun v => v.length = n) bytesToBits := by
  refine ⟨fun v h => by rw [bytesToBits_length, h]; rfl, store_op (fun v => .raw v (8 * n)) _ _ (fun _ _ => rfl) ?_, ?_⟩
  · intro v h
    refine ⟨⟨by omega, by omega⟩, ?_, by rw [bytesToBits_length, h]; rfl⟩
    show rawBits v (8 * n) = _
    have hp : Bitstring.Packs v (bytesToBits v) := ⟨by rw [bytesToBits_length]; omega, by rw [bytesToBits_length]; simp⟩
    have := Packs.raw hp
    rw [bytesToBits_length, h] at this
    exact this
  · intro b hb h v
    have := take_bits hb h (by omega)
    constructor
    · intro e
      injection e with e
      rw [← e]
      exact ⟨this.2, this.1.symm⟩
    · rintro ⟨h1, h2⟩
      show some (b.data.take n) = _
      rw [bytesToBits_inj (this.1.trans h2)]

theorem hash_codes : KeyCodes hash (fun v => v.length = 32) bytesToBits := by
  refine ⟨fun v h => by rw [bytesToBits_length, h]; rfl, store_op (fun v => .u256 v) _ _ (fun _ _ => rfl) ?_, ?_⟩
  · intro v h
    exact ⟨h, rfl, by rw [bytesToBits_length, h]; rfl⟩
  · intro b hb h v
    have := take_bits (n := 32) hb h (by omega)
    constructor
    · intro e
      injection e with e
      rw [← e]
      exact ⟨this.2, this.1.symm⟩
    · rintro ⟨h1, h2⟩
      show some (b.data.take 32) = _
      rw [bytesToBits_inj (this.1.trans h2)]

theorem bool_codes : KeyCodes bool (fun _ => True) (fun v => [v]) := by
  refine ⟨fun v h => rfl, store_op (fun v => .bit v) _ _ (fun _ _ => rfl) (fun v _ => ⟨trivial, rfl, rfl⟩), ?_⟩
  intro b hb h v
  have hl := hb.len
  obtain ⟨x, t, e⟩ : ∃ x t, b.data = x :: t := by
    cases hd : b.data with
    | nil => rw [hd] at hl; cases hl
    | cons x t => exact ⟨x, t, rfl⟩
  have hx : ∀ x : Byte, ((x &&& 0x80) != 0) = (wordBits x).getD 0 false := by decide +kernel
  have h1 : b.bits = [(wordBits x).getD 0 false] := by
    rw [bits_len] at h
    rw [bits_eq hb, h, e, bytesToBits_cons]
    rfl
  show some ((b.data.getD 0 0 &&& 0x80) != 0) = some v ↔ _
  rw [h1, e]
  show some ((x &&& 0x80) != 0) = some v ↔ _
  rw [hx]
  constructor
  · intro h; injection h with h; exact ⟨trivial, by rw [h]⟩
  · rintro ⟨_, h⟩; injection h with h; rw [h]

/-- What a store does to the bits. -/
def Puts (s : DataBuilder → Res) (e : Bits) : Prop := ∀ b : DataBuilder, b.WF →
  (b.bits.length + e.length ≤ 1023 → ∃ b', s b = (.ok (), b') ∧ b'.WF ∧ b'.bits = b.bits ++ e) ∧
  (1023 < b.bits.length + e.length → ∃ x b', s b = (.error x, b'))

theorem puts_op (o : StoreOp) (h : o.Valid) : Puts (fun b => o.run b) o.expected := by
  intro b hb
  have hs := o.step hb h
  have hm : maxBitLen = 1023 := rfl
  rw [hm] at hs
  rw [bits_len]
  refine ⟨fun hl => ?_, fun hl => ⟨_, _, hs.2 (by omega)⟩⟩
  obtain ⟨b', e, w, hbits⟩ := hs.1 hl
  exact ⟨b', e, w, hbits⟩

theorem puts_then {s t : DataBuilder → Res} {e1 e2 : Bits} (h1 : Puts s e1) (h2 : Puts t e2) : Puts (fun b => andThen (s b) t) (e1 ++ e2) := by
  intro b hb
  rw [List.length_append]
  by_cases h : b.bits.length + e1.length ≤ 1023
  · obtain ⟨b', e, w, hbits⟩ := (h1 b hb).1 h
    dsimp only
    rw [e]
    show (_ → ∃ b'', t b' = _ ∧ _) ∧ (_ → ∃ x b'', t b' = _)
    have := h2 b' w
    rw [hbits, List.length_append, Nat.add_assoc, List.append_assoc] at this
    exact this
  · obtain ⟨x, b', e⟩ := (h1 b hb).2 (by omega)
    refine ⟨fun h => by omega, fun _ => ⟨x, b', ?_⟩⟩
    dsimp only
    rw [e]; rfl

theorem split_bits {b : DataBuilder} (hb : b.WF) {m n : Nat} (h : b.bits.length = 8 * (m + n)) (hn : m + n ≤ 127) :
    b.bits = natBits (8 * m) (be b.data 0 m) ++ natBits (8 * n) (be b.data m n) ∧ be b.data 0 m < 2 ^ (8 * m) ∧ be b.data m n < 2 ^ (8 * n) := by
  have hl := hb.len
  have hd : ((bytesToBits b.data).take (8 * m)).length = 8 * m := by rw [List.length_take, bytesToBits_length]; omega
  have hd' : (((bytesToBits b.data).drop (8 * m)).take (8 * n)).length = 8 * n := by rw [List.length_take, List.length_drop, bytesToBits_length]; omega
  have e1 : be b.data 0 m = natOfBits ((bytesToBits b.data).take (8 * m)) := by rw [be_bits (by omega)]; rfl
  have e2 : be b.data m n = natOfBits (((bytesToBits b.data).drop (8 * m)).take (8 * n)) := be_bits (by omega)
  rw [e1, e2]
  have n1 := natBits_natOfBits ((bytesToBits b.data).take (8 * m))
  have n2 := natBits_natOfBits (((bytesToBits b.data).drop (8 * m)).take (8 * n))
  have l1 := natOfBits_lt ((bytesToBits b.data).take (8 * m))
  have l2 := natOfBits_lt (((bytesToBits b.data).drop (8 * m)).take (8 * n))
  rw [hd] at n1 l1
  rw [hd'] at n2 l2
  refine ⟨?_, l1, l2⟩
  rw [n1, n2, bits_eq hb, ← List.take_add]
  rw [bits_len] at h
  rw [h, Nat.mul_add]

theorem append_natBits {w a b : Nat} {l m : Bits} (ha : a < 2 ^ w) (hb : b < 2 ^ w) (h : natBits w a ++ l = natBits w b ++ m) : a = b ∧ l = m := by
  obtain ⟨h1, h2⟩ := List.append_inj h (by simp)
  exact ⟨natBits_inj ha hb h1, h2⟩

theorem u64u32_codes : KeyCodes u64u32 (fun v => v.1 < 2 ^ 64 ∧ v.2 < 2 ^ 32) (fun v => natBits 64 v.1 ++ natBits 32 v.2) := by
  refine ⟨fun v h => by simp [u64u32], fun v h b hb => ?_, fun b hb hlen v => ?_⟩
  · have := puts_then (puts_op (.u64 (BitVec.ofNat 64 v.1)) trivial) (puts_op (.u32 (BitVec.ofNat 32 v.2)) trivial) b hb
    have e : (StoreOp.u64 (BitVec.ofNat 64 v.1)).expected ++ (StoreOp.u32 (BitVec.ofNat 32 v.2)).expected = natBits 64 v.1 ++ natBits 32 v.2 := by
      show natBits 64 _ ++ natBits 32 _ = _
      rw [ofNat_toNat' h.1, ofNat_toNat' h.2]
    rw [e, List.length_append, natBits_length, natBits_length] at this
    exact this
  · obtain ⟨h1, h2, h3⟩ := split_bits (m := 8) (n := 4) hb hlen (by decide)
    show some (be b.data 0 8, be b.data 8 4) = some v ↔ _
    constructor
    · intro e; injection e with e; rw [← e]; exact ⟨⟨h2, h3⟩, h1⟩
    · rintro ⟨⟨v1, v2⟩, e⟩
      rw [h1] at e
      obtain ⟨e1, e2⟩ := append_natBits h2 v1 e
      rw [e1, natBits_inj h3 v2 e2]

theorem shardFull_codes : KeyCodes shardFull (fun v => IsSigned 32 v.1 ∧ v.2 < 2 ^ 64) (fun v => natBits 32 (twos 32 v.1) ++ natBits 64 v.2) := by
  refine ⟨fun v h => by simp [shardFull], fun v h b hb => ?_, fun b hb hlen v => ?_⟩
  · have := puts_then (puts_op (.u32 (BitVec.ofNat 32 (twos 32 v.1))) trivial) (puts_op (.u64 (BitVec.ofNat 64 v.2)) trivial) b hb
    have e : (StoreOp.u32 (BitVec.ofNat 32 (twos 32 v.1))).expected ++ (StoreOp.u64 (BitVec.ofNat 64 v.2)).expected = natBits 32 (twos 32 v.1) ++ natBits 64 v.2 := by
      show natBits 32 _ ++ natBits 64 _ = _
      rw [ofNat_toNat' (twos_lt 32 v.1), ofNat_toNat' h.2]
    rw [e, List.length_append, natBits_length, natBits_length] at this
    exact this
  · obtain ⟨h1, h2, h3⟩ := split_bits (m := 4) (n := 8) hb hlen (by decide)
    show some (untwos 32 (be b.data 0 4), be b.data 4 8) = some v ↔ _
    have ht := twos_untwos (w := 32) (by decide) h2
    constructor
    · intro e; injection e with e; rw [← e]; exact ⟨⟨ht.2, h3⟩, by dsimp only; rw [ht.1]; exact h1⟩
    · rintro ⟨⟨v1, v2⟩, e⟩
      rw [h1] at e
      obtain ⟨e1, e2⟩ := append_natBits h2 (twos_lt 32 v.1) e
      rw [e1, untwos_twos (by decide) v1, natBits_inj h3 v2 e2]

theorem smallUint_codes {n : Nat} (hn : n ≤ 15) : KeyCodes (smallUint n) (fun v => v < 2 ^ n) (natBits n) := by
  have hp : 2 ^ n ≤ 2 ^ 15 := Nat.pow_le_pow_right (by decide) hn
  have hp0 : 0 < 2 ^ n := Nat.pow_pos (by decide)
  refine ⟨fun v h => by simp [smallUint], fun v h b hb => ?_, fun b hb hlen v => ?_⟩
  · have e : (smallUint n).store v b = (StoreOp.uint (BitVec.ofNat 64 v) n).run b := by
      show (if v ≤ smallMax n then _ else _) = _
      rw [if_pos (by unfold smallMax; omega)]
      rfl
    have := puts_op (.uint (BitVec.ofNat 64 v) n) (show n ≤ 64512 by omega) b hb
    have ee : (StoreOp.uint (BitVec.ofNat 64 v) n).expected = natBits n v := by
      show natBits n _ = _
      rw [ofNat_toNat' (Nat.lt_of_lt_of_le h (Nat.le_trans hp (by decide)))]
    rw [ee, natBits_length] at this
    rw [e]
    exact this
  · have hl := hb.len
    have e : (smallUint n).load b.data = some (natOfBits b.bits) := by
      show some ((BitVec.ofNat 16 (be b.data 0 2)) >>> (16 - n)).toNat = _
      rw [be_bits (by omega), bits_eq hb]
      replace hlen : b.bitLen = n := by rw [← bits_len]; exact hlen
      rw [hlen]
      have hs : ((bytesToBits b.data).drop (8 * 0)).take (8 * 2) = (bytesToBits b.data).take n ++ ((bytesToBits b.data).drop n).take (16 - n) := by
        rw [← List.take_add]; congr 1; omega
      have hlt : natOfBits (((bytesToBits b.data).drop (8 * 0)).take (8 * 2)) < 2 ^ 16 := by
        refine Nat.lt_of_lt_of_le (natOfBits_lt _) (Nat.pow_le_pow_right (by decide) ?_)
        rw [List.length_take]; omega
      rw [BitVec.toNat_ushiftRight, ofNat_toNat' hlt, hs, natOfBits_append, Nat.shiftRight_eq_div_pow]
      have hx : (((bytesToBits b.data).drop n).take (16 - n)).length = 16 - n := by
        rw [List.length_take, List.length_drop, bytesToBits_length]; omega
      have hy := natOfBits_lt (((bytesToBits b.data).drop n).take (16 - n))
      rw [hx] at hy ⊢
      rw [Nat.add_comm, Nat.add_mul_div_right _ _ (Nat.pow_pos (by decide)), Nat.div_eq_of_lt hy, Nat.zero_add]
    replace hlen : b.bits.length = n := hlen
    rw [e]
    constructor
    · intro e
      injection e with e
      rw [← e]
      exact ⟨hlen ▸ natOfBits_lt _, by have := natBits_natOfBits b.bits; rw [hlen] at this; exact this.symm⟩
    · rintro ⟨h1, h2⟩
      rw [h2, natOfBits_natBits, Nat.mod_eq_of_lt h1]

theorem wc_bits (f s : Byte) : wordBits ((f <<< 3) ||| (s >>> 5)) = (wordBits f).drop 3 ++ (wordBits s).take 3 := by
  refine list_ext_getD (by simp) fun i hi => ?_
  simp only [wordBits_length] at hi
  have hc : i = 0 ∨ i = 1 ∨ i = 2 ∨ i = 3 ∨ i = 4 ∨ i = 5 ∨ i = 6 ∨ i = 7 := by omega
  rcases hc with h | h | h | h | h | h | h | h <;> subst h <;>
    simp [wordBits, List.getD_eq_getElem?_getD, List.getElem?_append, BitVec.getMsbD]

theorem tag_bits (f : Byte) : ((f ^^^ 0x80) &&& 0xe0) = 0 ↔ (wordBits f).take 3 = [true, false, false] := by
  revert f; decide +kernel

/-- The address bytes of a key. -/
theorem addr_bits {d : List Byte} (hd : d.length = 128) (j : Nat) (hj : j < 256) :
    bitAt (toBE 16 (((fromBE 16 ((d.drop 2).take 16) : BitVec (8 * 16)) >>> 5) ||| ((d.getD 1 0).setWidth (8 * 16) <<< 123)) ++
      toBE 16 (((fromBE 16 ((d.drop 18).take 16) : BitVec (8 * 16)) >>> 5) ||| ((fromBE 16 ((d.drop 2).take 16) : BitVec (8 * 16)) <<< 123))) j = bitAt d (11 + j) := by
  have hhi : ∀ k, k < 128 → BitVec.getMsbD (w := 8 * 16) (fromBE 16 ((d.drop 2).take 16)) k = bitAt d (16 + k) := by
    intro k hk
    rw [fromBE_getMsbD (by simp; omega), bitAt_take_drop]
    have : k < 8 * 16 := hk
    simp [this]
  have hlo : ∀ k, k < 128 → BitVec.getMsbD (w := 8 * 16) (fromBE 16 ((d.drop 18).take 16)) k = bitAt d (144 + k) := by
    intro k hk
    rw [fromBE_getMsbD (by simp; omega), bitAt_take_drop]
    have : k < 8 * 16 := hk
    simp [this]
  rw [bitAt_append, length_toBE]
  by_cases hj1 : j < 8 * 16
  · rw [if_pos hj1, bitAt_toBE, BitVec.getMsbD_or, getMsbD_shr _ _ hj1]
    by_cases hc : j < 5
    · have : ¬ (5 ≤ j) := by omega
      simp only [this, decide_false, Bool.false_and, Bool.false_or]
      rw [getMsbD_shl _ _ _ (by omega), getMsbD_zext _ _ (by omega) (by omega)]
      have e1 : decide (8 * 16 - 8 ≤ j + 123) = true := decide_eq_true (by omega)
      rw [e1, bitAt_byte _ 1 _ (by omega), Bool.true_and]
      exact bitAt_congr _ (by omega)
    · have : 5 ≤ j := by omega
      rw [getMsbD_shl_out _ _ _ (by omega), hhi _ (by omega)]
      simp only [this, decide_true, Bool.true_and, Bool.or_false]
      exact bitAt_congr _ (by omega)
  · rw [if_neg hj1, bitAt_toBE, BitVec.getMsbD_or, getMsbD_shr _ _ (by omega)]
    by_cases hc : j - 8 * 16 < 5
    · have : ¬ (5 ≤ j - 8 * 16) := by omega
      simp only [this, decide_false, Bool.false_and, Bool.false_or]
      rw [getMsbD_shl _ _ _ (by omega), hhi _ (by omega)]
      exact bitAt_congr _ (by omega)
    · have : 5 ≤ j - 8 * 16 := by omega
      rw [getMsbD_shl_out _ _ _ (by omega), hlo _ (by omega)]
      simp only [this, decide_true, Bool.true_and, Bool.or_false]
      exact bitAt_congr _ (by omega)

/-- Specification: the bit form of a standard address without anycast. -/
def stdBits (a : StdAddr) : Bits := [true, false, false] ++ (natBits 8 (i8ToU8 a.workchain) ++ bytesToBits a.address)

theorem stdBits_enc {ρ : Type} {a : StdAddr} (h : a.anycast = none) : (a.enc : Enc ρ) = Enc.bits (stdBits a) := by
  obtain ⟨x, w, d⟩ := a
  cases h; rfl

theorem cons3 {d : List Byte} (h : d.length = 128) : ∃ f s t, d = f :: s :: t ∧ t.length = 126 := by
  cases d with
  | nil => cases h
  | cons f d =>
    cases d with
    | nil => cases h
    | cons s t => exact ⟨f, s, t, rfl, by simpa using h⟩

/-- The three fields behind 267 bits of a buffer. -/
theorem stdLoad_bits {d : List Byte} (hd : d.length = 128) (w : Nat) (A : List Byte) (hA : A.length = 32)
    (hw : wordBits ((d.getD 0 0 <<< 3) ||| (d.getD 1 0 >>> 5)) = natBits 8 w) (hb : ∀ j, j < 256 → bitAt A j = bitAt d (11 + j)) :
    (bytesToBits d).take 267 = (wordBits (d.getD 0 0)).take 3 ++ (natBits 8 w ++ bytesToBits A) := by
  obtain ⟨f, s, t, rfl, ht⟩ := cons3 hd
  rw [← hw]
  show _ = (wordBits f).take 3 ++ (wordBits ((f <<< 3) ||| (s >>> 5)) ++ _)
  rw [wc_bits]
  have e1 : (bytesToBits (f :: s :: t)).take 11 = (wordBits f).take 3 ++ ((wordBits f).drop 3 ++ (wordBits s).take 3) := by
    rw [bytesToBits_cons, bytesToBits_cons, ← List.append_assoc ((wordBits f).take 3), List.take_append_drop, List.take_append]
    have hl : (wordBits f).length = 8 := by simp
    have hl' : (wordBits s).length = 8 := by simp
    rw [hl, List.take_of_length_le (by rw [hl]; decide), List.take_append, hl']
    simp
  have e2 : ((bytesToBits (f :: s :: t)).drop 11).take 256 = bytesToBits A := by
    refine list_ext_getD (by rw [List.length_take, List.length_drop, bytesToBits_length, bytesToBits_length, hA, hd]; rfl) fun i hi => ?_
    rw [List.length_take, List.length_drop, bytesToBits_length, hd] at hi
    rw [bytesToBits_getD, hb i (by omega), List.getD_eq_getElem?_getD, List.getElem?_take_of_lt (by omega), List.getElem?_drop,
      ← List.getD_eq_getElem?_getD, bytesToBits_getD]
  rw [← e2, ← List.append_assoc, ← e1, ← List.take_add]

theorem stdAddr_codes : KeyCodes stdAddr (fun a => a.Ok ∧ a.anycast = none) stdBits := by
  refine ⟨fun v h => by simp [stdBits, stdAddr, h.1.2.2], fun v h b hb => ?_, fun b hb hlen v => ?_⟩
  · have hw := (i8_round h.1.2.1).1
    have := puts_then (puts_op (.smallUint 4 3) (show (3 : Nat) ≤ 64512 by decide))
      (puts_then (puts_op (.u8 (BitVec.ofNat 8 (i8ToU8 v.workchain))) trivial) (puts_op (.u256 v.address) h.1.2.2)) b hb
    have ee : (StoreOp.smallUint 4 3).expected ++ ((StoreOp.u8 (BitVec.ofNat 8 (i8ToU8 v.workchain))).expected ++ (StoreOp.u256 v.address).expected) = stdBits v := by
      show natBits 3 4 ++ (natBits 8 _ ++ _) = _
      rw [ofNat_toNat' hw]; rfl
    have el : (stdBits v).length = 267 := by simp [stdBits, h.1.2.2]
    rw [ee, el] at this
    show (b.bits.length + 267 ≤ 1023 → ∃ b', stdAddrStore v b = _ ∧ _) ∧ (1023 < b.bits.length + 267 → ∃ e b', stdAddrStore v b = _)
    have hcap : b.hasCapacityBits 267 = decide (b.bits.length + 267 ≤ 1023) := by
      have := hb.le
      have hm : maxBitLen = 1023 := rfl
      unfold hasCapacityBits
      rw [bits_len, u16add_eq (by omega)]; rfl
    refine ⟨fun hl => ?_, fun hl => ?_⟩
    · have e : stdAddrStore v b = andThen (b.storeSmallUint 4 3) fun b => andThen (b.storeU8 (BitVec.ofNat 8 (i8ToU8 v.workchain))) fun b => b.storeU256 v.address := by
        unfold stdAddrStore
        rw [if_neg (by rw [hcap, h.2]; simp; omega)]
      rw [e]
      exact this.1 hl
    · refine ⟨.invalidData, b, ?_⟩
      unfold stdAddrStore
      rw [if_pos (by rw [hcap, h.2]; simp; omega)]
  · have hd := hb.len
    replace hlen : b.bitLen = 267 := by rw [← bits_len]; exact hlen
    rw [bits_eq hb, hlen]
    generalize b.data = d at hd
    have hx := fun j hj => addr_bits hd j hj
    have hg : d.getD 0 0 = d.getD 0 0 := rfl
    constructor
    · intro e
      replace e : stdAddrLoad d = some v := e
      unfold stdAddrLoad at e
      by_cases ht : (d.getD 0 0 ^^^ 0x80) &&& 0xe0 = 0
      · rw [if_neg (not_not_intro ht)] at e
        injection e with e
        subst e
        have hlt := BitVec.isLt ((d.getD 0 0 <<< 3) ||| (d.getD 1 0 >>> 5))
        have hr := u8_round hlt
        refine ⟨⟨⟨trivial, hr.1, by simp⟩, rfl⟩, ?_⟩
        rw [stdLoad_bits hd (i8ToU8 (u8ToI8 ((d.getD 0 0 <<< 3) ||| (d.getD 1 0 >>> 5)).toNat)) _ (by simp) (by rw [hr.2, wordBits_eq_natBits]) hx,
          (tag_bits _).1 ht]
        rfl
      · rw [if_pos ht] at e; cases e
    · rintro ⟨⟨h1, h2⟩, e⟩
      have hlt := BitVec.isLt ((d.getD 0 0 <<< 3) ||| (d.getD 1 0 >>> 5))
      have hs := stdLoad_bits hd _ _ (by simp) (wordBits_eq_natBits _) hx
      rw [hs] at e
      obtain ⟨e1, e2⟩ := List.append_inj e (by simp)
      obtain ⟨e2, e3⟩ := append_natBits hlt (i8_round h1.2.1).1 e2
      have e3 := bytesToBits_inj e3
      show stdAddrLoad d = some v
      unfold stdAddrLoad
      rw [if_neg (not_not_intro ((tag_bits _).2 e1))]
      dsimp only
      rw [e2, (i8_round h1.2.1).2, e3]
      obtain ⟨x, w, y⟩ := v
      cases h2; rfl

end Key

/-! ### C56 -/

/-- C56: every key type stores its values as the documented fixed-width big endian form (two's complement if signed), of exactly `BITS` bits,
and reading a key of that many bits back gives the one value with that form.  Every bit string of the right length is a key, except for
addresses, which need the tag `0b100`. -/
theorem C56_keys :
    KeyCodes Key.bool (fun _ => True) (fun v => [v]) ∧
    KeyCodes Key.u8 (fun v => v < 2 ^ 8) (natBits 8) ∧ KeyCodes Key.u16 (fun v => v < 2 ^ 16) (natBits 16) ∧
    KeyCodes Key.u32 (fun v => v < 2 ^ 32) (natBits 32) ∧ KeyCodes Key.u64 (fun v => v < 2 ^ 64) (natBits 64) ∧
    KeyCodes Key.u128 (fun v => v < 2 ^ 128) (natBits 128) ∧
    KeyCodes Key.i8 (IsSigned 8) (fun v => natBits 8 (twos 8 v)) ∧ KeyCodes Key.i16 (IsSigned 16) (fun v => natBits 16 (twos 16 v)) ∧
    KeyCodes Key.i32 (IsSigned 32) (fun v => natBits 32 (twos 32 v)) ∧ KeyCodes Key.i64 (IsSigned 64) (fun v => natBits 64 (twos 64 v)) ∧
    KeyCodes Key.i128 (IsSigned 128) (fun v => natBits 128 (twos 128 v)) ∧
    (∀ n, n ∈ [16, 20, 32] → KeyCodes (Key.bytes n) (fun v => v.length = n) bytesToBits) ∧
    KeyCodes Key.hash (fun v => v.length = 32) bytesToBits ∧
    KeyCodes Key.u64u32 (fun v => v.1 < 2 ^ 64 ∧ v.2 < 2 ^ 32) (fun v => natBits 64 v.1 ++ natBits 32 v.2) ∧
    KeyCodes Key.shardFull (fun v => IsSigned 32 v.1 ∧ v.2 < 2 ^ 64) (fun v => natBits 32 (twos 32 v.1) ++ natBits 64 v.2) ∧
    (∀ n, n ∈ [9, 12, 15] → KeyCodes (Key.smallUint n) (fun v => v < 2 ^ n) (natBits n)) ∧
    KeyCodes Key.stdAddr (fun a => a.Ok ∧ a.anycast = none) Key.stdBits := by
  refine ⟨Key.bool_codes, Key.u8_codes, Key.u16_codes, Key.u32_codes, Key.u64_codes, Key.u128_codes,
    Key.int_codes 8 (by decide) Key.u8_codes rfl (fun _ _ => rfl) (fun _ => rfl), Key.int_codes 16 (by decide) Key.u16_codes rfl (fun _ _ => rfl) (fun _ => rfl),
    Key.int_codes 32 (by decide) Key.u32_codes rfl (fun _ _ => rfl) (fun _ => rfl), Key.int_codes 64 (by decide) Key.u64_codes rfl (fun _ _ => rfl) (fun _ => rfl),
    Key.int_codes 128 (by decide) Key.u128_codes rfl (fun _ _ => rfl) (fun _ => rfl), ?_, Key.hash_codes, Key.u64u32_codes, Key.shardFull_codes, ?_, Key.stdAddr_codes⟩
  · intro n hn
    refine Key.bytes_codes n ?_
    simp only [List.mem_cons, List.not_mem_nil, or_false] at hn
    omega
  · intro n hn
    refine Key.smallUint_codes ?_
    simp only [List.mem_cons, List.not_mem_nil, or_false] at hn
    omega

/-- C56: different keys have different forms, and a key stored into an empty builder is read back. -/
theorem C56_faithful {α : Type} {k : KeyType α} {ok : α → Prop} {enc : α → Bits} (h : KeyCodes k ok enc) (hk : k.bits ≤ 1023) :
    (∀ v w, ok v → ok w → enc v = enc w → v = w) ∧
    (∀ v, ok v → ∃ b, k.store v DataBuilder.new = (.ok (), b) ∧ b.bits = enc v ∧ k.load b.data = some v) := by
  have hs : ∀ v, ok v → ∃ b, k.store v DataBuilder.new = (.ok (), b) ∧ b.bits = enc v ∧ b.WF ∧ b.bits.length = k.bits := by
    intro v hv
    obtain ⟨b, h1, h2, h3⟩ := (h.store v hv _ wf_new).1 (by rw [show (DataBuilder.new).bits.length = 0 from rfl]; omega)
    have h3 : b.bits = enc v := h3
    exact ⟨b, h1, h3, h2, by rw [h3]; exact h.length v hv⟩
  refine ⟨fun v w hv hw e => ?_, fun v hv => ?_⟩
  · obtain ⟨b, h1, h2, h3, h4⟩ := hs v hv
    have e1 := (h.load b h3 h4 v).2 ⟨hv, h2⟩
    have e2 := (h.load b h3 h4 w).2 ⟨hw, h2.trans e⟩
    rw [e1] at e2
    injection e2
  · obtain ⟨b, h1, h2, h3, h4⟩ := hs v hv
    exact ⟨b, h1, h2, (h.load b h3 h4 v).2 ⟨hv, h2⟩⟩

/-- C56: the order of the stored forms is the numeric order for unsigned keys; for signed keys the numbers that are not negative come first,
then the negative ones, each part in numeric order. -/
theorem C56_order (w : Nat) :
    (∀ a b : Nat, a < 2 ^ w → b < 2 ^ w → lexBits (natBits w a) (natBits w b) = compare a b) ∧
    (0 < w → ∀ a b : Int, IsSigned w a → IsSigned w b → lexBits (natBits w (twos w a)) (natBits w (twos w b)) =
      if 0 ≤ a ∧ b < 0 then .lt else if a < 0 ∧ 0 ≤ b then .gt else compare a b) := by
  have h1 : ∀ a b : Nat, a < 2 ^ w → b < 2 ^ w → lexBits (natBits w a) (natBits w b) = compare a b := by
    intro a b ha hb
    rw [lexBits_natOfBits (by simp), natOfBits_natBits, natOfBits_natBits, Nat.mod_eq_of_lt ha, Nat.mod_eq_of_lt hb]
  refine ⟨h1, fun hw a b ha hb => ?_⟩
  rw [h1 _ _ (twos_lt w a) (twos_lt w b)]
  have e : (2 : Int) ^ w = 2 * 2 ^ (w - 1) := by
    obtain ⟨k, rfl⟩ : ∃ k, w = k + 1 := ⟨w - 1, by omega⟩
    rw [Int.pow_succ, Nat.add_sub_cancel, Int.mul_comm]
  have tw : ∀ v : Int, IsSigned w v → (twos w v : Int) = if 0 ≤ v then v else v + 2 * 2 ^ (w - 1) := by
    intro v hv
    unfold IsSigned at hv
    unfold twos
    rw [e]
    generalize (2 : Int) ^ (w - 1) = H at *
    split
    · rw [Int.emod_eq_of_lt (by omega) (by omega)]; omega
    · rw [← Int.add_emod_right, Int.emod_eq_of_lt (by omega) (by omega)]; omega
  have ta := tw a ha
  have tb := tw b hb
  unfold IsSigned at ha hb
  generalize (2 : Int) ^ (w - 1) = H at *
  generalize twos w a = x at *
  generalize twos w b = y at *
  have hn : compare x y = if x < y then .lt else if x = y then .eq else .gt := rfl
  have hi : compare a b = if a < b then .lt else if a = b then .eq else .gt := rfl
  rw [hn, hi]
  split at ta <;> split at tb <;> repeat' split
  all_goals first | rfl | omega

example : (Key.i16.store (-2) DataBuilder.new).1 = .ok () ∧ IsSigned 16 (-2) ∧ twos 16 (-2) = 65534 := by
  refine ⟨by decide +kernel, by unfold IsSigned; decide, by decide +kernel⟩

end Verif
