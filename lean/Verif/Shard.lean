import Verif.NumProps
import Verif.SliceScan
/-
Model of `ShardIdent`, `BlockIdShort` and `BlockId` (`models/block/block_id.rs`).
A workchain is an `Int` in the range of `i32`, a shard prefix is a 64-bit word.
-/
set_option linter.unusedVariables false
set_option linter.unusedSimpArgs false
namespace Verif

/-- `x as u32` for an `i32`. -/
def i32ToU32 (w : Int) : Nat := (w % 2 ^ 32).toNat
/-- `x as i32` for a `u32`. -/
def u32ToI32 (v : Nat) : Int := if v < 2 ^ 31 then v else (v : Int) - 2 ^ 32
/-- The range of `i32`. -/
def IsI32 (w : Int) : Prop := -2 ^ 31 ≤ w ∧ w < 2 ^ 31

/-- `block_id.rs:189-193` `ShardIdent` -/
structure ShardIdent where
  workchain : Int
  pfx : BitVec 64
  deriving DecidableEq, Repr

namespace ShardIdent

/-- `block_id.rs:217` `PREFIX_FULL` -/
def prefixFull : BitVec 64 := 0x8000000000000000
/-- `block_id.rs:220` `MAX_SPLIT_DEPTH` -/
def maxSplitDepth : Nat := 60
/-- `block_id.rs:225` `UNUSED_BITS_MASK`: `!0 >> (MAX_SPLIT_DEPTH + 1)` -/
def unusedBitsMask : BitVec 64 := (~~~ (0 : BitVec 64)) >>> (maxSplitDepth + 1)

/-- `block_id.rs:468-470` `prefix_tag_mask`: `!prefix + 1`. The addition overflows (a panic in debug builds) only
for the prefix 0, which no constructor accepts. -/
def tagMask (x : BitVec 64) : BitVec 64 := ~~~ x + 1
/-- `block_id.rs:463-465` `prefix_tag` -/
def tag (x : BitVec 64) : BitVec 64 := x &&& tagMask x

/-- `block_id.rs:233-241` `new` -/
def new (workchain : Int) (pfx : BitVec 64) : Option ShardIdent :=
  if pfx = 0 ∨ pfx &&& unusedBitsMask ≠ 0 ∨ workchain = -1 ∧ pfx ≠ prefixFull then none else some ⟨workchain, pfx⟩

/-- `block_id.rs:244-249` `new_full` -/
def newFull (workchain : Int) : ShardIdent := ⟨workchain, prefixFull⟩

/-- `block_id.rs:282-284` `is_masterchain` -/
def isMasterchain (s : ShardIdent) : Bool := s.workchain == -1
/-- `block_id.rs:292-294` `is_full` -/
def isFull (s : ShardIdent) : Bool := s.pfx == prefixFull
/-- `block_id.rs:306-308` `is_right_child` -/
def isRightChild (s : ShardIdent) : Bool := (s.pfx &&& (tag s.pfx <<< 1)) != 0
/-- `block_id.rs:299-301` `is_left_child` -/
def isLeftChild (s : ShardIdent) : Bool := !s.isRightChild

/-- `block_id.rs:312-321` `is_ancestor_of` -/
def isAncestorOf (s o : ShardIdent) : Bool :=
  if s.workchain ≠ o.workchain then false
  else decide ((tag o.pfx).toNat ≤ (tag s.pfx).toNat) && ((s.pfx ^^^ o.pfx) &&& (tagMask s.pfx <<< 1)) == 0

/-- `block_id.rs:324-332` `is_parent_of` -/
def isParentOf (s child : ShardIdent) : Bool :=
  if s.workchain ≠ child.workchain ∨ child.isFull then false
  else (child.pfx - tag child.pfx) ||| (tag child.pfx <<< 1) == s.pfx

/-- `block_id.rs:335-337` `is_child_of` -/
def isChildOf (s parent : ShardIdent) : Bool := parent.isParentOf s

/-- `block_id.rs:340-357` `intersects` -/
def intersects (s o : ShardIdent) : Bool :=
  if s.workchain ≠ o.workchain then false
  else
    let longest := if (tag o.pfx).toNat > (tag s.pfx).toNat then tag o.pfx else tag s.pfx
    (s.pfx ^^^ o.pfx) &&& ((~~~ longest + 1) <<< 1) == 0

/-- `block_id.rs:362-372` `merge` -/
def merge (s : ShardIdent) : Option ShardIdent :=
  if s.isFull then none else some ⟨s.workchain, (s.pfx - tag s.pfx) ||| (tag s.pfx <<< 1)⟩

/-- `block_id.rs:377-392` `split` -/
def split (s : ShardIdent) : Option (ShardIdent × ShardIdent) :=
  if s.pfx &&& ((unusedBitsMask <<< 1) + 1) ≠ 0 then none
  else some (⟨s.workchain, s.pfx - tag s.pfx >>> 1⟩, ⟨s.workchain, s.pfx + tag s.pfx >>> 1⟩)

/-- `block_id.rs:397-407` `opposite` -/
def opposite (s : ShardIdent) : Option ShardIdent :=
  if s.isFull then none else some ⟨s.workchain, s.pfx ^^^ (tag s.pfx <<< 1)⟩

/-- `block_id.rs:410-415` `prefix_len` -/
def prefixLen (s : ShardIdent) : Nat := if s.pfx = 0 then 64 else 63 - trailingZeros s.pfx
/-- `block_id.rs:418-420` `can_split` -/
def canSplit (s : ShardIdent) : Bool := decide (s.prefixLen < maxSplitDepth)

/-- The loop of `block_id.rs:433-458` over the bytes of the prefix and of the account. -/
def containsGo : Nat → List Byte → List Byte → Bool
  | bits, p :: ps, a :: as =>
    if bits = 0 then true
    else if 8 ≤ bits then if p ≠ a then false else containsGo (bits - 8) ps as
    else (p ^^^ a) &&& ((0xff#8) <<< (8 - bits)) == 0
  | _, _, _ => true

/-- `block_id.rs:428-430` `contains_account`: the first eight bytes of the account are compared. -/
def containsAccount (s : ShardIdent) (account : List Byte) : Bool := containsGo s.prefixLen (toBE 8 s.pfx) (account.take 8)

/-- `block_id.rs:423-426` `contains_address`, given the workchain and prefix of the address. -/
def containsAddress (s : ShardIdent) (workchain : Int) (addrPrefix : BitVec 64) : Bool :=
  s.workchain == workchain && containsGo s.prefixLen (toBE 8 s.pfx) (toBE 8 addrPrefix)

variable {ρ : Type}

/-- `block_id.rs:466-474` `Store` -/
def store (s : ShardIdent) : Wr ρ Unit := do
  Wr.u8 s.prefixLen
  Wr.u32 (i32ToU32 s.workchain)
  Wr.u64 (s.pfx - tag s.pfx).toNat

/-- `block_id.rs:476-491` `Load` -/
def load : Rd ρ ShardIdent := do
  let len ← Rd.u8
  Prog.check (decide (len ≤ maxSplitDepth)) .intOverflow
  let wc ← Rd.u32
  let x ← Rd.u64
  let tag : BitVec 64 := 1#64 <<< (63 - len)
  pure ⟨u32ToI32 wc, (BitVec.ofNat 64 x &&& (~~~ tag + 1)) ||| tag⟩

/-! ### Specification: a shard is a workchain and a path of at most 60 bits -/

/-- The 64-bit prefix that denotes a path: the path, a one, then zeros. -/
def Denotes (x : BitVec 64) (p : Bits) : Prop :=
  p.length ≤ 60 ∧ wordBits x = p ++ true :: List.replicate (63 - p.length) false

/-- The shard with workchain `w` and path `p`. -/
def Is (s : ShardIdent) (w : Int) (p : Bits) : Prop := s.workchain = w ∧ Denotes s.pfx p

/-! ### Words with a lowest set bit -/

/-- `t` is the position of the lowest set bit. -/
def LowBit (x : BitVec 64) (t : Nat) : Prop := t < 64 ∧ x.getLsbD t = true ∧ ∀ j, j < t → x.getLsbD j = false

theorem tagMask_bit {x : BitVec 64} {t : Nat} (h : LowBit x t) (j : Nat) :
    (tagMask x).getLsbD j = (decide (j = t) || (decide (t < j) && decide (j < 64) && !x.getLsbD j)) := by
  obtain ⟨ht, h1, h2⟩ := h
  unfold tagMask
  rw [show (1 : BitVec 64) = 1#64 from rfl, ← BitVec.neg_eq_not_add, BitVec.getLsbD_neg]
  by_cases hj : j < t
  · rw [h2 j hj]
    have : ¬ ∃ k, k < j ∧ x.getLsbD k = true := by
      rintro ⟨k, hk, hx⟩
      rw [h2 k (by omega)] at hx; cases hx
    simp [this]; omega
  · by_cases hjt : j = t
    · subst hjt
      have : ¬ ∃ k, k < j ∧ x.getLsbD k = true := by
        rintro ⟨k, hk, hx⟩
        rw [h2 k (by omega)] at hx; cases hx
      simp [this, h1]
    · have : ∃ k, k < j ∧ x.getLsbD k = true := ⟨t, by omega, h1⟩
      by_cases h64 : j < 64
      · simp [this, h64, hjt]; omega
      · simp [this, h64, hjt, BitVec.getLsbD_of_ge x j (by omega)]

theorem tag_eq {x : BitVec 64} {t : Nat} (h : LowBit x t) : tag x = BitVec.twoPow 64 t := by
  apply BitVec.eq_of_getLsbD_eq
  intro j hj
  unfold tag
  rw [BitVec.getLsbD_and, tagMask_bit h, BitVec.getLsbD_twoPow]
  by_cases hjt : j = t
  · subst hjt; simp [h.2.1, hj]
  · have : ¬ t = j := fun e => hjt e.symm
    simp [hjt, this, hj]
    intro a _; exact a

theorem lowBit_twoPow {t : Nat} (h : t < 64) : LowBit (BitVec.twoPow 64 t) t := by
  refine ⟨h, ?_, fun j hj => ?_⟩
  · rw [BitVec.getLsbD_twoPow]; simp [h]
  · rw [BitVec.getLsbD_twoPow]; simp; omega

theorem tag_toNat {x : BitVec 64} {t : Nat} (h : LowBit x t) : (tag x).toNat = 2 ^ t := by
  rw [tag_eq h, BitVec.toNat_twoPow]
  exact Nat.mod_eq_of_lt (Nat.pow_lt_pow_right (by decide) h.1)

/-- The mask `(!tag + 1) << 1` has exactly the bits above the tag. -/
theorem above_bit {t : Nat} (h : t < 64) (j : Nat) :
    ((~~~ (BitVec.twoPow 64 t) + 1) <<< 1).getLsbD j = (decide (t < j) && decide (j < 64)) := by
  have := tagMask_bit (lowBit_twoPow h)
  unfold tagMask at this
  rw [BitVec.getLsbD_shiftLeft, this, BitVec.getLsbD_twoPow]
  by_cases h64 : j < 64
  · by_cases h1 : j < 1
    · simp [h1]; omega
    · by_cases h2 : j - 1 = t
      · simp [h64, h1, h2]; omega
      · have h3 : ¬ t = j - 1 := fun e => h2 e.symm
        by_cases h4 : t < j - 1
        · simp [h64, h1, h2, h3, h4]; omega
        · simp [h64, h1, h2, h3, h4]; omega
  · simp [h64]

theorem shl1_twoPow (t : Nat) : (BitVec.twoPow 64 t) <<< 1 = BitVec.twoPow 64 (t + 1) := by
  apply BitVec.eq_of_getLsbD_eq
  intro j hj
  rw [BitVec.getLsbD_shiftLeft, BitVec.getLsbD_twoPow, BitVec.getLsbD_twoPow]
  by_cases h1 : j < 1
  · simp [h1]; omega
  · by_cases h2 : t = j - 1
    · have e : t + 1 = j := by omega
      have e2 : t < 64 := by omega
      simp only [h1, hj, e2, ← h2, e, decide_true, decide_false, Bool.not_false, Bool.and_self]
    · have : ¬ t + 1 = j := by omega
      simp [h2, this]

theorem shr1_twoPow {t : Nat} (h : 0 < t) (h64 : t < 64) : (BitVec.twoPow 64 t) >>> 1 = BitVec.twoPow 64 (t - 1) := by
  apply BitVec.eq_of_getLsbD_eq
  intro j hj
  rw [BitVec.getLsbD_ushiftRight, BitVec.getLsbD_twoPow, BitVec.getLsbD_twoPow]
  have e : (t = 1 + j) ↔ (t - 1 = j) := by omega
  have e2 : t - 1 < 64 := by omega
  simp [e, h64, e2]

theorem mul2_twoPow {t : Nat} : BitVec.twoPow 64 t + BitVec.twoPow 64 t = BitVec.twoPow 64 (t + 1) := by
  rw [← shl1_twoPow]
  apply BitVec.eq_of_toNat_eq
  rw [BitVec.toNat_add, BitVec.toNat_shiftLeft, Nat.shiftLeft_eq]
  congr 1; omega

theorem sub_tag {x : BitVec 64} {t : Nat} (h : LowBit x t) : x - tag x = x &&& ~~~ BitVec.twoPow 64 t := by
  rw [tag_eq h]
  have e : x = (x &&& ~~~ BitVec.twoPow 64 t) + BitVec.twoPow 64 t := by
    rw [BitVec.add_eq_or_of_and_eq_zero]
    · apply BitVec.eq_of_getLsbD_eq
      intro j hj
      rw [BitVec.getLsbD_or, BitVec.getLsbD_and, BitVec.getLsbD_not, BitVec.getLsbD_twoPow]
      by_cases hjt : t = j
      · subst hjt; simp [h.2.1, hj]
      · simp [hjt, hj]
    · apply BitVec.eq_of_getLsbD_eq
      intro j hj
      rw [BitVec.getLsbD_and, BitVec.getLsbD_and, BitVec.getLsbD_not, BitVec.getLsbD_twoPow]
      by_cases hjt : t = j <;> simp [hjt, hj]
  conv => lhs; lhs; rw [e]
  rw [BitVec.add_sub_cancel]

/-! ### Paths -/

/-- The bit at position `j` of the prefix denoting `p`. -/
def bitOf (p : Bits) (j : Nat) : Bool := if 63 < j + p.length then p.getD (63 - j) false else decide (j + p.length = 63)

theorem getLsbD_wordBits (x : BitVec 64) {j : Nat} (h : j < 64) : x.getLsbD j = (wordBits x).getD (63 - j) false := by
  unfold wordBits
  rw [List.getD_eq_getElem?_getD, List.getElem?_map, List.getElem?_range (by omega)]
  show _ = x.getMsbD (63 - j)
  rw [BitVec.getMsbD_eq_getLsbD]
  have e : 64 - 1 - (63 - j) = j := by omega
  have e2 : 63 - j < 64 := by omega
  rw [e]; simp [e2]

theorem path_getD (p : Bits) (h : p.length ≤ 60) {j : Nat} (hj : j < 64) :
    (p ++ true :: List.replicate (63 - p.length) false).getD (63 - j) false = bitOf p j := by
  unfold bitOf
  rw [List.getD_eq_getElem?_getD]
  by_cases h1 : 63 < j + p.length
  · rw [if_pos h1, List.getElem?_append_left (by omega), List.getD_eq_getElem?_getD]
  · rw [if_neg h1, List.getElem?_append_right (by omega)]
    by_cases h2 : j + p.length = 63
    · rw [show 63 - j - p.length = 0 by omega]; simp [h2]
    · obtain ⟨k, hk⟩ : ∃ k, 63 - j - p.length = k + 1 := ⟨63 - j - p.length - 1, by omega⟩
      rw [hk, List.getElem?_cons_succ, List.getElem?_replicate]
      split <;> simp [h2]

theorem Denotes.bit {x : BitVec 64} {p : Bits} (h : Denotes x p) {j : Nat} (hj : j < 64) : x.getLsbD j = bitOf p j := by
  rw [getLsbD_wordBits x hj, h.2, path_getD p h.1 hj]

theorem Denotes.of_bit {x : BitVec 64} {p : Bits} (hp : p.length ≤ 60) (h : ∀ j, j < 64 → x.getLsbD j = bitOf p j) : Denotes x p := by
  refine ⟨hp, list_ext_getD (by simp; omega) fun i hi => ?_⟩
  have hi : i < 64 := by simpa using hi
  have := h (63 - i) (by omega)
  rw [getLsbD_wordBits x (by omega), ← path_getD p hp (by omega), show 63 - (63 - i) = i by omega] at this
  exact this

theorem Denotes.low {x : BitVec 64} {p : Bits} (h : Denotes x p) : LowBit x (63 - p.length) := by
  have hp := h.1
  refine ⟨by omega, ?_, fun j hj => ?_⟩
  · rw [h.bit (by omega)]; unfold bitOf; rw [if_neg (by omega)]; simp; omega
  · rw [h.bit (by omega)]; unfold bitOf; rw [if_neg (by omega)]; simp; omega

/-- The path of a prefix is unique. -/
theorem Denotes.unique {x : BitVec 64} {p q : Bits} (h1 : Denotes x p) (h2 : Denotes x q) : p = q := by
  have e : p.length = q.length := by
    have a := h1.low
    have b := h2.low
    have h1' := h1.1
    have h2' := h2.1
    rcases Nat.lt_trichotomy (63 - p.length) (63 - q.length) with h | h | h
    · have := a.2.1; rw [b.2.2 _ h] at this; cases this
    · omega
    · have := b.2.1; rw [a.2.2 _ h] at this; cases this
  have := h1.2.symm.trans h2.2
  exact (List.append_inj this e).1

theorem Denotes.inj {x y : BitVec 64} {p : Bits} (h1 : Denotes x p) (h2 : Denotes y p) : x = y :=
  wordBits_inj (h1.2.trans h2.2.symm)

/-- Every path of at most 60 bits has a prefix. -/
theorem Denotes.exists {p : Bits} (hp : p.length ≤ 60) : ∃ x, Denotes x p := by
  refine ⟨BitVec.ofNat 64 (natOfBits (p ++ true :: List.replicate (63 - p.length) false)), hp, ?_⟩
  have hl : (p ++ true :: List.replicate (63 - p.length) false).length = 64 := by simp; omega
  have hlt := natOfBits_lt (p ++ true :: List.replicate (63 - p.length) false)
  rw [hl] at hlt
  rw [wordBits_eq_natBits, BitVec.toNat_ofNat, Nat.mod_eq_of_lt hlt]
  have := natBits_natOfBits (p ++ true :: List.replicate (63 - p.length) false)
  rwa [hl] at this

/-- Every nonzero word with three low zeros denotes a path. -/
theorem Denotes.of_low {x : BitVec 64} {t : Nat} (h : LowBit x t) (h3 : 3 ≤ t) : ∃ p, Denotes x p ∧ p.length = 63 - t := by
  have ht := h.1
  have hl : ((wordBits x).take (63 - t)).length = 63 - t := by simp; omega
  refine ⟨(wordBits x).take (63 - t), Denotes.of_bit (by omega) (fun j hj => ?_), hl⟩
  unfold bitOf
  rw [hl]
  by_cases h1 : 63 < j + (63 - t)
  · rw [if_pos h1, getLsbD_wordBits x hj, List.getD_eq_getElem?_getD, List.getD_eq_getElem?_getD, List.getElem?_take, if_pos (by omega)]
  · rw [if_neg h1]
    by_cases h2 : j = t
    · subst h2; rw [h.2.1]; simp; omega
    · rw [h.2.2 j (by omega)]; simp; omega

theorem bitOf_above {p : Bits} {j : Nat} (h : 63 < j + p.length) : bitOf p j = p.getD (63 - j) false := if_pos h
theorem bitOf_below {p : Bits} {j : Nat} (h : j + p.length < 63) : bitOf p j = false := by
  unfold bitOf; rw [if_neg (by omega)]; simp; omega
theorem bitOf_tag {p : Bits} {j : Nat} (h : j + p.length = 63) : bitOf p j = true := by
  unfold bitOf; rw [if_neg (by omega)]; simp [h]

end ShardIdent
end Verif
