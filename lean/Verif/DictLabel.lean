import Verif.Cell
/-
Dictionary edge labels: model of the label writer and reader (`dict/mod.rs:584-728`).

From here on the model is at the level of bit lists: a slice is its remaining bits and references and a builder is
what it holds so far. C01 and C03 show that the byte-level builders and slices behave this way.
-/
set_option linter.unusedVariables false
set_option linter.unusedSimpArgs false
namespace Verif

/-- The contents of a slice or of a builder. -/
structure Sl where
  bits : Bits
  refs : List Cell

namespace Sl

def empty : Sl := ⟨[], []⟩

/-- Append bits to a builder (`cell/builder.rs`, see C01). -/
def storeBits (b : Sl) (l : Bits) : Except Err Sl :=
  if b.bits.length + l.length ≤ 1023 then .ok ⟨b.bits ++ l, b.refs⟩ else .error .cellOverflow

/-- `cell/builder.rs` `store_reference`. -/
def storeRef (b : Sl) (c : Cell) : Except Err Sl :=
  if b.refs.length < 4 then .ok ⟨b.bits, b.refs ++ [c]⟩ else .error .cellOverflow

/-- `cell/builder.rs` `store_slice`: both limits are checked first. -/
def storeSlice (b s : Sl) : Except Err Sl :=
  if b.bits.length + s.bits.length ≤ 1023 ∧ b.refs.length + s.refs.length ≤ 4 then .ok ⟨b.bits ++ s.bits, b.refs ++ s.refs⟩
  else .error .cellOverflow

/-- `cell/slice.rs` `load_bit`. -/
def loadBit (s : Sl) : Except Err (Bool × Sl) :=
  match s.bits with
  | [] => .error .cellUnderflow
  | b :: t => .ok (b, ⟨t, s.refs⟩)

/-- Read `n` bits (`cell/slice.rs` `load_uint`, `load_prefix`, ...). -/
def loadBits (s : Sl) (n : Nat) : Except Err (Bits × Sl) :=
  if n ≤ s.bits.length then .ok (s.bits.take n, ⟨s.bits.drop n, s.refs⟩) else .error .cellUnderflow

end Sl

/-- `16 - key_bit_len.leading_zeros()` (`dict/mod.rs:589`, `627`, `656`). -/
def bitsForLen (n : Nat) : Nat := if n = 0 then 0 else n.log2 + 1

/-- `test_uniform` (C04). -/
def uniformBit : Bits → Option Bool
  | [] => none
  | b :: t => if t.all (· == b) then some b else none

/-- `dict/mod.rs:676-678`: whole 32-bit groups of ones. -/
def storeOnesGroups : Nat → Sl → Except Err Sl
  | 0, b => .ok b
  | m + 1, b => do
    let b ← b.storeBits (List.replicate 32 true)
    storeOnesGroups m b

/-- `dict/mod.rs:680-683`: the remaining ones, if any. -/
def storeOnesRest (r : Nat) (b : Sl) : Except Err Sl :=
  if r ≠ 0 then b.storeBits (List.replicate r true) else .ok b

/-- `dict/mod.rs:673-685` `write_hml_short_tag`. -/
def writeHmlShortTag (len : Nat) (b : Sl) : Except Err Sl := do
  let b ← b.storeBits [false]
  let b ← storeOnesGroups (len / 32) b
  let b ← storeOnesRest (len % 32) b
  b.storeBits [false]

/-- `dict/mod.rs:697-701` `write_hml_long_tag`. -/
def writeHmlLongTag (len k : Nat) (b : Sl) : Except Err Sl := do
  let b ← b.storeBits [true]
  let b ← b.storeBits [false]
  b.storeBits (natBits k len)

/-- `dict/mod.rs:710-718` `write_hml_same`. -/
def writeHmlSame (bit : Bool) (len k : Nat) (b : Sl) : Except Err Sl := do
  let b ← b.storeBits [true, true, bit]
  b.storeBits (natBits k len)

/-- The choice between the short and the long form, common to `dict/mod.rs:604-610` and `643-649`. -/
def writeTag (len k : Nat) (b : Sl) : Except Err Sl :=
  if 2 + 2 * len ≤ 1023 ∧ 2 + 2 * len ≤ 2 + k + len then writeHmlShortTag len b
  else if 2 + k + len ≤ 1023 then writeHmlLongTag len k b
  else .error .invalidData

/-- `dict/mod.rs:584-614` `write_label`. -/
def writeLabel (key : Bits) (n : Nat) (b : Sl) : Except Err Sl :=
  if n = 0 ∨ key = [] then b.storeBits [false, false]
  else
    let k := bitsForLen n
    let short := 2 + 2 * key.length
    let long := 2 + k + key.length
    let same := 3 + k
    match if same < long ∧ same < short then uniformBit key else none with
    | some bit => writeHmlSame bit key.length k b
    | none => do
      let b ← writeTag key.length k b
      b.storeBits key

/-- `dict/mod.rs:616-653` `write_label_parts`. -/
def writeLabelParts (pfx : Bits) (bit : Bool) (rem : Bits) (n : Nat) (b : Sl) : Except Err Sl :=
  if n = 0 then b.storeBits [false, false]
  else
    let k := bitsForLen n
    let len := pfx.length + 1 + rem.length
    let short := 2 + 2 * len
    let long := 2 + k + len
    let same := 3 + k
    if same < long ∧ same < short ∧ (pfx = [] ∨ uniformBit pfx = some bit) ∧ (rem = [] ∨ uniformBit rem = some bit) then
      writeHmlSame bit len k b
    else do
      let b ← writeTag len k b
      let b ← b.storeBits pfx
      let b ← b.storeBits [bit]
      b.storeBits rem

/-- The loop of `read_hml_short` (`dict/mod.rs:688-691`): the number of ones before the first zero. -/
def countOnes (refs : List Cell) : Bits → Except Err (Nat × Sl)
  | [] => .error .cellUnderflow
  | false :: t => .ok (0, ⟨t, refs⟩)
  | true :: t => do
    let (n, s) ← countOnes refs t
    pure (n + 1, s)

/-- `dict/mod.rs:655-667` `read_label` with `read_hml_short` (687-695), `read_hml_long` (703-708) and `read_hml_same`
(720-728, where the label is a prefix of the 1023-bit all-zeros or all-ones cell). Nothing checks that the label
is not longer than the remaining key. -/
def readLabel (s : Sl) (n : Nat) : Except Err (Bits × Sl) :=
  let k := bitsForLen n
  if k = 0 ∧ s.bits = [] then .ok ([], s)
  else do
    let (b1, s) ← s.loadBit
    if b1 = false then
      let (len, s) ← countOnes s.refs s.bits
      s.loadBits len
    else
      let (b2, s) ← s.loadBit
      if b2 = false then
        let (lb, s) ← s.loadBits k
        s.loadBits (natOfBits lb)
      else
        let (b, s) ← s.loadBit
        let (lb, s) ← s.loadBits k
        pure (List.replicate (min (natOfBits lb) 1023) b, s)

/-! ### Specification -/

/-- The three ways of writing a label of a node with `n` key bits left, and the rule which labels each can write. -/
inductive LabelEnc (n : Nat) : Bits → Bits → Prop
  | short (l : Bits) : LabelEnc n l ([false] ++ List.replicate l.length true ++ [false] ++ l)
  | long (l : Bits) : LabelEnc n l ([true, false] ++ natBits (bitsForLen n) l.length ++ l)
  | same (bit : Bool) (len : Nat) : LabelEnc n (List.replicate len bit) ([true, true, bit] ++ natBits (bitsForLen n) len)

/-- The bits that `write_label` appends. -/
def labelBits (l : Bits) (n : Nat) : Bits :=
  if n = 0 ∨ l = [] then [false, false]
  else
    let k := bitsForLen n
    match if 3 + k < 2 + k + l.length ∧ 3 + k < 2 + 2 * l.length then uniformBit l else none with
    | some bit => [true, true, bit] ++ natBits k l.length
    | none =>
      if 2 + 2 * l.length ≤ 2 + k + l.length then [false] ++ List.replicate l.length true ++ [false] ++ l
      else [true, false] ++ natBits k l.length ++ l

/-! ### Lemmas -/

theorem lt_bitsForLen (n : Nat) : n < 2 ^ bitsForLen n := by
  unfold bitsForLen
  split
  · subst_vars; simp
  · exact Nat.lt_log2_self

theorem bitsForLen_le {n : Nat} (h : n ≤ 65535) : bitsForLen n ≤ 16 := by
  unfold bitsForLen
  split
  · omega
  · rename_i h0
    have := (Nat.log2_lt h0 (k := 16)).mpr (by omega)
    omega

theorem bitsForLen_pos {n : Nat} (h : n ≠ 0) : 1 ≤ bitsForLen n := by
  unfold bitsForLen; rw [if_neg h]; omega

theorem bitsForLen_le' {n : Nat} (h : n ≤ 1023) : bitsForLen n ≤ 10 := by
  unfold bitsForLen
  split
  · omega
  · rename_i h0
    have := (Nat.log2_lt h0 (k := 10)).mpr (by omega)
    omega

theorem uniformBit_some {l : Bits} {b : Bool} (h : uniformBit l = some b) : l ≠ [] ∧ l = List.replicate l.length b := by
  cases l with
  | nil => cases h
  | cons a t =>
    have h : (if t.all (· == a) then some a else none) = some b := h
    by_cases g : (t.all (· == a)) = true
    · rw [if_pos g] at h
      injection h with h
      subst h
      refine ⟨by simp, ?_⟩
      rw [List.length_cons, List.replicate_succ]
      congr 1
      rw [List.eq_replicate_iff]
      refine ⟨rfl, fun x hx => ?_⟩
      have := List.all_eq_true.mp g x hx
      simpa using this
    · rw [if_neg g] at h
      cases h

theorem uniformBit_replicate {n : Nat} (b : Bool) (h : n ≠ 0) : uniformBit (List.replicate n b) = some b := by
  cases n with
  | zero => exact absurd rfl h
  | succ n => rw [List.replicate_succ, uniformBit, if_pos (by simp)]

theorem uniformBit_iff {l : Bits} {b : Bool} : uniformBit l = some b ↔ l ≠ [] ∧ l = List.replicate l.length b := by
  refine ⟨uniformBit_some, fun ⟨h1, h2⟩ => ?_⟩
  rw [h2]
  exact uniformBit_replicate b (by simpa using h1)

/-- Shape of every store: success with the bits appended, or an error, by whether they fit. -/
def Appends (f : Sl → Except Err Sl) (l : Bits) : Prop :=
  ∀ b, (b.bits.length + l.length ≤ 1023 → f b = .ok ⟨b.bits ++ l, b.refs⟩) ∧
    (¬ b.bits.length + l.length ≤ 1023 → ∃ e, f b = .error e)

theorem Appends.store (l : Bits) : Appends (fun b => b.storeBits l) l := by
  intro b
  constructor
  · intro h; exact if_pos h
  · intro h; exact ⟨_, if_neg h⟩

theorem Appends.store_nonempty {f : Sl → Except Err Sl} {l : Bits} (h : ∀ b, b.bits.length ≤ 1023 → (b.bits.length + l.length ≤ 1023 → f b = .ok ⟨b.bits ++ l, b.refs⟩) ∧
    (¬ b.bits.length + l.length ≤ 1023 → ∃ e, f b = .error e)) {l0 : Bits} :
    Appends (fun b => b.storeBits l0 >>= f) (l0 ++ l) := by
  intro b
  show (_ → (b.storeBits l0 >>= f) = _) ∧ (_ → ∃ e, (b.storeBits l0 >>= f) = _)
  by_cases h1 : b.bits.length + l0.length ≤ 1023
  · have e1 := ((Appends.store l0) b).1 h1
    dsimp only at e1
    rw [e1]
    obtain ⟨o1, o2⟩ := h ⟨b.bits ++ l0, b.refs⟩ (by simpa using h1)
    simp only [List.length_append] at o1 o2 ⊢
    refine ⟨fun h2 => ?_, fun h2 => ?_⟩
    · show f _ = _
      rw [o1 (by omega), List.append_assoc]
    · exact o2 (by omega)
  · refine ⟨fun h2 => absurd h2 (by simp; omega), fun _ => ?_⟩
    obtain ⟨e, he⟩ := ((Appends.store l0) b).2 h1
    dsimp only at he
    rw [he]
    exact ⟨e, rfl⟩

theorem Appends.bind {f g : Sl → Except Err Sl} {a c : Bits} (hf : Appends f a) (hg : Appends g c) :
    Appends (fun b => f b >>= g) (a ++ c) := by
  intro b
  constructor
  · intro h
    rw [List.length_append] at h
    show f b >>= g = _
    rw [(hf b).1 (by omega)]
    show g _ = _
    rw [(hg _).1 (by simp; omega)]
    simp
  · intro h
    rw [List.length_append] at h
    show ∃ e, f b >>= g = _
    by_cases h1 : b.bits.length + a.length ≤ 1023
    · rw [(hf b).1 h1]
      exact (hg _).2 (by simp; omega)
    · obtain ⟨e, he⟩ := (hf b).2 h1
      rw [he]; exact ⟨e, rfl⟩

theorem Appends.congr {f g : Sl → Except Err Sl} {a c : Bits} (hf : Appends f a) (h : ∀ b, f b = g b) (h2 : a = c) : Appends g c := by
  subst h2
  intro b
  rw [← h b]
  exact hf b

theorem storeOnesGroups_spec (m : Nat) : ∀ b : Sl, b.bits.length ≤ 1023 →
    (b.bits.length + (List.replicate (32 * m) true).length ≤ 1023 → storeOnesGroups m b = .ok ⟨b.bits ++ List.replicate (32 * m) true, b.refs⟩) ∧
    (¬ b.bits.length + (List.replicate (32 * m) true).length ≤ 1023 → ∃ e, storeOnesGroups m b = .error e) := by
  induction m with
  | zero =>
    intro b hb
    refine ⟨fun _ => ?_, fun h => absurd hb (by simp at h; omega)⟩
    simp [storeOnesGroups]
  | succ m ih =>
    intro b hb
    have := Appends.store_nonempty (l0 := List.replicate 32 true) ih b
    rw [List.replicate_append_replicate] at this
    rw [show 32 * (m + 1) = 32 + 32 * m from by omega]
    exact this

theorem writeHmlShortTag_appends (len : Nat) : Appends (writeHmlShortTag len) ([false] ++ List.replicate len true ++ [false]) := by
  have hdm := Nat.div_add_mod len 32
  have h1 : Appends (fun b => storeOnesRest (len % 32) b >>= fun b => b.storeBits [false]) (List.replicate (len % 32) true ++ [false]) := by
    by_cases h : len % 32 = 0
    · refine (Appends.store [false]).congr (fun b => ?_) (by rw [h]; rfl)
      unfold storeOnesRest
      rw [if_neg (by simpa using h)]
      rfl
    · refine ((Appends.store (List.replicate (len % 32) true)).bind (Appends.store [false])).congr (fun b => ?_) rfl
      unfold storeOnesRest
      rw [if_pos h]
  have h2 := Appends.store_nonempty (l0 := [false]) (storeOnesGroups_spec (len / 32))
  refine (h2.bind h1).congr (fun b => ?_) ?_
  · unfold writeHmlShortTag
    cases Sl.storeBits b [false] <;> rfl
  · simp only [List.append_assoc]
    rw [← List.append_assoc (List.replicate _ true), List.replicate_append_replicate, hdm]

theorem writeHmlLongTag_appends (len k : Nat) : Appends (writeHmlLongTag len k) ([true, false] ++ natBits k len) :=
  ((Appends.store [true]).bind ((Appends.store [false]).bind (Appends.store (natBits k len)))).congr (fun _ => rfl) rfl

theorem writeHmlSame_appends (bit : Bool) (len k : Nat) : Appends (writeHmlSame bit len k) ([true, true, bit] ++ natBits k len) :=
  ((Appends.store [true, true, bit]).bind (Appends.store (natBits k len))).congr (fun _ => rfl) rfl

theorem Appends.fail {f : Sl → Except Err Sl} {l : Bits} (h : 1023 < l.length) (hf : ∀ b, ∃ e, f b = .error e) : Appends f l :=
  fun b => ⟨fun h' => absurd h' (by omega), fun _ => hf b⟩

/-- The part of the writers shared by both: short or long form. -/
theorem writeTag_appends (l : Bits) {n : Nat} (hn : n ≤ 65535) (g : Sl → Except Err Sl) (hg : Appends g l) :
    Appends (fun b => writeTag l.length (bitsForLen n) b >>= g)
      (if 2 + 2 * l.length ≤ 2 + bitsForLen n + l.length then [false] ++ List.replicate l.length true ++ [false] ++ l
        else [true, false] ++ natBits (bitsForLen n) l.length ++ l) := by
  have hk := bitsForLen_le hn
  by_cases h1 : 2 + 2 * l.length ≤ 2 + bitsForLen n + l.length
  · rw [if_pos h1]
    refine ((writeHmlShortTag_appends l.length).bind hg).congr (fun b => ?_) rfl
    unfold writeTag
    rw [if_pos ⟨by omega, h1⟩]
  · rw [if_neg h1]
    by_cases h2 : 2 + bitsForLen n + l.length ≤ 1023
    · refine ((writeHmlLongTag_appends l.length (bitsForLen n)).bind hg).congr (fun b => ?_) rfl
      unfold writeTag
      rw [if_neg (fun h => h1 h.2), if_pos h2]
    · refine Appends.fail (by simp; omega) fun b => ?_
      show ∃ e, (_ >>= _) = _
      unfold writeTag
      rw [if_neg (fun h => h1 h.2), if_neg h2]
      exact ⟨_, rfl⟩

theorem writeLabel_appends (l : Bits) {n : Nat} (hn : n ≤ 65535) : Appends (writeLabel l n) (labelBits l n) := by
  unfold labelBits
  by_cases h0 : n = 0 ∨ l = []
  · rw [if_pos h0]
    refine (Appends.store [false, false]).congr (fun b => ?_) rfl
    unfold writeLabel
    rw [if_pos h0]
  · rw [if_neg h0]
    dsimp only
    cases h : (if 3 + bitsForLen n < 2 + bitsForLen n + l.length ∧ 3 + bitsForLen n < 2 + 2 * l.length then uniformBit l else none) with
    | some bit =>
      refine (writeHmlSame_appends bit l.length (bitsForLen n)).congr (fun b => ?_) rfl
      unfold writeLabel
      rw [if_neg h0]
      dsimp only
      rw [h]
    | none =>
      refine (writeTag_appends l hn _ (Appends.store l)).congr (fun b => ?_) rfl
      unfold writeLabel
      rw [if_neg h0]
      dsimp only
      rw [h]

theorem uniform_parts (pfx rem : Bits) (bit : Bool) :
    ((pfx = [] ∨ uniformBit pfx = some bit) ∧ (rem = [] ∨ uniformBit rem = some bit)) ↔
      uniformBit (pfx ++ bit :: rem) = some bit := by
  have hu : ∀ l : Bits, (l = [] ∨ uniformBit l = some bit) ↔ ∀ x ∈ l, x = bit := by
    intro l
    rw [uniformBit_iff]
    constructor
    · rintro (rfl | ⟨_, h⟩) x hx
      · cases hx
      · exact (List.eq_replicate_iff.mp h).2 x hx
    · intro h
      by_cases hl : l = []
      · exact Or.inl hl
      · exact Or.inr ⟨hl, List.eq_replicate_iff.mpr ⟨rfl, h⟩⟩
  rw [hu, hu, uniformBit_iff]
  constructor
  · rintro ⟨h1, h2⟩
    refine ⟨by simp, List.eq_replicate_iff.mpr ⟨rfl, fun x hx => ?_⟩⟩
    rcases List.mem_append.mp hx with h | h
    · exact h1 x h
    · rcases List.mem_cons.mp h with h | h
      · exact h
      · exact h2 x h
  · rintro ⟨_, h⟩
    have := (List.eq_replicate_iff.mp h).2
    exact ⟨fun x hx => this x (by simp [hx]), fun x hx => this x (by simp [hx])⟩

theorem uniformBit_mem {l : Bits} {b c : Bool} (h : uniformBit l = some b) (hc : c ∈ l) : c = b := by
  rw [(uniformBit_some h).2] at hc
  exact (List.mem_replicate.mp hc).2

theorem writeLabelParts_appends (pfx : Bits) (bit : Bool) (rem : Bits) {n : Nat} (hn : n ≤ 65535) (h0 : n ≠ 0) :
    Appends (writeLabelParts pfx bit rem n) (labelBits (pfx ++ bit :: rem) n) := by
  have hlen : (pfx ++ bit :: rem).length = pfx.length + 1 + rem.length := by simp; omega
  have hg : Appends (fun b => b.storeBits pfx >>= fun b => b.storeBits [bit] >>= fun b => b.storeBits rem) (pfx ++ bit :: rem) :=
    (Appends.store pfx).bind ((Appends.store [bit]).bind (Appends.store rem))
  have ht := writeTag_appends (pfx ++ bit :: rem) hn _ hg
  rw [hlen] at ht
  unfold labelBits
  rw [if_neg (by simp [h0])]
  dsimp only
  rw [hlen]
  by_cases hc : (3 + bitsForLen n < 2 + bitsForLen n + (pfx.length + 1 + rem.length) ∧ 3 + bitsForLen n < 2 + 2 * (pfx.length + 1 + rem.length)) ∧
      uniformBit (pfx ++ bit :: rem) = some bit
  · rw [if_pos hc.1, hc.2]
    dsimp only
    refine (writeHmlSame_appends bit (pfx.length + 1 + rem.length) (bitsForLen n)).congr (fun b => ?_) rfl
    unfold writeLabelParts
    rw [if_neg h0]
    dsimp only
    rw [if_pos ⟨hc.1.1, hc.1.2, (uniform_parts pfx rem bit).mpr hc.2⟩]
  · have hnone : (if 3 + bitsForLen n < 2 + bitsForLen n + (pfx.length + 1 + rem.length) ∧ 3 + bitsForLen n < 2 + 2 * (pfx.length + 1 + rem.length) then uniformBit (pfx ++ bit :: rem) else none) = none := by
      by_cases h1 : 3 + bitsForLen n < 2 + bitsForLen n + (pfx.length + 1 + rem.length) ∧ 3 + bitsForLen n < 2 + 2 * (pfx.length + 1 + rem.length)
      · rw [if_pos h1]
        cases hx : uniformBit (pfx ++ bit :: rem) with
        | none => rfl
        | some c =>
          have : bit = c := uniformBit_mem hx (by simp)
          exact absurd ⟨h1, this ▸ hx⟩ hc
      · rw [if_neg h1]
    rw [hnone]
    dsimp only
    refine ht.congr (fun b => ?_) rfl
    unfold writeLabelParts
    rw [if_neg h0]
    dsimp only
    rw [if_neg (fun h => hc ⟨⟨h.1, h.2.1⟩, (uniform_parts pfx rem bit).mp ⟨h.2.2.1, h.2.2.2⟩⟩)]

/-! ### Reading -/

theorem countOnes_spec (refs : List Cell) (m : Nat) (t : Bits) :
    countOnes refs (List.replicate m true ++ false :: t) = .ok (m, ⟨t, refs⟩) := by
  induction m with
  | zero => rfl
  | succ m ih =>
    rw [List.replicate_succ, List.cons_append, countOnes, ih]
    rfl

theorem loadBits_append (l t : Bits) (refs : List Cell) (n : Nat) (h : l.length = n) : Sl.loadBits ⟨l ++ t, refs⟩ n = .ok (l, ⟨t, refs⟩) := by
  subst h
  unfold Sl.loadBits
  rw [if_pos (by simp)]
  simp

/-- Every encoding of a label reads back. -/
theorem readLabel_enc {n : Nat} {l e : Bits} (h : LabelEnc n l e) (hl : l.length ≤ n) (hn : n ≤ 1023) (rest : Bits) (refs : List Cell) :
    readLabel ⟨e ++ rest, refs⟩ n = .ok (l, ⟨rest, refs⟩) := by
  have hne : ∀ (a : Bool) (x : Bits), ¬ (bitsForLen n = 0 ∧ (a :: x : Bits) = []) := fun a x h => by cases h.2
  have hlt : l.length < 2 ^ bitsForLen n := Nat.lt_of_le_of_lt hl (lt_bitsForLen n)
  cases h with
  | short l =>
    have e1 : [false] ++ List.replicate l.length true ++ [false] ++ l ++ rest = false :: (List.replicate l.length true ++ false :: (l ++ rest)) := by simp
    rw [e1]
    unfold readLabel
    dsimp only
    rw [if_neg (hne _ _)]
    show ((countOnes refs (List.replicate l.length true ++ false :: (l ++ rest))) >>= fun p => p.2.loadBits p.1) = _
    rw [countOnes_spec]
    exact loadBits_append l rest refs _ rfl
  | long l =>
    have e1 : [true, false] ++ natBits (bitsForLen n) l.length ++ l ++ rest = true :: false :: (natBits (bitsForLen n) l.length ++ (l ++ rest)) := by simp
    rw [e1]
    unfold readLabel
    dsimp only
    rw [if_neg (hne _ _)]
    show (Sl.loadBits ⟨natBits (bitsForLen n) l.length ++ (l ++ rest), refs⟩ (bitsForLen n) >>= fun p => p.2.loadBits (natOfBits p.1)) = _
    rw [loadBits_append _ _ _ _ (by simp)]
    show Sl.loadBits _ _ = _
    rw [natOfBits_natBits, Nat.mod_eq_of_lt hlt]
    exact loadBits_append l rest refs _ rfl
  | same bit len =>
    rw [List.length_replicate] at hlt hl
    have e1 : [true, true, bit] ++ natBits (bitsForLen n) len ++ rest = true :: true :: bit :: (natBits (bitsForLen n) len ++ rest) := by simp
    rw [e1]
    unfold readLabel
    dsimp only
    rw [if_neg (hne _ _)]
    show (Sl.loadBits ⟨natBits (bitsForLen n) len ++ rest, refs⟩ (bitsForLen n) >>= fun p => Pure.pure (List.replicate (min (natOfBits p.1) 1023) bit, p.2)) = _
    rw [loadBits_append _ _ _ _ (by simp)]
    show Except.ok (List.replicate (min (natOfBits _) 1023) bit, _) = _
    rw [natOfBits_natBits, Nat.mod_eq_of_lt hlt, Nat.min_eq_left (by omega)]

theorem labelBits_enc (l : Bits) (n : Nat) (h : l.length ≤ n) : LabelEnc n l (labelBits l n) := by
  unfold labelBits
  by_cases h0 : n = 0 ∨ l = []
  · have : l = [] := by
      rcases h0 with h0 | h0
      · exact List.length_eq_zero_iff.mp (by omega)
      · exact h0
    subst this
    rw [if_pos (Or.inr rfl)]
    exact LabelEnc.short []
  · rw [if_neg h0]
    dsimp only
    cases h1 : (if 3 + bitsForLen n < 2 + bitsForLen n + l.length ∧ 3 + bitsForLen n < 2 + 2 * l.length then uniformBit l else none) with
    | some bit =>
      dsimp only
      by_cases hc : 3 + bitsForLen n < 2 + bitsForLen n + l.length ∧ 3 + bitsForLen n < 2 + 2 * l.length
      · rw [if_pos hc] at h1
        have := LabelEnc.same (n := n) bit l.length
        rw [← (uniformBit_some h1).2] at this
        exact this
      · rw [if_neg hc] at h1; cases h1
    | none =>
      dsimp only
      split
      · exact LabelEnc.short l
      · exact LabelEnc.long l

theorem readLabel_labelBits (l : Bits) (n : Nat) (h : l.length ≤ n) (hn : n ≤ 1023) (rest : Bits) (refs : List Cell) :
    readLabel ⟨labelBits l n ++ rest, refs⟩ n = .ok (l, ⟨rest, refs⟩) :=
  readLabel_enc (labelBits_enc l n h) h hn rest refs

/-- The chosen encoding is a shortest one. -/
theorem labelBits_min (l : Bits) (n : Nat) (h : l.length ≤ n) {e : Bits} (he : LabelEnc n l e) : (labelBits l n).length ≤ e.length := by
  by_cases h0 : n = 0 ∨ l = []
  · have hlb : (labelBits l n).length = 2 := by unfold labelBits; rw [if_pos h0]; rfl
    rw [hlb]
    cases he with
    | short l => simp; omega
    | long l => simp
    | same b len => simp
  · have hlb : (labelBits l n).length = (if (3 + bitsForLen n < 2 + bitsForLen n + l.length ∧ 3 + bitsForLen n < 2 + 2 * l.length) ∧ (uniformBit l).isSome = true then 3 + bitsForLen n
        else if 2 + 2 * l.length ≤ 2 + bitsForLen n + l.length then 2 + 2 * l.length else 2 + bitsForLen n + l.length) := by
      unfold labelBits
      rw [if_neg h0]
      dsimp only
      by_cases hc : 3 + bitsForLen n < 2 + bitsForLen n + l.length ∧ 3 + bitsForLen n < 2 + 2 * l.length <;>
      by_cases hs : 2 + 2 * l.length ≤ 2 + bitsForLen n + l.length <;>
      cases hu : uniformBit l <;>
      simp only [hc, hs, hu, not_true_eq_false, false_and, Option.isSome_none, Option.isSome_some, Bool.false_eq_true, and_false, and_true, if_true, if_false, true_and, List.length_append, List.length_replicate, List.length_cons, List.length_nil, natBits_length] <;> omega
    have hlne : l.length ≠ 0 := fun h => h0 (Or.inr (List.length_eq_zero_iff.mp h))
    rw [hlb]
    cases he with
    | short l =>
      simp only [List.length_append, List.length_replicate, List.length_singleton]
      split
      · omega
      · split <;> omega
    | long l =>
      simp only [List.length_append, List.length_cons, List.length_nil, natBits_length]
      split
      · omega
      · split <;> omega
    | same b len =>
      rw [List.length_replicate] at hlne ⊢
      have hu : (uniformBit (List.replicate len b)).isSome = true := by rw [uniformBit_replicate b hlne]; rfl
      simp only [List.length_append, List.length_cons, List.length_nil, natBits_length, hu, and_true]
      split
      · omega
      · split <;> omega

end Verif
