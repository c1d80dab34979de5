import Verif.BuilderProps
import Verif.CellBuilderLemmas
import Verif.SliceScan2
/-
C01 (references, slices, builders), C02, C03, C04, C05, C52: reading a cell through a slice.
-/
set_option linter.unusedVariables false
set_option linter.unusedSimpArgs false
namespace Verif
open DataBuilder (u16add_eq StoreOp)

/-- What a read returns, as plain data. -/
inductive Val (ρ : Type) where
  | unit
  | bool (b : Bool)
  | nat (n : Nat)
  | bits (l : Bits)
  | cell (c : ρ)
  | slice (l : Bits) (rs : List ρ)
  deriving DecidableEq

/-- The reading operations of `CellSlice` that move the window. -/
inductive LoadOp where
  | bit
  | u8
  | u16
  | u32
  | u64
  | u128
  | u256
  | smallUint (n : Nat)
  | uint (n : Nat)
  | raw (cap n : Nat)
  | ref
  | skipFirst (b r : Nat)
  | skipLast (b r : Nat)
  | onlyFirst (b r : Nat)
  | onlyLast (b r : Nat)
  | loadPrefix (b r : Nat)
  | loadSuffix (b r : Nat)

namespace LoadOp
variable {ρ : Type}

/-- Map the result of an operation to plain data. -/
def view {α : Type} (f : α → Val ρ) (r : Except Err α × CSlice ρ) : Except Err (Val ρ) × CSlice ρ := (r.1.map f, r.2)

/-- Run one operation of the modelled code. Byte buffers are shown as their bits. -/
def run (s : CSlice ρ) : LoadOp → Except Err (Val ρ) × CSlice ρ
  | .bit => view .bool s.loadBit
  | .u8 => view (fun v => .nat v.toNat) (s.loadSmallUint 8)
  | .u16 => view (fun v => .nat v.toNat) (s.loadWord 2)
  | .u32 => view (fun v => .nat v.toNat) (s.loadWord 4)
  | .u64 => view (fun v => .nat v.toNat) (s.loadWord 8)
  | .u128 => view (fun v => .nat v.toNat) s.loadU128
  | .u256 => view (fun v => .bits (bytesToBits v)) s.loadU256
  | .smallUint n => view (fun v => .nat v.toNat) (s.loadSmallUint n)
  | .uint n => view (fun v => .nat v.toNat) (s.loadUint n)
  | .raw cap n => view (fun v => .bits (bytesToBits v)) (s.loadRaw cap n)
  | .ref => view .cell s.loadReference
  | .skipFirst b r => view (fun _ => .unit) (s.skipFirst b r)
  | .skipLast b r => view (fun _ => .unit) (s.skipLast b r)
  | .onlyFirst b r => view (fun _ => .unit) (s.onlyFirst b r)
  | .onlyLast b r => view (fun _ => .unit) (s.onlyLast b r)
  | .loadPrefix b r => view (fun p => .slice p.bits p.refList) (s.loadPrefix b r)
  | .loadSuffix b r => view (fun p => .slice p.bits p.refList) (s.loadSuffix b r)

/-- Widths that do not overflow the `u16` / `u8` window arithmetic (see C52 for the others). -/
def Valid : LoadOp → Prop
  | .smallUint n | .uint n | .raw _ n => n ≤ 64511
  | .skipFirst b r | .skipLast b r | .onlyFirst b r | .onlyLast b r | .loadPrefix b r | .loadSuffix b r =>
    b ≤ 64511 ∧ r ≤ 251
  | _ => True

/-- The contents of a window: bits and references. -/
abbrev Contents (ρ : Type) := Bits × List ρ

/-- Specification of a read of the first `n` bits: the value is computed from these bits. -/
def specTake (c : Contents ρ) (n : Nat) (f : Bits → Val ρ) : Except Err (Val ρ) × Contents ρ :=
  if n ≤ c.1.length then (.ok (f (c.1.take n)), (c.1.drop n, c.2)) else (.error .cellUnderflow, c)

/-- Specification of an operation on `b` bits and `r` references at once. -/
def specBoth (c : Contents ρ) (b r : Nat) (v : Val ρ) (rest : Contents ρ) : Except Err (Val ρ) × Contents ρ :=
  if b ≤ c.1.length ∧ r ≤ c.2.length then (.ok v, rest) else (.error .cellUnderflow, c)

/-- Fill up to whole bytes with zeroes. -/
def padToBytes (l : Bits) : Bits := l ++ List.replicate (8 * ((l.length + 7) / 8) - l.length) false

/-- Specification: each operation on plain bits and references. -/
def spec (c : Contents ρ) : LoadOp → Except Err (Val ρ) × Contents ρ
  | .bit => specTake c 1 fun l => .bool (l.getD 0 false)
  | .u8 => specTake c 8 fun l => .nat (natOfBits l)
  | .u16 => specTake c 16 fun l => .nat (natOfBits l)
  | .u32 => specTake c 32 fun l => .nat (natOfBits l)
  | .u64 => specTake c 64 fun l => .nat (natOfBits l)
  | .u128 => specTake c 128 fun l => .nat (natOfBits l)
  | .u256 => specTake c 256 fun l => .bits l
  | .smallUint n => if n ≤ 8 then specTake c n fun l => .nat (natOfBits l) else (.error .cellUnderflow, c)
  | .uint n => if n ≤ 64 then specTake c n fun l => .nat (natOfBits l) else (.error .cellUnderflow, c)
  | .raw cap n => if (n + 7) / 8 ≤ cap then specTake c n fun l => .bits (padToBytes l) else (.error .cellUnderflow, c)
  | .ref => match c.2 with
    | x :: xs => (.ok (.cell x), (c.1, xs))
    | [] => (.error .cellUnderflow, c)
  | .skipFirst b r => specBoth c b r .unit (c.1.drop b, c.2.drop r)
  | .skipLast b r => specBoth c b r .unit (c.1.take (c.1.length - b), c.2.take (c.2.length - r))
  | .onlyFirst b r => specBoth c b r .unit (c.1.take b, c.2.take r)
  | .onlyLast b r => specBoth c b r .unit (c.1.drop (c.1.length - b), c.2.drop (c.2.length - r))
  | .loadPrefix b r => specBoth c b r (.slice (c.1.take b) (c.2.take r)) (c.1.drop b, c.2.drop r)
  | .loadSuffix b r => specBoth c b r (.slice (c.1.drop (c.1.length - b)) (c.2.drop (c.2.length - r)))
      (c.1.take (c.1.length - b), c.2.take (c.2.length - r))

/-- The modelled result `r` on slice `s` agrees with the specified result `e`. -/
def Agrees (s : CSlice ρ) (r : Except Err (Val ρ) × CSlice ρ) (e : Except Err (Val ρ) × Contents ρ) : Prop :=
  r.1 = e.1 ∧ (r.2.bits, r.2.refList) = e.2 ∧ r.2.WF ∧ (∀ x, r.1 = .error x → r.2 = s) ∧
  r.2.data = s.data ∧ r.2.refs = s.refs

theorem agrees_err {s : CSlice ρ} (hs : s.WF) (x : Err) : Agrees s (.error x, s) (.error x, (s.bits, s.refList)) :=
  ⟨rfl, rfl, hs, fun _ _ => rfl, rfl, rfl⟩

theorem advance_agrees {α : Type} {s : CSlice ρ} (hs : s.WF) {res : Except Err α} {w : Nat} {g : α → Val ρ}
    {f : Bits → Val ρ}
    (h1 : w ≤ s.bits.length → ∃ v, res = .ok v ∧ g v = f (s.bits.take w))
    (h2 : ¬ w ≤ s.bits.length → res = .error .cellUnderflow) :
    Agrees s (view g (s.advance res w)) (specTake (s.bits, s.refList) w f) := by
  unfold specTake
  by_cases h : w ≤ s.bits.length
  · obtain ⟨v, e, hv⟩ := h1 h
    obtain ⟨w1, w2, w3⟩ := CSlice.advance_bits hs h
    rw [if_pos h, e]
    refine ⟨?_, ?_, w1, fun x hx => ?_, rfl, rfl⟩
    · show Except.ok (g v) = _
      rw [hv]
    · exact Prod.ext w2 w3
    · cases hx
  · rw [if_neg h, h2 h]
    exact agrees_err hs _

theorem both_agrees {s : CSlice ρ} (hs : s.WF) {b r : Nat} (hb : b ≤ 64511) (hr : r ≤ 251)
    {R : Except Err (Val ρ) × CSlice ρ} {v : Val ρ} {rest : Contents ρ}
    (h1 : s.range.tooSmall b r = false → b ≤ s.bits.length → r ≤ s.refList.length →
      ∃ s', R = (.ok v, s') ∧ s'.WF ∧ (s'.bits, s'.refList) = rest ∧ s'.data = s.data ∧ s'.refs = s.refs)
    (h2 : s.range.tooSmall b r = true → R = (.error .cellUnderflow, s)) :
    Agrees s R (specBoth (s.bits, s.refList) b r v rest) := by
  have a1 := hs.start_le
  have a2 := hs.end_le
  have a3 := hs.data_le
  have a4 := hs.rstart_le
  have a5 := hs.rend_le
  have a6 := hs.refs_le
  have e := CSlice.tooSmall_eq hs (bits := b) (refs := r) (by omega) (by omega)
  unfold specBoth
  by_cases h : b ≤ s.bits.length ∧ r ≤ s.refList.length
  · rw [if_pos h]
    obtain ⟨s', e', w, c, d1, d2⟩ := h1 (by rw [e]; simp [h]) h.1 h.2
    rw [e']
    exact ⟨rfl, c, w, fun x hx => (by cases hx), d1, d2⟩
  · rw [if_neg h, h2 (by
      rw [e]
      simp only [not_and] at h
      by_cases hb : b ≤ s.bits.length
      · simp [hb, h hb]
      · simp [hb])]
    exact agrees_err hs _

theorem packed_bits {v : List Byte} {l : Bits} (h : CSlice.PackedAs v l) : bytesToBits v = padToBytes l := by
  unfold padToBytes
  apply list_ext_getD
  · simp only [bytesToBits_length, List.length_append, List.length_replicate, h.1]
    omega
  · intro i hi
    rw [bytesToBits_getD, h.2, getD_append_bits]
    split
    · simp [*]
    · rw [getD_replicate_false]; simp [*]

end LoadOp

open LoadOp in
/-- C03: one read returns exactly the addressed bits and references of the window and moves the window
by exactly that much; it fails with `CellUnderflow` exactly when the window is too short, and then
leaves the slice unchanged. The window never leaves the cell. -/
theorem C03_read {ρ : Type} {s : CSlice ρ} (hs : s.WF) (op : LoadOp) (hv : op.Valid) :
    Agrees s (op.run s) (op.spec (s.bits, s.refList)) := by
  have a1 := hs.start_le
  have a2 := hs.end_le
  have a3 := hs.data_le
  have a4 := hs.rstart_le
  have a5 := hs.rend_le
  have a6 := hs.refs_le
  have hl := s.bits_length
  have hrl := CSlice.refList_length hs
  have word : ∀ n, 0 < n → n ≤ 8 →
      Agrees s (view (fun v => .nat v.toNat) (s.loadWord n)) (specTake (s.bits, s.refList) (8 * n) fun l => .nat (natOfBits l)) := by
    intro n hn hn8
    have h := CSlice.getWord_spec hn hs (off := 0) (by omega)
    simp only [Nat.zero_add] at h
    refine advance_agrees hs (fun hw => ?_) (fun hw => h.2 hw)
    obtain ⟨v, e, hvb⟩ := h.1 hw
    exact ⟨v, e, by rw [← natOfBits_wordBits, hvb, CSlice.seg_zero]⟩
  have small : ∀ n, n ≤ 8 →
      Agrees s (view (fun v => .nat v.toNat) (s.loadSmallUint n)) (specTake (s.bits, s.refList) n fun l => .nat (natOfBits l)) := by
    intro n hn
    have h := CSlice.getSmallUint_spec hs (off := 0) hn (by omega)
    simp only [Nat.zero_add] at h
    refine advance_agrees hs (fun hw => ?_) (fun hw => h.2 hw (by omega))
    obtain ⟨v, e, hvb⟩ := h.1 hw
    exact ⟨v, e, by rw [hvb, CSlice.seg_zero]⟩
  cases op with
  | bit =>
    simp only [run, spec, specTake, CSlice.loadBit_spec hs]
    by_cases h : 0 < s.bits.length
    · rw [if_pos h, if_pos (show 1 ≤ s.bits.length from h)]
      obtain ⟨w1, w2, w3⟩ := CSlice.advance_bits hs (w := 1) h
      rw [u16add_eq (by omega)] at w1 w2 w3
      refine ⟨?_, Prod.ext w2 w3, w1, fun x hx => (by cases hx), rfl, rfl⟩
      show Except.ok (Val.bool _) = Except.ok (Val.bool _)
      rw [getD_take_bits]; simp
    · rw [if_neg h, if_neg (show ¬ 1 ≤ s.bits.length from h)]
      exact agrees_err hs _
  | u8 => exact small 8 (by omega)
  | u16 => exact word 2 (by omega) (by omega)
  | u32 => exact word 4 (by omega) (by omega)
  | u64 => exact word 8 (by omega) (by omega)
  | u128 =>
    have h := CSlice.getU128_spec hs (off := 0) (by omega)
    simp only [Nat.zero_add] at h
    refine advance_agrees hs (fun hw => ?_) (fun hw => h.2 hw)
    obtain ⟨v, e, hvb⟩ := h.1 hw
    exact ⟨v, e, by rw [← natOfBits_wordBits, hvb, CSlice.seg_zero]⟩
  | u256 =>
    have h := CSlice.getU256_spec hs (off := 0) (by omega)
    simp only [Nat.zero_add] at h
    refine advance_agrees hs (fun hw => ?_) (fun hw => h.2 hw)
    obtain ⟨v, e, _, hvb⟩ := h.1 hw
    exact ⟨v, e, by rw [hvb, CSlice.seg_zero]⟩
  | smallUint n =>
    simp only [run, spec]
    by_cases h : n ≤ 8
    · rw [if_pos h]; exact small n h
    · rw [if_neg h]
      unfold CSlice.loadSmallUint
      rw [CSlice.getSmallUint_wide (by omega)]
      exact agrees_err hs _
  | uint n =>
    simp only [run, spec]
    by_cases hn : n ≤ 64
    · rw [if_pos hn]
      have h := CSlice.getUint_spec hs (off := 0) hn (by omega)
      simp only [Nat.zero_add] at h
      refine advance_agrees hs (fun hw => ?_) (fun hw => h.2 hw (by omega))
      obtain ⟨v, e, hvb⟩ := h.1 hw
      exact ⟨v, e, by rw [hvb, CSlice.seg_zero]⟩
    · rw [if_neg hn]
      unfold CSlice.loadUint
      rw [CSlice.getUint_wide (by omega)]
      exact agrees_err hs _
  | raw cap n =>
    simp only [Valid] at hv
    simp only [run, spec]
    by_cases hn : (n + 7) / 8 ≤ cap
    · rw [if_pos hn]
      refine advance_agrees hs (fun hw => ?_) (fun hw => CSlice.getRaw_zero_err hs (by omega) hw)
      obtain ⟨v, e, hvb⟩ := CSlice.getRaw_ok hs (off := 0) hn (by omega)
      exact ⟨v, e, by rw [packed_bits hvb, CSlice.seg_zero]⟩
    · rw [if_neg hn]
      unfold CSlice.loadRaw
      rw [CSlice.getRaw_small_target hn]
      exact agrees_err hs _
  | ref =>
    have h := CSlice.loadReference_spec hs
    simp only [run, spec]
    cases hc : s.refList with
    | nil =>
      rw [h.2 hc]
      have := agrees_err hs .cellUnderflow
      rw [hc] at this
      exact this
    | cons c cs =>
      obtain ⟨s', e, w, b1, b2⟩ := h.1 c cs hc
      have hd : s'.data = s.data ∧ s'.refs = s.refs := by
        unfold CSlice.loadReference at e
        split at e
        · split at e
          · cases e; exact ⟨rfl, rfl⟩
          · cases e
        · cases e
      rw [e]
      exact ⟨rfl, Prod.ext b1 b2, w, fun x hx => (by cases hx), hd⟩
  | skipFirst b r =>
    simp only [Valid] at hv
    refine both_agrees hs hv.1 hv.2 (fun ht hb hr => ?_) (fun ht => ?_)
    · simp only [run, view, CSlice.skipFirst, CSlice.withRange, SliceRange.skipFirst, ht, Bool.false_eq_true, if_false]
      refine ⟨_, rfl, ?_, ?_, rfl, rfl⟩
      · rw [u16add_eq (by omega), u8add_eq (by omega)]
        exact CSlice.window_wf hs (by dsimp only; omega) (by simp) (by dsimp only; omega) (by simp)
      · rw [u16add_eq (by omega), u8add_eq (by omega)]
        rw [CSlice.window_bits _ _ (by simp) (by simp), CSlice.window_refs _ _ (by simp) (by simp)]
        simp only [Nat.add_sub_cancel_left]
        rw [List.take_of_length_le (by simp; omega), List.take_of_length_le (by simp; omega)]
    · simp only [run, view, CSlice.skipFirst, CSlice.withRange, SliceRange.skipFirst, ht]; rfl
  | onlyFirst b r =>
    simp only [Valid] at hv
    refine both_agrees hs hv.1 hv.2 (fun ht hb hr => ?_) (fun ht => ?_)
    · simp only [run, view, CSlice.onlyFirst, CSlice.withRange, SliceRange.onlyFirst, ht, Bool.false_eq_true, if_false]
      refine ⟨_, rfl, ?_, ?_, rfl, rfl⟩
      · rw [u16add_eq (by omega), u8add_eq (by omega)]
        exact CSlice.window_wf hs (by simp) (by dsimp only; omega) (by simp) (by dsimp only; omega)
      · rw [u16add_eq (by omega), u8add_eq (by omega)]
        rw [CSlice.window_bits _ _ (by simp) (by dsimp only; omega), CSlice.window_refs _ _ (by simp) (by dsimp only; omega)]
        simp
    · simp only [run, view, CSlice.onlyFirst, CSlice.withRange, SliceRange.onlyFirst, ht]; rfl
  | skipLast b r =>
    simp only [Valid] at hv
    refine both_agrees hs hv.1 hv.2 (fun ht hb hr => ?_) (fun ht => ?_)
    · simp only [run, view, CSlice.skipLast, CSlice.withRange, SliceRange.skipLast, ht, Bool.false_eq_true, if_false]
      refine ⟨_, rfl, ?_, ?_, rfl, rfl⟩
      · exact CSlice.window_wf hs (by dsimp only; omega) (by simp) (by dsimp only; omega) (by simp)
      · rw [CSlice.window_bits _ _ (by simp) (by simp), CSlice.window_refs _ _ (by simp) (by simp)]
        simp only [Nat.sub_self, List.drop_zero, hl, hrl]
        rw [show s.range.bitsEnd - b - s.range.bitsStart = s.range.bitsEnd - s.range.bitsStart - b by omega,
          show s.range.refsEnd - r - s.range.refsStart = s.range.refsEnd - s.range.refsStart - r by omega]
    · simp only [run, view, CSlice.skipLast, CSlice.withRange, SliceRange.skipLast, ht]; rfl
  | onlyLast b r =>
    simp only [Valid] at hv
    refine both_agrees hs hv.1 hv.2 (fun ht hb hr => ?_) (fun ht => ?_)
    · simp only [run, view, CSlice.onlyLast, CSlice.withRange, SliceRange.onlyLast, ht, Bool.false_eq_true, if_false]
      refine ⟨_, rfl, ?_, ?_, rfl, rfl⟩
      · exact CSlice.window_wf hs (by simp) (by simp) (by simp) (by simp)
      · rw [CSlice.window_bits _ _ (by dsimp only; omega) (by simp), CSlice.window_refs _ _ (by dsimp only; omega) (by simp)]
        dsimp only
        rw [List.take_of_length_le (by simp; omega), List.take_of_length_le (by simp; omega), hl, hrl,
          show s.range.bitsEnd - b - s.range.bitsStart = s.range.bitsEnd - s.range.bitsStart - b by omega,
          show s.range.refsEnd - r - s.range.refsStart = s.range.refsEnd - s.range.refsStart - r by omega]
    · simp only [run, view, CSlice.onlyLast, CSlice.withRange, SliceRange.onlyLast, ht]; rfl
  | loadPrefix b r =>
    simp only [Valid] at hv
    refine both_agrees hs hv.1 hv.2 (fun ht hb hr => ?_) (fun ht => ?_)
    · simp only [run, view, CSlice.loadPrefix, SliceRange.splitPrefix, ht, Bool.false_eq_true, if_false]
      rw [u16add_eq (by omega), u8add_eq (by omega)]
      refine ⟨_, Prod.ext ?_ rfl, CSlice.window_wf hs (by dsimp only; omega) (by simp) (by dsimp only; omega) (by simp), ?_, rfl, rfl⟩
      · show Except.ok (Val.slice _ _) = Except.ok (Val.slice _ _)
        rw [CSlice.window_bits _ _ (by simp) (by dsimp only; omega), CSlice.window_refs _ _ (by simp) (by dsimp only; omega)]
        simp
      · rw [CSlice.window_bits _ _ (by simp) (by simp), CSlice.window_refs _ _ (by simp) (by simp)]
        simp only [Nat.add_sub_cancel_left]
        rw [List.take_of_length_le (by simp; omega), List.take_of_length_le (by simp; omega)]
    · simp only [run, view, CSlice.loadPrefix, SliceRange.splitPrefix, ht]; rfl
  | loadSuffix b r =>
    simp only [Valid] at hv
    refine both_agrees hs hv.1 hv.2 (fun ht hb hr => ?_) (fun ht => ?_)
    · simp only [run, view, CSlice.loadSuffix, SliceRange.splitSuffix, ht, Bool.false_eq_true, if_false]
      refine ⟨_, Prod.ext ?_ rfl, CSlice.window_wf hs (by dsimp only; omega) (by simp) (by dsimp only; omega) (by simp), ?_, rfl, rfl⟩
      · show Except.ok (Val.slice _ _) = Except.ok (Val.slice _ _)
        rw [CSlice.window_bits _ _ (by dsimp only; omega) (by simp), CSlice.window_refs _ _ (by dsimp only; omega) (by simp)]
        dsimp only
        rw [List.take_of_length_le (by simp; omega), List.take_of_length_le (by simp; omega), hl, hrl,
          show s.range.bitsEnd - b - s.range.bitsStart = s.range.bitsEnd - s.range.bitsStart - b by omega,
          show s.range.refsEnd - r - s.range.refsStart = s.range.refsEnd - s.range.refsStart - r by omega]
      · rw [CSlice.window_bits _ _ (by simp) (by simp), CSlice.window_refs _ _ (by simp) (by simp)]
        simp only [Nat.sub_self, List.drop_zero, hl, hrl]
        rw [show s.range.bitsEnd - b - s.range.bitsStart = s.range.bitsEnd - s.range.bitsStart - b by omega,
          show s.range.refsEnd - r - s.range.refsStart = s.range.refsEnd - s.range.refsStart - r by omega]
    · simp only [run, view, CSlice.loadSuffix, SliceRange.splitSuffix, ht]; rfl

/-- Run a list of reads, failing ones included. -/
def runLoads {ρ : Type} (s : CSlice ρ) : List LoadOp → List (Except Err (Val ρ)) × CSlice ρ
  | [] => ([], s)
  | op :: ops => let r := op.run s; let rest := runLoads r.2 ops; (r.1 :: rest.1, rest.2)

/-- The same on plain contents. -/
def specLoads {ρ : Type} (c : LoadOp.Contents ρ) : List LoadOp → List (Except Err (Val ρ)) × LoadOp.Contents ρ
  | [] => ([], c)
  | op :: ops => let r := op.spec c; let rest := specLoads r.2 ops; (r.1 :: rest.1, rest.2)

/-- C03 (histories): any sequence of reads returns what the same sequence returns on the plain list of
bits and references of the original window. -/
theorem C03_read_history {ρ : Type} (ops : List LoadOp) (hv : ∀ op ∈ ops, op.Valid) {s : CSlice ρ} (hs : s.WF) :
    (runLoads s ops).1 = (specLoads (s.bits, s.refList) ops).1 ∧
    ((runLoads s ops).2.bits, (runLoads s ops).2.refList) = (specLoads (s.bits, s.refList) ops).2 ∧
    (runLoads s ops).2.WF := by
  induction ops generalizing s with
  | nil => exact ⟨rfl, rfl, hs⟩
  | cons op ops ih =>
    obtain ⟨h1, h2, h3, _⟩ := C03_read hs op (hv op (by simp))
    obtain ⟨i1, i2, i3⟩ := ih (fun o ho => hv o (by simp [ho])) h3
    rw [h2] at i1 i2
    simp only [runLoads, specLoads]
    exact ⟨by rw [h1, i1], i2, i3⟩

/-- C03: splitting gives two well-formed windows whose contents concatenate to the original. -/
theorem C03_split {ρ : Type} {s p s' : CSlice ρ} (hs : s.WF) {b r : Nat} (hb : b ≤ 64511) (hr : r ≤ 251) :
    (s.loadPrefix b r = (.ok p, s') → p.WF ∧ s'.WF ∧ p.bits ++ s'.bits = s.bits ∧ p.refList ++ s'.refList = s.refList ∧
      p.bits.length = b ∧ p.refList.length = r) ∧
    (s.loadSuffix b r = (.ok p, s') → p.WF ∧ s'.WF ∧ s'.bits ++ p.bits = s.bits ∧ s'.refList ++ p.refList = s.refList ∧
      p.bits.length = b ∧ p.refList.length = r) := by
  have a1 := hs.start_le
  have a2 := hs.end_le
  have a3 := hs.data_le
  have a4 := hs.rstart_le
  have a5 := hs.rend_le
  have a6 := hs.refs_le
  have hl := s.bits_length
  have hrl := CSlice.refList_length hs
  have e := CSlice.tooSmall_eq hs (bits := b) (refs := r) (by omega) (by omega)
  constructor
  · intro h
    have c := C03_read hs (.loadPrefix b r) ⟨hb, hr⟩
    simp only [LoadOp.run, LoadOp.spec, h, LoadOp.specBoth, LoadOp.view] at c
    split at c
    · rename_i hc
      obtain ⟨c1, c2, c3, _⟩ := c
      simp only [Except.map, Except.ok.injEq, Val.slice.injEq] at c1
      simp only [Prod.mk.injEq] at c2
      refine ⟨?_, c3, by rw [c1.1, c2.1]; simp, by rw [c1.2, c2.2]; simp, by rw [c1.1]; simp [hc.1], by rw [c1.2]; simp [hc.2]⟩
      unfold CSlice.loadPrefix SliceRange.splitPrefix at h
      rw [e] at h
      simp only [hc, decide_true, Bool.and_true, Bool.not_true, Bool.false_eq_true, if_false, Except.map] at h
      cases h
      rw [u16add_eq (by omega), u8add_eq (by omega)]
      exact CSlice.window_wf hs (by simp) (by dsimp only; omega) (by simp) (by dsimp only; omega)
    · exact absurd c.1 (by simp [Except.map])
  · intro h
    have c := C03_read hs (.loadSuffix b r) ⟨hb, hr⟩
    simp only [LoadOp.run, LoadOp.spec, h, LoadOp.specBoth, LoadOp.view] at c
    split at c
    · rename_i hc
      obtain ⟨c1, c2, c3, _⟩ := c
      simp only [Except.map, Except.ok.injEq, Val.slice.injEq] at c1
      simp only [Prod.mk.injEq] at c2
      refine ⟨?_, c3, by rw [c1.1, c2.1]; simp, by rw [c1.2, c2.2]; simp, by rw [c1.1]; simp; omega, by rw [c1.2]; simp; omega⟩
      unfold CSlice.loadSuffix SliceRange.splitSuffix at h
      rw [e] at h
      simp only [hc, decide_true, Bool.and_true, Bool.not_true, Bool.false_eq_true, if_false, Except.map] at h
      cases h
      exact CSlice.window_wf hs (by simp) (by simp) (by simp) (by simp)
    · exact absurd c.1 (by simp [Except.map])

/-- C03: reads at an offset that do not move the window. `None` bits are addressed outside the window. -/
theorem C03_get {ρ : Type} {s : CSlice ρ} (hs : s.WF) (off : Nat) (ho : off ≤ 64000) :
    (s.getBit off = if off < s.bits.length then .ok (s.bits.getD off false) else .error .cellUnderflow) ∧
    (∀ n, 0 < n → n ≤ 8 → (s.getWord n off).map BitVec.toNat = if off + 8 * n ≤ s.bits.length then
        .ok (natOfBits ((s.bits.drop off).take (8 * n))) else .error .cellUnderflow) ∧
    ((s.getU128 off).map BitVec.toNat = if off + 128 ≤ s.bits.length then
        .ok (natOfBits ((s.bits.drop off).take 128)) else .error .cellUnderflow) ∧
    ((s.getU256 off).map bytesToBits = if off + 256 ≤ s.bits.length then
        .ok ((s.bits.drop off).take 256) else .error .cellUnderflow) ∧
    (∀ n, n ≤ 8 → (s.getSmallUint off n).map BitVec.toNat = if n = 0 ∨ off + n ≤ s.bits.length then
        .ok (natOfBits ((s.bits.drop off).take n)) else .error .cellUnderflow) ∧
    (∀ n, n ≤ 64 → (s.getUint off n).map BitVec.toNat = if n = 0 ∨ off + n ≤ s.bits.length then
        .ok (natOfBits ((s.bits.drop off).take n)) else .error .cellUnderflow) := by
  have a1 := hs.start_le
  have a2 := hs.end_le
  have a3 := hs.data_le
  refine ⟨CSlice.getBit_spec hs (by omega), ?_, ?_, ?_, ?_, ?_⟩
  · intro n hn hn8
    have h := CSlice.getWord_spec hn hs (off := off) (by omega)
    split
    · obtain ⟨v, e, hv⟩ := h.1 (by assumption)
      rw [e]; show Except.ok _ = Except.ok _
      rw [← natOfBits_wordBits, hv]; rfl
    · rw [h.2 (by assumption)]; rfl
  · have h := CSlice.getU128_spec hs (off := off) (by omega)
    split
    · obtain ⟨v, e, hv⟩ := h.1 (by assumption)
      rw [e]; show Except.ok _ = Except.ok _
      rw [← natOfBits_wordBits, hv]; rfl
    · rw [h.2 (by assumption)]; rfl
  · have h := CSlice.getU256_spec hs (off := off) (by omega)
    split
    · obtain ⟨v, e, _, hv⟩ := h.1 (by assumption)
      rw [e]; show Except.ok _ = Except.ok _
      rw [hv]; rfl
    · rw [h.2 (by assumption)]; rfl
  · intro n hn
    have h := CSlice.getSmallUint_spec hs (off := off) hn (by omega)
    by_cases h0 : n = 0
    · subst h0; simp [CSlice.getSmallUint, Except.map]
    · by_cases h1 : off + n ≤ s.bits.length
      · rw [if_pos (.inr h1)]
        obtain ⟨v, e, hv⟩ := h.1 h1
        rw [e]; show Except.ok _ = Except.ok _
        rw [hv]; rfl
      · rw [if_neg (by omega), h.2 h1 h0]; rfl
  · intro n hn
    have h := CSlice.getUint_spec hs (off := off) hn (by omega)
    by_cases h0 : n = 0
    · subst h0; simp [CSlice.getUint, Except.map]
    · by_cases h1 : off + n ≤ s.bits.length
      · rw [if_pos (.inr h1)]
        obtain ⟨v, e, hv⟩ := h.1 h1
        rw [e]; show Except.ok _ = Except.ok _
        rw [hv]; rfl
      · rw [if_neg (by omega), h.2 h1 h0]; rfl

/-- C03: `get_reference`, and the clamping `get_prefix`. -/
theorem C03_get_reference {ρ : Type} {s : CSlice ρ} (hs : s.WF) (i : Nat) (hi : i ≤ 251) :
    s.getReference i = match s.refList[i]? with | some c => .ok c | none => .error .cellUnderflow :=
  CSlice.getReference_spec hs (by have := hs.rstart_le; have := hs.rend_le; have := hs.refs_le; omega)

theorem C03_get_prefix {ρ : Type} {s : CSlice ρ} (hs : s.WF) {b r : Nat} (hb : b ≤ 64511) (hr : r ≤ 251) :
    (s.getPrefix b r).WF ∧ (s.getPrefix b r).bits = s.bits.take b ∧ (s.getPrefix b r).refList = s.refList.take r := by
  have a1 := hs.start_le
  have a2 := hs.end_le
  have a3 := hs.data_le
  have a4 := hs.rstart_le
  have a5 := hs.rend_le
  have a6 := hs.refs_le
  have hl := s.bits_length
  have hrl := CSlice.refList_length hs
  unfold CSlice.getPrefix SliceRange.getPrefix
  rw [u16add_eq (by omega), u8add_eq (by omega)]
  refine ⟨CSlice.window_wf hs (by dsimp only; omega) (by dsimp only; omega) (by dsimp only; omega) (by dsimp only; omega), ?_, ?_⟩
  · rw [CSlice.window_bits _ _ (by simp) (by dsimp only; omega)]
    simp only [Nat.sub_self, List.drop_zero]
    rw [show min (s.range.bitsStart + b) s.range.bitsEnd - s.range.bitsStart = min b s.bits.length by omega]
    rw [List.take_eq_take_iff]; omega
  · rw [CSlice.window_refs _ _ (by simp) (by dsimp only; omega)]
    simp only [Nat.sub_self, List.drop_zero]
    rw [show min (s.range.refsStart + r) s.range.refsEnd - s.range.refsStart = min r s.refList.length by omega]
    rw [List.take_eq_take_iff]; omega

/-- Non-vacuity: an unaligned window over five bytes with two of three references. -/
example :
    let s : CSlice Nat := { data := [0xab, 0xcd, 0xef, 0x12, 0x34], refs := [10, 11, 12], range := ⟨3, 38, 1, 3⟩ }
    s.WF ∧ (runLoads s [.bit, .u16, .ref, .uint 40, .skipLast 2 0, .loadPrefix 3 1, .raw 2 12]).1 =
      [.ok (.bool false), .ok (.nat 0xbcde), .ok (.cell 11), .error .cellUnderflow, .ok .unit,
        .ok (.slice [true, true, true] [12]), .ok (.bits (natBits 12 0x891 ++ [false, false, false, false]))] := by
  refine ⟨⟨by decide, by decide, by decide, by decide, by decide, by decide⟩, by decide +kernel⟩

/-! ### C01 on cell builders, C02 -/

/-- The store operations of `CellBuilder`: data, a reference, a slice, another builder. -/
inductive BuildOp (ρ : Type) where
  | data (op : StoreOp)
  | ref (c : ρ)
  | slice (s : CSlice ρ)
  | builder (b : CellB ρ)

namespace BuildOp
variable {ρ : Type}

def run (b : CellB ρ) : BuildOp ρ → Except Err Unit × CellB ρ
  | .data op => b.onData (op.run b.inner)
  | .ref c => b.storeReference c
  | .slice s => b.storeSlice s
  | .builder o => b.storeBuilder o

def Valid : BuildOp ρ → Prop
  | .data op => op.Valid
  | .ref _ => True
  | .slice s => s.WF
  | .builder o => o.WF

/-- Specification: the bits an operation appends. -/
def newBits : BuildOp ρ → Bits
  | .data op => op.expected
  | .ref _ => []
  | .slice s => s.bits
  | .builder o => o.inner.bits

/-- Specification: the references an operation appends. -/
def newRefs : BuildOp ρ → List ρ
  | .data _ => []
  | .ref c => [c]
  | .slice s => s.refList
  | .builder o => o.refs

/-- Specification of one store on plain contents. -/
def spec (c : LoadOp.Contents ρ) (op : BuildOp ρ) : Except Err Unit × LoadOp.Contents ρ :=
  if c.1.length + op.newBits.length ≤ 1023 ∧ c.2.length + op.newRefs.length ≤ 4 then
    (.ok (), (c.1 ++ op.newBits, c.2 ++ op.newRefs))
  else (.error .cellOverflow, c)

end BuildOp

/-- C01: one store into a cell builder appends exactly the bits and references of the stored thing, or
fails with `CellOverflow` exactly when the limits (1023 bits, 4 references) would be exceeded, and then
changes nothing. -/
theorem C01_cell_store {ρ : Type} {b : CellB ρ} (hb : b.WF) (op : BuildOp ρ) (hv : op.Valid) :
    (op.run b).1 = (op.spec (b.inner.bits, b.refs)).1 ∧
    ((op.run b).2.inner.bits, (op.run b).2.refs) = (op.spec (b.inner.bits, b.refs)).2 ∧
    (op.run b).2.WF ∧ ((op.run b).1 ≠ .ok () → (op.run b).2 = b) := by
  have hbl := DataBuilder.bits_length b.inner
  have hle := hb.inner.le
  have hrf := hb.refs
  have hm : maxBitLen = 1023 := rfl
  have hr : maxRefCount = 4 := rfl
  have key : (b.inner.bits.length + op.newBits.length ≤ 1023 ∧ b.refs.length + op.newRefs.length ≤ 4 →
        CellB.AppendsBoth b (op.run b) op.newBits op.newRefs) ∧
      (¬ (b.inner.bits.length + op.newBits.length ≤ 1023 ∧ b.refs.length + op.newRefs.length ≤ 4) →
        op.run b = (.error .cellOverflow, b)) := by
    cases op with
    | data op =>
      simp only [BuildOp.run, BuildOp.newBits, BuildOp.newRefs, List.length_nil, Nat.add_zero, CellB.onData]
      have h := op.step hb.inner hv
      constructor
      · rintro ⟨h1, _⟩
        obtain ⟨b', e, w, hbits⟩ := h.1 (by omega)
        rw [e]
        exact ⟨_, rfl, ⟨w, hb.refs⟩, hbits, by simp, rfl⟩
      · intro h1
        rw [h.2 (by omega)]
    | ref c =>
      simp only [BuildOp.run, BuildOp.newBits, BuildOp.newRefs, List.length_nil, Nat.add_zero, List.length_singleton]
      unfold CellB.storeReference
      constructor
      · rintro ⟨h1, h2⟩
        rw [if_pos (by omega)]
        exact ⟨_, rfl, ⟨hb.inner, by simp; omega⟩, by simp, rfl, rfl⟩
      · intro h1
        rw [if_neg (by omega)]
    | slice s => exact CellB.storeSlice_spec hb hv
    | builder o => exact CellB.storeBuilder_spec hb hv
  unfold BuildOp.spec
  by_cases h : b.inner.bits.length + op.newBits.length ≤ 1023 ∧ b.refs.length + op.newRefs.length ≤ 4
  · rw [if_pos h]
    obtain ⟨b', e, w, h1, h2, _⟩ := key.1 h
    rw [e]
    exact ⟨rfl, Prod.ext h1 h2, w, fun hx => absurd rfl hx⟩
  · rw [if_neg h, key.2 h]
    exact ⟨rfl, rfl, hb, fun _ => rfl⟩

/-- Run a program of stores, stopping at the first failure as `?` does. -/
def runBuild {ρ : Type} (b : CellB ρ) : List (BuildOp ρ) → Except Err (CellB ρ)
  | [] => .ok b
  | op :: ops => match op.run b with
    | (.ok (), b) => runBuild b ops
    | (.error e, _) => .error e

namespace BuildOp
variable {ρ : Type}

/-- The load that mirrors a store. -/
def mirror : BuildOp ρ → LoadOp
  | .data (.bit _) => .bit
  | .data (.zeros n) | .data (.ones n) => .raw 128 n
  | .data (.u8 _) => .u8
  | .data (.u16 _) => .u16
  | .data (.u32 _) => .u32
  | .data (.u64 _) => .u64
  | .data (.u128 _) => .u128
  | .data (.u256 _) => .u256
  | .data (.smallUint _ n) => .smallUint n
  | .data (.uint _ n) => .uint n
  | .data (.raw _ n) => .raw 128 n
  | .ref _ => .ref
  | .slice s => .loadPrefix s.bits.length s.refList.length
  | .builder o => .loadPrefix o.inner.bits.length o.refs.length

/-- The value the mirrored load has to return. -/
def value : BuildOp ρ → Val ρ
  | .data (.bit v) => .bool v
  | .data (.zeros n) => .bits (LoadOp.padToBytes (List.replicate n false))
  | .data (.ones n) => .bits (LoadOp.padToBytes (List.replicate n true))
  | .data (.u8 v) => .nat v.toNat
  | .data (.u16 v) => .nat v.toNat
  | .data (.u32 v) => .nat v.toNat
  | .data (.u64 v) => .nat v.toNat
  | .data (.u128 v) => .nat v.toNat
  | .data (.u256 v) => .bits (bytesToBits v)
  | .data (.smallUint v n) => .nat (v.toNat % 2 ^ n)
  | .data (.uint v n) => .nat (v.toNat % 2 ^ n)
  | .data (.raw v n) => .bits (LoadOp.padToBytes (rawBits v n))
  | .ref c => .cell c
  | .slice s => .slice s.bits s.refList
  | .builder o => .slice o.inner.bits o.refs

/-- Integers are read with the width they were stored with; the readers take at most 8 / 64 bits. -/
def Readable : BuildOp ρ → Prop
  | .data (.smallUint _ n) => n ≤ 8
  | .data (.uint _ n) => n ≤ 64
  | _ => True

theorem specTake_append (x y : Bits) (rs : List ρ) (f : Bits → Val ρ) (n : Nat) (h : x.length = n) :
    LoadOp.specTake (x ++ y, rs) n f = (.ok (f x), (y, rs)) := by
  subst h
  simp [LoadOp.specTake]

/-- A mirrored load on contents that begin with what was stored. -/
theorem mirror_spec (op : BuildOp ρ) (hv : op.Valid) (hr : op.Readable) (hl : op.newBits.length ≤ 1023)
    (bits : Bits) (refs : List ρ) :
    op.mirror.spec (op.newBits ++ bits, op.newRefs ++ refs) = (.ok op.value, (bits, refs)) := by
  have nb : ∀ (w : Nat) (v : BitVec w), natOfBits (natBits w v.toNat) = v.toNat := fun w v => by
    rw [natOfBits_natBits, Nat.mod_eq_of_lt v.isLt]
  cases op with
  | data op =>
    cases op with
    | bit v =>
      simp only [mirror, LoadOp.spec, newBits, newRefs, value, StoreOp.expected, List.nil_append]
      rw [specTake_append _ _ _ _ _ (by simp)]
      simp
    | zeros n =>
      simp only [newBits, StoreOp.expected, List.length_replicate] at hl
      simp only [mirror, LoadOp.spec, newBits, newRefs, value, StoreOp.expected, List.nil_append]
      rw [if_pos (by omega)]
      rw [specTake_append _ _ _ _ _ (by simp)]
    | ones n =>
      simp only [newBits, StoreOp.expected, List.length_replicate] at hl
      simp only [mirror, LoadOp.spec, newBits, newRefs, value, StoreOp.expected, List.nil_append]
      rw [if_pos (by omega)]
      rw [specTake_append _ _ _ _ _ (by simp)]
    | u8 v =>
      simp only [mirror, LoadOp.spec, newBits, newRefs, value, StoreOp.expected, List.nil_append]
      rw [specTake_append _ _ _ _ _ (by simp)]
      simp only [nb]
    | u16 v =>
      simp only [mirror, LoadOp.spec, newBits, newRefs, value, StoreOp.expected, List.nil_append]
      rw [specTake_append _ _ _ _ _ (by simp)]
      simp only [nb]
    | u32 v =>
      simp only [mirror, LoadOp.spec, newBits, newRefs, value, StoreOp.expected, List.nil_append]
      rw [specTake_append _ _ _ _ _ (by simp)]
      simp only [nb]
    | u64 v =>
      simp only [mirror, LoadOp.spec, newBits, newRefs, value, StoreOp.expected, List.nil_append]
      rw [specTake_append _ _ _ _ _ (by simp)]
      simp only [nb]
    | u128 v =>
      simp only [mirror, LoadOp.spec, newBits, newRefs, value, StoreOp.expected, List.nil_append]
      rw [specTake_append _ _ _ _ _ (by simp)]
      simp only [nb]
    | u256 v =>
      have hv : v.length = 32 := hv
      simp only [mirror, LoadOp.spec, newBits, newRefs, value, StoreOp.expected, List.nil_append]
      rw [specTake_append _ _ _ _ _ (by simp [hv])]
    | smallUint v n =>
      have hr : n ≤ 8 := hr
      simp only [mirror, LoadOp.spec, newBits, newRefs, value, StoreOp.expected, List.nil_append]
      rw [if_pos hr]
      rw [specTake_append _ _ _ _ _ (by simp)]
      simp only [natOfBits_natBits]
    | uint v n =>
      have hr : n ≤ 64 := hr
      simp only [mirror, LoadOp.spec, newBits, newRefs, value, StoreOp.expected, List.nil_append]
      rw [if_pos hr]
      rw [specTake_append _ _ _ _ _ (by simp)]
      simp only [natOfBits_natBits]
    | raw v n =>
      simp only [newBits, StoreOp.expected, rawBits_length] at hl
      simp only [mirror, LoadOp.spec, newBits, newRefs, value, StoreOp.expected, List.nil_append]
      rw [if_pos (by omega)]
      rw [specTake_append _ _ _ _ _ (by simp)]
  | ref c => rfl
  | slice s => simp [mirror, LoadOp.spec, LoadOp.specBoth, newBits, newRefs, value]
  | builder o => simp [mirror, LoadOp.spec, LoadOp.specBoth, newBits, newRefs, value]

theorem mirror_valid (op : BuildOp ρ) (h : op.Readable) (hb : op.newBits.length ≤ 1023) (hr : op.newRefs.length ≤ 4) :
    op.mirror.Valid := by
  cases op with
  | data op =>
    cases op <;> simp_all [mirror, LoadOp.Valid, Readable, newBits, StoreOp.expected] <;> omega
  | ref c => trivial
  | slice s => simp only [newBits, newRefs] at hb hr; exact ⟨by omega, by omega⟩
  | builder o => simp only [newBits, newRefs] at hb hr; exact ⟨by omega, by omega⟩

end BuildOp

/-- Running a store program to the end: the contents are the concatenation of what was stored. -/
theorem runBuild_ok {ρ : Type} (ops : List (BuildOp ρ)) (hv : ∀ op ∈ ops, op.Valid) {b b' : CellB ρ} (hb : b.WF)
    (h : runBuild b ops = .ok b') :
    b'.WF ∧ b'.inner.bits = b.inner.bits ++ (ops.map BuildOp.newBits).flatten ∧
      b'.refs = b.refs ++ (ops.map BuildOp.newRefs).flatten ∧
      ∀ op ∈ ops, op.newBits.length ≤ 1023 ∧ op.newRefs.length ≤ 4 := by
  induction ops generalizing b with
  | nil => cases h; exact ⟨hb, by simp, by simp, by simp⟩
  | cons op ops ih =>
    obtain ⟨c1, c2, c3, _⟩ := C01_cell_store hb op (hv op (by simp))
    unfold runBuild at h
    split at h
    · rename_i b1 he
      rw [he] at c1 c2 c3
      unfold BuildOp.spec at c1 c2
      split at c1
      · rename_i hlim
        rw [if_pos hlim] at c2
        simp only [Prod.mk.injEq] at c2
        obtain ⟨i1, i2, i3, i4⟩ := ih (fun o ho => hv o (by simp [ho])) c3 h
        refine ⟨i1, by rw [i2, c2.1]; simp, by rw [i3, c2.2]; simp, ?_⟩
        intro o ho
        rcases List.mem_cons.mp ho with rfl | ho
        · exact ⟨by omega, by omega⟩
        · exact i4 o ho
      · cases c1
    · cases h

/-- C02: whatever sequence of stores built a cell, the mirrored sequence of loads on a slice over the
finished cell succeeds, returns the stored values in order and consumes the slice completely. -/
theorem C02_load_after_store {ρ : Type} (ops : List (BuildOp ρ)) (hv : ∀ op ∈ ops, op.Valid)
    (hr : ∀ op ∈ ops, op.Readable) {b : CellB ρ} (h : runBuild CellB.new ops = .ok b) :
    (runLoads b.asSlice (ops.map BuildOp.mirror)).1 = ops.map (fun op => .ok op.value) ∧
    (runLoads b.asSlice (ops.map BuildOp.mirror)).2.bits = [] ∧
    (runLoads b.asSlice (ops.map BuildOp.mirror)).2.refList = [] := by
  obtain ⟨w, hb, hrf, hlim⟩ := runBuild_ok ops hv CellB.wf_new h
  obtain ⟨s1, s2, s3⟩ := CellB.asSlice_spec w
  have spec : ∀ (l : List (BuildOp ρ)), (∀ op ∈ l, op.Valid ∧ op.Readable ∧ op.newBits.length ≤ 1023) → ∀ bits refs,
      specLoads ((l.map BuildOp.newBits).flatten ++ bits, (l.map BuildOp.newRefs).flatten ++ refs) (l.map BuildOp.mirror)
        = (l.map (fun op => .ok op.value), (bits, refs)) := by
    intro l
    induction l with
    | nil => intro _ bits refs; rfl
    | cons op l ih =>
      intro hl bits refs
      obtain ⟨o1, o2, o3⟩ := hl op (by simp)
      simp only [List.map_cons, List.flatten_cons, List.append_assoc, specLoads]
      rw [BuildOp.mirror_spec op o1 o2 o3]
      simp only
      rw [ih (fun o ho => hl o (by simp [ho]))]
  have c := C03_read_history (ops.map BuildOp.mirror) (by
    intro o ho
    obtain ⟨op, h1, rfl⟩ := List.mem_map.mp ho
    exact op.mirror_valid (hr op h1) (hlim op h1).1 (hlim op h1).2) s1
  have sp := spec ops (fun op ho => ⟨hv op ho, hr op ho, (hlim op ho).1⟩) [] []
  rw [s2, s3, hb, hrf] at c
  have n1 : (CellB.new : CellB ρ).inner.bits = [] := rfl
  have n2 : (CellB.new : CellB ρ).refs = [] := rfl
  rw [n1, n2] at c
  simp only [List.append_nil] at sp
  simp only [List.nil_append, sp, Prod.mk.injEq] at c
  exact ⟨c.1, c.2.1.1, c.2.1.2⟩

/-- Non-vacuity of C01/C02: an unaligned program with a reference and an embedded slice. -/
example :
    let inner : CSlice Nat := { data := [0xab, 0xcd], refs := [7, 8], range := ⟨3, 14, 1, 2⟩ }
    let ops : List (BuildOp Nat) := [.data (.bit true), .data (.uint 0x1ff 13), .ref 5, .slice inner, .data (.u32 0xdeadbeef)]
    inner.WF ∧ (runBuild CellB.new ops).map (fun b => (b.inner.bits.length, b.refs)) = .ok (57, [5, 8]) ∧
    (runBuild CellB.new ops).map (fun b => (runLoads b.asSlice (ops.map BuildOp.mirror)).1) =
      .ok [.ok (.bool true), .ok (.nat 0x1ff), .ok (.cell 5), .ok (.slice (natBits 11 0x2f3) [8]), .ok (.nat 0xdeadbeef)] := by
  refine ⟨⟨by decide, by decide, by decide, by decide, by decide, by decide⟩, by decide +kernel, by decide +kernel⟩

/-! ### C04 -/

/-- C04: `lex_cmp` is the lexicographic order of the bit strings. -/
theorem C04_lex_cmp {ρ : Type} {a b : CSlice ρ} (ha : a.WF) (hb : b.WF) {samePtr : Bool}
    (hsame : samePtr = true → a.data = b.data) : CSlice.lexCmp samePtr a b = .ok (lexBits a.bits b.bits) :=
  CSlice.lexCmp_spec ha hb hsame

/-- C04: `longest_common_data_prefix` returns a common prefix, and every common prefix is at most as long. -/
theorem C04_longest_common_prefix {ρ : Type} {s o : CSlice ρ} (hs : s.WF) (ho : o.WF) :
    ∃ p, s.longestCommonDataPrefix o = .ok p ∧ p.WF ∧ p.refList = [] ∧ p.bits <+: s.bits ∧ p.bits <+: o.bits ∧
      ∀ l, l <+: s.bits → l <+: o.bits → l <+: p.bits := by
  have a2 := hs.end_le
  have a3 := hs.data_le
  have hl := s.bits_length
  have hle := CSlice.commonPrefixLen_le s.bits o.bits
  have hsp := CSlice.commonPrefixLen_spec s.bits o.bits
  unfold CSlice.longestCommonDataPrefix
  rw [CSlice.lcpImpl_spec hs ho, DataBuilder.bind_ok, Nat.min_eq_left (by omega)]
  obtain ⟨w, e1, e2⟩ := C03_get_prefix hs (b := commonPrefixLen s.bits o.bits) (r := 0) (by omega) (by omega)
  have common : s.bits.take (commonPrefixLen s.bits o.bits) = o.bits.take (commonPrefixLen s.bits o.bits) := by
    apply list_ext_getD
    · simp; omega
    · intro i hi
      simp at hi
      rw [getD_take_bits, getD_take_bits, hsp.1 i (by omega)]
  refine ⟨_, rfl, w, by rw [e2]; simp, ?_, ?_, ?_⟩
  · rw [e1]; exact List.take_prefix _ _
  · rw [e1, common]; exact List.take_prefix _ _
  · intro l h1 h2
    rw [e1]
    have g1 := List.prefix_iff_eq_take.mp h1
    have g2 := List.prefix_iff_eq_take.mp h2
    have q1 := h1.length_le
    have q2 := h2.length_le
    have : l.length ≤ commonPrefixLen s.bits o.bits := by
      refine Nat.le_of_not_lt fun hn => ?_
      have := hsp.2 (by omega)
      apply this
      have e : (s.bits.take l.length).getD (commonPrefixLen s.bits o.bits) false
        = (o.bits.take l.length).getD (commonPrefixLen s.bits o.bits) false := by rw [← g1, ← g2]
      rw [getD_take_bits, getD_take_bits] at e
      simpa [show commonPrefixLen s.bits o.bits < l.length by omega] using e
    rw [List.prefix_iff_eq_take, List.take_take, Nat.min_eq_left this]
    exact g1

/-- C04: `strip_data_prefix` succeeds exactly when the prefix is there, and returns the rest. -/
theorem C04_strip_prefix {ρ : Type} {s p : CSlice ρ} (hs : s.WF) (hp : p.WF) :
    (∀ rest, s.bits = p.bits ++ rest → ∃ s', s.stripDataPrefix p = .ok (some s') ∧ s'.WF ∧ s'.bits = rest ∧ s'.refList = s.refList) ∧
    ((¬ p.bits <+: s.bits) → s.stripDataPrefix p = .ok none) := by
  have a1 := hs.start_le
  have a2 := hs.end_le
  have a3 := hs.data_le
  have hl := s.bits_length
  have hpl := p.bits_length
  unfold CSlice.stripDataPrefix SliceRange.sizeBits
  simp only [← hl, ← hpl]
  constructor
  · intro rest h
    by_cases h0 : p.bits.length = 0
    · rw [if_pos h0]
      have : p.bits = [] := List.length_eq_zero_iff.mp h0
      exact ⟨s, rfl, hs, by simpa [this] using h, rfl⟩
    · have hll : s.bits.length = p.bits.length + rest.length := by rw [h]; simp
      rw [if_neg h0, if_neg (by omega), CSlice.lcpImpl_spec hs hp, DataBuilder.bind_ok]
      have : commonPrefixLen s.bits p.bits = p.bits.length := by
        apply commonPrefixLen_eq
        · omega
        · intro j hj; rw [h, getD_append_bits, if_pos hj]
        · omega
      rw [this, Nat.min_self, if_pos (Nat.le_refl _)]
      have c := C03_read hs (.skipFirst p.bits.length 0) ⟨by omega, by omega⟩
      simp only [LoadOp.run, LoadOp.spec, LoadOp.specBoth, LoadOp.view] at c
      rw [if_pos ⟨by omega, by omega⟩] at c
      obtain ⟨c1, c2, c3, _⟩ := c
      cases hk : s.skipFirst p.bits.length 0 with
      | mk r s' =>
        rw [hk] at c1 c2 c3
        cases r with
        | error e => simp [Except.map] at c1
        | ok u =>
          simp only [Prod.mk.injEq] at c2
          exact ⟨s', rfl, c3, by rw [c2.1, h]; simp, by rw [c2.2]; simp⟩
  · intro h
    have h0 : p.bits.length ≠ 0 := by
      intro h0
      have : p.bits = [] := List.length_eq_zero_iff.mp h0
      exact h (by rw [this]; exact List.nil_prefix)
    rw [if_neg h0]
    by_cases h1 : s.bits.length < p.bits.length
    · rw [if_pos h1]
    · rw [if_neg h1, CSlice.lcpImpl_spec hs hp, DataBuilder.bind_ok]
      have : ¬ p.bits.length ≤ min (commonPrefixLen s.bits p.bits) p.bits.length := by
        intro hle
        apply h
        rw [List.prefix_iff_eq_take]
        apply list_ext_getD
        · simp; omega
        · intro i hi
          rw [getD_take_bits, (CSlice.commonPrefixLen_spec s.bits p.bits).1 i (by omega)]
          simp [hi]
      rw [if_neg this]

theorem beq_eq_lex (a b : Bits) (h : a.length = b.length) : (lexBits a b == .eq) = decide (a = b) := by
  have h2 := lexBits_eq_iff h
  by_cases e : a = b
  · subst e; rw [lexBits_refl]; simp
  · cases h' : lexBits a b with
    | eq => exact absurd (h2.mp h') e
    | lt => simp [e]
    | gt => simp [e]

/-- C04: `is_data_prefix_of` decides "is a prefix", `is_data_suffix_of` decides "is a suffix". -/
theorem C04_is_prefix_suffix {ρ : Type} {s o : CSlice ρ} (hs : s.WF) (ho : o.WF) {samePtr : Bool}
    (hsame : samePtr = true → s.data = o.data) :
    (∃ r, CSlice.isDataPrefixOf samePtr s o = .ok r ∧ (r = true ↔ s.bits <+: o.bits)) ∧
    (∃ r, CSlice.isDataSuffixOf samePtr s o = .ok r ∧ (r = true ↔ s.bits <:+ o.bits)) := by
  have a1 := hs.start_le
  have a2 := hs.end_le
  have a3 := hs.data_le
  have hl := s.bits_length
  have hol := o.bits_length
  unfold CSlice.isDataPrefixOf CSlice.isDataSuffixOf SliceRange.sizeBits
  simp only [← hl, ← hol]
  by_cases h : s.bits.length > o.bits.length
  · rw [if_pos h, if_pos h]
    exact ⟨⟨_, rfl, by simp only [Bool.false_eq_true, false_iff]; intro hp; have := hp.length_le; omega⟩,
      ⟨_, rfl, by simp only [Bool.false_eq_true, false_iff]; intro hp; have := hp.length_le; omega⟩⟩
  · rw [if_neg h, if_neg h]
    constructor
    · have c := C03_read ho (.onlyFirst s.bits.length 0) ⟨by omega, by omega⟩
      simp only [LoadOp.run, LoadOp.spec, LoadOp.specBoth, LoadOp.view] at c
      rw [if_pos ⟨by omega, by omega⟩] at c
      obtain ⟨c1, c2, c3, c4, c5, c6⟩ := c
      simp only [Prod.mk.injEq] at c2
      rw [CSlice.lexCmp_spec hs c3 (by rw [c5]; exact hsame), DataBuilder.bind_ok, c2.1]
      refine ⟨_, rfl, ?_⟩
      rw [beq_eq_lex _ _ (by simp; omega), decide_eq_true_eq, List.prefix_iff_eq_take]
    · have c := C03_read ho (.onlyLast s.bits.length 0) ⟨by omega, by omega⟩
      simp only [LoadOp.run, LoadOp.spec, LoadOp.specBoth, LoadOp.view] at c
      rw [if_pos ⟨by omega, by omega⟩] at c
      obtain ⟨c1, c2, c3, c4, c5, c6⟩ := c
      simp only [Prod.mk.injEq] at c2
      rw [CSlice.lexCmp_spec hs c3 (by rw [c5]; exact hsame), DataBuilder.bind_ok, c2.1]
      refine ⟨_, rfl, ?_⟩
      rw [beq_eq_lex _ _ (by simp; omega), decide_eq_true_eq, List.suffix_iff_eq_drop]

/-- C04: `test_uniform` returns `Some(b)` exactly when the slice is not empty and all its bits are `b`. -/
theorem C04_test_uniform {ρ : Type} {s : CSlice ρ} (hs : s.WF) (base : Nat) :
    ∃ r, s.testUniform base = .ok r ∧ ∀ c, r = some c ↔ s.bits ≠ [] ∧ ∀ x ∈ s.bits, x = c :=
  CSlice.testUniform_spec hs base

/-- C04: `count_leading` / `count_trailing` count the bits of the run at the front / back, whatever the
address of the data buffer (which decides how the scan is chunked). -/
theorem C04_count {ρ : Type} {s : CSlice ρ} (hs : s.WF) (base : Nat) (c : Bool) :
    s.countLeading base c = .ok (runLength c s.bits) ∧ s.countTrailing c = .ok (runLength c s.bits.reverse) :=
  ⟨CSlice.countLeading_spec hs base c, CSlice.countTrailing_spec hs c⟩

/-- Non-vacuity of C04. -/
example :
    let a : CSlice Nat := { data := [0x0f, 0xff, 0xff, 0xf7], refs := [], range := ⟨4, 31, 0, 0⟩ }
    let b : CSlice Nat := { data := [0xff, 0xff, 0xfe], refs := [], range := ⟨0, 24, 0, 0⟩ }
    a.WF ∧ b.WF ∧ a.lcpImpl b 65535 = .ok 23 ∧ CSlice.lexCmp false a b = .ok .gt ∧ a.countLeading 3 true = .ok 24 ∧
    b.countTrailing false = .ok 1 ∧ b.testUniform 1 = .ok none := by
  refine ⟨⟨by decide, by decide, by decide, by decide, by decide, by decide⟩,
    ⟨by decide, by decide, by decide, by decide, by decide, by decide⟩, by decide +kernel, by decide +kernel,
    by decide +kernel, by decide +kernel, by decide +kernel⟩

/-! ### C05: `get_raw` with an offset

The full property: for all `off`, `n`, `get_raw(off, target, n)` succeeds iff `off + n` bits are in the
window, and then returns exactly these bits. It fails, because the bound check ignores `off`. -/

/-- C05 (violation): an 8-bit window; `get_raw(8, .., 8)` returns the byte after the window. -/
theorem C05_get_raw_leaves_window :
    let s : CSlice Nat := { data := [0x11, 0x22, 0x33], refs := [], range := ⟨0, 8, 0, 0⟩ }
    s.WF ∧ s.bits.length = 8 ∧ s.getRaw 8 1 8 = .ok [0x22] := by
  refine ⟨⟨by decide, by decide, by decide, by decide, by decide, by decide⟩, by decide, by decide⟩

/-- C05 (violation): with an unaligned offset the read leaves the data buffer (undefined behaviour):
the whole cell has one byte, and a second one is read. -/
theorem C05_get_raw_reads_out_of_bounds :
    let s : CSlice Nat := { data := [0x11], refs := [], range := ⟨0, 8, 0, 0⟩ }
    s.WF ∧ s.getRaw 7 1 8 = .error .fault := by
  refine ⟨⟨by decide, by decide, by decide, by decide, by decide, by decide⟩, by decide⟩

/-- C05, the part that holds: when the addressed bits are inside the window they are returned exactly (zero
padded), for every offset; and with offset 0 (all `load_raw` calls) a too short window is refused.
Missing: refusal for `off > 0`, which is false (see the two theorems above). -/
theorem C05_get_raw_partial {ρ : Type} {s : CSlice ρ} (hs : s.WF) (off cap n : Nat) :
    ((n + 7) / 8 ≤ cap → off + n ≤ s.bits.length →
      (s.getRaw off cap n).map bytesToBits = .ok (LoadOp.padToBytes ((s.bits.drop off).take n))) ∧
    (n ≤ 64511 → ¬ n ≤ s.bits.length → s.getRaw 0 cap n = .error .cellUnderflow) ∧
    (¬ (n + 7) / 8 ≤ cap → s.getRaw off cap n = .error .cellUnderflow) := by
  have a1 := hs.start_le
  have a2 := hs.end_le
  have a3 := hs.data_le
  refine ⟨fun hc h => ?_, fun hn h => CSlice.getRaw_zero_err hs (by omega) h, fun h => CSlice.getRaw_small_target h⟩
  obtain ⟨v, e, hv⟩ := CSlice.getRaw_ok hs hc h
  rw [e]
  show Except.ok _ = Except.ok _
  rw [LoadOp.packed_bits hv]
  rfl

example : ({ data := [0xab, 0xcd], refs := [], range := ⟨2, 15, 0, 0⟩ } : CSlice Nat).getRaw 3 2 9 = .ok [0x79, 0x80] := by
  decide

/-! ### C52: extreme widths

The full property would be `C03_read` without `LoadOp.Valid`. It does not hold: -/

/-- C52 (violation): `skip_first(65535, 0)` on a slice whose window starts at bit 10 succeeds in a release build
and moves the window *back* to bit 9 (a debug build panics). -/
theorem C52_skip_first_wraps :
    let s : CSlice Nat := { data := [0, 0x40, 0], refs := [], range := ⟨10, 20, 0, 0⟩ }
    s.WF ∧ (s.skipFirst 65535 0).1 = .ok () ∧ (s.skipFirst 65535 0).2.range.bitsStart = 9 ∧
    (s.skipFirst 65535 0).2.bits.length = 11 := by
  refine ⟨⟨by decide, by decide, by decide, by decide, by decide, by decide⟩, by decide, by decide, by decide⟩

end Verif
