import Verif.SliceScan
set_option linter.unusedVariables false
set_option linter.unusedSimpArgs false
/-
Refinement lemmas for `lex_cmp`, `bits_memscan`, `bits_memscan_rev` and `test_uniform`.
-/
namespace Verif
open DataBuilder (u16add_eq bind_ok getMsbD_shr getMsbD_mask bitAt_mask bitAt_singleton)

/-! ### Lexicographic comparison -/

theorem lexBits_append {a b : Bits} (h : a.length = b.length) (a' b' : Bits) :
    lexBits (a ++ a') (b ++ b') = match lexBits a b with | .eq => lexBits a' b' | o => o := by
  induction a generalizing b with
  | nil =>
    cases b with
    | nil => simp [lexBits]
    | cons y ys => simp at h
  | cons x xs ih =>
    cases b with
    | nil => simp at h
    | cons y ys =>
      simp at h
      simp only [List.cons_append, lexBits]
      by_cases hxy : x = y
      · simp only [hxy, if_true]; exact ih h
      · simp only [hxy, if_false]
        cases y <;> simp

theorem lexBits_natOfBits {a b : Bits} (h : a.length = b.length) :
    lexBits a b = compare (natOfBits a) (natOfBits b) := by
  induction a generalizing b with
  | nil =>
    cases b with
    | nil => rfl
    | cons y ys => simp at h
  | cons x xs ih =>
    cases b with
    | nil => simp at h
    | cons y ys =>
      simp at h
      simp only [lexBits]
      rw [natOfBits_cons, natOfBits_cons, h]
      have l1 := natOfBits_lt xs
      have l2 := natOfBits_lt ys
      rw [h] at l1
      by_cases hxy : x = y
      · subst hxy
        simp only [if_true]
        rw [ih h]
        simp only [Nat.compare_eq_ite_lt]
        simp only [Nat.add_lt_add_iff_left]
      · simp only [hxy, if_false]
        cases y
        · have : x = true := by cases x <;> simp_all
          subst this
          simp only [Bool.false_eq_true, if_false, Bool.toNat_true, Bool.toNat_false]
          symm
          rw [Nat.compare_eq_gt]
          omega
        · have : x = false := by cases x <;> simp_all
          subst this
          simp only [if_true, Bool.toNat_true, Bool.toNat_false]
          symm
          rw [Nat.compare_eq_lt]
          omega

theorem lexBits_refl (a : Bits) : lexBits a a = .eq := by
  induction a with
  | nil => rfl
  | cons x xs ih => simp [lexBits, ih]

theorem lexBits_eq_iff {a b : Bits} (h : a.length = b.length) : lexBits a b = .eq ↔ a = b := by
  rw [lexBits_natOfBits h, Nat.compare_eq_eq]
  exact ⟨fun e => natOfBits_inj h e, fun e => by rw [e]⟩

theorem lexBits_take (a b : Bits) :
    lexBits a b = match lexBits (a.take (min a.length b.length)) (b.take (min a.length b.length)) with
      | .eq => compare a.length b.length | o => o := by
  generalize hm : min a.length b.length = m
  have hl : (a.take m).length = (b.take m).length := by simp; omega
  have h := lexBits_append hl (a.drop m) (b.drop m)
  rw [List.take_append_drop, List.take_append_drop] at h
  rw [h]
  have h2 : lexBits (a.drop m) (b.drop m) = compare a.length b.length := by
    rcases Nat.lt_trichotomy a.length b.length with hlt | heq | hgt
    · have e1 : a.drop m = [] := List.drop_eq_nil_of_le (by omega)
      have e2 : b.drop m ≠ [] := by
        intro e
        have := congrArg List.length e
        simp at this; omega
      rw [e1, Nat.compare_eq_lt.mpr hlt]
      cases hb : b.drop m with
      | nil => exact absurd hb e2
      | cons y ys => rfl
    · have e1 : a.drop m = [] := List.drop_eq_nil_of_le (by omega)
      have e2 : b.drop m = [] := List.drop_eq_nil_of_le (by omega)
      rw [e1, e2, Nat.compare_eq_eq.mpr heq]
      rfl
    · have e2 : b.drop m = [] := List.drop_eq_nil_of_le (by omega)
      have e1 : a.drop m ≠ [] := by
        intro e
        have := congrArg List.length e
        simp at this; omega
      rw [e2, Nat.compare_eq_gt.mpr hgt]
      cases ha : a.drop m with
      | nil => exact absurd ha e1
      | cons y ys => rfl
  rw [h2]

namespace CSlice
variable {ρ : Type}

theorem seg_append {s : CSlice ρ} {off m n : Nat} : s.seg off (m + n) = s.seg off m ++ s.seg (off + m) n := by
  unfold seg
  rw [List.take_add, List.drop_drop]

theorem lexLoop_spec {a b : CSlice ρ} (ha : WF a) (hb : WF b) (n : Nat) :
    ∀ off, off + 32 * n ≤ a.bits.length → off + 32 * n ≤ b.bits.length →
      lexLoop a b n off = .ok (lexBits (a.seg off (32 * n)) (b.seg off (32 * n))) := by
  have a1 := ha.start_le
  have a2 := ha.end_le
  have a3 := ha.data_le
  have b1 := hb.start_le
  have b2 := hb.end_le
  have b3 := hb.data_le
  have la := a.bits_length
  have lb := b.bits_length
  induction n with
  | zero =>
    intro off h1 h2
    simp [lexLoop, seg, lexBits]
  | succ n ih =>
    intro off h1 h2
    unfold lexLoop
    obtain ⟨x, ex, hx⟩ := (getWord_spec (n := 4) (by omega) ha (off := off) (by omega)).1 (by omega)
    obtain ⟨y, ey, hy⟩ := (getWord_spec (n := 4) (by omega) hb (off := off) (by omega)).1 (by omega)
    rw [ex, bind_ok, ey, bind_ok]
    have e : 32 * (n + 1) = 8 * 4 + 32 * n := by omega
    rw [e, seg_append, seg_append]
    have hl : (a.seg off (8 * 4)).length = (b.seg off (8 * 4)).length := by
      rw [seg_length (by omega), seg_length (by omega)]
    rw [lexBits_append hl, lexBits_natOfBits hl, ← hx, ← hy, natOfBits_wordBits, natOfBits_wordBits]
    rw [show off + 32 = off + 8 * 4 by omega, ih (off + 8 * 4) (by omega) (by omega)]
    cases compare x.toNat y.toNat <;> rfl

theorem seg_zero (s : CSlice ρ) (n : Nat) : s.seg 0 n = s.bits.take n := by simp [seg]

theorem lexCmp_spec {a b : CSlice ρ} (ha : WF a) (hb : WF b) {samePtr : Bool}
    (hsame : samePtr = true → a.data = b.data) :
    lexCmp samePtr a b = .ok (lexBits a.bits b.bits) := by
  have a1 := ha.start_le
  have a2 := ha.end_le
  have a3 := ha.data_le
  have b1 := hb.start_le
  have b2 := hb.end_le
  have b3 := hb.data_le
  have la := a.bits_length
  have lb := b.bits_length
  unfold lexCmp
  split
  · rename_i h
    simp only [Bool.and_eq_true, decide_eq_true_eq] at h
    rw [lexBits_take]
    have e : a.bits.take (min a.bits.length b.bits.length) = b.bits.take (min a.bits.length b.bits.length) := by
      apply list_ext_getD (by simp <;> omega)
      intro i hi
      simp only [List.length_take] at hi
      rw [getD_take_bits, getD_take_bits, bits_getD _ (by omega), bits_getD _ (by omega), hsame h.1, h.2]
    rw [e, lexBits_refl]
    unfold SliceRange.sizeBits
    rw [la, lb]
  · dsimp only
    unfold SliceRange.sizeBits
    rw [← la, ← lb, lexBits_take]
    generalize hm : min a.bits.length b.bits.length = m at *
    rw [lexLoop_spec ha hb (m / 32) 0 (by omega) (by omega), bind_ok]
    have ea : a.bits.take m = a.seg 0 (32 * (m / 32)) ++ a.seg (m - m % 32) (m % 32) := by
      have := seg_append (s := a) (off := 0) (m := 32 * (m / 32)) (n := m % 32)
      rw [show 32 * (m / 32) + m % 32 = m by omega, seg_zero, Nat.zero_add] at this
      rw [this, show m - m % 32 = 32 * (m / 32) by omega]
    have eb : b.bits.take m = b.seg 0 (32 * (m / 32)) ++ b.seg (m - m % 32) (m % 32) := by
      have := seg_append (s := b) (off := 0) (m := 32 * (m / 32)) (n := m % 32)
      rw [show 32 * (m / 32) + m % 32 = m by omega, seg_zero, Nat.zero_add] at this
      rw [this, show m - m % 32 = 32 * (m / 32) by omega]
    rw [ea, eb, lexBits_append (by rw [seg_length (by omega), seg_length (by omega)])]
    cases lexBits (a.seg 0 (32 * (m / 32))) (b.seg 0 (32 * (m / 32))) with
    | lt => rfl
    | gt => rfl
    | eq =>
      dsimp only
      by_cases hr : m % 32 > 0
      · rw [if_pos hr]
        obtain ⟨x, ex, hx⟩ := (getUint_spec ha (off := m - m % 32) (n := m % 32) (by omega) (by omega)).1 (by omega)
        obtain ⟨y, ey, hy⟩ := (getUint_spec hb (off := m - m % 32) (n := m % 32) (by omega) (by omega)).1 (by omega)
        rw [ex, bind_ok, ey, bind_ok, bind_ok,
          lexBits_natOfBits (by rw [seg_length (by omega), seg_length (by omega)]), ← hx, ← hy]
        cases compare x.toNat y.toNat <;> rfl
      · rw [if_neg hr, bind_ok]
        have h0 : m % 32 = 0 := by omega
        rw [h0]
        simp [seg, lexBits]

end CSlice

/-! ### Scans -/

theorem xorByte_getMsbD (x : Byte) (c : Bool) {j : Nat} (hj : j < 8) :
    (x ^^^ xorByte c).getMsbD j = (x.getMsbD j ^^ c) := by
  rw [BitVec.getMsbD_xor]
  congr 1
  have : ∀ (c : Bool) (j : Fin 8), (xorByte c).getMsbD j.val = c := by decide
  exact this c ⟨j, hj⟩

theorem xorWord_getMsbD {w : Nat} (x : BitVec w) (c : Bool) {j : Nat} (hj : j < w) :
    (x ^^^ (if c then BitVec.allOnes w else 0)).getMsbD j = (x.getMsbD j ^^ c) := by
  rw [BitVec.getMsbD_xor]
  cases c
  · simp
  · simp only [if_true]
    rw [BitVec.getMsbD_allOnes]
    simp [hj]

/-- `k` is the length of the run of `c` in the `n` bits from `off`. -/
def IsRun (data : List Byte) (off n : Nat) (c : Bool) (k : Nat) : Prop :=
  k ≤ n ∧ (∀ j, j < k → bitAt data (off + j) = c) ∧ (k < n → bitAt data (off + k) ≠ c)

/-- Scan position `p` with `rem` bits left: everything before is `c`. -/
def ScanInv (data : List Byte) (off n : Nat) (c : Bool) (p rem : Nat) : Prop :=
  rem ≤ n ∧ 8 * p = off + (n - rem) ∧ ∀ j, j < n - rem → bitAt data (off + j) = c

theorem scan_hit {data : List Byte} {off n : Nat} {c : Bool} {p rem w : Nat} (hi : ScanInv data off n c p rem)
    (hw : w ≤ rem) {v : BitVec w} (hv : ∀ j, j < w → v.getMsbD j = (bitAt data (8 * p + j) ^^ c)) (hne : v ≠ 0) :
    IsRun data off n c (n - rem + leadingZeros v) := by
  obtain ⟨h1, h2, h3⟩ := hi
  have hl := leadingZeros_spec v
  have hlt := leadingZeros_lt hne
  refine ⟨by omega, ?_, ?_⟩
  · intro j hj
    by_cases hjr : j < n - rem
    · exact h3 j hjr
    · have := hl.2.1 (j - (n - rem)) (by omega)
      rw [hv _ (by omega)] at this
      have e : 8 * p + (j - (n - rem)) = off + j := by omega
      rw [e] at this
      simpa using this
  · intro _
    have := hl.2.2 hlt
    rw [hv _ hlt] at this
    have e : 8 * p + leadingZeros v = off + (n - rem + leadingZeros v) := by omega
    rw [e] at this
    simpa using this

theorem scan_skip {data : List Byte} {off n : Nat} {c : Bool} {p rem w : Nat} (hi : ScanInv data off n c p rem)
    (hw : 8 * w ≤ rem) {v : BitVec (8 * w)} (hv : ∀ j, j < 8 * w → v.getMsbD j = (bitAt data (8 * p + j) ^^ c))
    (hz : v = 0) : ScanInv data off n c (p + w) (rem - 8 * w) := by
  obtain ⟨h1, h2, h3⟩ := hi
  refine ⟨by omega, by omega, ?_⟩
  intro j hj
  by_cases hjr : j < n - rem
  · exact h3 j hjr
  · have := hv (j - (n - rem)) (by omega)
    have e : 8 * p + (j - (n - rem)) = off + j := by omega
    rw [hz, e] at this
    simpa using this.symm

theorem scanBytes_spec {data : List Byte} {off n : Nat} {c : Bool} (hlen : off + n ≤ 8 * data.length)
    (stop : Bool) (base fuel : Nat) : ∀ p rem, ScanInv data off n c p rem → rem ≤ fuel →
      (∃ k, scanBytes data c n stop base fuel p rem = .ok (.inl k) ∧ IsRun data off n c k) ∨
      (∃ p' rem', scanBytes data c n stop base fuel p rem = .ok (.inr (p', rem')) ∧ ScanInv data off n c p' rem' ∧
        rem' ≤ rem ∧ (stop = false → rem' < 8)) := by
  induction fuel with
  | zero =>
    intro p rem hi hf
    exact Or.inr ⟨p, rem, rfl, hi, Nat.le_refl _, fun _ => by omega⟩
  | succ fuel ih =>
    intro p rem hi hf
    have hi' := hi
    obtain ⟨h1, h2, h3⟩ := hi'
    unfold scanBytes
    by_cases hc : rem ≥ 8 ∧ ¬ (stop ∧ (base + p) % 8 = 0)
    · rw [if_pos hc, rd_ok (by omega), bind_ok]
      dsimp only
      have hv : ∀ j, j < 8 → (data.getD p 0 ^^^ xorByte c).getMsbD j = (bitAt data (8 * p + j) ^^ c) := by
        intro j hj
        rw [xorByte_getMsbD _ _ hj, bitAt_byte _ _ _ hj]
      by_cases hne : data.getD p 0 ^^^ xorByte c ≠ 0
      · rw [if_pos hne]
        exact Or.inl ⟨_, rfl, scan_hit hi hc.1 hv hne⟩
      · rw [if_neg hne]
        have hz : data.getD p 0 ^^^ xorByte c = 0 := by simpa using hne
        have hsk := scan_skip (w := 1) hi (by omega) hv hz
        rcases ih (p + 1) (rem - 8) hsk (by omega) with h | ⟨p', rem', e, i', l', s'⟩
        · exact Or.inl h
        · exact Or.inr ⟨p', rem', e, i', by omega, s'⟩
    · rw [if_neg hc]
      refine Or.inr ⟨p, rem, rfl, hi, Nat.le_refl _, fun hs => ?_⟩
      subst hs
      simp at hc
      omega

theorem scanWords_spec {data : List Byte} {off n : Nat} {c : Bool} (hlen : off + n ≤ 8 * data.length)
    (fuel : Nat) : ∀ p rem, ScanInv data off n c p rem →
      (∃ k, scanWords data c n fuel p rem = .ok (.inl k) ∧ IsRun data off n c k) ∨
      (∃ p' rem', scanWords data c n fuel p rem = .ok (.inr (p', rem')) ∧ ScanInv data off n c p' rem' ∧ rem' ≤ rem) := by
  induction fuel with
  | zero =>
    intro p rem hi
    exact Or.inr ⟨p, rem, rfl, hi, Nat.le_refl _⟩
  | succ fuel ih =>
    intro p rem hi
    have hi' := hi
    obtain ⟨h1, h2, h3⟩ := hi'
    unfold scanWords
    by_cases hc : rem ≥ 64
    · rw [if_pos hc, rdN_ok (by omega), bind_ok]
      dsimp only
      have hv : ∀ j, j < 8 * 8 → (fromBE 8 ((data.drop p).take 8) ^^^ (if c then BitVec.allOnes (8 * 8) else 0)).getMsbD j
          = (bitAt data (8 * p + j) ^^ c) := by
        intro j hj
        rw [xorWord_getMsbD _ _ hj, fromBE_getMsbD (by simp; omega), bitAt_take_drop]
        simp [hj]
      generalize (fromBE 8 ((data.drop p).take 8) ^^^ (if c then BitVec.allOnes (8 * 8) else 0)) = z at *
      by_cases hne : z ≠ 0
      · rw [if_pos hne]
        exact Or.inl ⟨_, rfl, scan_hit hi hc hv hne⟩
      · rw [if_neg hne]
        have hz : z = 0 := by simpa using hne
        have hsk := scan_skip (w := 8) hi (by omega) hv hz
        rcases ih (p + 8) (rem - 64) hsk with h | ⟨p', rem', e, i', l'⟩
        · exact Or.inl h
        · exact Or.inr ⟨p', rem', e, i', by omega⟩
    · rw [if_neg hc]
      exact Or.inr ⟨p, rem, rfl, hi, Nat.le_refl _⟩

theorem bitsMemscan_spec {data : List Byte} {base off n : Nat} {c : Bool} (hlen : off + n ≤ 8 * data.length) :
    ∃ k, bitsMemscan data base off n c = .ok k ∧ IsRun data off n c k := by
  unfold bitsMemscan
  by_cases hn0 : n = 0
  · subst hn0
    exact ⟨0, by simp, Nat.le_refl _, fun j hj => by omega, fun h => by omega⟩
  rw [if_neg hn0]
  dsimp only
  have tail : ∀ p rem, ScanInv data off n c p rem → ∃ k, (do
      match ← scanBytes data c n true base n p rem with
      | .inl k => .ok k
      | .inr (p, rem) =>
        match ← scanWords data c n n p rem with
        | .inl k => .ok k
        | .inr (p, rem) =>
          match ← scanBytes data c n false base n p rem with
          | .inl k => .ok k
          | .inr (p, rem) =>
            if rem > 0 then do
              let x ← rd data p
              let c := leadingZeros (x ^^^ xorByte c)
              if c < rem then .ok (n - rem + c) else .ok n
            else .ok n : Except Err Nat) = .ok k ∧ IsRun data off n c k := by
    intro p rem hi
    rcases scanBytes_spec hlen true base n p rem hi hi.1 with ⟨k, e, hk⟩ | ⟨p1, r1, e1, i1, l1, -⟩
    · rw [e, bind_ok]; exact ⟨k, rfl, hk⟩
    rw [e1, bind_ok]
    dsimp only
    rcases scanWords_spec hlen n p1 r1 i1 with ⟨k, e, hk⟩ | ⟨p2, r2, e2, i2, l2⟩
    · rw [e, bind_ok]; exact ⟨k, rfl, hk⟩
    rw [e2, bind_ok]
    dsimp only
    rcases scanBytes_spec hlen false base n p2 r2 i2 i2.1 with ⟨k, e, hk⟩ | ⟨p3, r3, e3, i3, l3, s3⟩
    · rw [e, bind_ok]; exact ⟨k, rfl, hk⟩
    rw [e3, bind_ok]
    dsimp only
    have h8 := s3 rfl
    obtain ⟨h1, h2, h3⟩ := i3
    by_cases hr : r3 > 0
    · rw [if_pos hr, rd_ok (by omega), bind_ok]
      have hv : ∀ j, j < 8 → (data.getD p3 0 ^^^ xorByte c).getMsbD j = (bitAt data (8 * p3 + j) ^^ c) := by
        intro j hj
        rw [xorByte_getMsbD _ _ hj, bitAt_byte _ _ _ hj]
      have hl := leadingZeros_spec (data.getD p3 0 ^^^ xorByte c)
      have hpre : ∀ j, j < n - r3 + min (leadingZeros (data.getD p3 0 ^^^ xorByte c)) r3 → bitAt data (off + j) = c := by
        intro j hj
        by_cases hjr : j < n - r3
        · exact h3 j hjr
        · have := hl.2.1 (j - (n - r3)) (by omega)
          rw [hv _ (by omega)] at this
          have e : 8 * p3 + (j - (n - r3)) = off + j := by omega
          rw [e] at this
          simpa using this
      split
      · rename_i hlt
        refine ⟨_, rfl, by omega, fun j hj => hpre j (by omega), fun _ => ?_⟩
        have := hl.2.2 (by omega)
        rw [hv _ (by omega)] at this
        have e : 8 * p3 + leadingZeros (data.getD p3 0 ^^^ xorByte c) = off + (n - r3 + leadingZeros (data.getD p3 0 ^^^ xorByte c)) := by omega
        rw [e] at this
        simpa using this
      · exact ⟨n, rfl, Nat.le_refl _, fun j hj => hpre j (by omega), fun h => by omega⟩
    · rw [if_neg hr]
      exact ⟨n, rfl, Nat.le_refl _, fun j hj => h3 j (by omega), fun h => by omega⟩
  by_cases ho : off % 8 > 0
  · rw [if_pos ho, rd_ok (by omega), bind_ok]
    have hv : ∀ j, j < 8 - off % 8 → ((data.getD (off / 8) 0 ^^^ xorByte c) <<< (off % 8)).getMsbD j = (bitAt data (off + j) ^^ c) := by
      intro j hj
      rw [getMsbD_shl _ _ _ (by omega), xorByte_getMsbD _ _ (by omega), bitAt_byte _ _ _ (by omega)]
      congr 1
      exact bitAt_congr _ (by omega)
    have hl := leadingZeros_spec ((data.getD (off / 8) 0 ^^^ xorByte c) <<< (off % 8))
    generalize leadingZeros ((data.getD (off / 8) 0 ^^^ xorByte c) <<< (off % 8)) = L at *
    have hpre : ∀ j, j < min L (8 - off % 8) → bitAt data (off + j) = c := by
      intro j hj
      have := hl.2.1 j (by omega)
      rw [hv _ (by omega)] at this
      simpa using this
    split
    · rename_i hc
      refine ⟨_, rfl, by omega, fun j hj => hpre j (by omega), fun hlt => ?_⟩
      have e : min L n = L := by omega
      rw [e]
      have := hl.2.2 (by omega)
      rw [hv _ (by omega)] at this
      simpa using this
    · rename_i hc
      exact tail _ _ ⟨by omega, by omega, fun j hj => hpre j (by omega)⟩
  · rw [if_neg ho]
    exact tail _ _ ⟨by omega, by omega, fun j hj => by omega⟩

/-! ### Backward scan -/

/-- `k` is the length of the run of `c` at the end of the `n` bits from `off`. -/
def IsRunRev (data : List Byte) (off n : Nat) (c : Bool) (k : Nat) : Prop :=
  k ≤ n ∧ (∀ j, j < k → bitAt data (off + n - 1 - j) = c) ∧ (k < n → bitAt data (off + n - 1 - k) ≠ c)

def ScanRevInv (data : List Byte) (off n : Nat) (c : Bool) (p rem res : Nat) : Prop :=
  rem + res = n ∧ 8 * p = off + rem ∧ ∀ j, j < res → bitAt data (off + n - 1 - j) = c

theorem getLsbD_eq_msb {w : Nat} (v : BitVec w) {j : Nat} (hj : j < w) : v.getLsbD j = v.getMsbD (w - 1 - j) := by
  simp only [BitVec.getMsbD]
  have e : w - 1 - (w - 1 - j) = j := by omega
  have h2 : w - 1 - j < w := by omega
  rw [e]
  simp [h2]

theorem scanRev_hit {data : List Byte} {off n : Nat} {c : Bool} {p rem res w : Nat} (hi : ScanRevInv data off n c p rem res)
    (hw : 8 * w ≤ rem) {v : BitVec (8 * w)}
    (hv : ∀ j, j < 8 * w → v.getMsbD j = (bitAt data (8 * (p - w) + j) ^^ c)) (hne : v ≠ 0) :
    IsRunRev data off n c (res + trailingZeros v) := by
  obtain ⟨h1, h2, h3⟩ := hi
  have hl := trailingZeros_spec v
  have hlt := trailingZeros_lt hne
  refine ⟨by omega, ?_, ?_⟩
  · intro j hj
    by_cases hjr : j < res
    · exact h3 j hjr
    · have := hl.2.1 (j - res) (by omega)
      rw [getLsbD_eq_msb _ (by omega), hv _ (by omega)] at this
      have e : 8 * (p - w) + (8 * w - 1 - (j - res)) = off + n - 1 - j := by omega
      rw [e] at this
      simpa using this
  · intro _
    have := hl.2.2 hlt
    rw [getLsbD_eq_msb _ (by omega), hv _ (by omega)] at this
    have e : 8 * (p - w) + (8 * w - 1 - trailingZeros v) = off + n - 1 - (res + trailingZeros v) := by omega
    rw [e] at this
    simpa using this

theorem scanRev_skip {data : List Byte} {off n : Nat} {c : Bool} {p rem res w : Nat} (hi : ScanRevInv data off n c p rem res)
    (hw : 8 * w ≤ rem) {v : BitVec (8 * w)}
    (hv : ∀ j, j < 8 * w → v.getMsbD j = (bitAt data (8 * (p - w) + j) ^^ c)) (hz : v = 0) :
    ScanRevInv data off n c (p - w) (rem - 8 * w) (res + 8 * w) := by
  obtain ⟨h1, h2, h3⟩ := hi
  refine ⟨by omega, by omega, ?_⟩
  intro j hj
  by_cases hjr : j < res
  · exact h3 j hjr
  · have := hv (8 * w - 1 - (j - res)) (by omega)
    have e : 8 * (p - w) + (8 * w - 1 - (j - res)) = off + n - 1 - j := by omega
    rw [hz, e] at this
    simpa using this.symm

theorem scanRevWords_spec {data : List Byte} {off n : Nat} {c : Bool} (hlen : off + n ≤ 8 * data.length)
    (fuel : Nat) : ∀ p rem res, ScanRevInv data off n c p rem res →
      (∃ k, scanRevWords data c fuel p rem res = .ok (.inl k) ∧ IsRunRev data off n c k) ∨
      (∃ p' rem' res', scanRevWords data c fuel p rem res = .ok (.inr (p', rem', res')) ∧
        ScanRevInv data off n c p' rem' res') := by
  induction fuel with
  | zero =>
    intro p rem res hi
    exact Or.inr ⟨p, rem, res, rfl, hi⟩
  | succ fuel ih =>
    intro p rem res hi
    have hi' := hi
    obtain ⟨h1, h2, h3⟩ := hi'
    unfold scanRevWords
    by_cases hc : rem ≥ 32
    · rw [if_pos hc, if_neg (by omega), rdN_ok (by omega), bind_ok]
      dsimp only
      have hv : ∀ j, j < 8 * 4 → (fromBE 4 ((data.drop (p - 4)).take 4) ^^^ (if c then BitVec.allOnes (8 * 4) else 0)).getMsbD j
          = (bitAt data (8 * (p - 4) + j) ^^ c) := by
        intro j hj
        rw [xorWord_getMsbD _ _ hj, fromBE_getMsbD (by simp; omega), bitAt_take_drop]
        simp [hj]
      generalize (fromBE 4 ((data.drop (p - 4)).take 4) ^^^ (if c then BitVec.allOnes (8 * 4) else 0)) = z at *
      by_cases hne : z ≠ 0
      · rw [if_pos hne]
        exact Or.inl ⟨_, rfl, scanRev_hit hi hc hv hne⟩
      · rw [if_neg hne]
        have hz : z = 0 := by simpa using hne
        exact ih _ _ _ (scanRev_skip (w := 4) hi (by omega) hv hz)
    · rw [if_neg hc]
      exact Or.inr ⟨p, rem, res, rfl, hi⟩

theorem scanRevBytes_spec {data : List Byte} {off n : Nat} {c : Bool} (hlen : off + n ≤ 8 * data.length)
    (fuel : Nat) : ∀ p rem res, ScanRevInv data off n c p rem res → rem ≤ fuel →
      (∃ k, scanRevBytes data c fuel p rem res = .ok (.inl k) ∧ IsRunRev data off n c k) ∨
      (∃ p' rem' res', scanRevBytes data c fuel p rem res = .ok (.inr (p', rem', res')) ∧
        ScanRevInv data off n c p' rem' res' ∧ rem' < 8) := by
  induction fuel with
  | zero =>
    intro p rem res hi hf
    exact Or.inr ⟨p, rem, res, rfl, hi, by omega⟩
  | succ fuel ih =>
    intro p rem res hi hf
    have hi' := hi
    obtain ⟨h1, h2, h3⟩ := hi'
    unfold scanRevBytes
    by_cases hc : rem ≥ 8
    · rw [if_pos hc, if_neg (by omega), rd_ok (by omega), bind_ok]
      dsimp only
      have hv : ∀ j, j < 8 * 1 → (data.getD (p - 1) 0 ^^^ xorByte c).getMsbD j
          = (bitAt data (8 * (p - 1) + j) ^^ c) := by
        intro j hj
        rw [xorByte_getMsbD _ _ (by omega), bitAt_byte _ _ _ (by omega)]
      generalize data.getD (p - 1) 0 ^^^ xorByte c = z at *
      by_cases hne : z ≠ 0
      · rw [if_pos hne]
        exact Or.inl ⟨_, rfl, scanRev_hit (w := 1) hi hc hv hne⟩
      · rw [if_neg hne]
        have hz : z = 0 := by simpa using hne
        exact ih _ _ _ (scanRev_skip (w := 1) hi (by omega) hv hz) (by omega)
    · rw [if_neg hc]
      exact Or.inr ⟨p, rem, res, rfl, hi, by omega⟩

theorem bitsMemscanRev_spec {data : List Byte} {off n : Nat} {c : Bool} (hlen : off + n ≤ 8 * data.length) :
    ∃ k, bitsMemscanRev data off n c = .ok k ∧ IsRunRev data off n c k := by
  unfold bitsMemscanRev
  by_cases hn0 : n = 0
  · subst hn0
    exact ⟨0, by simp, Nat.le_refl _, fun j hj => by omega, fun h => by omega⟩
  rw [if_neg hn0]
  dsimp only
  have tail : ∀ rem res, ScanRevInv data off n c ((off + n) / 8) rem res → ∃ k, (do
      match ← scanRevWords data c rem ((off + n) / 8) rem res with
      | .inl k => .ok k
      | .inr (p, rem, res) =>
        match ← scanRevBytes data c rem p rem res with
        | .inl k => .ok k
        | .inr (p, rem, res) =>
          if rem > 0 then
            if p < 1 then .error .fault
            else do
              let x ← rd data (p - 1)
              .ok (res + min (trailingZeros (x ^^^ xorByte c)) rem)
          else .ok res : Except Err Nat) = .ok k ∧ IsRunRev data off n c k := by
    intro rem res hi
    rcases scanRevWords_spec hlen rem _ rem res hi with ⟨k, e, hk⟩ | ⟨p1, r1, s1, e1, i1⟩
    · rw [e, bind_ok]; exact ⟨k, rfl, hk⟩
    rw [e1, bind_ok]
    dsimp only
    rcases scanRevBytes_spec hlen r1 p1 r1 s1 i1 (Nat.le_refl _) with ⟨k, e, hk⟩ | ⟨p3, r3, s3, e3, i3, l3⟩
    · rw [e, bind_ok]; exact ⟨k, rfl, hk⟩
    rw [e3, bind_ok]
    dsimp only
    obtain ⟨h1, h2, h3⟩ := i3
    by_cases hr : r3 > 0
    · rw [if_pos hr, if_neg (by omega), rd_ok (by omega), bind_ok]
      have hv : ∀ j, j < 8 → (data.getD (p3 - 1) 0 ^^^ xorByte c).getMsbD j = (bitAt data (8 * (p3 - 1) + j) ^^ c) := by
        intro j hj
        rw [xorByte_getMsbD _ _ hj, bitAt_byte _ _ _ hj]
      have hl := trailingZeros_spec (data.getD (p3 - 1) 0 ^^^ xorByte c)
      generalize data.getD (p3 - 1) 0 ^^^ xorByte c = z at *
      refine ⟨_, rfl, by omega, ?_, ?_⟩
      · intro j hj
        by_cases hjr : j < s3
        · exact h3 j hjr
        · have := hl.2.1 (j - s3) (by omega)
          rw [getLsbD_eq_msb _ (by omega), hv _ (by omega)] at this
          have e : 8 * (p3 - 1) + (8 - 1 - (j - s3)) = off + n - 1 - j := by omega
          rw [e] at this
          simpa using this
      · intro hlt
        have := hl.2.2 (by omega)
        rw [getLsbD_eq_msb _ (by omega), hv _ (by omega)] at this
        have e : 8 * (p3 - 1) + (8 - 1 - trailingZeros z) = off + n - 1 - (s3 + min (trailingZeros z) r3) := by omega
        rw [e] at this
        simpa using this
    · rw [if_neg hr]
      exact ⟨s3, rfl, by omega, fun j hj => h3 j hj, fun h => by omega⟩
  by_cases ho : (off + n) % 8 > 0
  · rw [if_pos ho, rd_ok (by omega), bind_ok]
    have hv : ∀ j, j < (off + n) % 8 → ((data.getD ((off + n) / 8) 0 >>> (8 - (off + n) % 8)) ^^^ xorByte c).getLsbD j
        = (bitAt data (off + n - 1 - j) ^^ c) := by
      intro j hj
      rw [getLsbD_eq_msb _ (by omega), xorByte_getMsbD _ _ (by omega), getMsbD_shr _ _ (by omega)]
      have hd : 8 - (off + n) % 8 ≤ 8 - 1 - j := by omega
      rw [bitAt_byte _ _ _ (by omega)]
      simp only [hd, decide_true, Bool.true_and]
      congr 1
      exact bitAt_congr _ (by omega)
    have hl := trailingZeros_spec ((data.getD ((off + n) / 8) 0 >>> (8 - (off + n) % 8)) ^^^ xorByte c)
    generalize trailingZeros ((data.getD ((off + n) / 8) 0 >>> (8 - (off + n) % 8)) ^^^ xorByte c) = L at *
    have hpre : ∀ j, j < min L ((off + n) % 8) → bitAt data (off + n - 1 - j) = c := by
      intro j hj
      have := hl.2.1 j (by omega)
      rw [hv _ (by omega)] at this
      simpa using this
    split
    · rename_i hc
      refine ⟨_, rfl, by omega, fun j hj => hpre j (by omega), fun hlt => ?_⟩
      have e : min L n = L := by omega
      rw [e]
      have := hl.2.2 (by omega)
      rw [hv _ (by omega)] at this
      simpa using this
    · rename_i hc
      exact tail _ _ ⟨by omega, by omega, fun j hj => hpre j (by omega)⟩
  · rw [if_neg ho]
    exact tail _ _ ⟨by omega, by omega, fun j hj => by omega⟩

namespace CSlice
variable {ρ : Type}

theorem countLeading_spec {s : CSlice ρ} (hs : WF s) (base : Nat) (c : Bool) :
    s.countLeading base c = .ok (runLength c s.bits) := by
  have h1 := hs.start_le
  have h2 := hs.end_le
  have hl := s.bits_length
  unfold countLeading
  split
  · have : s.bits = [] := List.eq_nil_of_length_eq_zero (by omega)
    rw [this]; rfl
  · rw [if_neg (by omega)]
    obtain ⟨k, e, hk1, hk2, hk3⟩ := bitsMemscan_spec (data := s.data) (base := base) (c := c)
      (off := s.range.bitsStart) (n := s.range.bitsEnd - s.range.bitsStart) (by omega)
    rw [e]
    congr 1
    symm
    apply runLength_eq (by omega)
    · intro j hj
      rw [bits_getD _ (by omega), hk2 j hj]
    · intro hlt
      rw [bits_getD _ (by omega)]
      exact hk3 (by omega)

theorem getD_reverse_bits (l : Bits) {j : Nat} (hj : j < l.length) : l.reverse.getD j false = l.getD (l.length - 1 - j) false := by
  rw [List.getD_eq_getElem?_getD, List.getD_eq_getElem?_getD, List.getElem?_reverse hj]

theorem countTrailing_spec {s : CSlice ρ} (hs : WF s) (c : Bool) :
    s.countTrailing c = .ok (runLength c s.bits.reverse) := by
  have h1 := hs.start_le
  have h2 := hs.end_le
  have hl := s.bits_length
  unfold countTrailing
  split
  · have : s.bits = [] := List.eq_nil_of_length_eq_zero (by omega)
    rw [this]; rfl
  · rw [if_neg (by omega)]
    obtain ⟨k, e, hk1, hk2, hk3⟩ := bitsMemscanRev_spec (data := s.data) (c := c)
      (off := s.range.bitsStart) (n := s.range.bitsEnd - s.range.bitsStart) (by omega)
    rw [e]
    congr 1
    symm
    apply runLength_eq (by simp; omega)
    · intro j hj
      rw [getD_reverse_bits _ (by omega), bits_getD _ (by omega), ← hk2 j hj]
      exact bitAt_congr _ (by omega)
    · intro hlt
      simp only [List.length_reverse] at hlt
      rw [getD_reverse_bits _ (by omega), bits_getD _ (by omega)]
      have := hk3 (by omega)
      intro e2
      apply this
      rw [← e2]
      exact bitAt_congr _ (by omega)

theorem allEqLoop_spec {data : List Byte} {target : Byte} (n : Nat) : ∀ p, p + n < data.length →
    ∃ r, allEqLoop data target n p = .ok r ∧ (r = true ↔ ∀ k, k < n → data.getD (p + 1 + k) 0 = target) := by
  induction n with
  | zero => intro p _; exact ⟨true, rfl, by simp⟩
  | succ n ih =>
    intro p hp
    unfold allEqLoop
    rw [rd_ok (by omega), bind_ok]
    by_cases h : data.getD (p + 1) 0 ≠ target
    · rw [if_pos h]
      refine ⟨false, rfl, by simp, fun hh => ?_⟩
      exact absurd (hh 0 (by omega)) h
    · rw [if_neg h]
      have h : data.getD (p + 1) 0 = target := by simpa using h
      obtain ⟨r, e, hr⟩ := ih (p + 1) (by omega)
      refine ⟨r, e, hr.trans ⟨fun hh k hk => ?_, fun hh k hk => ?_⟩⟩
      · cases k with
        | zero => exact h
        | succ k =>
          have := hh k (by omega)
          rwa [show p + 1 + 1 + k = p + 1 + (k + 1) by omega] at this
      · have := hh (k + 1) (by omega)
        rwa [show p + 1 + (k + 1) = p + 1 + 1 + k by omega] at this

theorem byte_eq_zero_iff {v : Byte} : v = 0 ↔ ∀ j, j < 8 → v.getMsbD j = false := by
  constructor
  · intro h j hj; rw [h]; simp
  · intro h
    apply BitVec.eq_of_getMsbD_eq
    intro i hi
    rw [h i hi]; simp

theorem xorByte_eq (c : Bool) {x : Byte} : x = xorByte c ↔ x ^^^ xorByte c = 0 := by
  constructor
  · intro h; rw [h]; simp
  · intro h
    have := congrArg (· ^^^ xorByte c) h
    simpa [BitVec.xor_assoc] using this

/-- `test_uniform` returns `Some(b)` exactly when the window is not empty and all its bits are `b`. -/
theorem testUniform_spec {s : CSlice ρ} (hs : WF s) (base : Nat) :
    ∃ r, s.testUniform base = .ok r ∧ ∀ c, r = some c ↔ s.bits ≠ [] ∧ ∀ x ∈ s.bits, x = c := by
  have h1 := hs.start_le
  have h2 := hs.end_le
  have hl := s.bits_length
  unfold testUniform
  split
  · refine ⟨none, rfl, fun c => ?_⟩
    have : s.bits = [] := List.eq_nil_of_length_eq_zero (by omega)
    simp [this]
  rename_i hne
  rw [if_neg (by omega)]
  dsimp only
  have hst : s.bits ≠ [] := by
    intro e
    rw [e] at hl
    simp at hl; omega
  -- everything reduces to: all bits of the window equal the first bit
  have hall : ∀ c, (∀ x ∈ s.bits, x = c) ↔ ∀ j, j < s.range.bitsEnd - s.range.bitsStart → bitAt s.data (s.range.bitsStart + j) = c := by
    intro c
    simp [bits]
  have key : ∀ (b : Bool), bitAt s.data s.range.bitsStart = b → ∀ (r : Option Bool),
      (r = some b ∨ r = none) →
      (r = some b ↔ ∀ j, j < s.range.bitsEnd - s.range.bitsStart → bitAt s.data (s.range.bitsStart + j) = b) →
      ∀ c, r = some c ↔ s.bits ≠ [] ∧ ∀ x ∈ s.bits, x = c := by
    intro b hb r hr hiff c
    rw [hall]
    constructor
    · intro hrc
      rcases hr with hr | hr
      · have : b = c := by rw [hr] at hrc; exact Option.some.inj hrc
        subst this
        exact ⟨hst, hiff.mp hr⟩
      · rw [hr] at hrc; cases hrc
    · rintro ⟨-, hh⟩
      have := hh 0 (by omega)
      rw [Nat.add_zero, hb] at this
      subst this
      exact hiff.mpr hh
  generalize hp : s.range.bitsStart = p at *
  generalize hm : s.range.bitsEnd - p = m at *
  rw [rd_ok (by omega), bind_ok]
  have hbit : (((s.data.getD (p / 8) 0 >>> (7 - p % 8)) &&& 1#8) != 0) = bitAt s.data p := by
    have hg := getBit_spec hs (off := 0) (by have := hs.data_le; omega)
    unfold getBit at hg
    rw [u16add_eq (by have := hs.data_le; omega), hp, Nat.add_zero, if_pos (by omega)] at hg
    dsimp only at hg
    have hq : p / 8 < s.data.length := by omega
    rw [List.getElem?_eq_getElem hq, if_pos (by omega), bits_getD _ (by omega), hp] at hg
    dsimp only at hg
    have := Except.ok.inj hg
    rw [Nat.add_zero] at this
    rw [← this, List.getD_eq_getElem?_getD, List.getElem?_eq_getElem hq]
    rfl
  show ∃ r, (if m < 64 then _ else _) = Except.ok r ∧ _
  have hbit' : (((s.data.getD (p / 8) 0 >>> (7 - p % 8)) &&& 1) != 0) = bitAt s.data p := hbit
  rw [hbit']
  generalize hb : bitAt s.data p = b at *
  have hx : ∀ q j, j < 8 → (s.data.getD q 0 ^^^ xorByte b).getMsbD j = (bitAt s.data (8 * q + j) ^^ b) := by
    intro q j hj
    rw [xorByte_getMsbD _ _ hj, bitAt_byte _ _ _ hj]
  by_cases h64 : m < 64
  · rw [if_pos h64]
    by_cases hc : p % 8 + m ≤ 8
    · rw [if_pos hc]
      have hmask : ∀ j, j < 8 → ((0xff#8) <<< ((8 - (m + p % 8) % 8) % 8)).getMsbD j = decide (j < m + p % 8) := by
        intro j hj
        have hk : (8 - (m + p % 8) % 8) % 8 = 8 - (m + p % 8) := by omega
        rw [hk, getMsbD_mask (by omega) hj]
      have hz : (s.data.getD (p / 8) 0 ^^^ xorByte b) &&& ((0xff#8) >>> (p % 8)) &&& ((0xff#8) <<< ((8 - (m + p % 8) % 8) % 8)) = 0
          ↔ ∀ j, j < m → bitAt s.data (p + j) = b := by
        rw [byte_eq_zero_iff]
        constructor
        · intro h j hj
          have := h (p % 8 + j) (by omega)
          rw [getMsbD_and, getMsbD_and, hx _ _ (by omega), getMsbD_ffshr (by omega) (by omega), hmask _ (by omega)] at this
          have a1 : p % 8 ≤ p % 8 + j := by omega
          have a2 : p % 8 + j < m + p % 8 := by omega
          have e : 8 * (p / 8) + (p % 8 + j) = p + j := by omega
          rw [e] at this
          simpa [a1, a2] using this
        · intro h j hj
          rw [getMsbD_and, getMsbD_and, hx _ _ (by omega), getMsbD_ffshr (by omega) (by omega), hmask _ (by omega)]
          by_cases a1 : p % 8 ≤ j
          · by_cases a2 : j < m + p % 8
            · have := h (j - p % 8) (by omega)
              have e : p + (j - p % 8) = 8 * (p / 8) + j := by omega
              rw [e] at this
              simp [this]
            · simp [a2]
          · simp [a1]
      by_cases hzz : (s.data.getD (p / 8) 0 ^^^ xorByte b) &&& ((0xff#8) >>> (p % 8)) &&& ((0xff#8) <<< ((8 - (m + p % 8) % 8) % 8)) ≠ 0
      · rw [if_pos hzz]
        refine ⟨none, rfl, key b rfl none (Or.inr rfl) ⟨fun h => by (try cases h), fun h => absurd (hz.mpr h) hzz⟩⟩
      · rw [if_neg hzz]
        have hzz := Classical.not_not.mp hzz
        exact ⟨some b, rfl, key b rfl _ (Or.inl rfl) ⟨fun _ => hz.mp hzz, fun _ => rfl⟩⟩
    · rw [if_neg hc]
      have hz : (s.data.getD (p / 8) 0 ^^^ xorByte b) &&& ((0xff#8) >>> (p % 8)) = 0
          ↔ ∀ j, j < 8 - p % 8 → bitAt s.data (p + j) = b := by
        rw [byte_eq_zero_iff]
        constructor
        · intro h j hj
          have := h (p % 8 + j) (by omega)
          rw [getMsbD_and, hx _ _ (by omega), getMsbD_ffshr (by omega) (by omega)] at this
          have a1 : p % 8 ≤ p % 8 + j := by omega
          have e : 8 * (p / 8) + (p % 8 + j) = p + j := by omega
          rw [e] at this
          simpa [a1] using this
        · intro h j hj
          rw [getMsbD_and, hx _ _ (by omega), getMsbD_ffshr (by omega) (by omega)]
          by_cases a1 : p % 8 ≤ j
          · have := h (j - p % 8) (by omega)
            have e : p + (j - p % 8) = 8 * (p / 8) + j := by omega
            rw [e] at this
            simp [this]
          · simp [a1]
      by_cases hzz : (s.data.getD (p / 8) 0 ^^^ xorByte b) &&& ((0xff#8) >>> (p % 8)) ≠ 0
      · rw [if_pos hzz]
        exact ⟨none, rfl, key b rfl none (Or.inr rfl) ⟨fun h => by (try cases h),
          fun h => absurd (hz.mpr (fun j hj => h j (by omega))) hzz⟩⟩
      · rw [if_neg hzz]
        have hzz := Classical.not_not.mp hzz
        have hfirst := hz.mp hzz
        obtain ⟨r, er, hr⟩ := allEqLoop_spec (data := s.data) (target := xorByte b) ((m - (8 - p % 8)) / 8) (p / 8) (by omega)
        rw [er, bind_ok]
        have hmid : r = true ↔ ∀ j, 8 - p % 8 ≤ j → j < 8 - p % 8 + 8 * ((m - (8 - p % 8)) / 8) → bitAt s.data (p + j) = b := by
          rw [hr]
          constructor
          · intro h j hj1 hj2
            have := (xorByte_eq b).mp (h ((j - (8 - p % 8)) / 8) (by omega))
            have := byte_eq_zero_iff.mp this ((j - (8 - p % 8)) % 8) (by omega)
            rw [hx _ _ (by omega)] at this
            have e : 8 * (p / 8 + 1 + (j - (8 - p % 8)) / 8) + (j - (8 - p % 8)) % 8 = p + j := by omega
            rw [e] at this
            simpa using this
          · intro h k hk
            rw [xorByte_eq, byte_eq_zero_iff]
            intro j hj
            rw [hx _ _ hj]
            have := h (8 - p % 8 + 8 * k + j) (by omega) (by omega)
            have e : p + (8 - p % 8 + 8 * k + j) = 8 * (p / 8 + 1 + k) + j := by omega
            rw [e] at this
            simp [this]
        cases r with
        | false =>
          simp only [Bool.false_eq_true, if_false]
          refine ⟨none, rfl, key b rfl none (Or.inr rfl) ⟨fun h => by (try cases h), fun h => ?_⟩⟩
          have := hmid.mpr (fun j _ hj2 => h j (by omega))
          cases this
        | true =>
          simp only [if_true]
          have hmid' := hmid.mp rfl
          by_cases hl8 : (m - (8 - p % 8)) % 8 ≠ 0
          · rw [if_pos hl8, rd_ok (by omega), bind_ok]
            have hmask : ∀ j, j < 8 → ((0xff#8) <<< ((8 - (m + p % 8) % 8) % 8)).getMsbD j = decide (j < (m - (8 - p % 8)) % 8) := by
              intro j hj
              have hk : (8 - (m + p % 8) % 8) % 8 = 8 - (m - (8 - p % 8)) % 8 := by omega
              rw [hk, getMsbD_mask (by omega) hj]
            have hzl : (s.data.getD (p / 8 + (m - (8 - p % 8)) / 8 + 1) 0 ^^^ xorByte b) &&& ((0xff#8) <<< ((8 - (m + p % 8) % 8) % 8)) = 0
                ↔ ∀ j, 8 - p % 8 + 8 * ((m - (8 - p % 8)) / 8) ≤ j → j < m → bitAt s.data (p + j) = b := by
              rw [byte_eq_zero_iff]
              constructor
              · intro h j hj1 hj2
                have := h (j - (8 - p % 8 + 8 * ((m - (8 - p % 8)) / 8))) (by omega)
                rw [getMsbD_and, hx _ _ (by omega), hmask _ (by omega)] at this
                have a1 : j - (8 - p % 8 + 8 * ((m - (8 - p % 8)) / 8)) < (m - (8 - p % 8)) % 8 := by omega
                have e : 8 * (p / 8 + (m - (8 - p % 8)) / 8 + 1) + (j - (8 - p % 8 + 8 * ((m - (8 - p % 8)) / 8))) = p + j := by omega
                rw [e] at this
                simpa [a1] using this
              · intro h j hj
                rw [getMsbD_and, hx _ _ hj, hmask _ hj]
                by_cases a1 : j < (m - (8 - p % 8)) % 8
                · have := h (8 - p % 8 + 8 * ((m - (8 - p % 8)) / 8) + j) (by omega) (by omega)
                  have e : p + (8 - p % 8 + 8 * ((m - (8 - p % 8)) / 8) + j) = 8 * (p / 8 + (m - (8 - p % 8)) / 8 + 1) + j := by omega
                  rw [e] at this
                  simp [this]
                · simp [a1]
            by_cases hzz2 : (s.data.getD (p / 8 + (m - (8 - p % 8)) / 8 + 1) 0 ^^^ xorByte b) &&& ((0xff#8) <<< ((8 - (m + p % 8) % 8) % 8)) ≠ 0
            · rw [if_pos hzz2]
              exact ⟨none, rfl, key b rfl none (Or.inr rfl) ⟨fun h => by (try cases h),
                fun h => absurd (hzl.mpr (fun j _ hj => h j (by omega))) hzz2⟩⟩
            · rw [if_neg hzz2]
              have hzz2 := Classical.not_not.mp hzz2
              have hlast := hzl.mp hzz2
              refine ⟨some b, rfl, key b rfl _ (Or.inl rfl) ⟨fun _ j hj => ?_, fun _ => rfl⟩⟩
              by_cases c1 : j < 8 - p % 8
              · exact hfirst j c1
              · by_cases c2 : j < 8 - p % 8 + 8 * ((m - (8 - p % 8)) / 8)
                · exact hmid' j (by omega) c2
                · exact hlast j (by omega) hj
          · rw [if_neg hl8]
            refine ⟨some b, rfl, key b rfl _ (Or.inl rfl) ⟨fun _ j hj => ?_, fun _ => rfl⟩⟩
            by_cases c1 : j < 8 - p % 8
            · exact hfirst j c1
            · exact hmid' j (by omega) (by omega)
  · rw [if_neg h64]
    obtain ⟨k, e, hk1, hk2, hk3⟩ := bitsMemscan_spec (data := s.data) (base := base) (c := b)
      (off := p) (n := m) (by omega)
    rw [e, bind_ok]
    by_cases hkm : k = m
    · rw [if_pos hkm]
      exact ⟨some b, rfl, key b rfl _ (Or.inl rfl) ⟨fun _ j hj => hk2 j (by omega), fun _ => rfl⟩⟩
    · rw [if_neg hkm]
      exact ⟨none, rfl, key b rfl none (Or.inr rfl) ⟨fun h => by (try cases h), fun h => absurd (h k (by omega)) (hk3 (by omega))⟩⟩

end CSlice
end Verif
