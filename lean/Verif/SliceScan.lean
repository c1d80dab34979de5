import Verif.SliceLemmas2
set_option linter.unusedVariables false
set_option linter.unusedSimpArgs false
/-
Refinement lemmas for comparisons and scans on slices.
-/
namespace Verif
open DataBuilder (u16add_eq bind_ok getMsbD_shr getMsbD_mask bitAt_mask bitAt_singleton)

/-! ### Characterisations of the specification functions -/

theorem commonPrefixLen_eq {a b : Bits} {k : Nat} (hk : k ≤ min a.length b.length)
    (heq : ∀ j, j < k → a.getD j false = b.getD j false)
    (hne : k < min a.length b.length → a.getD k false ≠ b.getD k false) : commonPrefixLen a b = k := by
  induction a generalizing b k with
  | nil => simp at hk; subst hk; simp [commonPrefixLen]
  | cons x xs ih =>
    cases b with
    | nil => simp at hk; subst hk; simp [commonPrefixLen]
    | cons y ys =>
      cases k with
      | zero =>
        have := hne (by simp)
        simp at this
        simp [commonPrefixLen, this]
      | succ k =>
        have h0 := heq 0 (by omega)
        simp at h0
        simp only [commonPrefixLen, h0, if_true]
        congr 1
        apply ih
        · simp at hk ⊢; omega
        · intro j hj
          have := heq (j + 1) (by omega)
          simpa using this
        · intro hlt
          have := hne (by simp at hlt ⊢; omega)
          simpa using this

theorem runLength_eq {b : Bool} {l : Bits} {k : Nat} (hk : k ≤ l.length)
    (heq : ∀ j, j < k → l.getD j false = b)
    (hne : k < l.length → l.getD k false ≠ b) : runLength b l = k := by
  induction l generalizing k with
  | nil => simp at hk; subst hk; rfl
  | cons x xs ih =>
    cases k with
    | zero =>
      have := hne (by simp)
      simp at this
      simp [runLength, this]
    | succ k =>
      have h0 := heq 0 (by omega)
      simp at h0
      simp only [runLength, h0, if_true]
      congr 1
      apply ih
      · simp at hk; omega
      · intro j hj
        have := heq (j + 1) (by omega)
        simpa using this
      · intro hlt
        have := hne (by simp; omega)
        simpa using this

theorem find_range_spec (p : Nat → Bool) (n : Nat) :
    let k := ((List.range n).find? p).getD n
    k ≤ n ∧ (∀ j, j < k → p j = false) ∧ (k < n → p k = true) := by
  dsimp only
  cases h : (List.range n).find? p with
  | none =>
    rw [List.find?_eq_none] at h
    simp only [Option.getD_none]
    refine ⟨Nat.le_refl _, fun j hj => ?_, fun h => by omega⟩
    have := h j (by simp; omega)
    simpa using this
  | some k =>
    rw [List.find?_eq_some_iff_getElem] at h
    obtain ⟨hp, i, hi, e, hlt⟩ := h
    simp only [List.getElem_range] at e hlt
    subst e
    simp only [List.length_range] at hi
    simp only [Option.getD_some]
    refine ⟨by omega, fun j hj => ?_, fun _ => hp⟩
    have := hlt j hj
    simpa using this

theorem leadingZeros_spec {w : Nat} (v : BitVec w) :
    leadingZeros v ≤ w ∧ (∀ j, j < leadingZeros v → v.getMsbD j = false) ∧
    (leadingZeros v < w → v.getMsbD (leadingZeros v) = true) :=
  find_range_spec (fun i => v.getMsbD i) w

theorem trailingZeros_spec {w : Nat} (v : BitVec w) :
    trailingZeros v ≤ w ∧ (∀ j, j < trailingZeros v → v.getLsbD j = false) ∧
    (trailingZeros v < w → v.getLsbD (trailingZeros v) = true) :=
  find_range_spec (fun i => v.getLsbD i) w

theorem leadingZeros_lt {w : Nat} {v : BitVec w} (h : v ≠ 0) : leadingZeros v < w := by
  have hs := leadingZeros_spec v
  rcases Nat.lt_or_ge (leadingZeros v) w with hl | hl
  · exact hl
  · exfalso
    apply h
    apply BitVec.eq_of_getMsbD_eq
    intro i hi
    rw [hs.2.1 i (by omega)]
    simp

theorem trailingZeros_lt {w : Nat} {v : BitVec w} (h : v ≠ 0) : trailingZeros v < w := by
  have hs := trailingZeros_spec v
  rcases Nat.lt_or_ge (trailingZeros v) w with hl | hl
  · exact hl
  · exfalso
    apply h
    apply BitVec.eq_of_getLsbD_eq
    intro i hi
    rw [hs.2.1 i (by omega)]
    simp

theorem getMsbD_shr16 (x : Byte) {r j : Nat} (hr : r < 8) (hj : j < 8) :
    (((x.setWidth 16) >>> (8 - r)).setWidth 8).getMsbD j = (decide (8 - r ≤ j) && x.getMsbD (j - (8 - r))) := by
  rw [getMsbD_shr_setWidth _ _ _ hj (by omega), getMsbD_zext _ _ (by omega) (by omega)]
  by_cases h : 8 - r ≤ j
  · have h2 : 16 - 8 ≤ 16 - 8 - (8 - r) + j := by omega
    have e : 16 - 8 - (8 - r) + j - (16 - 8) = j - (8 - r) := by omega
    simp only [h, h2, e]
  · have h2 : ¬ (16 - 8 ≤ 16 - 8 - (8 - r) + j) := by omega
    simp only [h, h2, decide_false, Bool.false_and]

namespace CSlice
variable {ρ : Type}

/-- The byte register of the scan holds the `8 - r` bits of byte `q + i`, left aligned. -/
def Reg (d : List Byte) (q r i : Nat) (x : Byte) : Prop :=
  ∀ j, j < 8 → x.getMsbD j = (decide (j + r < 8) && bitAt d (8 * (q + i) + r + j))

theorem reg_next {d : List Byte} {q r i : Nat} (hr : r < 8) : Reg d q r i (d.getD (q + i) 0 <<< r) := by
  intro j hj
  by_cases h : j + r < 8
  · rw [getMsbD_shl _ _ _ h, bitAt_byte _ _ _ h]
    simp only [h, decide_true, Bool.true_and]
    exact bitAt_congr _ (by omega)
  · rw [getMsbD_shl_out _ _ _ (by omega)]
    simp [h]

theorem reg_or {d : List Byte} {q r i : Nat} (hr : r < 8) {x : Byte} (hx : Reg d q r i x) {j : Nat} (hj : j < 8) :
    (x ||| (((d.getD (q + (i + 1)) 0).setWidth 16) >>> (8 - r)).setWidth 8).getMsbD j
      = bitAt d (8 * (q + i) + r + j) := by
  rw [BitVec.getMsbD_or, hx j hj, getMsbD_shr16 _ hr hj]
  by_cases h : j + r < 8
  · have h2 : ¬ (8 - r ≤ j) := by omega
    simp [h, h2]
  · have h2 : (8 - r ≤ j) := by omega
    rw [bitAt_byte _ _ _ (by omega)]
    simp only [h, h2, decide_true, decide_false, Bool.true_and, Bool.false_and, Bool.false_or]
    exact bitAt_congr _ (by omega)

theorem lcpLoop_spec {sd od : List Byte} {sq sr oq or' : Nat} (hsr : sr < 8) (hor : or' < 8) (n : Nat) :
    ∀ (i : Nat) (sb ob : Byte), sq + (i + 1) + n ≤ sd.length → oq + (i + 1) + n ≤ od.length →
      Reg sd sq sr i sb → Reg od oq or' i ob →
      (∃ k, lcpLoop sd od sq sr oq or' n (i + 1) sb ob (8 * i) = .ok (.inl k) ∧ 8 * i ≤ k ∧ k < 8 * (i + n) ∧
        (∀ j, 8 * i ≤ j → j < k → bitAt sd (8 * sq + sr + j) = bitAt od (8 * oq + or' + j)) ∧
        bitAt sd (8 * sq + sr + k) ≠ bitAt od (8 * oq + or' + k)) ∨
      (∃ sb' ob', lcpLoop sd od sq sr oq or' n (i + 1) sb ob (8 * i) = .ok (.inr (sb', ob', 8 * (i + n))) ∧
        Reg sd sq sr (i + n) sb' ∧ Reg od oq or' (i + n) ob' ∧
        (∀ j, 8 * i ≤ j → j < 8 * (i + n) → bitAt sd (8 * sq + sr + j) = bitAt od (8 * oq + or' + j))) := by
  induction n with
  | zero =>
    intro i sb ob h1 h2 hs ho
    exact Or.inr ⟨sb, ob, rfl, hs, ho, fun j h1 h2 => by omega⟩
  | succ n ih =>
    intro i sb ob h1 h2 hs ho
    unfold lcpLoop
    rw [rd_ok (by omega), bind_ok, rd_ok (by omega), bind_ok]
    have hxs := fun j (hj : j < 8) => reg_or hsr hs hj
    have hxo := fun j (hj : j < 8) => reg_or hor ho hj
    generalize sb ||| (((sd.getD (sq + (i + 1)) 0).setWidth 16) >>> (8 - sr)).setWidth 8 = xs at *
    generalize ob ||| (((od.getD (oq + (i + 1)) 0).setWidth 16) >>> (8 - or')).setWidth 8 = xo at *
    dsimp only
    have hx : ∀ j, j < 8 → (xs ^^^ xo).getMsbD j
        = (bitAt sd (8 * sq + sr + (8 * i + j)) ^^ bitAt od (8 * oq + or' + (8 * i + j))) := by
      intro j hj
      rw [BitVec.getMsbD_xor, hxs j hj, hxo j hj]
      congr 1
      · exact bitAt_congr _ (by omega)
      · exact bitAt_congr _ (by omega)
    by_cases hz : xs ^^^ xo = 0
    · rw [if_pos hz]
      have heq : ∀ j, 8 * i ≤ j → j < 8 * (i + 1) → bitAt sd (8 * sq + sr + j) = bitAt od (8 * oq + or' + j) := by
        intro j hj1 hj2
        have := hx (j - 8 * i) (by omega)
        rw [hz] at this
        have e : 8 * i + (j - 8 * i) = j := by omega
        rw [e] at this
        simpa using this.symm
      have e8 : 8 * i + 8 = 8 * (i + 1) := by omega
      rw [e8]
      rcases ih (i + 1) _ _ (by omega) (by omega) (reg_next (d := sd) (q := sq) (i := i + 1) hsr)
          (reg_next (d := od) (q := oq) (i := i + 1) hor) with ⟨k, e, hk1, hk2, hk3, hk4⟩ | ⟨sb', ob', e, hs', ho', hall⟩
      · left
        refine ⟨k, e, by omega, by omega, ?_, hk4⟩
        intro j hj1 hj2
        by_cases hj : j < 8 * (i + 1)
        · exact heq j hj1 hj
        · exact hk3 j (by omega) hj2
      · right
        have e2 : i + 1 + n = i + (n + 1) := by omega
        rw [e2] at e hs' ho' hall
        refine ⟨sb', ob', e, hs', ho', ?_⟩
        intro j hj1 hj2
        by_cases hj : j < 8 * (i + 1)
        · exact heq j hj1 hj
        · exact hall j (by omega) hj2
    · rw [if_neg hz]
      left
      have hl := leadingZeros_spec (xs ^^^ xo)
      have hlt := leadingZeros_lt hz
      refine ⟨_, rfl, by omega, by omega, ?_, ?_⟩
      · intro j hj1 hj2
        have := hl.2.1 (j - 8 * i) (by omega)
        rw [hx _ (by omega)] at this
        have e : 8 * i + (j - 8 * i) = j := by omega
        rw [e] at this
        simpa using this
      · have := hl.2.2 hlt
        rw [hx _ hlt] at this
        simpa using this

theorem commonPrefixLen_le (a b : Bits) : commonPrefixLen a b ≤ min a.length b.length := by
  induction a generalizing b with
  | nil => simp [commonPrefixLen]
  | cons x xs ih =>
    cases b with
    | nil => simp [commonPrefixLen]
    | cons y ys =>
      simp only [commonPrefixLen]
      split
      · have := ih ys
        simp; omega
      · omega

theorem commonPrefixLen_spec (a b : Bits) :
    (∀ j, j < commonPrefixLen a b → a.getD j false = b.getD j false) ∧
    (commonPrefixLen a b < min a.length b.length → a.getD (commonPrefixLen a b) false ≠ b.getD (commonPrefixLen a b) false) := by
  induction a generalizing b with
  | nil => simp [commonPrefixLen]
  | cons x xs ih =>
    cases b with
    | nil => simp [commonPrefixLen]
    | cons y ys =>
      simp only [commonPrefixLen]
      split
      · rename_i hxy
        have hi := ih ys
        constructor
        · intro j hj
          cases j with
          | zero => simpa using hxy
          | succ j => simpa using hi.1 j (by omega)
        · intro hlt
          simp only [List.length_cons] at hlt
          have := hi.2 (by omega)
          simpa using this
      · rename_i hxy
        exact ⟨fun j hj => by omega, fun _ => by simpa using hxy⟩

/-- The index-wise characterisation, with a bound `m` on the length. -/
theorem min_commonPrefixLen {a b : Bits} {m k : Nat} (hm : m ≤ min a.length b.length) (hk : k ≤ m)
    (heq : ∀ j, j < k → a.getD j false = b.getD j false)
    (hne : k < m → a.getD k false ≠ b.getD k false) : min (commonPrefixLen a b) m = k := by
  have h1 := commonPrefixLen_le a b
  have h2 := commonPrefixLen_spec a b
  rcases Nat.lt_trichotomy (commonPrefixLen a b) k with h | h | h
  · exfalso
    exact h2.2 (by omega) (heq _ h)
  · omega
  · rcases Nat.lt_or_ge k m with hk' | hk'
    · exfalso
      exact hne hk' (h2.1 k h)
    · omega

theorem lcpImpl_spec {s o : CSlice ρ} (hs : WF s) (ho : WF o) (hint : Nat) :
    s.lcpImpl o hint = .ok (min (commonPrefixLen s.bits o.bits) hint) := by
  have s1 := hs.start_le
  have s2 := hs.end_le
  have o1 := ho.start_le
  have o2 := ho.end_le
  have hcl := commonPrefixLen_le s.bits o.bits
  unfold lcpImpl
  by_cases h0 : s.range.bitsStart ≥ s.range.bitsEnd ∨ o.range.bitsStart ≥ o.range.bitsEnd
  · rw [if_pos h0]
    have hz : commonPrefixLen s.bits o.bits = 0 := by
      rw [bits_length, bits_length] at hcl
      omega
    rw [hz]; simp
  rw [if_neg h0]
  dsimp only
  have hsl := s.bits_length
  have hol := o.bits_length
  have hmin : ∀ k, k ≤ min (min (s.range.bitsEnd - s.range.bitsStart) (o.range.bitsEnd - o.range.bitsStart)) hint →
      min (commonPrefixLen s.bits o.bits) (min (min (s.range.bitsEnd - s.range.bitsStart) (o.range.bitsEnd - o.range.bitsStart)) hint) = k →
      min (commonPrefixLen s.bits o.bits) hint = k := by
    intro k hk e
    omega
  generalize hmb : min (min (s.range.bitsEnd - s.range.bitsStart) (o.range.bitsEnd - o.range.bitsStart)) hint = m at *
  have hm1 : m ≤ min s.bits.length o.bits.length := by omega
  -- the goal reduces to a pointwise statement about the raw bits
  have key : ∀ k, k ≤ m →
      (∀ j, j < k → bitAt s.data (s.range.bitsStart + j) = bitAt o.data (o.range.bitsStart + j)) →
      (k < m → bitAt s.data (s.range.bitsStart + k) ≠ bitAt o.data (o.range.bitsStart + k)) →
      min (commonPrefixLen s.bits o.bits) hint = k := by
    intro k hk heq hne
    apply hmin k hk
    apply min_commonPrefixLen hm1 hk
    · intro j hj
      rw [bits_getD _ (by omega), bits_getD _ (by omega), heq j hj]
    · intro hlt
      rw [bits_getD _ (by omega), bits_getD _ (by omega)]
      exact hne hlt
  generalize hsr : s.range.bitsStart % 8 = sr at *
  generalize hsq : s.range.bitsStart / 8 = sq at *
  generalize hor : o.range.bitsStart % 8 = or' at *
  generalize hoq : o.range.bitsStart / 8 = oq at *
  have es : s.range.bitsStart = 8 * sq + sr := by omega
  have eo : o.range.bitsStart = 8 * oq + or' := by omega
  rw [es, eo] at key
  have hsr8 : sr < 8 := by omega
  have hor8 : or' < 8 := by omega
  rw [rd_ok (by omega), bind_ok, rd_ok (by omega), bind_ok]
  by_cases hm0 : m = 0
  · -- only the zero-length hint reaches here
    subst hm0
    have e0 := key 0 (by omega) (fun j hj => by omega) (fun h => by omega)
    rw [e0]
    have hn : min ((sr + 0 + 7) / 8) ((or' + 0 + 7) / 8) - 1 = 0 := by omega
    rw [hn]
    have hl0 : ∀ a b : Byte, lcpLoop s.data o.data sq sr oq or' 0 1 a b 0 = .ok (.inr (a, b, 0)) := fun _ _ => rfl
    rw [hl0, bind_ok]
    dsimp only
    split
    · rw [rd_ok (by omega), bind_ok, bind_ok]
      split
      · rw [rd_ok (by omega), bind_ok, bind_ok]; simp
      · rw [bind_ok]; simp
    · rw [bind_ok]
      split
      · rw [rd_ok (by omega), bind_ok, bind_ok]; simp
      · rw [bind_ok]; simp
  generalize hsB : (sr + m + 7) / 8 = sB at *
  generalize hoB : (or' + m + 7) / 8 = oB at *
  have hA1 : 1 ≤ min sB oB := by omega
  have rs : Reg s.data sq sr 0 (s.data.getD sq 0 <<< sr) := by
    have := reg_next (d := s.data) (q := sq) (i := 0) hsr8
    simpa using this
  have ro : Reg o.data oq or' 0 (o.data.getD oq 0 <<< or') := by
    have := reg_next (d := o.data) (q := oq) (i := 0) hor8
    simpa using this
  rcases lcpLoop_spec hsr8 hor8 (min sB oB - 1) 0 _ _ (by omega) (by omega) rs ro with
    ⟨k, e, hk1, hk2, hk3, hk4⟩ | ⟨sb', ob', e, hs', ho', hall⟩
  · simp only [Nat.zero_add, Nat.mul_zero] at e
    rw [e, bind_ok]
    dsimp only
    congr 1
    symm
    apply key _ (by omega)
    · intro j hj
      exact hk3 j (by omega) (by omega)
    · intro hlt
      have : min k m = k := by omega
      rw [this]
      exact hk4
  · simp only [Nat.zero_add, Nat.mul_zero] at e hs' ho'
    rw [e, bind_ok]
    dsimp only
    generalize hA : min sB oB = A at *
    -- the registers after concatenation
    have cs : ∃ x, (if sr > 0 ∧ A < sB then do
          let x ← rd s.data (sq + A)
          .ok (sb' ||| (x >>> (8 - sr))) else .ok sb' : Except Err Byte) = .ok x ∧
        ∀ j, j < 8 → 8 * (A - 1) + j < m → x.getMsbD j = bitAt s.data (8 * sq + sr + (8 * (A - 1) + j)) := by
      by_cases hc : sr > 0 ∧ A < sB
      · rw [if_pos hc, rd_ok (by omega), bind_ok]
        refine ⟨_, rfl, ?_⟩
        intro j hj hjm
        rw [BitVec.getMsbD_or, hs' j hj, getMsbD_shr _ _ hj]
        by_cases h : j + sr < 8
        · have h2 : ¬ (8 - sr ≤ j) := by omega
          simp only [h, h2, decide_true, decide_false, Bool.true_and, Bool.false_and, Bool.or_false]
          exact bitAt_congr _ (by omega)
        · have h2 : (8 - sr ≤ j) := by omega
          rw [bitAt_byte _ _ _ (by omega)]
          simp only [h, h2, decide_true, decide_false, Bool.true_and, Bool.false_and, Bool.false_or]
          exact bitAt_congr _ (by omega)
      · rw [if_neg hc]
        refine ⟨_, rfl, ?_⟩
        intro j hj hjm
        rw [hs' j hj]
        have h : j + sr < 8 := by omega
        simp only [h, decide_true, Bool.true_and]
        exact bitAt_congr _ (by omega)
    have co : ∃ x, (if or' > 0 ∧ A < oB then do
          let x ← rd o.data (oq + A)
          .ok (ob' ||| (x >>> (8 - or'))) else .ok ob' : Except Err Byte) = .ok x ∧
        ∀ j, j < 8 → 8 * (A - 1) + j < m → x.getMsbD j = bitAt o.data (8 * oq + or' + (8 * (A - 1) + j)) := by
      by_cases hc : or' > 0 ∧ A < oB
      · rw [if_pos hc, rd_ok (by omega), bind_ok]
        refine ⟨_, rfl, ?_⟩
        intro j hj hjm
        rw [BitVec.getMsbD_or, ho' j hj, getMsbD_shr _ _ hj]
        by_cases h : j + or' < 8
        · have h2 : ¬ (8 - or' ≤ j) := by omega
          simp only [h, h2, decide_true, decide_false, Bool.true_and, Bool.false_and, Bool.or_false]
          exact bitAt_congr _ (by omega)
        · have h2 : (8 - or' ≤ j) := by omega
          rw [bitAt_byte _ _ _ (by omega)]
          simp only [h, h2, decide_true, decide_false, Bool.true_and, Bool.false_and, Bool.false_or]
          exact bitAt_congr _ (by omega)
      · rw [if_neg hc]
        refine ⟨_, rfl, ?_⟩
        intro j hj hjm
        rw [ho' j hj]
        have h : j + or' < 8 := by omega
        simp only [h, decide_true, Bool.true_and]
        exact bitAt_congr _ (by omega)
    obtain ⟨x, ex, hx⟩ := cs
    obtain ⟨y, ey, hy⟩ := co
    rw [ex, bind_ok, ey, bind_ok]
    congr 1
    symm
    have hL := leadingZeros_spec ((x &&& (0xff#8) <<< ((8 - m % 8) % 8)) ^^^ (y &&& (0xff#8) <<< ((8 - m % 8) % 8)))
    have hmask : ∀ j, j < 8 → 8 * (A - 1) < m → ((0xff#8) <<< ((8 - m % 8) % 8)).getMsbD j = decide (8 * (A - 1) + j < m) := by
      intro j hj hlt
      have hk : (8 - m % 8) % 8 = 8 - (m - 8 * (A - 1)) := by omega
      rw [hk, getMsbD_mask (by omega) hj]
      exact decide_eq_decide.mpr (by omega)
    have hz : ∀ j, j < 8 → 8 * (A - 1) < m → ((x &&& (0xff#8) <<< ((8 - m % 8) % 8)) ^^^ (y &&& (0xff#8) <<< ((8 - m % 8) % 8))).getMsbD j
        = (decide (8 * (A - 1) + j < m) && (x.getMsbD j ^^ y.getMsbD j)) := by
      intro j hj hlt
      rw [BitVec.getMsbD_xor, getMsbD_and, getMsbD_and, hmask j hj hlt]
      cases decide (8 * (A - 1) + j < m) <;> simp
    generalize leadingZeros ((x &&& (0xff#8) <<< ((8 - m % 8) % 8)) ^^^ (y &&& (0xff#8) <<< ((8 - m % 8) % 8))) = L at *
    apply key _ (by omega)
    · intro j hj
      by_cases hjA : j < 8 * (A - 1)
      · exact hall j (by omega) (by omega)
      · have := hL.2.1 (j - 8 * (A - 1)) (by omega)
        rw [hz _ (by omega) (by omega)] at this
        have e3 : 8 * (A - 1) + (j - 8 * (A - 1)) = j := by omega
        rw [hx _ (by omega) (by omega), hy _ (by omega) (by omega), e3] at this
        have hjm : j < m := by omega
        simpa [hjm] using this
    · intro hlt
      have e3 : min (8 * (A - 1) + L) m = 8 * (A - 1) + L := by omega
      rw [e3] at hlt ⊢
      have hL8 : L < 8 := by omega
      have := hL.2.2 hL8
      rw [hz _ hL8 (by omega), hx _ hL8 hlt, hy _ hL8 hlt] at this
      simpa [hlt] using this

end CSlice
end Verif
