import Verif.V248Knuth
import Verif.NumProps
/-
C41, C42, C43 for `VarUint248`. The specification is the number `V248.val` denoted by the two words.
-/
set_option linter.unusedVariables false
set_option linter.unusedSimpArgs false
namespace Verif
namespace V248

theorem pow248 : (2 : Nat) ^ 248 = 2 ^ 120 * W128 := by rfl
theorem pow256 : (2 : Nat) ^ 256 = W128 * W128 := by rfl
theorem valid_hi : (W128 - 1) >>> 8 + 1 = 2 ^ 120 := by decide

theorem lt_scale {W V hi lo : Nat} (hlo : lo < W) : hi * W + lo < V * W ↔ hi < V := by
  constructor
  · intro h
    apply Classical.byContradiction
    intro hge
    have : V * W ≤ hi * W := Nat.mul_le_mul_right _ (by omega)
    omega
  · intro h
    have : (hi + 1) * W ≤ V * W := Nat.mul_le_mul_right _ h
    rw [Nat.add_mul, Nat.one_mul] at this
    omega

/-- Valid values are exactly the ones below `2^248`. -/
theorem isValid_iff {a : V248} (h : a.WF) : a.isValid = true ↔ a.val < 2 ^ 248 := by
  rw [pow248]
  unfold isValid val
  rw [decide_eq_true_iff, lt_scale h.2]
  have := valid_hi
  generalize (W128 - 1) >>> 8 = x at *
  generalize 2 ^ 120 = y at *
  omega

theorem max_val : max.WF ∧ max.val = 2 ^ 248 - 1 := ⟨⟨by decide, by decide⟩, by decide⟩

/-! ### Addition and subtraction -/

/-- The words and the carry of a sum. -/
theorem add_words {a b : V248} (ha : a.WF) (hb : b.WF) : ∃ lo c1 h1 c2 hi c3,
    oadd a.lo b.lo = (lo, c1) ∧ oadd a.hi c1.toNat = (h1, c2) ∧ oadd h1 b.hi = (hi, c3) ∧
    V248.WF ⟨hi, lo⟩ ∧ (V248.mk hi lo).val + (c2.toNat + c3.toNat) * (W128 * W128) = a.val + b.val ∧
    (c2 = true → c3 = false) := by
  obtain ⟨lo, c1, e1, l1, v1⟩ := oadd_spec ha.2 (Nat.le_of_lt hb.2)
  have hc : c1.toNat ≤ 1 := by cases c1 <;> decide
  have hW : 1 < W128 := by decide
  obtain ⟨h1, c2, e2, l2, v2⟩ := oadd_spec (b := c1.toNat) ha.1 (by generalize W128 = W at *; omega)
  obtain ⟨hi, c3, e3, l3, v3⟩ := oadd_spec l2 (Nat.le_of_lt hb.1)
  refine ⟨lo, c1, h1, c2, hi, c3, e1, e2, e3, ⟨l3, l1⟩, ?_, ?_⟩
  · unfold val
    dsimp only
    clear e1 e2 e3
    generalize c1.toNat = x1 at *
    generalize c2.toNat = x2 at *
    generalize c3.toNat = x3 at *
    generalize W128 = W at *
    have t : (hi + x3 * W + x2 * W) * W + (lo + x1 * W) = hi * W + lo + (x2 + x3) * (W * W) + x1 * W := by ring
    have t2 : hi + x3 * W + x2 * W = a.hi + x1 + b.hi := by omega
    rw [t2, v1] at t
    have t3 : (a.hi + x1 + b.hi) * W + (a.lo + b.lo) = a.hi * W + a.lo + (b.hi * W + b.lo) + x1 * W := by ring
    omega
  · intro h
    subst h
    have hhi := ha.1
    have hbi := hb.1
    cases c3
    · rfl
    · exfalso
      simp only [Bool.toNat_true, Nat.one_mul] at v2 v3
      generalize W128 = W at *
      omega

/-- C42: `checked_add` returns the exact sum when it is below `2^248` and nothing otherwise;
`saturating_add` then returns the largest value. -/
theorem C42_add {a b : V248} (ha : a.WF) (hb : b.WF) :
    (∀ r, a.checkedAdd b = some r ↔ r.WF ∧ r.val = a.val + b.val ∧ a.val + b.val < 2 ^ 248) ∧
    (a.checkedAdd b = none ↔ 2 ^ 248 ≤ a.val + b.val) ∧
    (a.saturatingAdd b).WF ∧ (a.saturatingAdd b).val = (if a.val + b.val < 2 ^ 248 then a.val + b.val else 2 ^ 248 - 1) := by
  obtain ⟨lo, c1, h1, c2, hi, c3, e1, e2, e3, hw, hv, _⟩ := add_words ha hb
  have hval := isValid_iff hw
  have key : a.checkedAdd b = if a.val + b.val < 2 ^ 248 then some ⟨hi, lo⟩ else none := by
    unfold checkedAdd
    rw [e1]; dsimp only; rw [e2]; dsimp only; rw [e3]; dsimp only
    have hlt : (2:Nat) ^ 248 ≤ W128 * W128 := by decide
    cases hc : (c2 || c3)
    · rw [Bool.or_eq_false_iff] at hc
      rw [hc.1, hc.2] at hv
      simp only [Bool.toNat_false, Nat.add_zero, Nat.zero_mul] at hv
      rw [hv] at hval
      simp only [Bool.false_eq_true, if_false]
      by_cases hl : a.val + b.val < 2 ^ 248
      · rw [if_pos hl, if_pos (hval.2 hl)]
      · rw [if_neg hl, if_neg (fun h => hl (hval.1 h))]
    · have : ¬ a.val + b.val < 2 ^ 248 := by
        rw [← hv]
        have hx : 1 ≤ c2.toNat + c3.toNat := by cases c2 <;> cases c3 <;> simp_all
        have : 1 * (W128 * W128) ≤ (c2.toNat + c3.toNat) * (W128 * W128) := Nat.mul_le_mul_right _ hx
        rw [Nat.one_mul] at this
        exact Nat.not_lt_of_le (Nat.le_trans hlt (Nat.le_trans this (Nat.le_add_left ..)))
      rw [if_neg this]
      rfl
  have hsum : a.val + b.val < 2 ^ 248 → (V248.mk hi lo).val = a.val + b.val := by
    intro hl
    have hx : c2.toNat + c3.toNat = 0 := by
      apply Classical.byContradiction
      intro hne
      have : W128 * W128 ≤ (c2.toNat + c3.toNat) * (W128 * W128) := Nat.le_mul_of_pos_left _ (Nat.pos_of_ne_zero hne)
      have hlt : (2:Nat) ^ 248 ≤ W128 * W128 := by decide
      exact Nat.not_le_of_lt hl (Nat.le_trans hlt (Nat.le_trans this (by rw [← hv]; exact Nat.le_add_left ..)))
    rw [hx, Nat.zero_mul, Nat.add_zero] at hv
    exact hv
  have inj : ∀ r : V248, r.WF → r.val = (V248.mk hi lo).val → r = ⟨hi, lo⟩ := by
    rintro ⟨rh, rl⟩ hr he
    have h1 := congrArg (· / W128) he
    have h2 := congrArg (· % W128) he
    simp only [val] at h1 h2
    rw [Nat.mul_comm rh, Nat.mul_comm hi, Nat.mul_add_div W128_pos, Nat.mul_add_div W128_pos, Nat.div_eq_of_lt hr.2,
      Nat.div_eq_of_lt hw.2] at h1
    rw [Nat.mul_comm rh, Nat.mul_comm hi, Nat.mul_add_mod, Nat.mul_add_mod, Nat.mod_eq_of_lt hr.2,
      Nat.mod_eq_of_lt hw.2] at h2
    simp only [Nat.add_zero] at h1
    subst h1; subst h2; rfl
  refine ⟨fun r => ?_, ?_, ?_⟩
  · rw [key]
    by_cases hl : a.val + b.val < 2 ^ 248
    · rw [if_pos hl]
      constructor
      · intro h; injection h with h; subst h; exact ⟨hw, hsum hl, hl⟩
      · rintro ⟨h1, h2, _⟩; rw [inj r h1 (h2.trans (hsum hl).symm)]
    · rw [if_neg hl]
      exact ⟨fun h => (by cases h), fun h => absurd h.2.2 hl⟩
  · rw [key]
    by_cases hl : a.val + b.val < 2 ^ 248
    · rw [if_pos hl]; exact ⟨fun h => (by cases h), fun h => absurd hl (Nat.not_lt_of_le h)⟩
    · rw [if_neg hl]; exact ⟨fun _ => Nat.le_of_not_lt hl, fun _ => rfl⟩
  · unfold saturatingAdd
    rw [key]
    by_cases hl : a.val + b.val < 2 ^ 248
    · rw [if_pos hl]
      refine ⟨hw, ?_⟩
      show (V248.mk hi lo).val = _
      rw [hsum hl, if_pos hl]
    · rw [if_neg hl]
      refine ⟨max_val.1, ?_⟩
      show max.val = _
      rw [max_val.2, if_neg hl]

/-- The words and the borrow of a difference. -/
theorem sub_words {a b : V248} (ha : a.WF) (hb : b.WF) : ∃ lo c1 h1 c2 hi c3,
    osub a.lo b.lo = (lo, c1) ∧ osub a.hi c1.toNat = (h1, c2) ∧ osub h1 b.hi = (hi, c3) ∧
    V248.WF ⟨hi, lo⟩ ∧ b.val + (V248.mk hi lo).val = a.val + (c2.toNat + c3.toNat) * (W128 * W128) := by
  obtain ⟨lo, c1, e1, l1, v1⟩ := osub_spec ha.2 hb.2
  have hc : c1.toNat ≤ 1 := by cases c1 <;> decide
  have hW : 1 < W128 := by decide
  obtain ⟨h1, c2, e2, l2, v2⟩ := osub_spec (b := c1.toNat) ha.1 (by generalize W128 = W at *; omega)
  obtain ⟨hi, c3, e3, l3, v3⟩ := osub_spec l2 hb.1
  refine ⟨lo, c1, h1, c2, hi, c3, e1, e2, e3, ⟨l3, l1⟩, ?_⟩
  unfold val
  dsimp only
  clear e1 e2 e3
  generalize c1.toNat = x1 at *
  generalize c2.toNat = x2 at *
  generalize c3.toNat = x3 at *
  generalize W128 = W at *
  have t : (a.hi + x2 * W + x3 * W) * W + (a.lo + x1 * W) = a.hi * W + a.lo + (x2 + x3) * (W * W) + x1 * W := by ring
  have t2 : a.hi + x2 * W + x3 * W = b.hi + hi + x1 := by omega
  rw [t2, ← v1] at t
  have t3 : (b.hi + hi + x1) * W + (b.lo + lo) = b.hi * W + b.lo + (hi * W + lo) + x1 * W := by ring
  omega

theorem val_inj {a b : V248} (ha : a.WF) (hb : b.WF) (h : a.val = b.val) : a = b := by
  have h1 := congrArg (· / W128) h
  have h2 := congrArg (· % W128) h
  simp only [val] at h1 h2
  rw [Nat.mul_comm a.hi, Nat.mul_comm b.hi, Nat.mul_add_div W128_pos, Nat.mul_add_div W128_pos, Nat.div_eq_of_lt ha.2,
    Nat.div_eq_of_lt hb.2, Nat.add_zero, Nat.add_zero] at h1
  rw [Nat.mul_comm a.hi, Nat.mul_comm b.hi, Nat.mul_add_mod, Nat.mul_add_mod, Nat.mod_eq_of_lt ha.2,
    Nat.mod_eq_of_lt hb.2] at h2
  cases a; cases b; simp only at h1 h2; rw [h1, h2]

/-- No borrow exactly when the difference is not negative. -/
theorem sub_borrow {A B R x Y : Nat} (hR : R < Y) (hB : B < Y) (h : B + R = A + x * Y) :
    (x = 0 ↔ B ≤ A) ∧ (B ≤ A → R = A - B) ∧ R = (A + Y - B) % Y := by
  have hx : x = 0 ∨ x = 1 := by
    rcases x with _ | _ | x
    · exact Or.inl rfl
    · exact Or.inr rfl
    · exfalso
      rw [show (x + 1 + 1) * Y = x * Y + Y + Y by ring] at h
      omega
  rcases hx with rfl | rfl
  · rw [Nat.zero_mul, Nat.add_zero] at h
    refine ⟨by omega, by omega, ?_⟩
    rw [show A + Y - B = R + Y by omega, Nat.add_mod_right, Nat.mod_eq_of_lt hR]
  · rw [Nat.one_mul] at h
    refine ⟨by omega, by omega, ?_⟩
    rw [show A + Y - B = R by omega, Nat.mod_eq_of_lt hR]

/-- C42: `checked_sub` returns the exact difference when it is not negative and below `2^248` (it always
is for a valid minuend), and nothing otherwise; `saturating_sub` then returns zero or the largest value;
`-` is the difference modulo `2^256`. -/
theorem C42_sub {a b : V248} (ha : a.WF) (hb : b.WF) :
    (∀ r, a.checkedSub b = some r ↔ r.WF ∧ b.val ≤ a.val ∧ r.val = a.val - b.val ∧ a.val - b.val < 2 ^ 248) ∧
    (a.checkedSub b = none ↔ a.val < b.val ∨ 2 ^ 248 ≤ a.val - b.val) ∧
    ((a.saturatingSub b).WF ∧ (a.saturatingSub b).val = (if a.val - b.val < 2 ^ 248 then a.val - b.val else 2 ^ 248 - 1)) ∧
    ((a.subOp b).WF ∧ (a.subOp b).val = (a.val + 2 ^ 256 - b.val) % 2 ^ 256) := by
  obtain ⟨lo, c1, h1, c2, hi, c3, e1, e2, e3, hw, hv⟩ := sub_words ha hb
  have hval := isValid_iff hw
  obtain ⟨hz, hd, hm⟩ := sub_borrow (val_lt hw) (val_lt hb) hv
  have hor : (c2 || c3) = decide (a.val < b.val) := by
    rw [Bool.eq_iff_iff, decide_eq_true_iff]
    constructor
    · intro h
      apply Classical.byContradiction
      intro hn
      have := hz.2 (Nat.le_of_not_lt hn)
      cases c2 <;> cases c3 <;> simp_all
    · intro h
      apply Classical.byContradiction
      intro hn
      have : c2.toNat + c3.toNat = 0 := by cases c2 <;> cases c3 <;> simp_all
      exact Nat.not_le_of_lt h (hz.1 this)
  refine ⟨fun r => ?_, ?_, ?_, ?_⟩
  · unfold checkedSub
    rw [e1]; dsimp only; rw [e2]; dsimp only; rw [e3]; dsimp only; rw [hor]
    by_cases hl : a.val < b.val
    · simp only [hl, decide_true, if_true]
      exact ⟨fun h => (by cases h), fun h => absurd h.2.1 (Nat.not_le_of_lt hl)⟩
    · simp only [hl, decide_false, Bool.false_eq_true, if_false]
      have hle := Nat.le_of_not_lt hl
      rw [hd hle] at hval
      by_cases hv2 : a.val - b.val < 2 ^ 248
      · rw [if_pos (hval.2 hv2)]
        constructor
        · intro h; injection h with h; subst h; exact ⟨hw, hle, hd hle, hv2⟩
        · rintro ⟨g1, _, g2, _⟩; rw [val_inj g1 hw (g2.trans (hd hle).symm)]
      · rw [if_neg (fun h => hv2 (hval.1 h))]
        exact ⟨fun h => (by cases h), fun h => absurd h.2.2.2 hv2⟩
  · unfold checkedSub
    rw [e1]; dsimp only; rw [e2]; dsimp only; rw [e3]; dsimp only; rw [hor]
    by_cases hl : a.val < b.val
    · simp only [hl, decide_true, if_true, true_or]
    · simp only [hl, decide_false, Bool.false_eq_true, if_false, false_or]
      have hle := Nat.le_of_not_lt hl
      rw [hd hle] at hval
      by_cases hv2 : a.val - b.val < 2 ^ 248
      · rw [if_pos (hval.2 hv2)]
        exact ⟨fun h => (by cases h), fun h => absurd hv2 (Nat.not_lt_of_le h)⟩
      · rw [if_neg (fun h => hv2 (hval.1 h))]
        exact ⟨fun _ => Nat.le_of_not_lt hv2, fun _ => rfl⟩
  · unfold saturatingSub
    rw [e1]; dsimp only; rw [e2]; dsimp only; rw [e3]; dsimp only; rw [hor]
    by_cases hl : a.val < b.val
    · simp only [hl, decide_true, if_true]
      refine ⟨⟨W128_pos, W128_pos⟩, ?_⟩
      rw [Nat.sub_eq_zero_of_le (Nat.le_of_lt hl), if_pos (by decide)]
      rfl
    · simp only [hl, decide_false, Bool.false_eq_true, if_false]
      have hle := Nat.le_of_not_lt hl
      rw [hd hle] at hval
      by_cases hv2 : a.val - b.val < 2 ^ 248
      · rw [if_pos (hval.2 hv2)]
        refine ⟨hw, ?_⟩
        rw [hd hle, if_pos hv2]
      · rw [if_neg (fun h => hv2 (hval.1 h))]
        refine ⟨max_val.1, ?_⟩
        rw [max_val.2, if_neg hv2]
  · have hop : a.subOp b = ⟨hi, lo⟩ := by
      unfold subOp
      rw [e1]; dsimp only
      have g1 : wsub a.hi c1.toNat = h1 := congrArg Prod.fst e2
      rw [g1]
      have g2 : wsub h1 b.hi = hi := congrArg Prod.fst e3
      rw [g2]
    rw [hop, pow256]
    exact ⟨hw, hm⟩

theorem mod_cancel {x y k W : Nat} (hx : x < W) (hy : y < W) (h : (x + k) % W = (y + k) % W) : x = y := by
  have d1 := Nat.div_add_mod (x + k) W
  have d2 := Nat.div_add_mod (y + k) W
  rw [h] at d1
  rcases Nat.lt_trichotomy ((x + k) / W) ((y + k) / W) with g | g | g
  · have := Nat.mul_le_mul_left W g
    rw [Nat.mul_succ] at this
    omega
  · rw [g] at d1; omega
  · have := Nat.mul_le_mul_left W g
    rw [Nat.mul_succ] at this
    omega

/-- C42, violated for `+`: the operator ignores the high word of its left operand, so `2^128 + 0` is `0`
and `0 + 2^128` is `2^129`. -/
theorem C42_add_operator_wrong :
    (addOp ⟨1, 0⟩ ⟨0, 0⟩).val = 0 ∧ (addOp ⟨0, 0⟩ ⟨1, 0⟩).val = 2 ^ 129 ∧
    (V248.mk 1 0).val = 2 ^ 128 ∧ (V248.mk 1 0).WF := by
  refine ⟨by decide, by decide, by decide, by decide, by decide⟩

/-- C42, the part that holds of `+`: it is the sum modulo `2^256` exactly when the high words of the
operands are equal; in particular for operands below `2^128`. -/
theorem C42_add_operator_partial {a b : V248} (ha : a.WF) (hb : b.WF) :
    (a.addOp b).WF ∧ ((a.addOp b).val = (a.val + b.val) % 2 ^ 256 ↔ a.hi = b.hi) := by
  obtain ⟨lo, c1, e1, l1, v1⟩ := oadd_spec ha.2 (Nat.le_of_lt hb.2)
  have hop : a.addOp b = ⟨wadd (wadd b.hi c1.toNat) b.hi, lo⟩ := by
    unfold addOp; rw [e1]
  have hw : V248.WF ⟨wadd (wadd b.hi c1.toNat) b.hi, lo⟩ := ⟨Nat.mod_lt _ W128_pos, l1⟩
  rw [hop, pow256]
  refine ⟨hw, ?_⟩
  have hhi : (wadd (wadd b.hi c1.toNat) b.hi) = (b.hi + c1.toNat + b.hi) % W128 := by
    unfold wadd; rw [Nat.mod_add_mod]
  have hsum : (a.val + b.val) % (W128 * W128) = (a.hi + c1.toNat + b.hi) % W128 * W128 + lo := by
    have : a.val + b.val = (a.hi + c1.toNat + b.hi) * W128 + lo := by
      unfold val
      have t : (a.hi + c1.toNat + b.hi) * W128 + lo = a.hi * W128 + b.hi * W128 + (lo + c1.toNat * W128) := by ring
      rw [t, v1]; ring
    rw [this]
    generalize a.hi + c1.toNat + b.hi = S
    have t : S * W128 + lo = W128 * W128 * (S / W128) + (S % W128 * W128 + lo) := by
      have := Nat.div_add_mod S W128
      have h2 : S * W128 = (W128 * (S / W128) + S % W128) * W128 := by rw [this]
      rw [h2]; ring
    rw [t, Nat.mul_add_mod]
    apply Nat.mod_eq_of_lt
    have : (S % W128 + 1) * W128 ≤ W128 * W128 := Nat.mul_le_mul_right _ (Nat.mod_lt _ W128_pos)
    rw [Nat.add_mul, Nat.one_mul] at this
    exact Nat.lt_of_lt_of_le (Nat.add_lt_add_left l1 _) this
  rw [hsum]
  show wadd (wadd b.hi c1.toNat) b.hi * W128 + lo = _ ↔ _
  rw [hhi]
  constructor
  · intro h
    have h := Nat.add_right_cancel h
    have h := Nat.eq_of_mul_eq_mul_right W128_pos h
    have h1 := ha.1
    have h2 := hb.1
    clear hsum hop hw hhi v1 e1
    rw [show b.hi + c1.toNat + b.hi = b.hi + (c1.toNat + b.hi) by omega,
      show a.hi + c1.toNat + b.hi = a.hi + (c1.toNat + b.hi) by omega] at h
    exact (mod_cancel h2 h1 h).symm
  · intro h; rw [h]

/-! ### Multiplication -/

/-- The flags of `checked_mul` in terms of the product. -/
theorem mul_flags {W ah al bh bl ph pl : Nat} (hW : 0 < W) (hpl : pl < W) (hp : ph * W + pl = al * bl) :
    (ah * bl < W ∧ al * bh < W ∧ ah * bl + al * bh < W ∧ ph + (ah * bl + al * bh) < W ∧ (ah = 0 ∨ bh = 0)
      ↔ (ah * W + al) * (bh * W + bl) < W * W) ∧
    ((ah = 0 ∨ bh = 0) → (ph + (ah * bl + al * bh)) * W + pl = (ah * W + al) * (bh * W + bl)) := by
  have e : (ah * W + al) * (bh * W + bl) = ah * bh * (W * W) + ((ph + (ah * bl + al * bh)) * W + pl) := by
    have : (ah * W + al) * (bh * W + bl) = ah * bh * (W * W) + (ah * bl + al * bh) * W + al * bl := by ring
    rw [this, ← hp]; ring
  constructor
  · rw [e]
    constructor
    · rintro ⟨_, _, _, h4, h5⟩
      have h0 : ah * bh = 0 := by rcases h5 with h | h <;> rw [h] <;> simp
      rw [h0, Nat.zero_mul, Nat.zero_add]
      have : (ph + (ah * bl + al * bh) + 1) * W ≤ W * W := Nat.mul_le_mul_right _ h4
      rw [Nat.add_mul, Nat.one_mul] at this
      omega
    · intro h
      have h0 : ah * bh = 0 := by
        apply Classical.byContradiction
        intro hne
        have : W * W ≤ ah * bh * (W * W) := Nat.le_mul_of_pos_left _ (Nat.pos_of_ne_zero hne)
        omega
      rw [h0, Nat.zero_mul, Nat.zero_add] at h
      have h4 : ph + (ah * bl + al * bh) < W := by
        apply Classical.byContradiction
        intro hn
        have : W * W ≤ (ph + (ah * bl + al * bh)) * W := Nat.mul_le_mul_right _ (by omega)
        omega
      exact ⟨by omega, by omega, by omega, h4, Nat.mul_eq_zero.1 h0⟩
  · intro h5
    have h0 : ah * bh = 0 := by rcases h5 with h | h <;> rw [h] <;> simp
    rw [e, h0, Nat.zero_mul, Nat.zero_add]

/-- Value of `checked_mul`. -/
theorem checkedMul_eq {a b : V248} (ha : a.WF) (hb : b.WF) :
    ∃ r : V248, r.WF ∧ (a.val * b.val < 2 ^ 256 → r.val = a.val * b.val) ∧
      a.checkedMul b = .ok (if a.isValid = true ∧ a.val * b.val < 2 ^ 256 then some r else none) := by
  obtain ⟨p, ep, hp, hpv⟩ := umulddi3_spec ha.2 hb.2
  unfold checkedMul
  rw [ep, ok_bind]
  dsimp only [oadd, omul]
  obtain ⟨f1, f2⟩ := mul_flags (W := W128) (ah := a.hi) (al := a.lo) (bh := b.hi) (bl := b.lo) W128_pos hp.2 hpv
  rw [pow256]
  refine ⟨⟨(p.hi + (a.hi * b.lo % W128 + a.lo * b.hi % W128) % W128) % W128, p.lo⟩, ⟨Nat.mod_lt _ W128_pos, hp.2⟩, ?_, ?_⟩
  · intro h
    obtain ⟨g1, g2, g3, g4, g5⟩ := f1.2 h
    show (p.hi + (a.hi * b.lo % W128 + a.lo * b.hi % W128) % W128) % W128 * W128 + p.lo = _
    rw [Nat.mod_eq_of_lt g1, Nat.mod_eq_of_lt g2, Nat.mod_eq_of_lt g3, Nat.mod_eq_of_lt g4]
    exact f2 g5
  · have hflag : (decide (W128 ≤ a.hi * b.lo) || decide (W128 ≤ a.lo * b.hi) ||
        decide (W128 ≤ a.hi * b.lo % W128 + a.lo * b.hi % W128) ||
        decide (W128 ≤ p.hi + (a.hi * b.lo % W128 + a.lo * b.hi % W128) % W128) ||
        (decide (a.hi ≠ 0) && decide (b.hi ≠ 0)) || !a.isValid)
        = !decide (a.isValid = true ∧ a.val * b.val < W128 * W128) := by
      have f1' : a.val * b.val < W128 * W128 ↔ _ := f1.symm
      simp only [f1']
      clear f1 f1' f2 ep hp hpv ha hb
      generalize a.hi * b.lo = x
      generalize a.lo * b.hi = y
      have hW := W128_pos
      generalize W128 = W at *
      by_cases h1 : x < W
      · by_cases h2 : y < W
        · rw [Nat.mod_eq_of_lt h1, Nat.mod_eq_of_lt h2]
          by_cases h3 : x + y < W
          · rw [Nat.mod_eq_of_lt h3]
            have n1 : ¬ W ≤ x := by omega
            have n2 : ¬ W ≤ y := by omega
            have n3 : ¬ W ≤ x + y := by omega
            by_cases h4 : p.hi + (x + y) < W
            · have n4 : ¬ W ≤ p.hi + (x + y) := by omega
              by_cases h5 : a.hi = 0 <;> by_cases h6 : b.hi = 0 <;> cases a.isValid <;>
                simp [n1, n2, n3, n4, h1, h2, h3, h4, h5, h6]
            · have n4 : W ≤ p.hi + (x + y) := by omega
              simp [n4, h4]
          · have n3 : W ≤ x + y := by omega
            simp [n3, h3]
        · have n2 : W ≤ y := by omega
          simp [n2, h2]
      · have n1 : W ≤ x := by omega
        simp [n1, h1]
    rw [hflag]
    by_cases h : a.isValid = true ∧ a.val * b.val < W128 * W128
    · simp only [h, and_self, decide_true, Bool.not_true, Bool.false_eq_true, if_false, if_true]; rfl
    · simp only [h, decide_false, Bool.not_false, if_true, if_false]; rfl

/-- C42, violated for `checked_mul`: the range check is made on the left operand, not on the product.
`2^247 · 2` is returned although it is not a valid value (it cannot be stored), while `2^248 · 0` is refused. -/
theorem C42_mul_range_wrong :
    checkedMul ⟨2 ^ 119, 0⟩ ⟨0, 2⟩ = .ok (some ⟨2 ^ 120, 0⟩) ∧ (V248.mk (2 ^ 120) 0).isValid = false ∧
    (V248.mk (2 ^ 119) 0).isValid = true ∧
    checkedMul ⟨2 ^ 120, 0⟩ ⟨0, 0⟩ = .ok none := by
  decide

/-- C42, the part that holds of `checked_mul`: for a valid left operand the result is the exact product
when it is below `2^256` (the property asks for `2^248`) and nothing otherwise; there is no panic.
`saturating_mul` is that or the largest value. -/
theorem C42_mul_partial {a b : V248} (ha : a.WF) (hb : b.WF) (hv : a.val < 2 ^ 248) :
    ∃ o, a.checkedMul b = .ok o ∧
      (∀ r, o = some r ↔ r.WF ∧ r.val = a.val * b.val ∧ a.val * b.val < 2 ^ 256) ∧
      (o = none ↔ 2 ^ 256 ≤ a.val * b.val) ∧ a.saturatingMul b = .ok (o.getD max) := by
  obtain ⟨r0, hw, hr, e⟩ := checkedMul_eq ha hb
  have hval := (isValid_iff ha).2 hv
  refine ⟨_, e, ?_, ?_, ?_⟩
  · intro r
    by_cases h : a.val * b.val < 2 ^ 256
    · rw [if_pos ⟨hval, h⟩]
      constructor
      · intro h'; injection h' with h'; subst h'; exact ⟨hw, hr h, h⟩
      · rintro ⟨g1, g2, _⟩; rw [val_inj g1 hw (g2.trans (hr h).symm)]
    · rw [if_neg (fun g => h g.2)]
      exact ⟨fun g => (by cases g), fun g => absurd g.2.2 h⟩
  · by_cases h : a.val * b.val < 2 ^ 256
    · rw [if_pos ⟨hval, h⟩]
      exact ⟨fun g => (by cases g), fun g => absurd h (Nat.not_lt_of_le g)⟩
    · rw [if_neg (fun g => h g.2)]
      exact ⟨fun _ => Nat.le_of_not_lt h, fun _ => rfl⟩
  · unfold saturatingMul
    rw [e, ok_bind]; rfl

/-- C42: `*` is the product modulo `2^256`, without panicking; shifts by less than 256 multiply and
divide by a power of two (modulo `2^256`). -/
theorem C42_ops {a b : V248} (ha : a.WF) (hb : b.WF) :
    (∃ r, a.mulOp b = .ok r ∧ r.WF ∧ r.val = a.val * b.val % 2 ^ 256) ∧
    (∀ n, n < 256 → (a.shlOp n).WF ∧ (a.shlOp n).val = a.val * 2 ^ n % 2 ^ 256) ∧
    (∀ n, n < 256 → (a.shrOp n).WF ∧ (a.shrOp n).val = a.val / 2 ^ n) := by
  refine ⟨?_, fun n hn => by rw [pow256]; exact shlOp_spec ha hn, fun n hn => shrOp_spec ha hn⟩
  obtain ⟨p, ep, hp, hpv⟩ := umulddi3_spec ha.2 hb.2
  unfold mulOp
  rw [ep, ok_bind]
  refine ⟨_, rfl, ⟨Nat.mod_lt _ W128_pos, hp.2⟩, ?_⟩
  rw [pow256]
  show wadd p.hi (wadd (wmul a.hi b.lo) (wmul a.lo b.hi)) * W128 + p.lo = _
  have hh : wadd p.hi (wadd (wmul a.hi b.lo) (wmul a.lo b.hi)) = (p.hi + (a.hi * b.lo + a.lo * b.hi)) % W128 := by
    unfold wadd wmul
    rw [Nat.add_mod_mod, ← Nat.add_assoc, Nat.add_mod_mod, Nat.add_right_comm, Nat.add_mod_mod, Nat.add_right_comm, Nat.add_assoc]
  rw [hh]
  have hprod : a.val * b.val = (p.hi + (a.hi * b.lo + a.lo * b.hi)) * W128 + p.lo + W128 * W128 * (a.hi * b.hi) := by
    have hpv' : p.hi * W128 + p.lo = a.lo * b.lo := hpv
    unfold val
    have : (a.hi * W128 + a.lo) * (b.hi * W128 + b.lo)
        = (a.hi * b.lo + a.lo * b.hi) * W128 + a.lo * b.lo + W128 * W128 * (a.hi * b.hi) := by ring
    rw [this, ← hpv']; ring
  rw [hprod, Nat.add_mul_mod_self_left]
  generalize p.hi + (a.hi * b.lo + a.lo * b.hi) = S
  have t : S * W128 + p.lo = W128 * W128 * (S / W128) + (S % W128 * W128 + p.lo) := by
    have := Nat.div_add_mod S W128
    have h2 : S * W128 = (W128 * (S / W128) + S % W128) * W128 := by rw [this]
    rw [h2]; ring
  rw [t, Nat.mul_add_mod]
  symm
  apply Nat.mod_eq_of_lt
  have : (S % W128 + 1) * W128 ≤ W128 * W128 := Nat.mul_le_mul_right _ (Nat.mod_lt _ W128_pos)
  rw [Nat.add_mul, Nat.one_mul] at this
  exact Nat.lt_of_lt_of_le (Nat.add_lt_add_left hp.2 _) this

/-! ### Order and division -/

/-- C43: the order on `VarUint248` is the order of the numbers. -/
theorem C43_v248 {a b : V248} (ha : a.WF) (hb : b.WF) : a.cmp b = compare a.val b.val := by
  unfold cmp val
  have h1 := ha.2
  have h2 := hb.2
  generalize W128 = W at *
  rcases Nat.lt_trichotomy a.hi b.hi with h | h | h
  · rw [Nat.compare_eq_lt.2 h]
    have : (a.hi + 1) * W ≤ b.hi * W := Nat.mul_le_mul_right _ h
    rw [Nat.add_mul, Nat.one_mul] at this
    exact (Nat.compare_eq_lt.2 (by omega)).symm
  · rw [h, Nat.compare_eq_eq.2 rfl]
    show compare a.lo b.lo = _
    rcases Nat.lt_trichotomy a.lo b.lo with g | g | g
    · rw [Nat.compare_eq_lt.2 g, Nat.compare_eq_lt.2 (by omega)]
    · rw [g, Nat.compare_eq_eq.2 rfl, Nat.compare_eq_eq.2 rfl]
    · rw [Nat.compare_eq_gt.2 g, Nat.compare_eq_gt.2 (by omega)]
  · rw [Nat.compare_eq_gt.2 h]
    have : (b.hi + 1) * W ≤ a.hi * W := Nat.mul_le_mul_right _ h
    rw [Nat.add_mul, Nat.one_mul] at this
    exact (Nat.compare_eq_gt.2 (by omega)).symm

/-- C42: `/` and `%` are the exact quotient and remainder for every nonzero divisor, and panic for zero. -/
theorem C42_div {a b : V248} (ha : a.WF) (hb : b.WF) :
    (b.val ≠ 0 → ∃ q r, a.udivmod b = .ok (q, r) ∧ q.WF ∧ r.WF ∧ q.val = a.val / b.val ∧ r.val = a.val % b.val) ∧
    (b.val = 0 → a.udivmod b = .error .panic) := by
  have hor : (a.hi ||| b.hi = 0) = (a.hi = 0 ∧ b.hi = 0) := by rw [Nat.or_eq_zero_iff]
  have hbv : b.val = b.hi * W128 + b.lo := rfl
  have hav : a.val = a.hi * W128 + a.lo := rfl
  unfold udivmod
  simp only [hor]
  by_cases h0 : a.hi = 0 ∧ b.hi = 0
  · rw [if_pos h0]
    rw [h0.2, Nat.zero_mul, Nat.zero_add b.lo] at hbv
    rw [h0.1, Nat.zero_mul, Nat.zero_add a.lo] at hav
    rw [hbv, hav]
    constructor
    · intro hne
      rw [cmod_ok hne, ok_bind, cdiv_ok hne, ok_bind]
      refine ⟨_, _, rfl, ⟨W128_pos, Nat.lt_of_le_of_lt (Nat.div_le_self _ _) ha.2⟩,
        ⟨W128_pos, Nat.lt_of_le_of_lt (Nat.mod_le _ _) ha.2⟩, ?_, ?_⟩
      · show 0 * W128 + a.lo / b.lo = _
        rw [Nat.zero_mul, Nat.zero_add (a.lo / b.lo)]
      · show 0 * W128 + a.lo % b.lo = _
        rw [Nat.zero_mul, Nat.zero_add (a.lo % b.lo)]
    · intro he
      have : cmod a.lo b.lo = .error .panic := if_pos he
      rw [this]; rfl
  rw [if_neg h0, C43_v248 hb ha]
  by_cases h1 : a.val < b.val
  · rw [if_pos (Nat.compare_eq_gt.2 h1)]
    constructor
    · intro _
      refine ⟨_, _, rfl, ⟨W128_pos, W128_pos⟩, ha, ?_, ?_⟩
      · rw [Nat.div_eq_of_lt h1]; rfl
      · rw [Nat.mod_eq_of_lt h1]
    · intro he; exact absurd h1 (by rw [he]; exact Nat.not_lt_zero _)
  rw [if_neg (fun h => h1 (Nat.compare_eq_gt.1 h))]
  by_cases h2 : b.hi = 0
  · rw [if_pos h2]
    rw [h2, Nat.zero_mul, Nat.zero_add b.lo] at hbv
    rw [hbv]
    by_cases h3 : a.hi < b.lo
    · rw [if_pos h3, udiv256_spec ha.2 hb.2 h3, ok_bind]
      have hq := digit_lt_base h3 ha.2
      refine ⟨fun hne => ⟨_, _, rfl, ⟨W128_pos, hq⟩, ⟨W128_pos, ?_⟩, ?_, ?_⟩, fun he => absurd h3 (by rw [he]; exact Nat.not_lt_zero _)⟩
      · exact Nat.lt_trans (Nat.mod_lt _ (Nat.pos_of_ne_zero hne)) hb.2
      · show 0 * W128 + (a.hi * W128 + a.lo) / b.lo = _
        rw [Nat.zero_mul, Nat.zero_add ((a.hi * W128 + a.lo) / b.lo)]; rfl
      · show 0 * W128 + (a.hi * W128 + a.lo) % b.lo = _
        rw [Nat.zero_mul, Nat.zero_add ((a.hi * W128 + a.lo) % b.lo)]; rfl
    · rw [if_neg h3]
      constructor
      · intro hne
        have hpos := Nat.pos_of_ne_zero hne
        rw [cdiv_ok hne, ok_bind, cmod_ok hne, ok_bind, udiv256_spec ha.2 hb.2 (Nat.mod_lt _ hpos), ok_bind]
        have hq := digit_lt_base (Nat.mod_lt a.hi hpos) ha.2
        have e : a.hi * W128 + a.lo = b.lo * (a.hi / b.lo * W128) + (a.hi % b.lo * W128 + a.lo) := by
          have := Nat.div_add_mod a.hi b.lo
          have h2 : a.hi * W128 = (b.lo * (a.hi / b.lo) + a.hi % b.lo) * W128 := by rw [this]
          rw [h2]; ring
        refine ⟨_, _, rfl, ⟨Nat.lt_of_le_of_lt (Nat.div_le_self _ _) ha.1, hq⟩, ⟨W128_pos, ?_⟩, ?_, ?_⟩
        · exact Nat.lt_trans (Nat.mod_lt _ hpos) hb.2
        · show a.hi / b.lo * W128 + (a.hi % b.lo * W128 + a.lo) / b.lo = (a.hi * W128 + a.lo) / b.lo
          rw [e, Nat.mul_add_div hpos]
        · show 0 * W128 + (a.hi % b.lo * W128 + a.lo) % b.lo = (a.hi * W128 + a.lo) % b.lo
          rw [e, Nat.mul_add_mod, Nat.zero_mul, Nat.zero_add ((a.hi % b.lo * W128 + a.lo) % b.lo)]
      · intro he
        have : cdiv a.hi b.lo = .error .panic := if_pos he
        rw [this]; rfl
  · rw [if_neg h2]
    refine ⟨fun _ => divModKnuth_spec ha hb (Nat.pos_of_ne_zero h2), fun he => ?_⟩
    exfalso
    rw [hbv] at he
    have := (Nat.add_eq_zero_iff.1 he).1
    rcases Nat.mul_eq_zero.1 this with h | h
    · exact h2 h
    · exact absurd h (Nat.ne_of_gt W128_pos)

/-- Non-vacuity: a division by two words, one by one word, and the other operations on concrete values. -/
example : udivmod ⟨2 ^ 120 - 1, 5⟩ ⟨2 ^ 64 + 1, 2 ^ 128 - 1⟩ = .ok (⟨0, 72057594037927935⟩, ⟨18302628885633695745, 72057594037927940⟩) ∧
    udivmod ⟨2 ^ 120 - 1, 5⟩ ⟨0, 2 ^ 64 + 3⟩ = .ok (⟨72057594037927935, 336294682933583715826864960523558977538⟩, ⟨0, 16501189034685497343⟩) ∧
    checkedAdd ⟨2 ^ 120 - 1, 2 ^ 128 - 1⟩ ⟨0, 1⟩ = none ∧ checkedAdd ⟨7, 2 ^ 128 - 1⟩ ⟨0, 1⟩ = some ⟨8, 0⟩ ∧
    checkedSub ⟨8, 0⟩ ⟨0, 1⟩ = some ⟨7, 2 ^ 128 - 1⟩ ∧ checkedMul ⟨0, 2 ^ 127⟩ ⟨0, 6⟩ = .ok (some ⟨3, 0⟩) ∧
    (V248.mk 1 3).shrOp 1 = ⟨0, 2 ^ 127 + 1⟩ := by
  decide +kernel

/-! ### Cells -/

theorem nbits_val {a : V248} (h : a.WF) : nbits a.val = if a.hi = 0 then nbits a.lo else 128 + nbits a.hi := by
  have hlo := h.2
  by_cases h0 : a.hi = 0
  · rw [if_pos h0]
    unfold val
    rw [h0, Nat.zero_mul, Nat.zero_add a.lo]
  · rw [if_neg h0]
    have key : ∀ k, nbits a.val ≤ k ↔ 128 + nbits a.hi ≤ k := by
      intro k
      rw [nbits_le_iff]
      by_cases hk : 128 ≤ k
      · have e : 2 ^ k = 2 ^ (k - 128) * W128 := by
          have : k = k - 128 + 128 := by omega
          exact (congrArg (2 ^ ·) this).trans (Nat.pow_add ..)
        rw [e]
        unfold val
        rw [lt_scale hlo, ← nbits_le_iff]
        omega
      · constructor
        · intro hlt
          exfalso
          have h1 : W128 ≤ a.val := by
            have : W128 ≤ a.hi * W128 := Nat.le_mul_of_pos_left _ (Nat.pos_of_ne_zero h0)
            exact Nat.le_trans this (Nat.le_add_right ..)
          have h2 : 2 ^ k ≤ 2 ^ 128 := Nat.pow_le_pow_right (by decide) (by omega)
          exact Nat.not_lt_of_le (Nat.le_trans h2 h1) hlt
        · intro h; omega
    have h1 := (key (nbits a.val)).1 (Nat.le_refl _)
    have h2 := (key (128 + nbits a.hi)).2 (Nat.le_refl _)
    omega

theorem bytes_spec {a : V248} (h : a.WF) {j : Nat} : a.bytes ≤ j ↔ a.val < 2 ^ (8 * j) := by
  have e : a.bytes = 32 - lzc (8 * 32) a.val / 8 := by
    unfold bytes leadingZeros lzc
    rw [nbits_val h]
    have n1 : nbits a.hi ≤ 128 := (nbits_le_iff ..).2 h.1
    have n2 : nbits a.lo ≤ 128 := (nbits_le_iff ..).2 h.2
    by_cases h0 : a.hi = 0
    · rw [if_pos h0, if_pos h0]; omega
    · rw [if_neg h0, if_neg h0]; omega
  rw [e]
  exact bytes_le_iff 32 a.val j (by have := val_lt h; rwa [← pow256] at this)

theorem natBits_words {a : V248} (h : a.WF) {n : Nat} (hn : 16 ≤ n) :
    natBits (n * 8) a.val = natBits (n * 8 - 128) a.hi ++ natBits 128 a.lo := by
  have : n * 8 = (n * 8 - 128) + 128 := by omega
  have hs := natBits_split (n * 8 - 128) 128 a.val
  rw [← this] at hs
  rw [hs]
  have d : a.val / 2 ^ 128 = a.hi := by
    show (a.hi * W128 + a.lo) / W128 = a.hi
    rw [Nat.mul_comm, Nat.mul_add_div W128_pos, Nat.div_eq_of_lt h.2, Nat.add_zero]
  have m : natBits 128 a.val = natBits 128 a.lo := by
    rw [← Wr.natBits_mod (Nat.le_refl 128) (v := a.val)]
    congr 1
    show (a.hi * W128 + a.lo) % W128 = a.lo
    rw [Nat.mul_comm, Nat.mul_add_mod, Nat.mod_eq_of_lt h.2]
  rw [d, m]

theorem hi_zero {a : V248} {k : Nat} (hk : k ≤ 128) (hv : a.val < 2 ^ k) : a.hi = 0 ∧ a.val = a.lo := by
  have h2 : 2 ^ k ≤ W128 := Nat.pow_le_pow_right (by decide) hk
  have h0 : a.hi = 0 := by
    apply Classical.byContradiction
    intro hne
    have : W128 ≤ a.hi * W128 := Nat.le_mul_of_pos_left _ (Nat.pos_of_ne_zero hne)
    exact Nat.not_le_of_lt hv (Nat.le_trans h2 (Nat.le_trans this (Nat.le_add_right ..)))
  refine ⟨h0, ?_⟩
  unfold val
  rw [h0, Nat.zero_mul, Nat.zero_add a.lo]

section
variable {ρ : Type}

theorem writes_digits248 {a : V248} (h : a.WF) {n : Nat} (hn : n ≤ 31) (hv : a.val < 2 ^ (n * 8)) :
    Writes (a.storeDigits (n * 8) : Wr ρ Unit) (Enc.bits (natBits (n * 8) a.val)) := by
  unfold storeDigits
  by_cases h128 : 128 ≤ n * 8
  · rw [if_pos h128, natBits_words h (by omega)]
    have := (writes_u128part (ρ := ρ) a.hi (n * 8 - 128) (by omega)).seq (f := fun _ => storeU128Part a.lo 128)
      (writes_u128part a.lo 128 (Nat.le_refl _))
    rwa [Enc.bits_append] at this
  · rw [if_neg h128, (hi_zero (by omega) hv).2]
    exact writes_u128part a.lo (n * 8) (by omega)

theorem reads_digits248 {a : V248} (h : a.WF) {n : Nat} (hn : n ≤ 31) (hv : a.val < 2 ^ (n * 8)) :
    Reads (loadDigits n : Rd ρ V248) (Enc.bits (natBits (n * 8) a.val)) a := by
  unfold loadDigits
  by_cases h16 : 16 < n
  · rw [if_pos h16, natBits_words h (by omega), ← Enc.bits_append]
    have hhi : a.hi < 2 ^ ((n - 16) * 8) := by
      have e : 2 ^ (n * 8) = 2 ^ ((n - 16) * 8) * W128 := by
        have : n * 8 = (n - 16) * 8 + 128 := by omega
        exact (congrArg (2 ^ ·) this).trans (Nat.pow_add ..)
      rw [e] at hv
      exact (lt_scale h.2).1 hv
    rw [show n * 8 - 128 = (n - 16) * 8 by omega]
    refine Reads.bind (reads_u128part (by omega) hhi) ?_
    have := Reads.bind (f := fun lo => (pure (V248.mk a.hi lo) : Rd ρ V248)) (reads_u128part (ρ := ρ) (bytes := 16) (by omega) (v := a.lo) h.2) (Reads.pure _)
    rwa [Enc.append_nil] at this
  · rw [if_neg h16]
    obtain ⟨g1, g2⟩ := hi_zero (by omega) hv
    rw [g2] at hv ⊢
    have := Reads.bind (f := fun lo => (pure (V248.mk 0 lo) : Rd ρ V248)) (reads_u128part (ρ := ρ) (bytes := n) (by omega) hv) (Reads.pure _)
    rw [Enc.append_nil] at this
    have ea : a = ⟨0, a.lo⟩ := by cases a; simp only at g1; rw [g1]
    rw [← ea] at this
    exact this

theorem exact_digits248 {n : Nat} (hn : n ≤ 31) :
    Exact (loadDigits n : Rd ρ V248) (fun r e => r.WF ∧ r.val < 2 ^ (n * 8) ∧ e = Enc.bits (natBits (n * 8) r.val)) := by
  unfold loadDigits
  by_cases h16 : 16 < n
  · rw [if_pos h16]
    refine Exact.bind (R3 := fun hi r e => ∃ lo, lo < 2 ^ (16 * 8) ∧ r = ⟨hi, lo⟩ ∧ e = Enc.bits (natBits (16 * 8) lo))
      (exact_u128part (bytes := n - 16) (by omega)) (fun hi => ?_) ?_
    · refine Exact.bind (R3 := fun lo r e => r = ⟨hi, lo⟩ ∧ e = Enc.nil)
        (exact_u128part (bytes := 16) (by omega)) (fun lo => Exact.pure _ ⟨rfl, rfl⟩) ?_
      rintro lo r e1 e2 ⟨h1, h2⟩ ⟨h3, h4⟩
      subst h2; subst h4
      exact ⟨lo, h1, h3, by rw [Enc.append_nil]⟩
    · rintro hi r e1 e2 ⟨h1, h2⟩ ⟨lo, h3, h4, h5⟩
      subst h2; subst h5; subst h4
      have hw : V248.WF ⟨hi, lo⟩ := by
        refine ⟨?_, h3⟩
        have : 2 ^ ((n - 16) * 8) ≤ W128 := Nat.pow_le_pow_right (by decide) (by omega)
        exact Nat.lt_of_lt_of_le h1 this
      refine ⟨hw, ?_, ?_⟩
      · have e : 2 ^ (n * 8) = 2 ^ ((n - 16) * 8) * W128 := by
          have : n * 8 = (n - 16) * 8 + 128 := by omega
          exact (congrArg (2 ^ ·) this).trans (Nat.pow_add ..)
        rw [e]
        exact (lt_scale h3).2 h1
      · rw [natBits_words hw (by omega), Enc.bits_append, show n * 8 - 128 = (n - 16) * 8 by omega]
  · rw [if_neg h16]
    refine Exact.bind (R3 := fun lo r e => r = ⟨0, lo⟩ ∧ e = Enc.nil)
      (exact_u128part (bytes := n) (by omega)) (fun lo => Exact.pure _ ⟨rfl, rfl⟩) ?_
    rintro lo r e1 e2 ⟨h1, h2⟩ ⟨h3, h4⟩
    subst h2; subst h4; subst h3
    have hv : (V248.mk 0 lo).val = lo := by show 0 * W128 + lo = lo; rw [Nat.zero_mul, Nat.zero_add lo]
    rw [hv, Enc.append_nil]
    have : 2 ^ (n * 8) ≤ W128 := Nat.pow_le_pow_right (by decide) (by omega)
    exact ⟨⟨W128_pos, Nat.lt_of_lt_of_le h1 this⟩, h1, rfl⟩

theorem safe_digits248 {n : Nat} (hn : n ≤ 31) : Safe (loadDigits n : Rd ρ V248) := by
  unfold loadDigits
  by_cases h16 : 16 < n
  · rw [if_pos h16]
    exact Safe.bind (safe_u128part (by omega)) fun _ => Safe.bind (safe_u128part (by omega)) fun _ => Safe.pure _
  · rw [if_neg h16]
    exact Safe.bind (safe_u128part (by omega)) fun _ => Safe.pure _

/-- C41 for `VarUint248`: a valid value is stored as its length in 5 bits and the least number of whole
bytes, a failure changes nothing, `bit_len` is the number of stored bits, and loading returns the value. -/
theorem C41_v248_store {a : V248} {n : Nat} (h : a.WF) (hv : a.val < 2 ^ 248) (hn : LeastBytes n a.val) :
    WritesAtomic (a.store : Wr ρ Unit) (varEnc 5 n a.val) ∧
    a.bitLen = some (varEnc (ρ := ρ) 5 n a.val).1.length ∧
    Reads (load : Rd ρ V248) (varEnc 5 n a.val) a := by
  have hn31 : n ≤ 31 := hn.2 31 hv
  have hb : a.bytes = n := by
    have h1 := (bytes_spec h (j := n)).2 hn.1
    have h2 := hn.2 a.bytes ((bytes_spec h).1 (Nat.le_refl _))
    omega
  have hlt : a.val < 2 ^ (n * 8) := by have := hn.1; rwa [Nat.mul_comm] at this
  refine ⟨?_, ?_, ?_⟩
  · unfold store
    rw [hb, show decide (n ≤ 31) = true by simp [hn31], Prog.check_true, Prog.pure_bind']
    have hw := ((Wr.writes_small (ρ := ρ) n (show 5 ≤ 8 by decide)).writes).seq (f := fun _ => a.storeDigits (n * 8))
      (writes_digits248 h hn31 hlt)
    refine Wr.needs_then (hw.cast ?_) ?_ rfl (by omega)
    · rw [Enc.bits_append, Nat.mul_comm n 8]; rfl
    · simp [varEnc, Enc.bits]; omega
  · unfold bitLen
    rw [hb, if_neg (by omega)]
    simp [varEnc, Enc.bits]; omega
  · unfold load varEnc
    rw [← Enc.bits_append, Nat.mul_comm 8 n]
    exact Reads.bind ((Rd.takes_small (by decide)).reads_nat (by omega)) (reads_digits248 h hn31 hlt)

/-- C41 for `VarUint248`: an invalid value is refused with `CellOverflow`, nothing is written, and it
has no bit length. -/
theorem C41_v248_invalid {a : V248} (h : a.WF) (hv : 2 ^ 248 ≤ a.val) (b : CellB ρ) :
    (a.store : Wr ρ Unit) b = (.error .cellOverflow, b) ∧ a.bitLen = none ∧ a.isValid = false := by
  have hb : ¬ a.bytes ≤ 31 := by
    rw [bytes_spec h]; exact Nat.not_lt_of_le hv
  refine ⟨?_, ?_, ?_⟩
  · unfold store
    rw [show decide (a.bytes ≤ 31) = false by simp only [hb, decide_false], Prog.check_false]
    rfl
  · unfold bitLen
    rw [if_pos (by omega)]
  · cases hc : a.isValid
    · rfl
    · exact absurd ((isValid_iff h).1 hc) (Nat.not_lt_of_le hv)

/-- C41 for `VarUint248`: loading accepts exactly the encodings with at most 31 bytes (not necessarily the
least number), always returns a valid value, and never faults or panics. -/
theorem C41_v248_load :
    (∀ n (a : V248), a.WF → n ≤ 31 → a.val < 2 ^ (8 * n) → Reads (load : Rd ρ V248) (varEnc 5 n a.val) a) ∧
    Exact (load : Rd ρ V248) (fun r e => r.WF ∧ r.val < 2 ^ 248 ∧ ∃ n, n ≤ 31 ∧ r.val < 2 ^ (8 * n) ∧ e = varEnc 5 n r.val) ∧
    Safe (load : Rd ρ V248) := by
  refine ⟨fun n a hw hn hv => ?_, ?_, ?_⟩
  · unfold load varEnc
    rw [← Enc.bits_append, Nat.mul_comm 8 n]
    exact Reads.bind ((Rd.takes_small (by decide)).reads_nat (by omega)) (reads_digits248 hw hn (by rw [Nat.mul_comm]; exact hv))
  · refine Exact.bindx (R3 := fun n r e => r.WF ∧ r.val < 2 ^ (n * 8) ∧ e = Enc.bits (natBits (n * 8) r.val))
      (Rd.takes_small (n := 5) (by decide)).exact_nat (fun n e h => exact_digits248 (by have := h.1; omega)) ?_
    rintro n r e1 e2 ⟨h1, h2⟩ ⟨h3, h4, h5⟩
    subst h2; subst h5
    have hn : n ≤ 31 := by omega
    refine ⟨h3, ?_, n, hn, by rwa [Nat.mul_comm], ?_⟩
    · exact Nat.lt_of_lt_of_le h4 (Nat.pow_le_pow_right (by decide) (by omega))
    · rw [Enc.bits_append, Nat.mul_comm n 8]; rfl
  · exact Safe.bindx (Rd.takes_small (n := 5) (by decide)).safe (Rd.takes_small (n := 5) (by decide)).exact_nat
      (fun n e h => safe_digits248 (by have := h.1; omega))

end

/-- Non-vacuity: 300 is stored as the length 2 and two bytes, `2^128` takes 17 bytes, `2^248` is refused. -/
example : (store (ρ := Nat) ⟨0, 300⟩ CellB.new).2.inner.bits = natBits 5 2 ++ natBits 16 300 ∧
    (store (ρ := Nat) ⟨1, 0⟩ CellB.new).2.inner.bits = natBits 5 17 ++ natBits 136 (2 ^ 128) ∧
    (store (ρ := Nat) ⟨2 ^ 120, 0⟩ CellB.new).1 = .error .cellOverflow := by
  decide +kernel

end V248
end Verif
