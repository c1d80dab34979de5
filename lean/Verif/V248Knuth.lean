import Verif.V248Div
/-
Lemmas on `VarUint248`: shifts, three-word products, and the long division of two words by two words.
-/
set_option linter.unusedVariables false
set_option linter.unusedSimpArgs false
namespace Verif
namespace V248

theorem W128_pos : 0 < W128 := by decide
theorem pow_split {n : Nat} (h : n ≤ 128) : 2 ^ n * 2 ^ (128 - n) = W128 := by
  rw [← Nat.pow_add, show n + (128 - n) = 128 by omega]; rfl

/-! ### Shifts -/

/-- `x << n` keeps the low `128 - n` bits. -/
theorem shl128_low {x n : Nat} (h : n ≤ 128) : shl128 x n = (x % 2 ^ (128 - n)) * 2 ^ n := by
  rw [shl128_eq, ← pow_split h, Nat.mul_comm (2 ^ n), Nat.mul_mod_mul_right]

theorem or_add {x y n : Nat} (h : y < 2 ^ n) : x * 2 ^ n ||| y = x * 2 ^ n + y := by
  rw [← Nat.shiftLeft_eq, ← Nat.shiftLeft_add_eq_or_of_lt h]

theorem shr_lt {x n : Nat} (hn : n ≤ 128) (hx : x < W128) : x >>> n < 2 ^ (128 - n) := by
  rw [Nat.shiftRight_eq_div_pow, Nat.div_lt_iff_lt_mul (Nat.two_pow_pos _), Nat.mul_comm, pow_split hn]
  exact hx

theorem shr_arith {P Q W hi lo : Nat} (hW : P * Q = W) (hP : 0 < P) :
    hi / P * W + (hi % P * Q + lo / P) = (hi * W + lo) / P := by
  have e : hi * W = P * (hi * Q) := by rw [← hW]; ring
  rw [e, Nat.mul_add_div hP, ← Nat.add_assoc]
  congr 1
  have h2 := Nat.div_add_mod hi P
  have h3 : hi * Q = (P * (hi / P) + hi % P) * Q := by rw [h2]
  rw [h3, ← hW]; ring

theorem shrOp_spec {a : V248} {n : Nat} (h : a.WF) (hn : n < 256) : (a.shrOp n).WF ∧ (a.shrOp n).val = a.val / 2 ^ n := by
  obtain ⟨hhi, hlo⟩ := h
  unfold shrOp
  by_cases h0 : n = 0
  · rw [if_pos h0, h0]
    exact ⟨⟨hhi, hlo⟩, by rw [Nat.pow_zero, Nat.div_one]⟩
  rw [if_neg h0]
  by_cases h1 : n ≤ 127
  · rw [if_pos h1]
    have hl := shr_lt (n := n) (by omega) hlo
    have hs := shl128_low (x := a.hi) (n := 128 - n) (by omega)
    rw [show 128 - (128 - n) = n by omega] at hs
    have e : a.lo >>> n ||| shl128 a.hi (128 - n) = a.hi % 2 ^ n * 2 ^ (128 - n) + a.lo / 2 ^ n := by
      rw [hs, Nat.or_comm, or_add hl, Nat.shiftRight_eq_div_pow]
    have hps := pow_split (n := n) (by omega)
    refine ⟨⟨?_, ?_⟩, ?_⟩
    · show a.hi >>> n < W128
      rw [Nat.shiftRight_eq_div_pow]
      exact Nat.lt_of_le_of_lt (Nat.div_le_self _ _) hhi
    · show a.lo >>> n ||| shl128 a.hi (128 - n) < W128
      rw [e]
      rw [Nat.shiftRight_eq_div_pow] at hl
      have hm : a.hi % 2 ^ n < 2 ^ n := Nat.mod_lt _ (Nat.two_pow_pos _)
      have : (a.hi % 2 ^ n + 1) * 2 ^ (128 - n) ≤ 2 ^ n * 2 ^ (128 - n) := Nat.mul_le_mul_right _ hm
      rw [hps, Nat.add_mul, Nat.one_mul] at this
      omega
    · show a.hi >>> n * W128 + (a.lo >>> n ||| shl128 a.hi (128 - n)) = (a.hi * W128 + a.lo) / 2 ^ n
      rw [e, Nat.shiftRight_eq_div_pow]
      exact shr_arith hps (Nat.two_pow_pos _)
  · rw [if_neg h1]
    have hp : (2:Nat) ^ n = W128 * 2 ^ (n % 128) := by
      have hr : n = 128 + n % 128 := by omega
      exact (congrArg (2 ^ ·) hr).trans (Nat.pow_add ..)
    refine ⟨⟨W128_pos, ?_⟩, ?_⟩
    · show a.hi >>> (n % 128) < W128
      rw [Nat.shiftRight_eq_div_pow]
      exact Nat.lt_of_le_of_lt (Nat.div_le_self _ _) hhi
    · show 0 * W128 + a.hi >>> (n % 128) = (a.hi * W128 + a.lo) / 2 ^ n
      rw [hp, ← Nat.div_div_eq_div_mul, Nat.shiftRight_eq_div_pow, Nat.mul_comm a.hi, Nat.mul_add_div W128_pos,
        Nat.div_eq_of_lt hlo, Nat.zero_mul, Nat.zero_add, Nat.add_zero]

theorem shl_arith {P Q W hi lo : Nat} (hW : P * Q = W) (hP : 0 < P) (hQ : 0 < Q) (hlo : lo < W) :
    (hi % Q * P + lo / Q) * W + lo % Q * P = (hi * W + lo) * P % (W * W) := by
  have h1 : hi = Q * (hi / Q) + hi % Q := (Nat.div_add_mod hi Q).symm
  have h2 : lo = Q * (lo / Q) + lo % Q := (Nat.div_add_mod lo Q).symm
  have hm1 : hi % Q < Q := Nat.mod_lt _ hQ
  have hm2 : lo % Q < Q := Nat.mod_lt _ hQ
  have hd2 : lo / Q < P := by rw [Nat.div_lt_iff_lt_mul hQ, hW]; exact hlo
  generalize hi / Q = a at *
  generalize hi % Q = b at *
  generalize lo / Q = c at *
  generalize lo % Q = d at *
  subst h1; subst h2
  have e : ((Q * a + b) * W + (Q * c + d)) * P = W * W * a + ((b * P + c) * W + d * P) := by
    have : Q * P = W := by rw [Nat.mul_comm]; exact hW
    calc _ = (Q * P) * a * W + b * P * W + (Q * P) * c + d * P := by ring
      _ = _ := by rw [this]; ring
  rw [e, Nat.mul_add_mod, Nat.mod_eq_of_lt]
  have g1 : (b + 1) * P ≤ Q * P := Nat.mul_le_mul_right _ hm1
  have g2 : (d + 1) * P ≤ Q * P := Nat.mul_le_mul_right _ hm2
  rw [Nat.mul_comm Q P, hW, Nat.add_mul, Nat.one_mul] at g1 g2
  have g3 : (b * P + c + 1) * W ≤ W * W := Nat.mul_le_mul_right _ (by omega)
  rw [Nat.add_mul, Nat.one_mul] at g3
  omega

theorem shlOp_spec {a : V248} {n : Nat} (h : a.WF) (hn : n < 256) :
    (a.shlOp n).WF ∧ (a.shlOp n).val = a.val * 2 ^ n % (W128 * W128) := by
  obtain ⟨hhi, hlo⟩ := h
  unfold shlOp
  by_cases h0 : n = 0
  · rw [if_pos h0, h0]
    refine ⟨⟨hhi, hlo⟩, ?_⟩
    rw [Nat.pow_zero, Nat.mul_one, Nat.mod_eq_of_lt]
    have : (a.hi + 1) * W128 ≤ W128 * W128 := Nat.mul_le_mul_right _ hhi
    rw [Nat.add_mul, Nat.one_mul] at this
    unfold val
    generalize W128 = W at *
    omega
  rw [if_neg h0]
  by_cases h1 : n ≤ 127
  · rw [if_pos h1]
    have hl := shr_lt (n := 128 - n) (by omega) hlo
    rw [show 128 - (128 - n) = n by omega] at hl
    have hps := pow_split (n := n) (by omega)
    have e : shl128 a.hi n ||| a.lo >>> (128 - n) = a.hi % 2 ^ (128 - n) * 2 ^ n + a.lo / 2 ^ (128 - n) := by
      rw [shl128_low (by omega), or_add hl, Nat.shiftRight_eq_div_pow]
    have hm : a.hi % 2 ^ (128 - n) < 2 ^ (128 - n) := Nat.mod_lt _ (Nat.two_pow_pos _)
    refine ⟨⟨?_, ?_⟩, ?_⟩
    · show shl128 a.hi n ||| a.lo >>> (128 - n) < W128
      rw [e]
      rw [Nat.shiftRight_eq_div_pow] at hl
      have : (a.hi % 2 ^ (128 - n) + 1) * 2 ^ n ≤ 2 ^ (128 - n) * 2 ^ n := Nat.mul_le_mul_right _ hm
      rw [Nat.mul_comm (2 ^ (128 - n)), hps, Nat.add_mul, Nat.one_mul] at this
      omega
    · show shl128 a.lo n < W128
      exact Nat.mod_lt _ W128_pos
    · show (shl128 a.hi n ||| a.lo >>> (128 - n)) * W128 + shl128 a.lo n = (a.hi * W128 + a.lo) * 2 ^ n % (W128 * W128)
      rw [e, shl128_low (by omega)]
      exact shl_arith hps (Nat.two_pow_pos _) (Nat.two_pow_pos _) hlo
  · rw [if_neg h1]
    have hp : (2:Nat) ^ n = W128 * 2 ^ (n % 128) := by
      have hr : n = 128 + n % 128 := by omega
      exact (congrArg (2 ^ ·) hr).trans (Nat.pow_add ..)
    refine ⟨⟨Nat.mod_lt _ W128_pos, W128_pos⟩, ?_⟩
    show shl128 a.lo (n % 128) * W128 + 0 = (a.hi * W128 + a.lo) * 2 ^ n % (W128 * W128)
    rw [hp, shl128_eq, Nat.add_zero]
    generalize 2 ^ (n % 128) = P
    generalize W128 = W
    have : (a.hi * W + a.lo) * (W * P) = W * W * (a.hi * P) + a.lo * P * W := by ring
    rw [this, Nat.mul_add_mod, Nat.mul_mod_mul_right]

/-! ### Products -/

theorem fullmul128_spec {a b : Nat} (ha : a < W128) (hb : b < W128) :
    ∃ lo hi, fullmul128 a b = .ok (lo, hi) ∧ lo < W128 ∧ hi < W128 ∧ hi * W128 + lo = a * b := by
  unfold fullmul128
  simp only [shr64, shl128_eq, show (2:Nat) ^ 64 = B64 from rfl]
  have caddk : ∀ a b, a + b < W128 → cadd a b = .ok (a + b) := fun _ _ => cadd_ok
  have cmulk : ∀ a b, a * b < W128 → cmul a b = .ok (a * b) := fun _ _ => cmul_ok
  have bs := base64
  generalize B64 = B at *
  generalize W128 = W at *
  obtain ⟨A1, A0, hA, hA0, dA, mA⟩ := bs.dm a
  obtain ⟨B1, B0, hB, hB0, dB, mB⟩ := bs.dm b
  have hA1 := bs.quot_lt hA ha
  have hB1 := bs.quot_lt hB hb
  have hB2 := bs.big
  have p00 := bs.mul_le hA0 hB0
  have p10 := bs.mul_le hA1 hB0
  have p01 := bs.mul_le hA0 hB1
  have p11 := bs.mul_le hA1 hB1
  have hs := bs.split_mul A1 A0 B1 B0
  rw [Nat.mul_comm B1 A0] at hs
  rw [dA, mA, dB, mB, cmulk A0 B0 (by omega), cmulk A1 B0 (by omega), cmulk A0 B1 (by omega), cmulk A1 B1 (by omega), ok_bind, ok_bind]
  rw [hA, hB, hs]
  clear hs ha hb hA hB dA dB mA mB hA0 hB0 hA1 hB1
  generalize A0 * B0 = x00 at *
  generalize A1 * B0 = x10 at *
  generalize A0 * B1 = x01 at *
  generalize A1 * B1 = x11 at *
  obtain ⟨q0, r0, h0, hr0, d0, m0⟩ := bs.dm x00
  have hq0 := bs.quot_lt h0 (by omega)
  rw [d0, m0, caddk _ _ (by omega), ok_bind]
  obtain ⟨q1, r1, h1, hr1, d1, m1⟩ := bs.dm (x10 + q0)
  have hq1 := bs.quot_lt h1 (by omega)
  rw [d1, m1, ok_bind, caddk _ _ (by omega), ok_bind]
  obtain ⟨q2, r2, h2, hr2, d2, m2⟩ := bs.dm (x01 + r1)
  have hq2 := bs.quot_lt h2 (by omega)
  have hW2 := bs.two hr0 hr2
  have em : (x01 + r1) * B % W = r2 * B := by rw [bs.sq, Nat.mul_mod_mul_right, m2]
  rw [d2, em, ok_bind, caddk _ _ (by omega), ok_bind, caddk _ _ (by omega), ok_bind, caddk _ _ (by omega), ok_bind]
  refine ⟨r2 * B + r0, x11 + q1 + q2, rfl, by omega, by omega, ?_⟩
  have e1 : q1 * (B * B) + r1 * B = x10 * B + q0 * B := by
    rw [← Nat.add_mul, h1]; ring
  have e2 : q2 * (B * B) + r2 * B = x01 * B + r1 * B := by
    rw [← Nat.add_mul, h2]; ring
  rw [bs.sq, Nat.add_mul, Nat.add_mul, Nat.add_mul x10, h0]
  omega

theorem oadd_spec {a b : Nat} (ha : a < W128) (hb : b ≤ W128) :
    ∃ r c, oadd a b = (r, c) ∧ r < W128 ∧ r + c.toNat * W128 = a + b := by
  unfold oadd
  have hW := W128_pos
  generalize W128 = W at *
  refine ⟨_, _, rfl, Nat.mod_lt _ hW, ?_⟩
  by_cases h : W ≤ a + b
  · have e : (a + b) % W = a + b - W := by rw [Nat.mod_eq_sub_mod h, Nat.mod_eq_of_lt (by omega)]
    rw [e]
    simp only [h, decide_true, Bool.toNat_true, Nat.one_mul]
    omega
  · rw [Nat.mod_eq_of_lt (by omega)]
    simp only [h, decide_false, Bool.toNat_false, Nat.zero_mul]
    omega

theorem osub_spec {a b : Nat} (ha : a < W128) (hb : b < W128) :
    ∃ r c, osub a b = (r, c) ∧ r < W128 ∧ b + r = a + c.toNat * W128 := by
  unfold osub
  have hW := W128_pos
  generalize W128 = W at *
  refine ⟨_, _, rfl, Nat.mod_lt _ hW, ?_⟩
  by_cases h : a < b
  · rw [Nat.mod_eq_of_lt (a := a + W - b) (by omega)]
    simp only [h, decide_true, Bool.toNat_true, Nat.one_mul]
    omega
  · have e : (a + W - b) % W = a - b := by
      rw [show a + W - b = a - b + W by omega, Nat.add_mod_right, Nat.mod_eq_of_lt (by omega)]
    rw [e]
    simp only [h, decide_false, Bool.toNat_false, Nat.zero_mul]
    omega

theorem fullmul256_spec {a : V248} {b : Nat} (h : a.WF) (hb : b < W128) :
    ∃ m0 m1 m2, fullmul256 a b = .ok (m0, m1, m2) ∧ m0 < W128 ∧ m1 < W128 ∧ m2 < W128 ∧
      (m2 * W128 + m1) * W128 + m0 = a.val * b := by
  unfold fullmul256
  by_cases h0 : b = 0
  · rw [if_neg (by omega)]
    exact ⟨0, 0, 0, rfl, W128_pos, W128_pos, W128_pos, by rw [h0]; simp only [Nat.zero_mul, Nat.add_zero, Nat.mul_zero]⟩
  rw [if_pos h0]
  obtain ⟨l0, c0, e0, hl0, hc0, v0⟩ := fullmul128_spec h.2 hb
  obtain ⟨l1, c1, e1, hl1, hc1, v1⟩ := fullmul128_spec h.1 hb
  rw [e0, ok_bind]
  dsimp only
  rw [e1, ok_bind]
  dsimp only
  obtain ⟨r, c, e2, hr, v2⟩ := oadd_spec hc0 (Nat.le_of_lt hl1)
  rw [e2]
  dsimp only
  -- the top word cannot overflow: the whole product is below W³
  have htot : ((c1 + c.toNat) * W128 + r) * W128 + l0 = a.val * b := by
    unfold val
    have : (a.hi * W128 + a.lo) * b = (a.hi * b) * W128 + a.lo * b := by ring
    rw [this, ← v0, ← v1]
    have : (c1 * W128 + l1) * W128 + (c0 * W128 + l0) = (c1 * W128 + (c0 + l1)) * W128 + l0 := by ring
    rw [this, ← v2]; ring
  have hlt : c1 + c.toNat < W128 := by
    have hc : c.toNat ≤ 1 := by cases c <;> decide
    have hav : a.val < W128 * W128 := by
      have : (a.hi + 1) * W128 ≤ W128 * W128 := Nat.mul_le_mul_right _ h.1
      rw [Nat.add_mul, Nat.one_mul] at this
      have := h.2
      unfold val
      generalize W128 = W at *
      omega
    have hprod : a.val * b < W128 * W128 * W128 := by
      have : a.val * b ≤ W128 * W128 * b := Nat.mul_le_mul_right _ (Nat.le_of_lt hav)
      have h2 : W128 * W128 * b < W128 * W128 * W128 := Nat.mul_lt_mul_of_pos_left hb (Nat.mul_pos W128_pos W128_pos)
      exact Nat.lt_of_le_of_lt this h2
    rw [← htot] at hprod
    have : (c1 + c.toNat) * W128 * W128 < W128 * W128 * W128 := by
      rw [Nat.add_mul] at hprod
      generalize (c1 + c.toNat) * W128 * W128 = x at *
      generalize W128 * W128 * W128 = y at *
      omega
    rw [Nat.mul_assoc, Nat.mul_assoc] at this
    exact Nat.lt_of_mul_lt_mul_right this
  rw [cadd_ok hlt, ok_bind]
  exact ⟨l0, r, c1 + c.toNat, rfl, hl0, hr, hlt, htot⟩

theorem subCarry_spec {a b : Nat} {c : Bool} (ha : a < W128) (hb : b < W128) :
    ∃ r c', subCarry a b c = (r, c') ∧ r < W128 ∧ b + c.toNat + r = a + c'.toNat * W128 := by
  unfold subCarry
  have hc : c.toNat ≤ 1 := by cases c <;> decide
  have hW : 1 < W128 := by decide
  obtain ⟨r1, o1, e1, h1, v1⟩ := oadd_spec (b := c.toNat) hb (by generalize W128 = W at *; omega)
  rw [e1]; dsimp only
  obtain ⟨r2, o2, e2, h2, v2⟩ := osub_spec ha h1
  rw [e2]; dsimp only
  refine ⟨r2, o1 || o2, rfl, h2, ?_⟩
  generalize W128 = W at *
  cases o1
  · simp only [Bool.toNat_false, Nat.zero_mul, Nat.add_zero, Bool.false_or] at *
    omega
  · simp only [Bool.toNat_true, Nat.one_mul] at v1
    have hr1 : r1 = 0 := by omega
    subst hr1
    cases o2
    · simp only [Bool.toNat_false, Nat.zero_mul, Nat.add_zero, Bool.true_or, Bool.toNat_true, Nat.one_mul] at *
      omega
    · simp only [Bool.toNat_true, Nat.one_mul] at v2
      omega

/-! ### The quotient digit -/

theorem knuthLoop_spec {vn1 vn2 U u0 : Nat} (h1 : vn1 < W128) (h2 : vn2 < W128) (h0 : u0 < W128) :
    ∀ fuel q rhat, q * vn1 + rhat = U → q < W128 →
    (U * W128 + u0) / (vn1 * W128 + vn2) ≤ q → rhat < W128 → W128 ≤ rhat + fuel * vn1 → 0 < vn1 →
    knuthLoop vn1 vn2 u0 fuel q rhat = .ok ((U * W128 + u0) / (vn1 * W128 + vn2))
  | 0, q, rhat, _, _, _, hr, hf, _ => by generalize W128 = W at *; omega
  | fuel + 1, q, rhat, hinv, hq, hQ, hr, hf, hv1 => by
    have hW := W128_pos
    have ih := knuthLoop_spec (U := U) h1 h2 h0 fuel
    show (fullmul128 q vn2 >>= _) = _
    obtain ⟨lo, hi, e, hlo, hhi, hprod⟩ := fullmul128_spec hq h2
    rw [e, ok_bind]
    dsimp only
    have hVpos : 0 < vn1 * W128 + vn2 := by
      have := Nat.mul_pos hv1 hW
      generalize vn1 * W128 = x at *; omega
    have hcmp := cmp_digit (B := W128) (vn0 := vn2) (un1 := u0) hinv
    have hgt : ∀ k, U * W128 + u0 < k * (vn1 * W128 + vn2) ↔ (U * W128 + u0) / (vn1 * W128 + vn2) < k :=
      fun k => digit_gt hVpos
    have hcond : (decide (hi > rhat) || (decide (hi = rhat) && decide (lo > u0)))
        = decide ((U * W128 + u0) / (vn1 * W128 + vn2) < q) := by
      rw [Bool.eq_iff_iff, decide_eq_true_iff, ← hgt, ← hcmp, ← hprod]
      simp only [Bool.or_eq_true, Bool.and_eq_true, decide_eq_true_iff]
      rw [Nat.mul_comm W128 rhat]
      constructor
      · rintro (h | ⟨h, h'⟩)
        · have : (rhat + 1) * W128 ≤ hi * W128 := Nat.mul_le_mul_right _ h
          rw [Nat.add_mul, Nat.one_mul] at this
          generalize W128 = W at *; omega
        · rw [h]
          generalize W128 = W at *; omega
      · intro h
        rcases Nat.lt_trichotomy hi rhat with g | g | g
        · have : (hi + 1) * W128 ≤ rhat * W128 := Nat.mul_le_mul_right _ g
          rw [Nat.add_mul, Nat.one_mul] at this
          generalize W128 = W at *; omega
        · right; refine ⟨g, ?_⟩
          rw [g] at h
          generalize W128 = W at *; omega
        · exact Or.inl g
    rw [hcond]
    generalize knuthLoop vn1 vn2 u0 fuel = rec at *
    have hoadd := oadd_spec (a := rhat) (b := vn1) hr (Nat.le_of_lt h1)
    clear hcmp hprod hlo hhi e hcond
    generalize hQQ : (U * W128 + u0) / (vn1 * W128 + vn2) = Q at *
    by_cases hlt : Q < q
    · simp only [hlt, decide_true, if_true]
      rw [csub_ok (by omega), ok_bind]
      obtain ⟨r, c, eo, hrr, hrv⟩ := hoadd
      rw [eo]
      dsimp only
      have hinv' : (q - 1) * vn1 + (rhat + vn1) = U := by
        obtain ⟨k, rfl⟩ : ∃ k, q = k + 1 := ⟨q - 1, by omega⟩
        rw [Nat.add_sub_cancel]
        rw [Nat.add_mul] at hinv
        omega
      cases c
      · simp only [Bool.toNat_false, Nat.zero_mul, Nat.add_zero] at hrv
        simp only [Bool.false_eq_true, if_false]
        have hf' : (fuel + 1) * vn1 = fuel * vn1 + vn1 := by rw [Nat.add_mul, Nat.one_mul]
        refine ih (q - 1) r (by rw [hrv]; exact hinv') ?_ ?_ hrr ?_ hv1
        · generalize W128 = W at *; omega
        · omega
        · generalize W128 = W at *; omega
      · simp only [Bool.toNat_true, Nat.one_mul] at hrv
        simp only [if_true]
        show Except.ok (q - 1) = _
        congr 1
        have hnot : ¬ (U * W128 + u0 < (q - 1) * (vn1 * W128 + vn2)) := by
          rw [← cmp_digit hinv']
          have a1 : (q - 1) * vn2 ≤ W128 * W128 := Nat.mul_le_mul (by generalize W128 = W at *; omega) (Nat.le_of_lt h2)
          have a2 : W128 * W128 ≤ W128 * (rhat + vn1) := Nat.mul_le_mul_left _ (by generalize W128 = W at *; omega)
          generalize W128 * W128 = x at *
          generalize W128 * (rhat + vn1) = y at *
          omega
        rw [hgt] at hnot
        omega
    · simp only [hlt, decide_false]
      show Except.ok q = _
      congr 1; omega

theorem knuthDigit_spec {u0 u1 u2 vn1 vn2 : Nat} (h1 : vn1 < W128) (h2 : vn2 < W128) (h0 : u0 < W128)
    (hu1 : u1 < W128) (hu2 : u2 < vn1) (hn : W128 ≤ 2 * vn1) :
    knuthDigit u0 u1 u2 vn1 vn2 = .ok (((u2 * W128 + u1) * W128 + u0) / (vn1 * W128 + vn2)) := by
  unfold knuthDigit
  rw [if_pos hu2, udiv256_spec hu1 h1 hu2, ok_bind]
  dsimp only
  have hv1 : 0 < vn1 := by omega
  have hW := W128_pos
  apply knuthLoop_spec h1 h2 h0
  · exact Nat.div_add_mod' _ _
  · exact digit_lt_base hu2 hu1
  · rw [Nat.le_div_iff_mul_le hv1]
    have hx := Nat.div_mul_le_self ((u2 * W128 + u1) * W128 + u0) (vn1 * W128 + vn2)
    generalize ((u2 * W128 + u1) * W128 + u0) / (vn1 * W128 + vn2) = Q at *
    generalize u2 * W128 + u1 = U at *
    have e : Q * (vn1 * W128 + vn2) = Q * vn1 * W128 + Q * vn2 := by ring
    rw [e] at hx
    have h2 : Q * vn1 * W128 < (U + 1) * W128 := by
      rw [Nat.add_mul, Nat.one_mul]; generalize W128 = W at *; omega
    have := Nat.lt_of_mul_lt_mul_right h2
    omega
  · have := Nat.mod_lt (u2 * W128 + u1) hv1
    generalize (u2 * W128 + u1) % vn1 = x at *
    generalize W128 = W at *; omega
  · generalize (u2 * W128 + u1) % vn1 = x at *
    generalize W128 = W at *; omega
  · exact hv1

theorem val_lt {a : V248} (h : a.WF) : a.val < W128 * W128 := by
  have h1 : (a.hi + 1) * W128 ≤ W128 * W128 := Nat.mul_le_mul_right _ h.1
  rw [Nat.add_mul, Nat.one_mul] at h1
  have := h.2
  unfold val
  generalize W128 * W128 = y at *
  generalize W128 = W at *
  omega

/-- Three-word subtraction: if the subtrahend is `M = N - R` with `R` below `W²`, there is no borrow, the
result is `R` and its top word is zero. -/
theorem sub3 {W u0 u1 u2 m0 m1 m2 r0 r1 r2 x0 x1 x2 R : Nat} (hW : 0 < W) (hr0 : r0 < W) (hr1 : r1 < W) (hr2 : r2 < W)
    (v0 : m0 + r0 = u0 + x0 * W) (v1 : m1 + x0 + r1 = u1 + x1 * W) (v2 : m2 + x1 + r2 = u2 + x2 * W)
    (hdm : (m2 * W + m1) * W + m0 + R = (u2 * W + u1) * W + u0) (hR : R < W * W) :
    x2 = 0 ∧ r2 = 0 ∧ r1 * W + r0 = R := by
  have hsum : (m2 * W + m1) * W + m0 + ((r2 * W + r1) * W + r0)
      = (u2 * W + u1) * W + u0 + x2 * (W * W * W) := by
    have g1 : u1 + x1 * W = m1 + x0 + r1 := v1.symm
    have g0 : u0 + x0 * W = m0 + r0 := v0.symm
    have g2 : u2 + x2 * W = m2 + x1 + r2 := v2.symm
    have t : ((u2 + x2 * W) * W + (u1 + x1 * W)) * W + (u0 + x0 * W)
        = (u2 * W + u1) * W + u0 + x2 * (W * W * W) + x1 * (W * W) + x0 * W := by ring
    rw [g0, g1, g2] at t
    have t2 : ((m2 + x1 + r2) * W + (m1 + x0 + r1)) * W + (m0 + r0)
        = (m2 * W + m1) * W + m0 + ((r2 * W + r1) * W + r0) + x1 * (W * W) + x0 * W := by ring
    rw [t2] at t
    omega
  rw [← hdm] at hsum
  have hrr : (r2 * W + r1) * W + r0 = R + x2 * (W * W * W) := by omega
  have hr3 : (r2 * W + r1) * W + r0 < W * W * W := by
    have a1 : (r2 + 1) * W ≤ W * W := Nat.mul_le_mul_right _ hr2
    rw [Nat.add_mul, Nat.one_mul] at a1
    have a2 : (r2 * W + r1 + 1) * W ≤ W * W * W := Nat.mul_le_mul_right _ (by omega)
    rw [Nat.add_mul, Nat.one_mul] at a2
    omega
  have hx2 : x2 = 0 := by
    apply Classical.byContradiction
    intro hne
    have : W * W * W ≤ x2 * (W * W * W) := Nat.le_mul_of_pos_left _ (Nat.pos_of_ne_zero hne)
    omega
  subst hx2
  rw [Nat.zero_mul, Nat.add_zero] at hrr
  have hr20 : r2 = 0 := by
    apply Classical.byContradiction
    intro hne
    have h3 : W * W ≤ (r2 * W + r1) * W := by
      apply Nat.mul_le_mul_right
      have : W ≤ r2 * W := Nat.le_mul_of_pos_left _ (Nat.pos_of_ne_zero hne)
      exact Nat.le_trans this (Nat.le_add_right ..)
    omega
  subst hr20
  rw [Nat.zero_mul, Nat.zero_add r1] at hrr
  exact ⟨rfl, rfl, hrr⟩

theorem knuthSub_spec {u0 u1 u2 q : Nat} {v : V248} (hv : v.WF) (h0 : u0 < W128) (h1 : u1 < W128) (h2 : u2 < W128)
    (hq : q < W128) (hqe : q = ((u2 * W128 + u1) * W128 + u0) / v.val) (hvpos : 0 < v.val) :
    ∃ r0 r1, knuthSub u0 u1 u2 v q = .ok (q, r0, r1, 0) ∧ r0 < W128 ∧ r1 < W128 ∧
      r1 * W128 + r0 = ((u2 * W128 + u1) * W128 + u0) % v.val := by
  obtain ⟨m0, m1, m2, em, hm0, hm1, hm2, hmv⟩ := fullmul256_spec hv hq
  obtain ⟨r0, c0, e0, hr0, v0⟩ := subCarry_spec (c := false) h0 hm0
  obtain ⟨r1, c1, e1, hr1, v1⟩ := subCarry_spec (c := c0) h1 hm1
  obtain ⟨r2, c2, e2, hr2, v2⟩ := subCarry_spec (c := c1) h2 hm2
  have hdm := Nat.div_add_mod ((u2 * W128 + u1) * W128 + u0) v.val
  rw [← hqe, ← hmv] at hdm
  have hml := Nat.mod_lt ((u2 * W128 + u1) * W128 + u0) hvpos
  have hR : ((u2 * W128 + u1) * W128 + u0) % v.val < W128 * W128 := Nat.lt_trans hml (val_lt hv)
  obtain ⟨x2, hr20, hfin⟩ := sub3 W128_pos hr0 hr1 hr2 v0 v1 v2 hdm hR
  refine ⟨r0, r1, ?_, hr0, hr1, hfin⟩
  have hc2 : c2 = false := by
    cases c2
    · rfl
    · cases x2
  have step : knuthSub u0 u1 u2 v q = (do
      let (m0, m1, m2) ← fullmul256 v q
      let (u0, c) := subCarry u0 m0 false
      let (u1, c) := subCarry u1 m1 c
      let (u2, c) := subCarry u2 m2 c
      if c then do
        let qHat ← csub q 1
        let (u0, c) := addCarry u0 v.lo false
        let (u1, c) := addCarry u1 v.hi c
        pure (qHat, u0, u1, wadd u2 c.toNat)
      else pure (q, u0, u1, u2)) := rfl
  rw [step, em, ok_bind]
  dsimp only
  rw [e0]
  dsimp only
  rw [e1]
  dsimp only
  rw [e2, hc2, hr20]
  rfl

theorem fullShl_spec {a : V248} {s : Nat} (h : a.WF) (hs : s < 128) :
    ∃ u0 u1 u2, fullShl a s = (u0, u1, u2) ∧ u0 < W128 ∧ u1 < W128 ∧ u2 < 2 ^ s ∧
      (u2 * W128 + u1) * W128 + u0 = a.val * 2 ^ s := by
  unfold fullShl
  obtain ⟨hw, hv⟩ := shrOp_spec h (n := 128 - s) (by omega)
  refine ⟨_, _, _, rfl, Nat.mod_lt _ W128_pos, hw.2, ?_, ?_⟩
  · have hlt : (a.shrOp (128 - s)).hi * W128 < 2 ^ s * W128 := by
      have h1 : (a.shrOp (128 - s)).hi * W128 ≤ (a.shrOp (128 - s)).val := Nat.le_add_right ..
      refine Nat.lt_of_le_of_lt h1 ?_
      rw [hv, Nat.div_lt_iff_lt_mul (Nat.two_pow_pos _)]
      have e : 2 ^ s * W128 * 2 ^ (128 - s) = W128 * W128 := by
        have := pow_split (n := s) (by omega)
        rw [Nat.mul_right_comm, this]
      rw [e]; exact val_lt h
    exact Nat.lt_of_mul_lt_mul_right hlt
  · show (a.shrOp (128 - s)).val * W128 + shl128 a.lo s = _
    rw [hv]
    have e : shl128 a.lo s = shl128 a.val s := by
      rw [shl128_low (by omega), shl128_low (by omega)]
      congr 1
      unfold val
      rw [← pow_split (n := s) (by omega), ← Nat.mul_assoc, Nat.mul_comm _ (2 ^ (128 - s)), Nat.mul_add_mod]
    rw [e]
    exact shl_split (by omega)

theorem fullShr_eq {r0 r1 s : Nat} (hs : s < 128) : fullShr r0 r1 0 s = (V248.mk r1 r0).shrOp s := by
  unfold fullShr shrOp
  by_cases h0 : s = 0
  · rw [h0]; rfl
  · rw [if_pos (by omega), if_neg h0, if_pos (by omega)]
    have : shl128 0 (128 - s) = 0 := by rw [shl128_eq, Nat.zero_mul, Nat.zero_mod]
    rw [this, Nat.or_zero]

theorem divModKnuth_spec {u v : V248} (hu : u.WF) (hv : v.WF) (hpos : 0 < v.hi) :
    ∃ q r, divModKnuth u v = .ok (q, r) ∧ q.WF ∧ r.WF ∧ q.val = u.val / v.val ∧ r.val = u.val % v.val := by
  obtain ⟨n1, n2, n3⟩ := lzc_norm hpos hv.1
  unfold divModKnuth
  dsimp only
  generalize lzc 128 v.hi = s at *
  obtain ⟨hw, hvv⟩ := shlOp_spec hv (n := s) (by omega)
  obtain ⟨u0, u1, u2, eu, hu0, hu1, hu2, hN⟩ := fullShl_spec hu n1
  rw [eu]
  dsimp only
  -- the normalised divisor loses nothing
  have hfit : v.val * 2 ^ s < W128 * W128 := by
    have h1 : v.hi * 2 ^ s + 2 ^ s ≤ W128 := by
      have hps := pow_split (n := s) (by omega)
      rw [← hps, ← Nat.add_one_mul, Nat.mul_comm]
      apply Nat.mul_le_mul_left
      rw [← hps, Nat.mul_comm] at n2
      exact Nat.lt_of_mul_lt_mul_left n2
    have h2 : v.val * 2 ^ s = v.hi * 2 ^ s * W128 + v.lo * 2 ^ s := by unfold val; ring
    rw [h2]
    have h3 : v.lo * 2 ^ s < W128 * 2 ^ s := Nat.mul_lt_mul_of_pos_right hv.2 (Nat.two_pow_pos _)
    have h4 : (v.hi * 2 ^ s + 2 ^ s) * W128 ≤ W128 * W128 := Nat.mul_le_mul_right _ h1
    rw [Nat.add_mul, Nat.mul_comm (2 ^ s)] at h4
    generalize W128 * W128 = y at *
    generalize W128 * 2 ^ s = z at *
    generalize v.hi * 2 ^ s * W128 = w at *
    generalize W128 = W at *
    omega
  rw [Nat.mod_eq_of_lt hfit] at hvv
  generalize v.shlOp s = V at *
  have hnorm : W128 ≤ 2 * V.hi := by
    obtain ⟨H, hH⟩ : ∃ H, W128 = 2 * H := ⟨2 ^ 127, rfl⟩
    apply Classical.byContradiction
    intro hlt
    have h2 : 2 * V.hi + 2 ≤ W128 := by generalize W128 = W at *; omega
    have h3 : (2 * V.hi + 2) * W128 ≤ W128 * W128 := Nat.mul_le_mul_right _ h2
    have hve : V.val = V.hi * W128 + V.lo := rfl
    have hlo := hw.2
    have h4 : v.hi * 2 ^ s * W128 ≤ V.val := by
      rw [hvv]
      show _ ≤ (v.hi * W128 + v.lo) * 2 ^ s
      rw [Nat.add_mul, Nat.mul_right_comm]; exact Nat.le_add_right ..
    have h5 : W128 * W128 ≤ 2 * (v.hi * 2 ^ s * W128) := by
      rw [← Nat.mul_assoc]; exact Nat.mul_le_mul_right _ n3
    rw [Nat.add_mul, Nat.mul_assoc] at h3
    generalize W128 * W128 = y at *
    generalize V.hi * W128 = z at *
    generalize v.hi * 2 ^ s * W128 = w at *
    generalize W128 = W at *
    omega
  have hu2' : u2 < V.hi := by
    have h1 : 2 * 2 ^ s ≤ W128 := by
      rw [← Nat.pow_succ']; exact Nat.pow_le_pow_right (by decide) (by omega)
    generalize W128 = W at *
    omega
  rw [knuthDigit_spec hw.1 hw.2 hu0 hu1 hu2' hnorm, ok_bind]
  have hVv : V.hi * W128 + V.lo = V.val := rfl
  have hVpos : 0 < V.val := by
    rw [← hVv]
    have := Nat.mul_pos (show 0 < V.hi by omega) W128_pos
    generalize V.hi * W128 = z at *; omega
  have hq : ((u2 * W128 + u1) * W128 + u0) / V.val < W128 := by
    apply digit_lt_base _ hu0
    rw [← hVv]
    have : (u2 + 1) * W128 ≤ V.hi * W128 := Nat.mul_le_mul_right _ hu2'
    rw [Nat.add_mul, Nat.one_mul] at this
    generalize V.hi * W128 = z at *
    generalize W128 = W at *
    omega
  rw [hVv]
  obtain ⟨r0, r1, es, hr0, hr1, hrv⟩ := knuthSub_spec hw hu0 hu1 (Nat.lt_trans hu2' hw.1) hq rfl hVpos
  rw [es, ok_bind]
  dsimp only
  rw [fullShr_eq n1]
  obtain ⟨hsw, hsv⟩ := shrOp_spec (a := ⟨r1, r0⟩) ⟨hr1, hr0⟩ (n := s) (by omega)
  have hps : 0 < 2 ^ s := Nat.two_pow_pos s
  refine ⟨_, _, rfl, ⟨W128_pos, hq⟩, hsw, ?_, ?_⟩
  · show 0 * W128 + _ = _
    rw [Nat.zero_mul, Nat.zero_add (((u2 * W128 + u1) * W128 + u0) / V.val), hN, hvv, Nat.mul_div_mul_right _ _ hps]
  · rw [hsv]
    show (r1 * W128 + r0) / 2 ^ s = _
    rw [hrv, hN, hvv, Nat.mul_mod_mul_right, Nat.mul_div_cancel _ hps]

end V248
end Verif
