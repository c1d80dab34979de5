import Verif.V248Mul
/-
Lemmas on the division of `VarUint248`: quotient digits are exact.
-/
set_option linter.unusedVariables false
set_option linter.unusedSimpArgs false
namespace Verif
namespace V248

/-- The part of `digitLoop` that decides on another round. -/
def again (vn0 un1 q rhat : Nat) : Except Err Bool :=
  if B64 ≤ q then pure true
  else do
    let x ← cmul q vn0
    let y ← cadd (← cmul B64 rhat) un1
    pure (decide (x > y))

theorem digitLoop_succ (vn1 vn0 un1 fuel q rhat : Nat) :
    digitLoop vn1 vn0 un1 (fuel + 1) q rhat = (do
      let a ← again vn0 un1 q rhat
      if a then do
        let q ← csub q 1
        let rhat ← cadd rhat vn1
        if B64 ≤ rhat then pure (q, rhat) else digitLoop vn1 vn0 un1 fuel q rhat
      else pure (q, rhat)) := rfl

section Abstract
variable {B W : Nat}

/-- A candidate digit is too large exactly when it exceeds the true digit. -/
theorem digit_gt {v N q : Nat} (hv : 0 < v) : N < q * v ↔ N / v < q := by
  rw [Nat.div_lt_iff_lt_mul hv]

/-- The comparison made by the loop, in terms of the true digit. -/
theorem cmp_digit {vn1 vn0 un un1 q rhat : Nat} (h : q * vn1 + rhat = un) :
    B * rhat + un1 < q * vn0 ↔ un * B + un1 < q * (vn1 * B + vn0) := by
  have e : un * B + un1 + q * vn0 = q * (vn1 * B + vn0) + (B * rhat + un1) := by
    rw [← h]; ring
  omega

theorem digit_lt_base {v un un1 : Nat} (hu : un < v) (h1 : un1 < B) : (un * B + un1) / v < B := by
  rw [Nat.div_lt_iff_lt_mul (by omega)]
  have : (un + 1) * B ≤ v * B := Nat.mul_le_mul_right _ hu
  rw [Nat.add_mul, Nat.one_mul] at this
  rw [Nat.mul_comm B v]
  omega

end Abstract

theorem again_spec {vn1 vn0 un un1 q rhat : Nat} (h1 : vn1 < B64) (h0 : vn0 < B64) (hu1 : un1 < B64)
    (hu : un < vn1 * B64 + vn0) (hinv : q * vn1 + rhat = un) (hr : rhat < B64) :
    again vn0 un1 q rhat = .ok (decide ((un * B64 + un1) / (vn1 * B64 + vn0) < q)) := by
  unfold again
  have hd := digit_lt_base hu hu1
  have bs := base64
  have caddk : ∀ a b, a + b < W128 → cadd a b = .ok (a + b) := fun _ _ => cadd_ok
  have cmulk : ∀ a b, a * b < W128 → cmul a b = .ok (a * b) := fun _ _ => cmul_ok
  have hc := cmp_digit (B := B64) (vn0 := vn0) (un1 := un1) hinv
  have hg := digit_gt (v := vn1 * B64 + vn0) (N := un * B64 + un1) (q := q) (by omega)
  generalize B64 = B at *
  generalize W128 = W at *
  by_cases hq : B ≤ q
  · rw [if_pos hq]
    have : (un * B + un1) / (vn1 * B + vn0) < q := by omega
    simp only [this, decide_true]
    rfl
  · rw [if_neg hq]
    have p := bs.mul_le (a := q) (b := vn0) (by omega) h0
    have hB := bs.big
    have p2 := bs.two hu1 hr
    rw [Nat.mul_comm rhat B] at p2
    rw [cmulk q vn0 (by omega), ok_bind, cmulk B rhat (by omega), ok_bind, caddk _ _ (by omega), ok_bind]
    show Except.ok _ = Except.ok _
    congr 1
    rw [decide_eq_decide]
    exact hc.trans hg

theorem digitLoop_spec {vn1 vn0 un un1 : Nat} (h1 : vn1 < B64) (h0 : vn0 < B64) (hu1 : un1 < B64)
    (hu : un < vn1 * B64 + vn0) : ∀ fuel q rhat, q * vn1 + rhat = un →
    (un * B64 + un1) / (vn1 * B64 + vn0) ≤ q → rhat < B64 → B64 ≤ rhat + fuel * vn1 →
    ∃ rh, digitLoop vn1 vn0 un1 fuel q rhat = .ok ((un * B64 + un1) / (vn1 * B64 + vn0), rh)
  | 0, q, rhat, _, _, hr, hf => by omega
  | fuel + 1, q, rhat, hinv, hQ, hr, hf => by
    rw [digitLoop_succ, again_spec h1 h0 hu1 hu hinv hr, ok_bind]
    have ih := digitLoop_spec h1 h0 hu1 hu fuel
    have bs := base64
    have caddk : ∀ a b, a + b < W128 → cadd a b = .ok (a + b) := fun _ _ => cadd_ok
    generalize digitLoop vn1 vn0 un1 fuel = rec at *
    generalize B64 = B at *
    generalize W128 = W at *
    have hB := bs.big
    have hsq := bs.sq
    have hgt : ∀ k, un * B + un1 < k * (vn1 * B + vn0) ↔ (un * B + un1) / (vn1 * B + vn0) < k :=
      fun k => digit_gt (by omega)
    generalize (un * B + un1) / (vn1 * B + vn0) = Q at *
    by_cases hlt : Q < q
    · simp only [hlt, decide_true, if_true]
      have hB2 : 2 * B ≤ W := by rw [hsq]; exact Nat.mul_le_mul_right _ hB
      rw [csub_ok (by omega), ok_bind, caddk _ _ (by omega), ok_bind]
      have hinv' : (q - 1) * vn1 + (rhat + vn1) = un := by
        obtain ⟨k, rfl⟩ : ∃ k, q = k + 1 := ⟨q - 1, by omega⟩
        rw [Nat.add_sub_cancel]
        rw [Nat.add_mul] at hinv
        omega
      by_cases hbr : B ≤ rhat + vn1
      · rw [if_pos hbr]
        refine ⟨rhat + vn1, ?_⟩
        show Except.ok (q - 1, rhat + vn1) = _
        have hq1B : q - 1 < B := by
          apply Classical.byContradiction
          intro hge
          have : B * vn1 ≤ (q - 1) * vn1 := Nat.mul_le_mul_right _ (by omega)
          rw [Nat.mul_comm] at this
          omega
        have hnot : ¬ (un * B + un1 < (q - 1) * (vn1 * B + vn0)) := by
          rw [← cmp_digit hinv']
          have a1 : (q - 1) * vn0 ≤ B * B := Nat.mul_le_mul (by omega) (by omega)
          have a2 : B * B ≤ B * (rhat + vn1) := Nat.mul_le_mul_left _ hbr
          omega
        rw [hgt] at hnot
        congr 2; omega
      · rw [if_neg hbr]
        have hf' : (fuel + 1) * vn1 = fuel * vn1 + vn1 := by rw [Nat.add_mul, Nat.one_mul]
        exact ih (q - 1) (rhat + vn1) hinv' (by omega) (by omega) (by omega)
    · simp only [hlt, decide_false]
      refine ⟨rhat, ?_⟩
      show Except.ok (q, rhat) = _
      congr 2; omega

/-- One quotient digit is exact, without overflow. -/
theorem digit_spec {vn1 vn0 un un1 : Nat} (h1 : vn1 < B64) (h0 : vn0 < B64) (hn : B64 ≤ 2 * vn1) (hu1 : un1 < B64)
    (hu : un < vn1 * B64 + vn0) : digit vn1 vn0 un un1 = .ok ((un * B64 + un1) / (vn1 * B64 + vn0)) := by
  unfold digit
  have bs := base64
  have cmulk : ∀ a b, a * b < W128 → cmul a b = .ok (a * b) := fun _ _ => cmul_ok
  have hv : vn1 * B64 + vn0 < W128 := by
    have := bs.two h0 h1; omega
  have hle : un / vn1 * vn1 ≤ un := Nat.div_mul_le_self un vn1
  have hmod : un / vn1 * vn1 + un % vn1 = un := Nat.div_add_mod' un vn1
  have hB := bs.big
  have hml : un % vn1 < vn1 := Nat.mod_lt _ (by omega)
  have hQ : (un * B64 + un1) / (vn1 * B64 + vn0) ≤ un / vn1 := by
    rw [Nat.le_div_iff_mul_le (by omega)]
    have hx := Nat.div_mul_le_self (un * B64 + un1) (vn1 * B64 + vn0)
    generalize (un * B64 + un1) / (vn1 * B64 + vn0) = Q at *
    have e : Q * (vn1 * B64 + vn0) = Q * vn1 * B64 + Q * vn0 := by ring
    rw [e] at hx
    have h2 : Q * vn1 * B64 < (un + 1) * B64 := by rw [Nat.add_mul, Nat.one_mul]; omega
    have := Nat.lt_of_mul_lt_mul_right h2
    omega
  rw [cdiv_ok (by omega), ok_bind, cmulk _ _ (by omega), ok_bind, csub_ok hle, ok_bind]
  obtain ⟨rh, hl⟩ := digitLoop_spec h1 h0 hu1 hu 3 (un / vn1) (un - un / vn1 * vn1) (by omega) hQ (by omega) (by omega)
  rw [hl, ok_bind]
  rfl

/-! ### Dividing two words by one -/

theorem wsub_exact {a b : Nat} (h1 : b ≤ a) (h2 : a - b < W128) : wsub (a % W128) (b % W128) = a - b := by
  unfold wsub
  have hW : 0 < W128 := by decide
  generalize W128 = W at *
  obtain ⟨d, hd⟩ : ∃ d, a = b + d := ⟨a - b, by omega⟩
  subst hd
  have hd : d < W := by omega
  have hb := Nat.div_add_mod b W
  have hbl := Nat.mod_lt b hW
  rw [Nat.add_sub_cancel_left]
  have e : (b + d) % W = (b % W + d) % W := by rw [Nat.mod_add_mod]
  rw [e]
  by_cases hlt : b % W + d < W
  · rw [Nat.mod_eq_of_lt hlt]
    have : b % W + d + W - b % W = d + W := by omega
    rw [this, Nat.add_mod_right, Nat.mod_eq_of_lt hd]
  · have e2 : (b % W + d) % W = b % W + d - W := by
      rw [Nat.mod_eq_sub_mod (by omega), Nat.mod_eq_of_lt (by omega)]
    rw [e2]
    have : b % W + d - W + W - b % W = d := by omega
    rw [this, Nat.mod_eq_of_lt hd]

theorem wadd_mod (a b : Nat) : wadd (a % W128) b = (a + b) % W128 := by
  unfold wadd; rw [Nat.mod_add_mod]

theorem lzc_le (w v : Nat) : lzc w v ≤ w := Nat.sub_le ..

/-- Normalisation: after shifting out the leading zeroes the top bit is set and nothing is lost. -/
theorem lzc_norm {v : Nat} (hv : 0 < v) (hW : v < W128) :
    lzc 128 v < 128 ∧ v * 2 ^ lzc 128 v < W128 ∧ W128 ≤ 2 * (v * 2 ^ lzc 128 v) := by
  have hnb : nbits v = Nat.log2 v + 1 := by unfold nbits; rw [if_neg (by omega)]
  have hlog : Nat.log2 v < 128 := (Nat.log2_lt (by omega)).2 hW
  have e : lzc 128 v = 127 - Nat.log2 v := by unfold lzc; omega
  rw [e]
  have h1 : 2 ^ Nat.log2 v ≤ v := Nat.log2_self_le (by omega)
  have h2 : v < 2 ^ (Nat.log2 v + 1) := Nat.lt_log2_self
  refine ⟨by omega, ?_, ?_⟩
  · have : v * 2 ^ (127 - Nat.log2 v) < 2 ^ (Nat.log2 v + 1) * 2 ^ (127 - Nat.log2 v) :=
      Nat.mul_lt_mul_of_pos_right h2 (Nat.two_pow_pos _)
    rw [← Nat.pow_add] at this
    rwa [show Nat.log2 v + 1 + (127 - Nat.log2 v) = 128 by omega] at this
  · have : 2 ^ Nat.log2 v * 2 ^ (127 - Nat.log2 v) ≤ v * 2 ^ (127 - Nat.log2 v) := Nat.mul_le_mul_right _ h1
    rw [← Nat.pow_add] at this
    rw [show Nat.log2 v + (127 - Nat.log2 v) = 127 by omega] at this
    have hh : W128 = 2 * 2 ^ 127 := rfl
    omega

/-- `(a << s) | (b >> (128 - s))` as a number. -/
theorem or_shift {a b s : Nat} (hs : 0 < s) (hs2 : s < 128) (ha : a * 2 ^ s < W128) (hb : b < W128) :
    shl128 a s ||| (b >>> (128 - s)) = a * 2 ^ s + b / 2 ^ (128 - s) ∧ b / 2 ^ (128 - s) < 2 ^ s := by
  have hlt : b / 2 ^ (128 - s) < 2 ^ s := by
    rw [Nat.div_lt_iff_lt_mul (Nat.two_pow_pos _), ← Nat.pow_add, show s + (128 - s) = 128 by omega]
    exact hb
  refine ⟨?_, hlt⟩
  rw [shl128_eq, Nat.mod_eq_of_lt ha, Nat.shiftRight_eq_div_pow, ← Nat.shiftLeft_eq,
    ← Nat.shiftLeft_add_eq_or_of_lt hlt]

theorem shl_split {b s : Nat} (hs2 : s ≤ 128) : b / 2 ^ (128 - s) * W128 + shl128 b s = b * 2 ^ s := by
  rw [shl128_eq]
  have e : W128 = 2 ^ (128 - s) * 2 ^ s := by rw [← Nat.pow_add, show 128 - s + s = 128 by omega]; rfl
  rw [e, Nat.mul_mod_mul_right, ← Nat.mul_assoc, ← Nat.add_mul, Nat.div_add_mod']

/-- The value of `un128`, `un10` of the normalised dividend. -/
theorem norm_dividend {u1 u0 v : Nat} (h0 : u0 < W128) (hv : v < W128) (h1 : u1 < v) :
    let s := lzc 128 v
    let un128 := if s > 0 then shl128 u1 s ||| (u0 >>> (128 - s)) else u1
    let un10 := if s > 0 then shl128 u0 s else u0
    un128 * W128 + un10 = (u1 * W128 + u0) * 2 ^ s ∧ un10 < W128 ∧ un128 < v * 2 ^ s ∧
      (if s > 0 then shl128 v s else v) = v * 2 ^ s := by
  intro s un128 un10
  obtain ⟨n1, n2, n3⟩ := lzc_norm (v := v) (by omega) hv
  by_cases hs : s > 0
  · have e1 : un128 = shl128 u1 s ||| (u0 >>> (128 - s)) := if_pos hs
    have e2 : un10 = shl128 u0 s := if_pos hs
    have hu : u1 * 2 ^ s < W128 := by
      have : u1 * 2 ^ s < v * 2 ^ s := Nat.mul_lt_mul_of_pos_right h1 (Nat.two_pow_pos _)
      exact Nat.lt_trans this n2
    obtain ⟨o1, o2⟩ := or_shift hs n1 hu h0
    have e3 := shl_split (b := u0) (s := s) (Nat.le_of_lt n1)
    refine ⟨?_, ?_, ?_, ?_⟩
    · rw [e1, e2, o1, Nat.add_mul, Nat.add_assoc, e3]; ring
    · rw [e2, shl128_eq]; exact Nat.mod_lt _ (by decide)
    · rw [e1, o1]
      have : (u1 + 1) * 2 ^ s ≤ v * 2 ^ s := Nat.mul_le_mul_right _ h1
      rw [Nat.add_mul, Nat.one_mul] at this
      omega
    · rw [if_pos hs, shl128_eq, Nat.mod_eq_of_lt n2]
  · have hs0 : s = 0 := by omega
    have e1 : un128 = u1 := if_neg hs
    have e2 : un10 = u0 := if_neg hs
    rw [e1, e2, if_neg hs, hs0]
    simp only [Nat.pow_zero, Nat.mul_one]
    exact ⟨trivial, h0, h1, trivial⟩

/-- Two digits of long division. -/
theorem two_digits {B v n1 n0 un : Nat} (hv : 0 < v) :
    let q1 := (un * B + n1) / v
    let r1 := (un * B + n1) % v
    q1 * B + (r1 * B + n0) / v = ((un * B + n1) * B + n0) / v ∧
      (r1 * B + n0) % v = ((un * B + n1) * B + n0) % v := by
  intro q1 r1
  have h : (un * B + n1) * B + n0 = v * (q1 * B) + (r1 * B + n0) := by
    have := Nat.div_add_mod (un * B + n1) v
    rw [← this]
    show (v * q1 + r1) * B + n0 = _
    ring
  rw [h, Nat.mul_add_div hv, Nat.mul_add_mod]
  exact ⟨rfl, rfl⟩

/-- `udiv256_by_128_to_128` computes quotient and remainder of a two-word number by one word, when the
quotient fits one word; nothing overflows. -/
theorem udiv256_spec {u1 u0 v : Nat} (h0 : u0 < W128) (hv : v < W128) (h1 : u1 < v) :
    udiv256 u1 u0 v = .ok ((u1 * W128 + u0) / v, (u1 * W128 + u0) % v) := by
  obtain ⟨n1, n2, n3⟩ := lzc_norm (v := v) (by omega) hv
  have hnd := norm_dividend h0 hv h1
  unfold udiv256
  dsimp only at hnd ⊢
  generalize hs : lzc 128 v = s at *
  obtain ⟨d1, d2, d3, d4⟩ := hnd
  rw [d4]
  generalize (if s > 0 then shl128 u1 s ||| (u0 >>> (128 - s)) else u1) = un128 at *
  generalize (if s > 0 then shl128 u0 s else u0) = un10 at *
  have hdiv : (u1 * W128 + u0) / v = (un128 * W128 + un10) / (v * 2 ^ s) := by
    rw [d1, Nat.mul_div_mul_right _ _ (Nat.two_pow_pos _)]
  have hmod : (u1 * W128 + u0) % v * 2 ^ s = (un128 * W128 + un10) % (v * 2 ^ s) := by
    rw [d1, Nat.mul_mod_mul_right]
  have hpos : 0 < 2 ^ s := Nat.two_pow_pos s
  have hrem : ((un128 * W128 + un10) % (v * 2 ^ s)) >>> s = (u1 * W128 + u0) % v := by
    rw [← hmod, Nat.shiftRight_eq_div_pow, Nat.mul_div_cancel _ hpos]
  rw [hdiv, ← hrem]
  clear hdiv hmod hrem d1 d4
  generalize hV : v * 2 ^ s = V at *
  clear hV hpos h1 hv h0
  rw [shr64, shr64]
  have bs := base64
  have caddk : ∀ a b, a + b < W128 → cadd a b = .ok (a + b) := fun _ _ => cadd_ok
  have cmulk : ∀ a b, a * b < W128 → cmul a b = .ok (a * b) := fun _ _ => cmul_ok
  obtain ⟨vn1, vn0, hV, hvn0, e1, e2⟩ := bs.dm V
  obtain ⟨un1, un0, hU, hun0, e3, e4⟩ := bs.dm un10
  rw [e1, e2, e3, e4]
  have hvn1 := bs.quot_lt hV n2
  have hun1 := bs.quot_lt hU d2
  have hnorm : B64 ≤ 2 * vn1 := by
    obtain ⟨H, hH⟩ := bs.even
    have hsq := bs.sq
    apply Classical.byContradiction
    intro hlt
    have h2 : 2 * vn1 + 2 ≤ B64 := by omega
    have h3 : (2 * vn1 + 2) * B64 ≤ B64 * B64 := Nat.mul_le_mul_right _ h2
    rw [Nat.add_mul, Nat.mul_assoc] at h3
    omega
  rw [digit_spec hvn1 hvn0 hnorm hun1 (by rw [← hV]; exact d3), ok_bind, ← hV]
  have hVpos : 0 < V := by omega
  have hr21 : (un128 * B64 + un1) % V < V := Nat.mod_lt _ hVpos
  have hun21 : wsub (wadd (wmul un128 B64) un1) (wmul ((un128 * B64 + un1) / V) V) = (un128 * B64 + un1) % V := by
    have hx := Nat.div_add_mod' (un128 * B64 + un1) V
    unfold wmul
    rw [wadd_mod, wsub_exact (by omega) (by omega)]
    omega
  rw [hun21]
  have hdig : (un128 * B64 + un1) / V < B64 := digit_lt_base d3 hun1
  obtain ⟨t1, t2⟩ := two_digits (B := B64) (n1 := un1) (n0 := un0) (un := un128) hVpos
  have hN : (un128 * B64 + un1) * B64 + un0 = un128 * W128 + un10 := by
    rw [hU, bs.sq]; ring
  rw [hN] at t1 t2
  generalize hq1 : (un128 * B64 + un1) / V = q1 at *
  generalize hun21' : (un128 * B64 + un1) % V = un21 at *
  rw [digit_spec hvn1 hvn0 hnorm hun0 (by rw [← hV]; exact hr21), ok_bind, ← hV]
  have hq0 : (un21 * B64 + un0) / V < B64 := digit_lt_base hr21 hun0
  have hr : wsub (wadd (wmul un21 B64) un0) (wmul ((un21 * B64 + un0) / V) V) = (un21 * B64 + un0) % V := by
    have hx := Nat.div_add_mod' (un21 * B64 + un0) V
    have hy : (un21 * B64 + un0) % V < V := Nat.mod_lt _ hVpos
    unfold wmul
    rw [wadd_mod, wsub_exact (by omega) (by omega)]
    omega
  rw [hr, t2]
  have hfit := bs.two hq0 hdig
  generalize (un21 * B64 + un0) / V = q0 at *
  rw [cmulk _ _ (by omega), ok_bind, caddk _ _ (by omega), ok_bind, t1]
  rfl

end V248
end Verif
