import Verif.V248
import Mathlib.Tactic.Ring
/-
Lemmas on the word arithmetic of `VarUint248`: multiplication.
-/
set_option linter.unusedVariables false
set_option linter.unusedSimpArgs false
namespace Verif

theorem cadd_ok {a b : Nat} (h : a + b < W128) : cadd a b = .ok (a + b) := if_pos h
theorem csub_ok {a b : Nat} (h : b ≤ a) : csub a b = .ok (a - b) := if_pos h
theorem cmul_ok {a b : Nat} (h : a * b < W128) : cmul a b = .ok (a * b) := if_pos h
theorem cdiv_ok {a b : Nat} (h : b ≠ 0) : cdiv a b = .ok (a / b) := if_neg h
theorem cmod_ok {a b : Nat} (h : b ≠ 0) : cmod a b = .ok (a % b) := if_neg h
theorem ok_bind {α β : Type} (x : α) (f : α → Except Err β) : ((.ok x : Except Err α) >>= f) = f x := rfl

theorem W128_val : W128 = 340282366920938463463374607431768211456 := rfl
theorem B64_val : B64 = 18446744073709551616 := rfl

theorem shr64 (a : Nat) : a >>> 64 = a / B64 := Nat.shiftRight_eq_div_pow ..
theorem shl128_eq (a n : Nat) : shl128 a n = (a * 2 ^ n) % W128 := by unfold shl128; rw [Nat.shiftLeft_eq]

/-- The facts about the word base `W = B²` used in the proofs; the bases themselves are kept abstract. -/
structure Base (B W : Nat) : Prop where
  sq : W = B * B
  big : 2 ≤ B
  even : ∃ H, B = 2 * H

theorem base64 : Base B64 W128 := ⟨rfl, by decide, ⟨2 ^ 63, rfl⟩⟩

section Abstract
variable {B W : Nat}

theorem Base.mul_le (hb : Base B W) {a b : Nat} (ha : a < B) (h : b < B) : a * b + 2 * B ≤ W + 1 := by
  have h1 : a * b ≤ (B - 1) * (B - 1) := Nat.mul_le_mul (by omega) (by omega)
  obtain ⟨k, hk⟩ : ∃ k, B = k + 1 := ⟨B - 1, by have := hb.big; omega⟩
  have h2 := hb.sq
  subst hk
  simp only [Nat.add_sub_cancel] at h1
  rw [h2]
  have : (k + 1) * (k + 1) = k * k + 2 * k + 1 := by ring
  omega

theorem Base.dm (hb : Base B W) (x : Nat) : ∃ q r, x = q * B + r ∧ r < B ∧ x / B = q ∧ x % B = r :=
  ⟨x / B, x % B, (Nat.div_add_mod' x B).symm, Nat.mod_lt _ (by have := hb.big; omega), rfl, rfl⟩

theorem Base.div_of (hb : Base B W) {q r : Nat} (h : r < B) : (r + q * B) / B = q := by
  have := hb.big
  rw [Nat.add_mul_div_right _ _ (by omega), Nat.div_eq_of_lt h, Nat.zero_add]
theorem Base.mod_of (hb : Base B W) {q r : Nat} (h : r < B) : (r + q * B) % B = r := by
  rw [Nat.add_mul_mod_self_right, Nat.mod_eq_of_lt h]

theorem Base.two (hb : Base B W) {r s : Nat} (h : r < B) (hs : s < B) : r + s * B < W := by
  have h1 : (s + 1) * B ≤ B * B := Nat.mul_le_mul_right _ hs
  rw [hb.sq]
  rw [Nat.add_mul, Nat.one_mul] at h1
  omega

theorem Base.quot_lt (hb : Base B W) {x q r : Nat} (h : x = q * B + r) (hx : x < W) : q < B := by
  apply Classical.byContradiction
  intro hq
  have : B * B ≤ q * B := Nat.mul_le_mul_right _ (by omega)
  have hW := hb.sq
  omega

theorem Base.split_mul (hb : Base B W) (a1 a0 b1 b0 : Nat) :
    (a1 * B + a0) * (b1 * B + b0) = (a1 * b1) * W + (a1 * b0 + b1 * a0) * B + a0 * b0 := by
  rw [hb.sq]; ring

end Abstract

theorem umulddi3_spec {a b : Nat} (ha : a < W128) (hb : b < W128) :
    ∃ r, V248.umulddi3 a b = .ok r ∧ r.WF ∧ r.val = a * b := by
  unfold V248.umulddi3 V248.WF V248.val
  simp only [shr64, shl128_eq, show (2:Nat) ^ 64 = B64 from rfl]
  have caddk : ∀ a b, a + b < W128 → cadd a b = .ok (a + b) := fun _ _ => cadd_ok
  have cmulk : ∀ a b, a * b < W128 → cmul a b = .ok (a * b) := fun _ _ => cmul_ok
  have bs := base64
  generalize B64 = B at *
  generalize W128 = W at *
  obtain ⟨A1, A0, hA, hA0, dA, mA⟩ := bs.dm a
  obtain ⟨B1, B0, hB, hB0, dB, mB⟩ := bs.dm b
  have hA1 := bs.quot_lt hA ha
  have hB1 := bs.quot_lt hB hb
  have hB2 := bs.big
  have p00 := bs.mul_le hA0 hB0
  have p10 := bs.mul_le hA1 hB0
  have p01 := bs.mul_le hB1 hA0
  have p11 := bs.mul_le hA1 hB1
  have hs := bs.split_mul A1 A0 B1 B0
  rw [dA, mA, dB, mB, cmulk A0 B0 (by omega), cmulk A1 B0 (by omega), cmulk B1 A0 (by omega), cmulk A1 B1 (by omega), ok_bind, ok_bind]
  rw [hA, hB, hs]
  clear hs ha hb hA hB dA dB mA mB hA0 hB0 hA1 hB1
  generalize A0 * B0 = x00 at *
  generalize A1 * B0 = x10 at *
  generalize B1 * A0 = x01 at *
  generalize A1 * B1 = x11 at *
  obtain ⟨q0, r0, h0, hr0, d0, m0⟩ := bs.dm x00
  have hq0 := bs.quot_lt h0 (by omega)
  rw [d0, m0, caddk _ _ (by omega), ok_bind]
  obtain ⟨q1, r1, h1, hr1, d1, m1⟩ := bs.dm (q0 + x10)
  have hq1 := bs.quot_lt h1 (by omega)
  have hW := bs.two hr0 hr1
  rw [d1, m1, Nat.mod_eq_of_lt (a := r1 * B) (by omega), caddk _ _ hW, ok_bind]
  rw [ok_bind, bs.div_of hr0, bs.mod_of hr0, caddk _ _ (by omega), ok_bind]
  obtain ⟨q2, r2, h2, hr2, d2, m2⟩ := bs.dm (r1 + x01)
  have hq2 := bs.quot_lt h2 (by omega)
  have hW2 := bs.two hr0 hr2
  rw [d2, m2, Nat.mod_eq_of_lt (a := r2 * B) (by omega), caddk _ _ hW2, ok_bind]
  rw [caddk _ _ (by omega), ok_bind, ok_bind, caddk _ _ (by omega), ok_bind]
  refine ⟨⟨q1 + q2 + x11, r0 + r2 * B⟩, rfl, ⟨by show q1 + q2 + x11 < W; omega, hW2⟩, ?_⟩
  show (q1 + q2 + x11) * W + (r0 + r2 * B) = _
  have e1 : q1 * (B * B) + r1 * B = q0 * B + x10 * B := by
    rw [← Nat.add_mul, h1]; ring
  have e2 : q2 * (B * B) + r2 * B = r1 * B + x01 * B := by
    rw [← Nat.add_mul, h2]; ring
  rw [bs.sq, Nat.add_mul, Nat.add_mul, Nat.add_mul x10, h0]
  omega

end Verif
