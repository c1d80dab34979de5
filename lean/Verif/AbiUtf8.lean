import Verif.AbiProps
/-
C74: what strings are.
-/
set_option linter.unusedVariables false
set_option linter.unusedSimpArgs false
namespace Verif
namespace Abi

/-! ### Specification -/

/-- The Unicode scalar values. -/
def Scalar (c : Nat) : Prop := c < 0x110000 ∧ ¬ (0xd800 ≤ c ∧ c < 0xe000)

/-- UTF-8 of a scalar value (RFC 3629, section 3). -/
def encodeScalar (c : Nat) : List Byte :=
  if c < 0x80 then [BitVec.ofNat 8 c]
  else if c < 0x800 then [BitVec.ofNat 8 (0xc0 + c / 64), BitVec.ofNat 8 (0x80 + c % 64)]
  else if c < 0x10000 then [BitVec.ofNat 8 (0xe0 + c / 4096), BitVec.ofNat 8 (0x80 + c / 64 % 64), BitVec.ofNat 8 (0x80 + c % 64)]
  else [BitVec.ofNat 8 (0xf0 + c / 262144), BitVec.ofNat 8 (0x80 + c / 4096 % 64), BitVec.ofNat 8 (0x80 + c / 64 % 64), BitVec.ofNat 8 (0x80 + c % 64)]

/-! ### Lemmas -/

theorem toNat_byte {n : Nat} (h : n < 256) : (BitVec.ofNat 8 n).toNat = n := by
  rw [BitVec.toNat_ofNat]; exact Nat.mod_eq_of_lt h

theorem byte_eq {b : Byte} {n : Nat} (h : b.toNat = n) : BitVec.ofNat 8 n = b := by
  apply BitVec.eq_of_toNat_eq
  rw [toNat_byte (by have := b.isLt; omega), h]

theorem utf8_one {a : Byte} (h : a.toNat ≤ 0x7f) (r : List Byte) : utf8 (a :: r) = utf8 r := by
  rw [utf8.eq_def]
  simp only [if_pos h]

theorem utf8_two {a b : Byte} (h0 : ¬ a.toNat ≤ 0x7f) (h : 0xc2 ≤ a.toNat ∧ a.toNat ≤ 0xdf) (r : List Byte) :
    utf8 (a :: b :: r) = (isCont b && utf8 r) := by
  rw [utf8.eq_def]
  simp only [if_neg h0, if_pos h]

theorem utf8_three {a b c : Byte} (h0 : ¬ a.toNat ≤ 0x7f) (h1 : ¬ (0xc2 ≤ a.toNat ∧ a.toNat ≤ 0xdf)) (h : 0xe0 ≤ a.toNat ∧ a.toNat ≤ 0xef) (r : List Byte) :
    utf8 (a :: b :: c :: r) = (decide ((if a.toNat = 0xe0 then 0xa0 else 0x80) ≤ b.toNat ∧ b.toNat ≤ (if a.toNat = 0xed then 0x9f else 0xbf)) && isCont c && utf8 r) := by
  rw [utf8]
  simp only [if_neg h0, if_neg h1, if_pos h]

theorem utf8_four {a b c d : Byte} (h0 : ¬ a.toNat ≤ 0x7f) (h1 : ¬ (0xc2 ≤ a.toNat ∧ a.toNat ≤ 0xdf)) (h2 : ¬ (0xe0 ≤ a.toNat ∧ a.toNat ≤ 0xef))
    (h : 0xf0 ≤ a.toNat ∧ a.toNat ≤ 0xf4) (r : List Byte) :
    utf8 (a :: b :: c :: d :: r) = (decide ((if a.toNat = 0xf0 then 0x90 else 0x80) ≤ b.toNat ∧ b.toNat ≤ (if a.toNat = 0xf4 then 0x8f else 0xbf)) && isCont c && isCont d && utf8 r) := by
  rw [utf8]
  simp only [if_neg h0, if_neg h1, if_neg h2, if_pos h]

theorem isCont_iff (b : Byte) : isCont b = true ↔ 0x80 ≤ b.toNat ∧ b.toNat ≤ 0xbf := by
  unfold isCont; exact decide_eq_true_iff

/-- A scalar value in front does not matter. -/
theorem utf8_scalar {c : Nat} (h : Scalar c) (r : List Byte) : utf8 (encodeScalar c ++ r) = utf8 r := by
  unfold Scalar at h
  unfold encodeScalar
  by_cases h1 : c < 0x80
  · rw [if_pos h1]
    exact utf8_one (by rw [toNat_byte (by omega)]; omega) r
  · rw [if_neg h1]
    by_cases h2 : c < 0x800
    · rw [if_pos h2]
      have e1 : (BitVec.ofNat 8 (0xc0 + c / 64)).toNat = 0xc0 + c / 64 := toNat_byte (by omega)
      have e2 : (BitVec.ofNat 8 (0x80 + c % 64)).toNat = 0x80 + c % 64 := toNat_byte (by omega)
      refine (utf8_two (by omega) (by omega) r).trans ?_
      rw [(isCont_iff _).mpr (by omega), Bool.true_and]
    · rw [if_neg h2]
      by_cases h3 : c < 0x10000
      · rw [if_pos h3]
        have e1 : (BitVec.ofNat 8 (0xe0 + c / 4096)).toNat = 0xe0 + c / 4096 := toNat_byte (by omega)
        have e2 : (BitVec.ofNat 8 (0x80 + c / 64 % 64)).toNat = 0x80 + c / 64 % 64 := toNat_byte (by omega)
        have e3 : (BitVec.ofNat 8 (0x80 + c % 64)).toNat = 0x80 + c % 64 := toNat_byte (by omega)
        refine (utf8_three (by omega) (by omega) (by omega) r).trans ?_
        rw [(isCont_iff _).mpr (by omega), e1, e2, decide_eq_true (by constructor <;> split <;> omega)]
        rfl
      · rw [if_neg h3]
        have e1 : (BitVec.ofNat 8 (0xf0 + c / 262144)).toNat = 0xf0 + c / 262144 := toNat_byte (by omega)
        have e2 : (BitVec.ofNat 8 (0x80 + c / 4096 % 64)).toNat = 0x80 + c / 4096 % 64 := toNat_byte (by omega)
        have e3 : (BitVec.ofNat 8 (0x80 + c / 64 % 64)).toNat = 0x80 + c / 64 % 64 := toNat_byte (by omega)
        have e4 : (BitVec.ofNat 8 (0x80 + c % 64)).toNat = 0x80 + c % 64 := toNat_byte (by omega)
        refine (utf8_four (by omega) (by omega) (by omega) (by omega) r).trans ?_
        rw [(isCont_iff (BitVec.ofNat 8 (0x80 + c / 64 % 64))).mpr (by omega), (isCont_iff (BitVec.ofNat 8 (0x80 + c % 64))).mpr (by omega),
          e1, e2, decide_eq_true (by constructor <;> split <;> omega)]
        rfl

/-- What is accepted begins with a scalar value. -/
theorem utf8_first {a : Byte} {l : List Byte} (h : utf8 (a :: l) = true) : ∃ c r, Scalar c ∧ a :: l = encodeScalar c ++ r ∧ utf8 r = true := by
  by_cases h0 : a.toNat ≤ 0x7f
  · rw [utf8_one h0] at h
    refine ⟨a.toNat, l, ⟨by omega, by omega⟩, ?_, h⟩
    unfold encodeScalar
    rw [if_pos (by omega), byte_eq rfl]
    rfl
  · have split2 : ∃ b l', l = b :: l' := by
      cases l with
      | nil => rw [utf8] at h; simp only [if_neg h0] at h; cases h
      | cons b l' => exact ⟨b, l', rfl⟩
    obtain ⟨b, l, rfl⟩ := split2
    by_cases h1 : 0xc2 ≤ a.toNat ∧ a.toNat ≤ 0xdf
    · rw [utf8_two h0 h1, Bool.and_eq_true, isCont_iff] at h
      refine ⟨(a.toNat - 0xc0) * 64 + (b.toNat - 0x80), l, ⟨by omega, by omega⟩, ?_, h.2⟩
      unfold encodeScalar
      rw [if_neg (by omega), if_pos (by omega), byte_eq (b := a) (by omega), byte_eq (b := b) (by omega)]
      rfl
    · have split3 : ∃ c l', l = c :: l' := by
        cases l with
        | nil => rw [utf8] at h; simp only [if_neg h0, if_neg h1] at h; cases h
        | cons b l' => exact ⟨b, l', rfl⟩
      obtain ⟨c, l, rfl⟩ := split3
      by_cases h2 : 0xe0 ≤ a.toNat ∧ a.toNat ≤ 0xef
      · rw [utf8_three h0 h1 h2, Bool.and_eq_true, Bool.and_eq_true, isCont_iff, decide_eq_true_iff] at h
        obtain ⟨⟨⟨g1, g2⟩, g3⟩, g4⟩ := h
        have hb : 0x80 ≤ b.toNat ∧ b.toNat ≤ 0xbf ∧ (a.toNat = 0xe0 → 0xa0 ≤ b.toNat) ∧ (a.toNat = 0xed → b.toNat ≤ 0x9f) := by
          refine ⟨?_, ?_, fun e => ?_, fun e => ?_⟩
          · by_cases e : a.toNat = 0xe0
            · rw [if_pos e] at g1; omega
            · rw [if_neg e] at g1; omega
          · by_cases e : a.toNat = 0xed
            · rw [if_pos e] at g2; omega
            · rw [if_neg e] at g2; omega
          · rw [if_pos e] at g1; exact g1
          · rw [if_pos e] at g2; exact g2
        refine ⟨(a.toNat - 0xe0) * 4096 + (b.toNat - 0x80) * 64 + (c.toNat - 0x80), l, ⟨by omega, by omega⟩, ?_, g4⟩
        unfold encodeScalar
        rw [if_neg (by omega), if_neg (by omega), if_pos (by omega), byte_eq (b := a) (by omega), byte_eq (b := b) (by omega), byte_eq (b := c) (by omega)]
        rfl
      · have split4 : ∃ d l', l = d :: l' := by
          cases l with
          | nil => rw [utf8] at h; simp only [if_neg h0, if_neg h1, if_neg h2] at h; cases h
          | cons b l' => exact ⟨b, l', rfl⟩
        obtain ⟨d, l, rfl⟩ := split4
        by_cases h3 : 0xf0 ≤ a.toNat ∧ a.toNat ≤ 0xf4
        · rw [utf8_four h0 h1 h2 h3, Bool.and_eq_true, Bool.and_eq_true, Bool.and_eq_true, isCont_iff, isCont_iff, decide_eq_true_iff] at h
          obtain ⟨⟨⟨⟨g1, g2⟩, g3⟩, g5⟩, g4⟩ := h
          have hb : 0x80 ≤ b.toNat ∧ b.toNat ≤ 0xbf ∧ (a.toNat = 0xf0 → 0x90 ≤ b.toNat) ∧ (a.toNat = 0xf4 → b.toNat ≤ 0x8f) := by
            refine ⟨?_, ?_, fun e => ?_, fun e => ?_⟩
            · by_cases e : a.toNat = 0xf0
              · rw [if_pos e] at g1; omega
              · rw [if_neg e] at g1; omega
            · by_cases e : a.toNat = 0xf4
              · rw [if_pos e] at g2; omega
              · rw [if_neg e] at g2; omega
            · rw [if_pos e] at g1; exact g1
            · rw [if_pos e] at g2; exact g2
          refine ⟨(a.toNat - 0xf0) * 262144 + (b.toNat - 0x80) * 4096 + (c.toNat - 0x80) * 64 + (d.toNat - 0x80), l, ⟨by omega, by omega⟩, ?_, g4⟩
          unfold encodeScalar
          rw [if_neg (by omega), if_neg (by omega), if_neg (by omega), byte_eq (b := a) (by omega), byte_eq (b := b) (by omega), byte_eq (b := c) (by omega),
            byte_eq (b := d) (by omega)]
          rfl
        · rw [utf8] at h
          simp only [if_neg h0, if_neg h1, if_neg h2, if_neg h3] at h
          cases h

theorem encodeScalar_ne (c : Nat) : encodeScalar c ≠ [] := by
  unfold encodeScalar
  split
  · simp
  · split
    · simp
    · split <;> simp

/-! ### Properties -/

/-- **C74.** The strings that the decoder accepts are exactly the texts: sequences of Unicode scalar values in UTF-8. -/
theorem C74_utf8 (l : List Byte) : utf8 l = true ↔ ∃ cs : List Nat, (∀ c ∈ cs, Scalar c) ∧ l = cs.flatMap encodeScalar := by
  constructor
  · intro h
    match l with
    | [] => exact ⟨[], (fun _ hc => by cases hc), rfl⟩
    | a :: t =>
      obtain ⟨c, r, hc, e, hr⟩ := utf8_first h
      have hlt : r.length < (a :: t).length := by
        rw [e, List.length_append]
        have := List.length_pos_iff.mpr (encodeScalar_ne c)
        omega
      obtain ⟨cs, h1, h2⟩ := (C74_utf8 r).mp hr
      exact ⟨c :: cs, (fun x hx => by rcases List.mem_cons.mp hx with rfl | hx; exacts [hc, h1 x hx]), by rw [e, h2]; rfl⟩
  · rintro ⟨cs, h, rfl⟩
    induction cs with
    | nil => rfl
    | cons c cs ih =>
      rw [List.flatMap_cons, utf8_scalar (h c List.mem_cons_self)]
      exact ih fun x hx => h x (List.mem_cons_of_mem _ hx)
termination_by l.length
decreasing_by simp only [List.length_cons] at *; omega

example : [0xe2, 0x82, 0xac, 0x41] = [0x20ac, 0x41].flatMap encodeScalar ∧ utf8 [0xe2, 0x82, 0xac, 0x41] = true ∧ utf8 [0xe0, 0x82, 0xac] = false := by decide

end Abi
end Verif
