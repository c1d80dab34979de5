import Verif.Caps
/-!
# Global capabilities: helper lemmas
-/
set_option linter.unusedVariables false
set_option linter.unusedSimpArgs false
namespace Verif
namespace Caps

/-- The bits that are set, in order. -/
def bitsOf (x : Nat) : List Nat := (List.range 64).filter fun i => x.testBit i

theorem least {p : Nat → Bool} : ∀ n, p n = true → ∃ t, t ≤ n ∧ p t = true ∧ ∀ i, i < t → p i = false := by
  intro n
  induction n using Nat.strongRecOn with
  | _ n ih =>
    intro h
    by_cases hx : ∃ i, i < n ∧ p i = true
    · obtain ⟨i, h1, h2⟩ := hx
      obtain ⟨t, a, b, c⟩ := ih i h1 h2
      exact ⟨t, by omega, b, c⟩
    · refine ⟨n, Nat.le_refl _, h, fun i hi => ?_⟩
      cases hp : p i with
      | false => rfl
      | true => exact absurd ⟨i, hi, hp⟩ hx

theorem low_zero {x t : Nat} (h : ∀ i, i < t → x.testBit i = false) : x % 2 ^ t = 0 := by
  apply Nat.eq_of_testBit_eq
  intro i
  rw [Nat.testBit_mod_two_pow, Nat.zero_testBit]
  by_cases hi : i < t
  · rw [h i hi, Bool.and_false]
  · simp [hi]

theorem pred_bits {x t : Nat} (ht : x.testBit t = true) (h : ∀ i, i < t → x.testBit i = false) (i : Nat) :
    (x - 1).testBit i = if i < t then true else if i = t then false else x.testBit i := by
  have h0 := low_zero h
  have hd := Nat.div_add_mod x (2 ^ t)
  rw [h0, Nat.add_zero] at hd
  have hodd : (x / 2 ^ t) % 2 = 1 := by
    have : (x / 2 ^ t).testBit 0 = true := by rw [Nat.testBit_div_two_pow, Nat.zero_add]; exact ht
    rw [Nat.testBit_zero] at this
    simpa using this
  generalize x / 2 ^ t = a at *
  have hp : 0 < 2 ^ t := Nat.two_pow_pos t
  have hx : x - 1 = 2 ^ t * (a - 1) + (2 ^ t - 1) := by
    have : a = (a - 1) + 1 := by omega
    rw [← hd]
    conv => lhs; rw [this, Nat.mul_add, Nat.mul_one]
    omega
  rw [hx, Nat.testBit_two_pow_mul_add _ (by omega)]
  by_cases hi : i < t
  · rw [if_pos hi, if_pos hi, Nat.testBit_two_pow_sub_one]
    simpa using hi
  · rw [if_neg hi, if_neg hi]
    have hxi : x.testBit i = a.testBit (i - t) := by
      rw [← hd]
      have := Nat.testBit_two_pow_mul_add a hp i
      rw [Nat.add_zero, if_neg hi] at this
      exact this
    rw [hxi]
    by_cases he : i = t
    · rw [if_pos he, he, Nat.sub_self, Nat.testBit_zero]
      simp
      omega
    · rw [if_neg he]
      obtain ⟨j, hj⟩ : ∃ j, i - t = j + 1 := ⟨i - t - 1, by omega⟩
      rw [hj, Nat.testBit_succ, Nat.testBit_succ]
      congr 1
      omega

theorem not_bits {x : Nat} (hx : x < 2 ^ 64) (i : Nat) : (not64 x).testBit i = (decide (i < 64) && !x.testBit i) := by
  have := Nat.testBit_two_pow_sub_succ hx i
  rw [← this]
  unfold not64
  congr 1
  omega

/-- The lowest bit that is set, and the others. -/
theorem lowest_spec {x : Nat} (h0 : x ≠ 0) (hx : x < 2 ^ 64) : ∃ t, t < 64 ∧ x.testBit t = true ∧ (∀ i, i < t → x.testBit i = false) ∧ lowest x = 2 ^ t ∧
    ∀ i, (rest x).testBit i = (x.testBit i && i != t) := by
  obtain ⟨n, hn⟩ := Nat.exists_testBit_of_ne_zero h0
  obtain ⟨t, _, h1, h2⟩ := least (p := fun i => x.testBit i) n hn
  have hbound : ∀ i, x.testBit i = true → i < 64 := fun i hi => by
    by_cases h : i < 64
    · exact h
    · have : x < 2 ^ i := Nat.lt_of_lt_of_le hx (Nat.pow_le_pow_right (by decide) (by omega))
      rw [Nat.testBit_lt_two_pow this] at hi
      cases hi
  have ht := hbound t h1
  have hlow : lowest x = 2 ^ t := by
    apply Nat.eq_of_testBit_eq
    intro i
    unfold lowest
    rw [Nat.testBit_and, not_bits (by omega), pred_bits h1 h2, Nat.testBit_two_pow]
    by_cases hi : i < t
    · rw [if_pos hi, h2 i hi]
      have : t ≠ i := by omega
      simp [this]
    · rw [if_neg hi]
      by_cases he : i = t
      · subst he
        rw [if_pos rfl, h1]
        simp [ht]
      · rw [if_neg he]
        have : t ≠ i := fun e => he e.symm
        cases x.testBit i <;> simp [this]
  refine ⟨t, ht, h1, h2, hlow, fun i => ?_⟩
  unfold rest
  rw [hlow, Nat.testBit_and, not_bits (Nat.pow_lt_pow_right (by decide) ht), Nat.testBit_two_pow]
  cases hi : x.testBit i with
  | false => simp
  | true =>
    have := hbound i hi
    by_cases he : i = t
    · subst he; simp
    · have h3 : t ≠ i := fun e => he e.symm
      simp [this, he, h3]

theorem rest_lt {x : Nat} (hx : x < 2 ^ 64) : rest x < 2 ^ 64 := Nat.lt_of_le_of_lt Nat.and_le_left hx

theorem bitsOf_cons {x t : Nat} (ht : t < 64) (h1 : x.testBit t = true) (h2 : ∀ i, i < t → x.testBit i = false)
    (hr : ∀ i, (rest x).testBit i = (x.testBit i && i != t)) : bitsOf x = t :: bitsOf (rest x) := by
  have hs : List.range 64 = List.range t ++ t :: List.range' (t + 1) (63 - t) := by
    have e : 64 = t + (1 + (63 - t)) := by omega
    rw [List.range_eq_range', List.range_eq_range']
    conv => lhs; rw [e]
    rw [← List.range'_append_1, Nat.zero_add, Nat.add_comm 1, List.range'_succ]
  unfold bitsOf
  rw [hs, List.filter_append, List.filter_append, List.filter_cons_of_pos h1]
  have e1 : (List.range t).filter (fun i => x.testBit i) = [] := by
    rw [List.filter_eq_nil_iff]
    intro i hi
    rw [h2 i (List.mem_range.mp hi)]
    decide
  have e2 : (List.range t).filter (fun i => (rest x).testBit i) = [] := by
    rw [List.filter_eq_nil_iff]
    intro i hi
    rw [hr, h2 i (List.mem_range.mp hi)]
    simp
  rw [e1, e2, List.filter_cons_of_neg (by rw [hr]; simp), List.nil_append, List.nil_append]
  congr 1
  refine List.filter_congr fun i hi => ?_
  have := (List.mem_range'_1.mp hi).1
  rw [hr]
  have : i ≠ t := by omega
  simp [this]

theorem trailing_pow : ∀ t, t < 64 → trailing (2 ^ t) = t := by decide +kernel

theorem bitsOf_zero : bitsOf 0 = [] := by decide

theorem next_spec : ∀ (fuel x : Nat), x < 2 ^ 64 → (bitsOf x).length < fuel →
    match nextGo fuel x with
    | (none, y) => (bitsOf x).filterMap Cap.fromBit = [] ∧ y = 0
    | (some c, y) => (bitsOf x).filterMap Cap.fromBit = c :: (bitsOf y).filterMap Cap.fromBit ∧ y < 2 ^ 64 ∧ (bitsOf y).length < (bitsOf x).length := by
  intro fuel
  induction fuel with
  | zero => intro x _ h; omega
  | succ fuel ih =>
    intro x hx hl
    rw [nextGo]
    by_cases h0 : x = 0
    · rw [if_pos h0]
      subst h0
      exact ⟨rfl, rfl⟩
    · rw [if_neg h0]
      obtain ⟨t, h1, h2, h3, h4, h5⟩ := lowest_spec h0 hx
      have hc := bitsOf_cons h1 h2 h3 h5
      rw [h4, trailing_pow t h1]
      cases hf : Cap.fromBit t with
      | some c =>
        dsimp only
        refine ⟨?_, rest_lt hx, by rw [hc]; exact Nat.lt_succ_self _⟩
        rw [hc, List.filterMap_cons, hf]
      | none =>
        dsimp only
        have := ih (rest x) (rest_lt hx) (by rw [hc] at hl; exact Nat.lt_of_succ_lt_succ hl)
        rw [hc, List.filterMap_cons, hf]
        dsimp only
        generalize nextGo fuel (rest x) = out at this
        obtain ⟨r, y⟩ := out
        cases r with
        | none => exact this
        | some c => exact ⟨this.1, this.2.1, Nat.lt_succ_of_lt this.2.2⟩

theorem bitsOf_length (x : Nat) : (bitsOf x).length ≤ 64 := by
  have := List.length_filter_le (fun i => x.testBit i) (List.range 64)
  rwa [List.length_range] at this

theorem items_spec : ∀ (fuel x : Nat), x < 2 ^ 64 → (bitsOf x).length < fuel → itemsGo fuel x = (bitsOf x).filterMap Cap.fromBit := by
  intro fuel
  induction fuel with
  | zero => intro x _ h; omega
  | succ fuel ih =>
    intro x hx hl
    rw [itemsGo]
    have := next_spec 65 x hx (by have := bitsOf_length x; omega)
    unfold next
    generalize nextGo 65 x = out at this
    obtain ⟨r, y⟩ := out
    cases r with
    | none => exact this.1.symm
    | some c =>
      dsimp only at this ⊢
      rw [this.1, ih y this.2.1 (by omega)]

theorem fromBit_bit {i : Nat} {c : Cap} (h : Cap.fromBit i = some c) : c.bit = i := by
  unfold Cap.fromBit at h
  split at h <;> first | (injection h with h; subst h; rfl) | cases h

theorem bit_fromBit (c : Cap) : Cap.fromBit c.bit = some c := by cases c <;> rfl

theorem bit_lt (c : Cap) : c.bit < 33 := by cases c <;> decide

theorem bit_inj {a b : Cap} (h : a.bit = b.bit) : a = b := by
  have := bit_fromBit a
  rw [h, bit_fromBit b] at this
  exact (Option.some.inj this).symm

theorem mem_all (c : Cap) : c ∈ Cap.all := by cases c <;> decide

theorem filter_known {p : Nat → Bool} : ∀ l : List Nat, (l.filter p).filterMap Cap.fromBit = (l.filterMap Cap.fromBit).filter fun c => p c.bit
  | [] => rfl
  | i :: l => by
    cases hf : Cap.fromBit i with
    | none =>
      rw [List.filterMap_cons_none hf, ← filter_known l]
      cases hp : p i with
      | false => rw [List.filter_cons_of_neg (by simp [hp])]
      | true => rw [List.filter_cons_of_pos hp, List.filterMap_cons_none hf]
    | some c =>
      rw [List.filterMap_cons_some hf]
      cases hp : p i with
      | false => rw [List.filter_cons_of_neg (by simp [hp]), List.filter_cons_of_neg (by rw [fromBit_bit hf, hp]; simp), filter_known l]
      | true => rw [List.filter_cons_of_pos hp, List.filter_cons_of_pos (by rw [fromBit_bit hf]; exact hp), List.filterMap_cons_some hf, filter_known l]

theorem range_known : (List.range 64).filterMap Cap.fromBit = Cap.all := by decide

theorem contains_bit (s : Caps) (c : Cap) : s.contains c = s.raw.testBit c.bit := by
  unfold contains Cap.mask
  rw [Nat.one_shiftLeft]
  have h : ∀ i, (s.raw &&& 2 ^ c.bit).testBit i = (s.raw.testBit i && decide (c.bit = i)) := fun i => by rw [Nat.testBit_and, Nat.testBit_two_pow]
  cases hb : s.raw.testBit c.bit with
  | true =>
    have : s.raw &&& 2 ^ c.bit ≠ 0 := fun e => by
      have := h c.bit
      rw [e, Nat.zero_testBit, hb] at this
      simp at this
    simpa using this
  | false =>
    have : s.raw &&& 2 ^ c.bit = 0 := by
      apply Nat.eq_of_testBit_eq
      intro i
      rw [h, Nat.zero_testBit]
      by_cases he : c.bit = i
      · rw [← he, hb]; rfl
      · simp [he]
    simpa using this

theorem add_bit (s : Caps) (c : Cap) (i : Nat) : (s.add c).raw.testBit i = (s.raw.testBit i || decide (c.bit = i)) := by
  unfold add Cap.mask
  rw [Nat.one_shiftLeft, Nat.testBit_or, Nat.testBit_two_pow]

theorem fold_bit : ∀ (l : List Cap) (s : Caps) (i : Nat), (l.foldl add s).raw.testBit i = (s.raw.testBit i || l.any fun c => decide (c.bit = i))
  | [], s, i => by simp
  | c :: l, s, i => by
    rw [List.foldl_cons, fold_bit l, add_bit, List.any_cons, Bool.or_assoc]

theorem ofTexts_map : ∀ (l : List Cap) (s : Caps), ofTexts (l.map Cap.text) s = some (l.foldl add s)
  | [], s => rfl
  | c :: l, s => by
    have : Cap.parse c.text = some c := by cases c <;> decide
    rw [List.map_cons, ofTexts, this]
    exact ofTexts_map l _

end Caps
end Verif
