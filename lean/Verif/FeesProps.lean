import Verif.Fees
/-
C65: fees. The amounts the configuration charges are the documented formulas, computed without panic and
without silent wrap-around for every price list and every amount of work.
-/
set_option linter.unusedVariables false
set_option linter.unusedSimpArgs false
namespace Verif

/-! ### Storage -/

/-- C65: the storage fee is `(cells · cell price + bits · bit price) · seconds / 2^16` rounded up, and `2^112`
when that is more. It never panics and is a valid amount of tokens. -/
theorem C65_storage {p : StoragePrices} (hp : p.U64) {s : CellStats} (hs : s.U64) (mc : Bool) (delta : Nat) :
    ∃ q, p.fee mc delta s = .ok (min q (2 ^ 112)) ∧ ValidTokens (min q (2 ^ 112)) ∧
      RoundsUp ((s.cellCount * (if mc then p.mcCellPrice else p.cellPrice) +
        s.bitCount * (if mc then p.mcBitPrice else p.bitPrice)) * delta) (2 ^ 16) q := by
  have hcp : (if mc then p.mcCellPrice else p.cellPrice) < 2 ^ 64 := by cases mc; exacts [hp.2.1, hp.2.2.2]
  have hbp : (if mc then p.mcBitPrice else p.bitPrice) < 2 ^ 64 := by cases mc; exacts [hp.1, hp.2.2.1]
  have hsel : (if mc then sizePrice s p.mcCellPrice p.mcBitPrice else sizePrice s p.cellPrice p.bitPrice) =
      sizePrice s (if mc then p.mcCellPrice else p.cellPrice) (if mc then p.mcBitPrice else p.bitPrice) := by cases mc <;> rfl
  obtain ⟨x, ex, hx, h⟩ := sizePrice_spec hs hcp hbp
  generalize s.cellCount * (if mc then p.mcCellPrice else p.cellPrice) +
        s.bitCount * (if mc then p.mcBitPrice else p.bitPrice) = y at *
  have hrun : p.fee mc delta s = shiftCeilPrice (satMul x delta) := by
    unfold StoragePrices.fee
    rw [hsel, ex]
  have key : (y * delta < W128 ∧ satMul x delta = y * delta) ∨ (W128 ≤ y * delta ∧ satMul x delta = W128 - 1) := by
    unfold satMul
    have hp' : 1 < W128 := by decide
    rcases h with ⟨h, rfl⟩ | ⟨h, rfl⟩
    · by_cases h1 : x * delta < W128
      · exact .inl ⟨h1, if_pos h1⟩
      · exact .inr ⟨by omega, if_neg h1⟩
    · rcases Nat.eq_zero_or_pos delta with rfl | hd
      · left; rw [if_pos (by omega)]; omega
      · right
        have : W128 * 1 ≤ y * delta := Nat.mul_le_mul h hd
        refine ⟨by omega, ?_⟩
        rcases Nat.lt_or_ge 1 delta with h2 | h2
        · have : (W128 - 1) * 2 ≤ (W128 - 1) * delta := Nat.mul_le_mul_left _ h2
          rw [if_neg (by omega)]
        · have : delta = 1 := by omega
          subst this
          rw [Nat.mul_one, if_pos (by omega)]
  obtain ⟨q, e, hq⟩ := shiftCeil_sat key
  refine ⟨q, hrun.trans e, ?_, hq⟩
  exact Nat.lt_of_le_of_lt (Nat.min_le_right _ _) (by decide)

example : (⟨0, 1, 500, 1000, 500000⟩ : StoragePrices).U64 ∧ (⟨1023, 1⟩ : CellStats).U64 := by
  unfold StoragePrices.U64 CellStats.U64; decide
example : (⟨0, 1, 500, 1000, 500000⟩ : StoragePrices).fee true 3600 ⟨1023, 1⟩ = .ok 83661 := by decide +kernel
example : (⟨0, 1, 500, 1000, 500000⟩ : StoragePrices).fee false 3600 ⟨1023, 1⟩ = .ok 84 := by decide +kernel
-- the saturated case
example : (⟨0, 2 ^ 64 - 1, 2 ^ 64 - 1, 0, 0⟩ : StoragePrices).fee false 1 ⟨2 ^ 64 - 1, 2 ^ 64 - 1⟩ = .ok (2 ^ 112) := by decide +kernel

/-- C65: more time, more bits or more cells never cost less. -/
theorem C65_storage_mono {p : StoragePrices} (hp : p.U64) {s s' : CellStats} (hs : s.U64) (hs' : s'.U64) (mc : Bool)
    {d d' : Nat} (hd : d ≤ d') (hb : s.bitCount ≤ s'.bitCount) (hc : s.cellCount ≤ s'.cellCount) :
    ∃ f f', p.fee mc d s = .ok f ∧ p.fee mc d' s' = .ok f' ∧ f ≤ f' := by
  obtain ⟨q, e, _, hq⟩ := C65_storage hp hs mc d
  obtain ⟨q', e', _, hq'⟩ := C65_storage hp hs' mc d'
  refine ⟨_, _, e, e', ?_⟩
  have := hq.mono hq' (Nat.mul_le_mul (Nat.add_le_add (Nat.mul_le_mul_right _ hc) (Nat.mul_le_mul_right _ hb)) hd)
  generalize (2 : Nat) ^ 112 = C
  omega

/-- C65: charging for a period in two parts never costs less than charging at once, and below the cap at most
one unit more. -/
theorem C65_storage_split {p : StoragePrices} (hp : p.U64) {s : CellStats} (hs : s.U64) (mc : Bool) (d d' : Nat) :
    ∃ f f' g, p.fee mc d s = .ok f ∧ p.fee mc d' s = .ok f' ∧ p.fee mc (d + d') s = .ok g ∧
      g ≤ f + f' ∧ (g < 2 ^ 112 → f + f' ≤ g + 1) := by
  obtain ⟨q, e, _, hq⟩ := C65_storage hp hs mc d
  obtain ⟨q', e', _, hq'⟩ := C65_storage hp hs mc d'
  obtain ⟨r, e2, _, hr⟩ := C65_storage hp hs mc (d + d')
  refine ⟨_, _, _, e, e', e2, ?_, ?_⟩
  all_goals
    clear e e' e2
    generalize s.cellCount * _ + s.bitCount * _ = y at *
    generalize (2 : Nat) ^ 16 = u at *
  · have h1 := (hq q).1 (Nat.le_refl _)
    have h2 := (hq' q').1 (Nat.le_refl _)
    have : r ≤ q + q' := by
      rw [hr, Nat.mul_add, Nat.add_mul]
      exact Nat.add_le_add h1 h2
    generalize (2 : Nat) ^ 112 = C
    omega
  · intro hlt
    have h0 := (hr r).1 (Nat.le_refl _)
    rw [Nat.mul_add] at h0
    have h1 : ∀ m, m < q → m * u < _ := fun m hm => Nat.lt_of_not_le (fun h => absurd ((hq m).2 h) (by omega))
    have h2 : ∀ m, m < q' → m * u < _ := fun m hm => Nat.lt_of_not_le (fun h => absurd ((hq' m).2 h) (by omega))
    have : q + q' ≤ r + 1 := by
      rcases Nat.eq_zero_or_pos q with z | z
      · rw [z, Nat.zero_add]
        refine Nat.le_succ_of_le ((hq' r).2 (by omega))
      · rcases Nat.eq_zero_or_pos q' with z' | z'
        · rw [z', Nat.add_zero]
          refine Nat.le_succ_of_le ((hq r).2 (by omega))
        · have a := h1 (q - 1) (by omega)
          have b := h2 (q' - 1) (by omega)
          have c : (q - 1 + (q' - 1)) * u < r * u := by rw [Nat.add_mul]; omega
          have := Nat.lt_of_mul_lt_mul_right c
          omega
    generalize (2 : Nat) ^ 112 = C at *
    omega

example : (⟨0, 1, 500, 0, 0⟩ : StoragePrices).fee false 1 ⟨7, 1⟩ = .ok 1 ∧
    (⟨0, 1, 500, 0, 0⟩ : StoragePrices).fee false 2 ⟨7, 1⟩ = .ok 1 := by decide +kernel

/-! ### Gas -/

/-- C65: the gas fee is the flat price plus `gas price · (gas above the flat limit) / 2^16` rounded up, for every
price list and every amount of gas; it never panics, never saturates and is a valid amount of tokens. -/
theorem C65_gas {p : GasPrices} (hp : p.gasPrice < 2 ^ 64) (hf : p.flatGasPrice < 2 ^ 64) {gas : Nat} (hg : gas < 2 ^ 64) :
    ∃ q, p.fee gas = .ok (p.flatGasPrice + q) ∧ ValidTokens (p.flatGasPrice + q) ∧
      RoundsUp (p.gasPrice * (gas - p.flatGasLimit)) (2 ^ 16) q := by
  by_cases h : p.flatGasLimit ≤ gas
  · have hm : p.gasPrice * (gas - p.flatGasLimit) < W128 := mul_u64 hp (by omega)
    have e1 : cmul p.gasPrice (gas - p.flatGasLimit) = .ok (p.gasPrice * (gas - p.flatGasLimit)) := if_pos hm
    obtain ⟨q, e, hq, hc⟩ := shiftCeil_spec hm
    have h2 := cap_sum hf hc
    refine ⟨q, ?_, h2.2, hq⟩
    unfold GasPrices.fee
    rw [if_pos h, e1]; dsimp only
    rw [e]; dsimp only
    rw [h2.1]
  · refine ⟨0, ?_, Nat.lt_trans hf (by decide), ?_⟩
    · unfold GasPrices.fee
      rw [if_neg h, Nat.add_zero]
    · rw [show gas - p.flatGasLimit = 0 by omega, Nat.mul_zero]
      exact roundsUp_zero

example : (⟨65536000, 0, 0, 0, 0, 0, 0, 100, 100000⟩ : GasPrices).fee 1100 = .ok 1100000 := by decide +kernel
example : (⟨65536001, 0, 0, 0, 0, 0, 0, 100, 100000⟩ : GasPrices).fee 101 = .ok 101001 := by decide +kernel
example : (⟨65536001, 0, 0, 0, 0, 0, 0, 100, 100000⟩ : GasPrices).fee 99 = .ok 100000 := by decide +kernel

/-- C65: more gas never costs less. -/
theorem C65_gas_mono {p : GasPrices} (hp : p.gasPrice < 2 ^ 64) (hf : p.flatGasPrice < 2 ^ 64) {g g' : Nat}
    (h : g ≤ g') (hg : g' < 2 ^ 64) : ∃ f f', p.fee g = .ok f ∧ p.fee g' = .ok f' ∧ f ≤ f' := by
  obtain ⟨q, e, _, hq⟩ := C65_gas hp hf (Nat.lt_of_le_of_lt h hg)
  obtain ⟨q', e', _, hq'⟩ := C65_gas hp hf hg
  exact ⟨_, _, e, e', Nat.add_le_add_left (hq.mono hq' (Nat.mul_le_mul_left _ (by omega))) _⟩

/-! ### Forwarding -/

/-- C65: the forwarding fee is the lump price plus `(cells · cell price + bits · bit price) / 2^16` rounded up and
cut at `2^112`; it never panics and is a valid amount of tokens. -/
theorem C65_fwd {p : FwdPrices} (hl : p.lumpPrice < 2 ^ 64) (hc : p.cellPrice < 2 ^ 64) (hb : p.bitPrice < 2 ^ 64)
    {s : CellStats} (hs : s.U64) :
    ∃ q, p.fee s = .ok (p.lumpPrice + min q (2 ^ 112)) ∧ ValidTokens (p.lumpPrice + min q (2 ^ 112)) ∧
      RoundsUp (s.cellCount * p.cellPrice + s.bitCount * p.bitPrice) (2 ^ 16) q := by
  obtain ⟨x, ex, hx, h⟩ := sizePrice_spec hs hc hb
  obtain ⟨q, e, hq⟩ := shiftCeil_sat h
  have h2 := cap_sum hl (q := min q feeCap) (Nat.min_le_right _ _)
  refine ⟨q, ?_, h2.2, hq⟩
  unfold FwdPrices.fee
  rw [ex]; dsimp only
  rw [e]; dsimp only
  rw [h2.1]; rfl

example : (⟨1000000, 65536000, 6553600000, 0, 21845, 21845⟩ : FwdPrices).fee ⟨1000, 2⟩ = .ok 2200000 := by decide +kernel

/-- C65: of a fee below `2^112` the first and the next part are the fractions `first_frac / 2^16` and
`next_frac / 2^16` rounded down. -/
theorem C65_parts_partial {p : FwdPrices} (h1 : p.firstFrac < 2 ^ 16) (h2 : p.nextFrac < 2 ^ 16) {total : Nat} (ht : total < 2 ^ 112) :
    p.firstPart total = total * p.firstFrac / 2 ^ 16 ∧ p.nextPart total = total * p.nextFrac / 2 ^ 16 := by
  have key : ∀ f, f < 2 ^ 16 → satMul total f >>> 16 = total * f / 2 ^ 16 := by
    intro f hf
    have hlt : total * f < W128 := by
      have : total * f < 2 ^ 112 * 2 ^ 16 := Nat.mul_lt_mul'' ht hf
      rwa [← Nat.pow_add] at this
    rw [show satMul total f = total * f from if_pos hlt, Nat.shiftRight_eq_div_pow]
  exact ⟨key _ h1, key _ h2⟩

/-- The full statement of `C65_parts_partial` asks the same of every valid amount. It is false: the product
saturates and the part is `2^112 - 1`, however large the fee. -/
theorem C65_parts_saturate :
    ValidTokens (2 ^ 119) ∧ (⟨0, 0, 0, 0, 65535, 0⟩ : FwdPrices).firstPart (2 ^ 119) = 2 ^ 112 - 1 ∧
      2 ^ 119 * 65535 / 2 ^ 16 = 2 ^ 119 - 2 ^ 103 := by
  unfold ValidTokens; decide +kernel

/-- C65: for every amount the two parts together never exceed the fee, if the two fractions together are at most
one. -/
theorem C65_parts_bound {p : FwdPrices} (h : p.firstFrac + p.nextFrac ≤ 2 ^ 16) (total : Nat) :
    p.firstPart total + p.nextPart total ≤ total := by
  have key : ∀ f, satMul total f >>> 16 * 65536 ≤ total * f := by
    intro f
    rw [shr16]
    refine Nat.le_trans (Nat.div_mul_le_self _ _) ?_
    unfold satMul
    split <;> omega
  have a := key p.firstFrac
  have b := key p.nextFrac
  have c : total * (p.firstFrac + p.nextFrac) ≤ total * 65536 := Nat.mul_le_mul_left _ h
  rw [Nat.mul_add] at c
  unfold FwdPrices.firstPart FwdPrices.nextPart
  omega

example : (⟨0, 0, 0, 0, 21845, 43691⟩ : FwdPrices).firstPart 1000 = 333 ∧ (⟨0, 0, 0, 0, 21845, 43691⟩ : FwdPrices).nextPart 1000 = 666 := by
  decide

/-! ### Burning -/

/-- C65: the burned part of the fees is the fraction `num / denom` rounded down, never more than the fees; a
fraction above one is refused. There is no panic. -/
theorem C65_burn {c : BurningConfig} (hn : c.num < 2 ^ 32) (hd : c.denom < 2 ^ 32) (h0 : c.denom ≠ 0) {t : Nat} (ht : t < 2 ^ 128) :
    (c.num ≤ c.denom → c.burned t = .ok (t * c.num / c.denom) ∧ t * c.num / c.denom ≤ t) ∧
    (c.denom < c.num → c.burned t = .error .invalidData) := by
  constructor
  · intro hle
    have hle2 : t * c.num / c.denom ≤ t := by
      refine Nat.div_le_of_le_mul ?_
      rw [Nat.mul_comm c.denom t]
      exact Nat.mul_le_mul_left _ hle
    refine ⟨?_, hle2⟩
    unfold BurningConfig.burned
    by_cases hz : c.num = 0
    · rw [if_pos hz, hz, Nat.mul_zero, Nat.zero_div]
    rw [if_neg hz]
    have hv : c.isValid = true := decide_eq_true hle
    rw [hv, if_neg (by decide)]
    have w : ∀ n, n < 2 ^ 128 → (V248.ofU128 n).WF ∧ (V248.ofU128 n).val = n := fun n hn =>
      ⟨⟨V248.W128_pos, hn⟩, by show 0 * W128 + n = n; rw [Nat.zero_mul, Nat.zero_add]⟩
    have wn := w c.num (Nat.lt_trans hn (by decide))
    have wd := w c.denom (Nat.lt_trans hd (by decide))
    have wt := w t ht
    obtain ⟨r, er, hr, hrv⟩ := (V248.C42_ops wt.1 wn.1).1
    have hmod : r.val = t * c.num := by
      rw [hrv, wt.2, wn.2]
      refine Nat.mod_eq_of_lt ?_
      have : t * c.num < 2 ^ 128 * 2 ^ 128 := Nat.mul_lt_mul'' ht (Nat.lt_trans hn (by decide))
      rwa [← Nat.pow_add] at this
    obtain ⟨q, m, eq, hq, _, hqv, _⟩ := (V248.C42_div hr wd.1).1 (by rw [wd.2]; exact h0)
    rw [hmod, wd.2] at hqv
    rw [er]; dsimp only
    rw [eq]; dsimp only
    have hval : q.val = q.hi * W128 + q.lo := rfl
    have hW : t < W128 := ht
    have hhi : q.hi = 0 := by
      rcases Nat.eq_zero_or_pos q.hi with h | h
      · exact h
      · have : 1 * W128 ≤ q.hi * W128 := Nat.mul_le_mul_right _ h
        generalize q.hi * W128 = A at *
        generalize t * c.num / c.denom = B at *
        generalize W128 = W at *
        omega
    rw [if_pos hhi]
    rw [hhi, Nat.zero_mul, Nat.zero_add] at hval
    rw [← hval, hqv]
  · intro hlt
    unfold BurningConfig.burned
    rw [if_neg (by omega), show c.isValid = false from decide_eq_false (by omega)]
    rfl

example : (⟨none, 1, 3⟩ : BurningConfig).burned 1000 = .ok 333 ∧ (⟨none, 4, 3⟩ : BurningConfig).burned 1000 = .error .invalidData := by
  decide +kernel
-- the product needs more than 128 bits
example : (⟨none, 2 ^ 32 - 2, 2 ^ 32 - 1⟩ : BurningConfig).burned (2 ^ 128 - 1) = .ok ((2 ^ 128 - 1) * (2 ^ 32 - 2) / (2 ^ 32 - 1)) := by
  decide +kernel

/-! ### Address lengths -/

/-- C65: an address length is accepted exactly when it lies between the two bounds and is the upper bound or a
whole number of steps above the lower bound. There is no panic, also for a zero step. -/
theorem C65_addr_len (f : FormatExt) (n : Nat) :
    ∃ b, f.checkLen n = .ok b ∧
      (b = true ↔ f.minLen ≤ n ∧ n ≤ f.maxLen ∧ (n = f.maxLen ∨ ∃ k, n = f.minLen + k * f.step)) := by
  unfold FormatExt.checkLen
  by_cases h : f.minLen ≤ n ∧ n ≤ f.maxLen
  · rw [if_pos h]
    by_cases h1 : n = f.minLen ∨ n = f.maxLen
    · rw [if_pos h1]
      refine ⟨_, rfl, fun _ => ⟨h.1, h.2, ?_⟩, fun _ => rfl⟩
      rcases h1 with h1 | h1
      · exact .inr ⟨0, by omega⟩
      · exact .inl h1
    · rw [if_neg h1]
      by_cases h2 : f.step = 0
      · rw [if_pos h2]
        refine ⟨_, rfl, fun h => absurd h (by decide), ?_⟩
        rintro ⟨_, _, h3 | ⟨k, h3⟩⟩
        · exact absurd (.inr h3) h1
        · rw [h2, Nat.mul_zero] at h3
          exact absurd (.inl h3) h1
      · rw [if_neg h2]
        have e1 : csub n f.minLen = .ok (n - f.minLen) := if_pos h.1
        have e2 : cmod (n - f.minLen) f.step = .ok ((n - f.minLen) % f.step) := if_neg h2
        rw [e1]; dsimp only
        rw [e2]; dsimp only
        refine ⟨_, rfl, ?_⟩
        rw [decide_eq_true_iff]
        constructor
        · intro hz
          refine ⟨h.1, h.2, .inr ⟨(n - f.minLen) / f.step, ?_⟩⟩
          have := Nat.div_add_mod (n - f.minLen) f.step
          rw [hz, Nat.mul_comm] at this
          omega
        · rintro ⟨_, _, h3 | ⟨k, h3⟩⟩
          · exact absurd (.inr h3) h1
          · rw [h3, Nat.add_sub_cancel_left, Nat.mul_mod_left]
  · rw [if_neg h]
    exact ⟨_, rfl, fun h => absurd h (by decide), fun h3 => absurd ⟨h3.1, h3.2.1⟩ h⟩

example : (⟨64, 100, 10, 1⟩ : FormatExt).isValid = true ∧ (⟨64, 100, 10, 1⟩ : FormatExt).checkLen 84 = .ok true ∧
    (⟨64, 100, 10, 1⟩ : FormatExt).checkLen 85 = .ok false ∧ (⟨64, 100, 0, 1⟩ : FormatExt).checkLen 100 = .ok true := by decide

end Verif
