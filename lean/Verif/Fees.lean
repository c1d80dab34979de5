import Verif.V248Props
/-
Fee arithmetic of the configuration parameters (`models/config/params.rs`). The wide multiplications and
additions of `u128` are modelled with their overflow check (a panic) or their saturation, as the code has it.
-/
set_option linter.unusedVariables false
set_option linter.unusedSimpArgs false
namespace Verif

/-! ### Model -/

/-- `u128::saturating_add` -/
def satAdd (a b : Nat) : Nat := if a + b < W128 then a + b else W128 - 1
/-- `u128::saturating_mul` -/
def satMul (a b : Nat) : Nat := if a * b < W128 then a * b else W128 - 1

/-- `models/config/params.rs:1600-1603` `shift_ceil_price` -/
def shiftCeilPrice (value : Nat) : Except Err Nat :=
  let r := decide (value &&& 0xffff ≠ 0)
  cadd (value >>> 16) r.toNat

/-- `cell/mod.rs:1512-1517` `CellTreeStats` -/
structure CellStats where
  bitCount : Nat
  cellCount : Nat
deriving DecidableEq

/-- Both counters are `u64`. -/
def CellStats.U64 (s : CellStats) : Prop := s.bitCount < 2 ^ 64 ∧ s.cellCount < 2 ^ 64

/-- `models/config/params.rs:374-390` `StoragePrices` -/
structure StoragePrices where
  utimeSince : Nat
  bitPrice : Nat
  cellPrice : Nat
  mcBitPrice : Nat
  mcCellPrice : Nat
deriving DecidableEq

/-- The four prices are `u64`. -/
def StoragePrices.U64 (p : StoragePrices) : Prop :=
  p.bitPrice < 2 ^ 64 ∧ p.cellPrice < 2 ^ 64 ∧ p.mcBitPrice < 2 ^ 64 ∧ p.mcCellPrice < 2 ^ 64

/-- `stats.cell_count as u128 * … saturating_add(stats.bit_count as u128 * …)`,
`models/config/params.rs:401-406` and `:563-564`. -/
def sizePrice (s : CellStats) (cellPrice bitPrice : Nat) : Except Err Nat :=
  match cmul s.cellCount cellPrice with
  | .error e => .error e
  | .ok c => match cmul s.bitCount bitPrice with
    | .error e => .error e
    | .ok b => .ok (satAdd c b)

/-- `models/config/params.rs:394-409` `compute_storage_fee` -/
def StoragePrices.fee (p : StoragePrices) (isMc : Bool) (delta : Nat) (s : CellStats) : Except Err Nat :=
  match (if isMc then sizePrice s p.mcCellPrice p.mcBitPrice else sizePrice s p.cellPrice p.bitPrice) with
  | .error e => .error e
  | .ok res => shiftCeilPrice (satMul res delta)

/-- `models/config/params.rs:412-437` `GasLimitsPrices` -/
structure GasPrices where
  gasPrice : Nat
  gasLimit : Nat
  specialGasLimit : Nat
  gasCredit : Nat
  blockGasLimit : Nat
  freezeDueLimit : Nat
  deleteDueLimit : Nat
  flatGasLimit : Nat
  flatGasPrice : Nat
deriving DecidableEq

/-- `models/config/params.rs:440-446` `compute_gas_fee` -/
def GasPrices.fee (p : GasPrices) (gasUsed : Nat) : Except Err Nat :=
  if p.flatGasLimit ≤ gasUsed then
    match cmul p.gasPrice (gasUsed - p.flatGasLimit) with
    | .error e => .error e
    | .ok x => match shiftCeilPrice x with
      | .error e => .error e
      | .ok y => .ok (satAdd p.flatGasPrice y)
  else .ok p.flatGasPrice

/-- `models/config/params.rs:540-556` `MsgForwardPrices` -/
structure FwdPrices where
  lumpPrice : Nat
  bitPrice : Nat
  cellPrice : Nat
  ihrFactor : Nat
  firstFrac : Nat
  nextFrac : Nat
deriving DecidableEq

/-- `models/config/params.rs:560-567` `compute_fwd_fee` -/
def FwdPrices.fee (p : FwdPrices) (s : CellStats) : Except Err Nat :=
  match sizePrice s p.cellPrice p.bitPrice with
  | .error e => .error e
  | .ok x => match shiftCeilPrice x with
    | .error e => .error e
    | .ok extra => .ok (satAdd p.lumpPrice extra)

/-- `models/config/params.rs:570-572` `get_first_part` -/
def FwdPrices.firstPart (p : FwdPrices) (total : Nat) : Nat := satMul total p.firstFrac >>> 16
/-- `models/config/params.rs:575-577` `get_next_part` -/
def FwdPrices.nextPart (p : FwdPrices) (total : Nat) : Nat := satMul total p.nextFrac >>> 16

/-- `models/config/params.rs:16-23` `BurningConfig` -/
structure BurningConfig where
  blackhole : Option (List Byte)
  num : Nat
  denom : Nat
deriving DecidableEq

/-- `models/config/params.rs:38-40` `is_valid` -/
def BurningConfig.isValid (c : BurningConfig) : Bool := decide (c.num ≤ c.denom)

/-- `models/config/params.rs:46-62` `compute_burned_fees`; the `debug_assert` is modelled as a panic. -/
def BurningConfig.burned (c : BurningConfig) (tokens : Nat) : Except Err Nat :=
  if c.num = 0 then .ok 0
  else if !c.isValid then .error .invalidData
  else match V248.mulOp (.ofU128 tokens) (.ofU128 c.num) with
    | .error e => .error e
    | .ok t => match V248.udivmod t (.ofU128 c.denom) with
      | .error e => .error e
      | .ok (q, _) => if q.hi = 0 then .ok q.lo else .error .panic

/-- `models/config/params.rs:283-292` `WorkchainFormatExtended` -/
structure FormatExt where
  minLen : Nat
  maxLen : Nat
  step : Nat
  typeId : Nat
deriving DecidableEq

/-- `models/config/params.rs:297-302` `is_valid` -/
def FormatExt.isValid (f : FormatExt) : Bool :=
  decide (64 ≤ f.minLen) && decide (f.minLen ≤ f.maxLen) && decide (f.maxLen ≤ 1023) && decide (f.step ≤ 1023)

/-- `models/config/params.rs:305-321` `check_addr_len`; the closure's subtraction and remainder panic when
they underflow or divide by zero. -/
def FormatExt.checkLen (f : FormatExt) (n : Nat) : Except Err Bool :=
  if f.minLen ≤ n ∧ n ≤ f.maxLen then
    if n = f.minLen ∨ n = f.maxLen then .ok true
    else if f.step = 0 then .ok false
    else match csub n f.minLen with
      | .error e => .error e
      | .ok v => match cmod v f.step with
        | .error e => .error e
        | .ok r => .ok (decide (r = 0))
  else .ok false

/-! ### Specification -/

/-- `q` is the quotient `n / d` rounded up: the least number of units whose total is at least `n`. -/
def RoundsUp (n d q : Nat) : Prop := ∀ m, q ≤ m ↔ n ≤ m * d

/-- The largest price of a storage period or of a message body: `2^112`, what remains of `2^128` without the
sixteen fractional bits. -/
def feeCap : Nat := 2 ^ 112

/-- Amounts of tokens that have an encoding. -/
def ValidTokens (t : Nat) : Prop := t < 2 ^ 120

/-! ### Lemmas -/

theorem RoundsUp.unique {n d q q' : Nat} (h : RoundsUp n d q) (h' : RoundsUp n d q') : q = q' :=
  Nat.le_antisymm ((h q').2 ((h' q').1 (Nat.le_refl _))) ((h' q).2 ((h q).1 (Nat.le_refl _)))

theorem RoundsUp.mono {n n' d q q' : Nat} (h : RoundsUp n d q) (h' : RoundsUp n' d q') (le : n ≤ n') : q ≤ q' :=
  (h q').2 (Nat.le_trans le ((h' q').1 (Nat.le_refl _)))

theorem roundsUp_exists (n : Nat) {d : Nat} (hd : 0 < d) : RoundsUp n d ((n + d - 1) / d) := by
  intro m
  rw [Nat.div_le_iff_le_mul_add_pred hd]
  rw [Nat.mul_comm d m]
  omega

theorem roundsUp_zero {d : Nat} : RoundsUp 0 d 0 := fun m => by simp

theorem low16 (v : Nat) : (v &&& 0xffff) = v % 65536 := Nat.and_two_pow_sub_one_eq_mod v 16

theorem shr16 (v : Nat) : v >>> 16 = v / 65536 := Nat.shiftRight_eq_div_pow v 16

theorem W128_eq : W128 = 65536 * feeCap := by decide

theorem shiftCeil_spec {v : Nat} (h : v < W128) :
    ∃ q, shiftCeilPrice v = .ok q ∧ RoundsUp v 65536 q ∧ q ≤ feeCap := by
  have hcap : (0 : Nat) < feeCap := by decide
  have hq : v / 65536 + (decide (v % 65536 ≠ 0)).toNat ≤ feeCap := by
    rw [W128_eq] at h
    have : v / 65536 < feeCap := Nat.div_lt_of_lt_mul h
    have : (decide (v % 65536 ≠ 0)).toNat ≤ 1 := by cases decide (v % 65536 ≠ 0) <;> decide
    omega
  refine ⟨v / 65536 + (decide (v % 65536 ≠ 0)).toNat, ?_, ?_, hq⟩
  · unfold shiftCeilPrice cadd
    dsimp only
    rw [low16, shr16]
    refine if_pos (Nat.lt_of_le_of_lt hq ?_)
    decide
  · intro m
    by_cases h0 : v % 65536 = 0
    · rw [show (decide (v % 65536 ≠ 0)) = false from decide_eq_false (by simp [h0])]
      simp only [Bool.toNat_false]; omega
    · rw [show (decide (v % 65536 ≠ 0)) = true from decide_eq_true h0]
      simp only [Bool.toNat_true]; omega

theorem mul_u64 {a b : Nat} (ha : a < 2 ^ 64) (hb : b < 2 ^ 64) : a * b < W128 := by
  have : a * b < 2 ^ 64 * 2 ^ 64 := Nat.mul_lt_mul'' ha hb
  rwa [← Nat.pow_add] at this

theorem sizePrice_spec {s : CellStats} (hs : s.U64) {c b : Nat} (hc : c < 2 ^ 64) (hb : b < 2 ^ 64) :
    ∃ x, sizePrice s c b = .ok x ∧ x < W128 ∧
      ((s.cellCount * c + s.bitCount * b < W128 ∧ x = s.cellCount * c + s.bitCount * b) ∨
       (W128 ≤ s.cellCount * c + s.bitCount * b ∧ x = W128 - 1)) := by
  have e1 : cmul s.cellCount c = .ok (s.cellCount * c) := if_pos (mul_u64 hs.2 hc)
  have e2 : cmul s.bitCount b = .ok (s.bitCount * b) := if_pos (mul_u64 hs.1 hb)
  unfold sizePrice
  rw [e1]; dsimp only
  rw [e2]; dsimp only
  refine ⟨_, rfl, ?_⟩
  unfold satAdd
  generalize s.cellCount * c + s.bitCount * b = y
  have : 0 < W128 := V248.W128_pos
  generalize W128 = W at *
  split <;> omega

/-- The rounded-up price of a saturated amount is the rounded-up price of the exact amount, cut at the cap. -/
theorem shiftCeil_sat {v x : Nat} (h : (x < W128 ∧ v = x) ∨ (W128 ≤ x ∧ v = W128 - 1)) :
    ∃ q, shiftCeilPrice v = .ok (min q feeCap) ∧ RoundsUp x 65536 q := by
  have hp : 0 < W128 := V248.W128_pos
  rcases h with ⟨h, rfl⟩ | ⟨h, rfl⟩
  · obtain ⟨q, e, hq, hc⟩ := shiftCeil_spec h
    exact ⟨q, by rw [Nat.min_eq_left hc]; exact e, hq⟩
  · have h0 := roundsUp_exists x (d := 65536) (by decide)
    obtain ⟨q, e, hq, hc⟩ := shiftCeil_spec (v := W128 - 1) (by generalize W128 = W at *; omega)
    refine ⟨_, ?_, h0⟩
    have h1 : feeCap ≤ (x + 65536 - 1) / 65536 := by
      have := (h0 _).1 (Nat.le_refl _)
      rw [W128_eq] at h
      generalize feeCap = C at *
      omega
    have h2 : feeCap ≤ q := by
      have := (hq q).1 (Nat.le_refl _)
      rw [W128_eq] at this
      generalize feeCap = C at *
      omega
    rw [Nat.min_eq_right h1, e, Nat.le_antisymm hc h2]

theorem cap_sum {a : Nat} (ha : a < 2 ^ 64) {q : Nat} (hq : q ≤ feeCap) : satAdd a q = a + q ∧ a + q < 2 ^ 120 := by
  have h : a + q < 2 ^ 120 := by
    unfold feeCap at hq
    omega
  refine ⟨if_pos (Nat.lt_trans h (by decide)), h⟩

end Verif
