import Verif.ArbitraryAddr
import Verif.CurrencyMore

/-! Random amounts and balances (the `Arbitrary` implementations of `num` and `models/currency.rs`, and `SimpleBalance` of `arbitrary.rs`). -/

set_option linter.unusedVariables false

namespace Verif.Arb
open Verif

/-! ### Model -/

/-- `num/mod.rs:886-911` `VarUint24`, `VarUint56` and `Tokens`. -/
def varUint (k : VarKind) : Gen Nat := intIn 0 k.max

/-- `num/varuint248.rs:402-410` `VarUint248` -/
def v248 : Gen V248 := do
  let hi ← intIn 0 ((2 ^ 128 - 1) >>> 8)
  let lo ← intIn 0 (2 ^ 128 - 1)
  pure ⟨hi, lo⟩

/-- `models/currency.rs:409-412` the loop: `.unwrap()` on the result of every insertion. -/
def fillCoins (acc : Cell → Bool) : Nat → Option Cell → Gen (Option Cell)
  | 0, d => pure d
  | k + 1, d => do
    let id ← intIn 0 (2 ^ 32 - 1)
    let v ← v248
    let d ← unwrap (changed (coins.insert acc d id v .set))
    fillCoins acc k d

/-- `models/currency.rs:401-416` `ExtraCurrencyCollection` -/
def extraCoins (acc : Cell → Bool) : Gen (Option Cell) := do
  let size ← intIn 0 255
  if size ≤ 128 then pure none else fillCoins acc (size - 128) none

/-- `models/currency.rs:154-161` `CurrencyCollection` -/
def currency (acc : Cell → Bool) : Gen Currency := do
  let tokens ← varUint .tokens
  let other ← extraCoins acc
  pure ⟨tokens, other⟩

/-- `arbitrary.rs:117-128` `SimpleBalance` -/
def simpleBalance : Gen Currency := do
  let tokens ← intIn 0 100000000000000000000
  pure ⟨tokens, none⟩

/-! ### Specification -/

/-- A canonical dictionary of at most `n` amounts, each of less than 2^248 (zero amounts are allowed). -/
def Purse (acc : Cell → Bool) (n : Nat) (d : Option Cell) : Prop := (∃ m, CoinsC acc d m) ∧ (coins.entries d).length ≤ n

/-! ### Lemmas -/

/-- A generator that gives a value on every input. -/
def Total {α : Type} (g : Gen α) (P : α → Prop) : Prop := ∀ s, ∃ a s', g s = .ok (a, s') ∧ s'.length ≤ s.length ∧ P a

theorem Total.bind {α β : Type} {g : Gen α} {f : α → Gen β} {Q : α → Prop} {P : β → Prop} (hg : Total g Q) (hf : ∀ a, Q a → Total (f a) P) :
    Total (g >>= f) P := by
  intro s
  obtain ⟨a, s', e, l1, ha⟩ := hg s
  obtain ⟨b, s2, e2, l2, hb⟩ := hf a ha s'
  exact ⟨b, s2, (run_bind e).trans e2, Nat.le_trans l2 l1, hb⟩

theorem Total.safe {α : Type} {g : Gen α} {P : α → Prop} (h : Total g P) (n : Nat) : Safe n g P := by
  intro s _
  obtain ⟨a, s', e, l, ha⟩ := h s
  rw [e]
  exact ⟨l, ha⟩

theorem Total.plain {α : Type} {g : Gen α} {P : α → Prop} (h : Total g P) (s : Src) : ∃ a s', g s = .ok (a, s') ∧ P a := by
  obtain ⟨a, s', e, _, ha⟩ := h s
  exact ⟨a, s', e, ha⟩

theorem Total.pure {α : Type} {a : α} {P : α → Prop} (h : P a) : Total (Pure.pure a : Gen α) P := fun s => ⟨a, s, rfl, Nat.le_refl _, h⟩

theorem total_intIn {lo hi : Nat} (h : lo ≤ hi) : Total (intIn lo hi) (fun v => lo ≤ v ∧ v ≤ hi) := by
  intro s
  cases s with
  | nil => exact ⟨lo, [], rfl, Nat.le_refl _, Nat.le_refl _, h⟩
  | cons c s =>
    refine ⟨_, s, rfl, by rw [List.length_cons]; omega, Nat.le_add_right _ _, ?_⟩
    have := Nat.mod_lt c (show hi - lo + 1 > 0 by omega)
    omega

theorem v248_ok {hi lo : Nat} (h1 : hi ≤ (2 ^ 128 - 1) >>> 8) (h2 : lo ≤ 2 ^ 128 - 1) : okAmount ⟨hi, lo⟩ := by
  have e : (2 ^ 128 - 1) >>> 8 = 2 ^ 120 - 1 := by decide
  rw [e] at h1
  have h1 : hi ≤ 2 ^ 120 - 1 := h1
  refine ⟨⟨?_, ?_⟩, ?_⟩
  · show hi < 2 ^ 128; omega
  · show lo < 2 ^ 128; omega
  · show hi * 2 ^ 128 + lo < 2 ^ 248; omega

theorem total_v248 : Total v248 okAmount :=
  (total_intIn (Nat.zero_le _)).bind fun hi h1 => (total_intIn (Nat.zero_le _)).bind fun lo h2 => Total.pure (v248_ok h1.2 h2.2)

theorem total_unwrap {α : Type} {r : Except Err α} {P : α → Prop} (h : ∃ a, r = .ok a ∧ P a) : Total (unwrap r) P := by
  obtain ⟨a, rfl, h⟩ := h
  exact Total.pure h

/-- The currencies of a dictionary are among `ids`. -/
def Among (ids : List Nat) (m : Nat → Option Nat) : Prop := ∀ id, okId id → m id ≠ none → id ∈ ids

theorem total_fill {acc : Cell → Bool} (hacc : AcceptsTame acc) : ∀ (k : Nat) (d : Option Cell) (ids : List Nat), (∃ m, CoinsC acc d m ∧ Among ids m) →
    Total (fillCoins acc k d) (fun d' => ∃ ids' m, ids'.length ≤ ids.length + k ∧ CoinsC acc d' m ∧ Among ids' m)
  | 0, d, ids, ⟨m, h1, h2⟩ => Total.pure ⟨ids, m, Nat.le_refl _, h1, h2⟩
  | k + 1, d, ids, ⟨m, h1, h2⟩ => by
    unfold fillCoins
    refine (total_intIn (Nat.zero_le _)).bind fun id hid => total_v248.bind fun v hv => ?_
    have hid : okId id := show id < 2 ^ 32 by omega
    rcases (bank_canonical hacc).set d m id v h1 hid hv with ⟨d', e, h'⟩ | ⟨hf, _⟩
    · refine (total_unwrap (P := fun d' => ∃ m, CoinsC acc d' m ∧ Among (id :: ids) m) ⟨d', e, _, h', fun x hx hne => ?_⟩).bind fun d2 h3 => ?_
      · unfold putAmount at hne
        by_cases hxe : x = id
        · rw [hxe]; exact List.mem_cons_self
        · rw [if_neg hxe] at hne
          exact List.mem_cons_of_mem _ (h2 x hx hne)
      · intro s
        obtain ⟨a, s', e1, le, ids', m', hl, h4⟩ := total_fill hacc k d2 (id :: ids) h3 s
        exact ⟨a, s', e1, le, ids', m', by rw [List.length_cons] at hl; omega, h4⟩
    · exact hf.elim

theorem among_length {acc : Cell → Bool} {d : Option Cell} {m : Nat → Option Nat} {ids : List Nat} (h : CoinsC acc d m) (ha : Among ids m) :
    (coins.entries d).length ≤ ids.length := by
  obtain ⟨l, e, h1, h2, h3, h4⟩ := coins_entries (coinsC_any h)
  rw [e, List.length_map]
  have hn : (l.map (·.1)).Nodup := by
    unfold List.Nodup
    rw [List.pairwise_map]
    exact h2
  have := hn.length_le_of_subset (l₂ := ids) fun x hx => by
    obtain ⟨p, hp, rfl⟩ := List.mem_map.mp hx
    exact ha p.1 (h1 p hp).1 (by rw [h4 p hp]; exact fun h => nomatch h)
  rwa [List.length_map] at this

theorem total_extra {acc : Cell → Bool} (hacc : AcceptsTame acc) : Total (extraCoins acc) (Purse acc 127) := by
  have h0 : CoinsC acc none (fun _ => none) := ⟨_, C57_empty acc, fun _ _ => rfl⟩
  refine (total_intIn (Nat.zero_le _)).bind fun size hs => ?_
  by_cases h : size ≤ 128
  · rw [if_pos h]
    exact Total.pure ⟨⟨_, h0⟩, by
      have := among_length (ids := []) h0 fun id _ hne => absurd rfl hne
      exact Nat.le_trans this (Nat.zero_le _)⟩
  · rw [if_neg h]
    intro s
    obtain ⟨d, s', e, le, ids, m, hl, h1, h2⟩ := total_fill hacc (size - 128) none [] ⟨_, h0, fun id _ hne => absurd rfl hne⟩ s
    refine ⟨d, s', e, le, ⟨m, h1⟩, Nat.le_trans (among_length h1 h2) ?_⟩
    rw [List.length_nil] at hl
    omega

theorem intIn_run0 {hi v : Nat} (h : v ≤ hi) (rest : Src) : intIn 0 hi (v :: rest) = .ok (v, rest) := intIn_run (lo := 0) (Nat.zero_le v) h rest

theorem v248_run {v : V248} (h : okAmount v) (rest : Src) : v248 (v.hi :: v.lo :: rest) = .ok (v, rest) := by
  obtain ⟨⟨h1, h2⟩, h3⟩ := h
  have h2 : v.lo < 2 ^ 128 := h2
  have h3 : v.hi * 2 ^ 128 + v.lo < 2 ^ 248 := h3
  unfold v248
  rw [run_bind (intIn_run0 (show v.hi ≤ (2 ^ 128 - 1) >>> 8 by
    rw [show (2 ^ 128 - 1) >>> 8 = 2 ^ 120 - 1 from by decide]; omega) (v.lo :: rest))]
  rw [run_bind (intIn_run0 (show v.lo ≤ 2 ^ 128 - 1 by omega) rest)]
  rfl

/-- The input that makes these insertions. -/
def coinSrc : List (Nat × V248) → Src
  | [] => []
  | (id, v) :: l => id :: v.hi :: v.lo :: coinSrc l

/-- The map after these insertions. -/
def putAll (m : Nat → Option Nat) : List (Nat × V248) → Nat → Option Nat
  | [] => m
  | (id, v) :: l => putAll (putAmount m id (some v.val)) l

theorem fill_run {acc : Cell → Bool} (hacc : AcceptsTame acc) : ∀ (l : List (Nat × V248)) (d : Option Cell) (m : Nat → Option Nat) (rest : Src),
    (∀ p ∈ l, okId p.1 ∧ okAmount p.2) → CoinsC acc d m → ∃ d', fillCoins acc l.length d (coinSrc l ++ rest) = .ok (d', rest) ∧ CoinsC acc d' (putAll m l)
  | [], d, m, rest, _, h => ⟨d, rfl, h⟩
  | (id, v) :: l, d, m, rest, hl, h => by
    obtain ⟨hid, hv⟩ := hl (id, v) List.mem_cons_self
    rcases (bank_canonical hacc).set d m id v h hid hv with ⟨d1, e, h1⟩ | ⟨hf, _⟩
    · obtain ⟨d', e', h'⟩ := fill_run hacc l d1 _ rest (fun p hp => hl p (List.mem_cons_of_mem _ hp)) h1
      refine ⟨d', ?_, h'⟩
      have hid : id < 2 ^ 32 := hid
      show fillCoins acc (l.length + 1) d (id :: v.hi :: v.lo :: (coinSrc l ++ rest)) = _
      unfold fillCoins
      rw [run_bind (intIn_run0 (show id ≤ 2 ^ 32 - 1 by omega) _), run_bind (v248_run hv _), e]
      exact e'
    · exact hf.elim

theorem putAll_first : ∀ (l : List (Nat × V248)) (m : Nat → Option Nat), l.Pairwise (fun p q => p.1 ≠ q.1) → ∀ id,
    putAll m l id = match firstOf l id with
      | some v => some v.val
      | none => m id
  | [], m, _, id => rfl
  | (k, v) :: l, m, hp, id => by
    rw [List.pairwise_cons] at hp
    show putAll (putAmount m k (some v.val)) l id = _
    rw [putAll_first l _ hp.2]
    by_cases h : id = k
    · subst h
      rw [firstOf_none (l := l) fun p hm e => hp.1 p hm e]
      have : firstOf ((id, v) :: l) id = some v := by simp [firstOf]
      rw [this]
      simp [putAmount]
    · have : firstOf ((k, v) :: l) id = firstOf l id := by simp [firstOf, h]
      rw [this]
      simp [putAmount, h]

theorem extra_run {acc : Cell → Bool} (hacc : AcceptsTame acc) {d : Option Cell} (h : Purse acc 127 d) : ∃ s : Src, ∀ rest, extraCoins acc (s ++ rest) = .ok (d, rest) := by
  obtain ⟨⟨m, hc⟩, hl⟩ := h
  have h0 : CoinsC acc none (fun _ => none) := ⟨_, C57_empty acc, fun _ _ => rfl⟩
  obtain ⟨l, e, h1, h2, h3, h4⟩ := coins_entries (coinsC_any hc)
  rw [e, List.length_map] at hl
  refine ⟨(128 + l.length) :: coinSrc l, fun rest => ?_⟩
  obtain ⟨d', e', h'⟩ := fill_run hacc l none _ rest h1 h0
  have hd : d' = d := coinsC_canonical h' hc fun id hid => by
    rw [putAll_first l _ h2 id, ← h3 id hid]
    cases firstOf l id <;> rfl
  subst hd
  unfold extraCoins
  show (intIn 0 255 >>= _) ((128 + l.length) :: (coinSrc l ++ rest)) = _
  rw [run_bind (intIn_run0 (by omega) _)]
  by_cases hz : l.length = 0
  · rw [if_pos (by omega)]
    have : l = [] := List.length_eq_zero_iff.mp hz
    subst this
    exact e'
  · rw [if_neg (by omega), show 128 + l.length - 128 = l.length by omega]
    exact e'

theorem total_currency {acc : Cell → Bool} (hacc : AcceptsTame acc) : Total (currency acc) (fun c => c.tokens < 2 ^ 120 ∧ Purse acc 127 c.other) := by
  refine (total_intIn (Nat.zero_le _)).bind fun t ht => (total_extra hacc).bind fun d hd => Total.pure ⟨?_, hd⟩
  rw [show VarKind.tokens.max = 2 ^ 120 - 1 from by decide] at ht
  show t < 2 ^ 120
  omega

/-! ### Property theorems -/

/-- C99: whatever the input, `ExtraCurrencyCollection::arbitrary` gives a value (it neither refuses nor panics): a canonical dictionary of at most
127 amounts; and each of these comes from some input. -/
theorem C99_coins {acc : Cell → Bool} (hacc : AcceptsTame acc) :
    (∀ s, ∃ d s', extraCoins acc s = .ok (d, s') ∧ Purse acc 127 d) ∧ ∀ d, Purse acc 127 d → ∃ s, extraCoins acc s = .ok (d, []) := by
  refine ⟨(total_extra hacc).plain, fun d h => ?_⟩
  obtain ⟨s, hs⟩ := extra_run hacc h
  exact ⟨s, by have := hs []; rwa [List.append_nil] at this⟩

/-- C99: whatever the input, `CurrencyCollection::arbitrary` gives a value: tokens below 2^120 and such a dictionary; each of these comes from some
input. -/
theorem C99_currency {acc : Cell → Bool} (hacc : AcceptsTame acc) :
    (∀ s, ∃ c s', currency acc s = .ok (c, s') ∧ c.tokens < 2 ^ 120 ∧ Purse acc 127 c.other) ∧
    ∀ c : Currency, c.tokens < 2 ^ 120 → Purse acc 127 c.other → ∃ s, currency acc s = .ok (c, []) := by
  have hm : VarKind.tokens.max = 2 ^ 120 - 1 := by decide
  constructor
  · exact (total_currency hacc).plain
  · intro c h1 h2
    obtain ⟨s, hs⟩ := extra_run hacc h2
    refine ⟨c.tokens :: s, ?_⟩
    unfold currency varUint
    rw [run_bind (intIn_run0 (by rw [hm]; omega) _)]
    have := hs []
    rw [List.append_nil] at this
    rw [run_bind this]
    rfl

/-- C99: the generators of variable-length integers give exactly the values of the type (24, 56, 120 and 248 bits), and `SimpleBalance` exactly the
balances of up to 10^20 tokens without other currencies; none of them ever refuses an input. -/
theorem C99_amounts :
    (∀ k s, ∃ v s', varUint k s = .ok (v, s') ∧ v < 2 ^ (8 * k.maxBytes)) ∧ (∀ k v, v < 2 ^ (8 * k.maxBytes) → ∃ s, varUint k s = .ok (v, [])) ∧
    (∀ s, ∃ v s', v248 s = .ok (v, s') ∧ okAmount v) ∧ (∀ v, okAmount v → ∃ s, v248 s = .ok (v, [])) ∧
    (∀ s, ∃ c s', simpleBalance s = .ok (c, s') ∧ c.tokens ≤ 10 ^ 20 ∧ c.other = none) ∧
    ∀ c : Currency, c.tokens ≤ 10 ^ 20 → c.other = none → ∃ s, simpleBalance s = .ok (c, []) := by
  have hm : ∀ k : VarKind, k.max = 2 ^ (8 * k.maxBytes) - 1 := by intro k; cases k <;> decide
  refine ⟨fun k => ?_, fun k v hv => ⟨[v], intIn_run0 (by rw [hm]; omega) []⟩, total_v248.plain, fun v hv => ⟨_, v248_run hv []⟩, ?_, ?_⟩
  · intro s
    obtain ⟨v, s', e, _, _, h⟩ := total_intIn (Nat.zero_le k.max) s
    refine ⟨v, s', e, ?_⟩
    rw [hm] at h
    have := Nat.two_pow_pos (8 * k.maxBytes)
    omega
  · exact Total.plain ((total_intIn (Nat.zero_le _)).bind fun t ht => Total.pure ⟨ht.2, rfl⟩)
  · rintro ⟨t, o⟩ h1 h2
    have h2 : o = none := h2
    subst h2
    have h1 : t ≤ 100000000000000000000 := h1
    refine ⟨[t], ?_⟩
    unfold simpleBalance
    rw [run_bind (intIn_run0 h1 _)]
    rfl

/-! ### Non-vacuity -/

/-- Three insertions, two of the same currency, and one of amount zero; the default context. -/
example : (match currency (fun _ => true) [5, 131, 7, 0, 9, 1, 1, 2, 7, 0, 0, 99] with
    | .ok (c, s) => decide (s = [99]) && decide (c.tokens = 5) && decide ((coins.entries c.other).map (·.toOption) = [some (1, ⟨1, 2⟩), some (7, ⟨0, 0⟩)])
    | .error _ => false) = true := by decide +kernel

end Verif.Arb
