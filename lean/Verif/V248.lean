import Verif.Num
/-
Model of `num/varuint248.rs`: a 256-bit unsigned integer made of two `u128` words of which 248 bits may
be used. Words are natural numbers below `2^128`. Plain `+`, `-`, `*`, `/` on words are modelled as checked:
the error value `panic` stands for the overflow (debug build) or division-by-zero panic.
-/
namespace Verif

/-- The word base. -/
def W128 : Nat := 2 ^ 128
/-- The half-word base `B` of `varuint248.rs:891`. -/
def B64 : Nat := 2 ^ 64

/-- `u128::overflowing_add` -/
def oadd (a b : Nat) : Nat × Bool := ((a + b) % W128, decide (W128 ≤ a + b))
/-- `u128::overflowing_sub` -/
def osub (a b : Nat) : Nat × Bool := ((a + W128 - b) % W128, decide (a < b))
/-- `u128::overflowing_mul` -/
def omul (a b : Nat) : Nat × Bool := ((a * b) % W128, decide (W128 ≤ a * b))
/-- `u128::wrapping_add` -/
def wadd (a b : Nat) : Nat := (a + b) % W128
/-- `u128::wrapping_sub` -/
def wsub (a b : Nat) : Nat := (a + W128 - b) % W128
/-- `u128::wrapping_mul` -/
def wmul (a b : Nat) : Nat := (a * b) % W128
/-- `a + b` on `u128` -/
def cadd (a b : Nat) : Except Err Nat := if a + b < W128 then .ok (a + b) else .error .panic
/-- `a - b` on `u128` -/
def csub (a b : Nat) : Except Err Nat := if b ≤ a then .ok (a - b) else .error .panic
/-- `a * b` on `u128` -/
def cmul (a b : Nat) : Except Err Nat := if a * b < W128 then .ok (a * b) else .error .panic
/-- `a / b` on `u128` -/
def cdiv (a b : Nat) : Except Err Nat := if b = 0 then .error .panic else .ok (a / b)
/-- `a % b` on `u128` -/
def cmod (a b : Nat) : Except Err Nat := if b = 0 then .error .panic else .ok (a % b)
/-- `a << n` on `u128` for `n < 128` (bits shifted out are lost) -/
def shl128 (a n : Nat) : Nat := (a <<< n) % W128

/-- `varuint248.rs:11-13` -/
structure V248 where
  hi : Nat
  lo : Nat
  deriving DecidableEq, Repr

namespace V248

/-- The words are `u128` values. -/
def WF (a : V248) : Prop := a.hi < W128 ∧ a.lo < W128
/-- Specification: the number denoted by the two words. -/
def val (a : V248) : Nat := a.hi * W128 + a.lo

/-- `varuint248.rs:17` -/
def zero : V248 := ⟨0, 0⟩
/-- `varuint248.rs:23` -/
def min : V248 := ⟨0, 1⟩
/-- `varuint248.rs:26` -/
def max : V248 := ⟨(W128 - 1) >>> 8, W128 - 1⟩
/-- `varuint248.rs:36-38` -/
def ofU128 (v : Nat) : V248 := ⟨0, v⟩
/-- `varuint248.rs:79-81` -/
def isValid (a : V248) : Bool := decide (a.hi ≤ (W128 - 1) >>> 8)
/-- `varuint248.rs:95-102` -/
def leadingZeros (a : V248) : Nat := if a.hi = 0 then 128 + lzc 128 a.lo else lzc 128 a.hi
/-- `(32 - self.leading_zeros() / 8) as u8` -/
def bytes (a : V248) : Nat := 32 - a.leadingZeros / 8
/-- `varuint248.rs:85-92` -/
def bitLen (a : V248) : Option Nat := if a.bytes > 31 then none else some (5 + a.bytes * 8)

/-- `varuint248.rs:143-154` -/
def checkedAdd (a b : V248) : Option V248 :=
  let (lo, carryLo) := oadd a.lo b.lo
  let (hi, carryC) := oadd a.hi carryLo.toNat
  let (hi, carryHi) := oadd hi b.hi
  if carryC || carryHi then none
  else if isValid ⟨hi, lo⟩ then some ⟨hi, lo⟩ else none

/-- `varuint248.rs:159-170` -/
def checkedSub (a b : V248) : Option V248 :=
  let (lo, carryLo) := osub a.lo b.lo
  let (hi, carryC) := osub a.hi carryLo.toNat
  let (hi, carryHi) := osub hi b.hi
  if carryC || carryHi then none
  else if isValid ⟨hi, lo⟩ then some ⟨hi, lo⟩ else none

/-- `varuint248.rs:107-112` -/
def saturatingAdd (a b : V248) : V248 := (a.checkedAdd b).getD max

/-- `varuint248.rs:117-128` -/
def saturatingSub (a b : V248) : V248 :=
  let (lo, carryLo) := osub a.lo b.lo
  let (hi, carryC) := osub a.hi carryLo.toNat
  let (hi, carryHi) := osub hi b.hi
  if carryC || carryHi then zero
  else if isValid ⟨hi, lo⟩ then ⟨hi, lo⟩ else max

/-- `varuint248.rs:796-814` `umulddi3`: the 256-bit product of two words. -/
def umulddi3 (a b : Nat) : Except Err V248 := do
  let low ← cmul (a % B64) (b % B64)
  let t := low >>> 64
  let low := low % B64
  let t ← cadd t (← cmul (a >>> 64) (b % B64))
  let low ← cadd low (shl128 (t % B64) 64)
  let high := t >>> 64
  let t := low >>> 64
  let low := low % B64
  let t ← cadd t (← cmul (b >>> 64) (a % B64))
  let low ← cadd low (shl128 (t % B64) 64)
  let high ← cadd high (t >>> 64)
  let high ← cadd high (← cmul (a >>> 64) (b >>> 64))
  pure ⟨high, low⟩

/-- `varuint248.rs:175-197`; the validity check is on `self`, not on the result. -/
def checkedMul (a b : V248) : Except Err (Option V248) := do
  let res ← umulddi3 a.lo b.lo
  let (hiLo, o1) := omul a.hi b.lo
  let (loHi, o2) := omul a.lo b.hi
  let (hi, o3) := oadd hiLo loHi
  let (high, o4) := oadd res.hi hi
  let o5 := decide (a.hi ≠ 0) && decide (b.hi ≠ 0)
  if o1 || o2 || o3 || o4 || o5 || !a.isValid then pure none else pure (some ⟨high, res.lo⟩)

/-- `varuint248.rs:133-138` -/
def saturatingMul (a b : V248) : Except Err V248 := do pure ((← a.checkedMul b).getD max)

/-- `varuint248.rs:286-290` `Ord`: tuples are compared lexicographically. -/
def cmp (a b : V248) : Ordering :=
  match compare a.hi b.hi with
  | .eq => compare a.lo b.lo
  | o => o

/-- `varuint248.rs:460-469` `AddAssign`: the high word of `self` is not used. -/
def addOp (a b : V248) : V248 :=
  let (lo, carry) := oadd a.lo b.lo
  ⟨wadd (wadd b.hi carry.toNat) b.hi, lo⟩

/-- `varuint248.rs:514-523` `SubAssign` -/
def subOp (a b : V248) : V248 :=
  let (lo, carry) := osub a.lo b.lo
  ⟨wsub (wsub a.hi carry.toNat) b.hi, lo⟩

/-- `varuint248.rs:555-574` `ShrAssign` (for `n < 256`). -/
def shrOp (a : V248) (n : Nat) : V248 :=
  if n = 0 then a
  else if n ≤ 127 then ⟨a.hi >>> n, (a.lo >>> n) ||| shl128 a.hi (128 - n)⟩
  else ⟨0, a.hi >>> (n % 128)⟩

/-- `varuint248.rs:605-624` `ShlAssign` (for `n < 256`). -/
def shlOp (a : V248) (n : Nat) : V248 :=
  if n = 0 then a
  else if n ≤ 127 then ⟨shl128 a.hi n ||| (a.lo >>> (128 - n)), shl128 a.lo n⟩
  else ⟨shl128 a.lo (n % 128), 0⟩

/-- `varuint248.rs:670-683` `MulAssign` -/
def mulOp (a b : V248) : Except Err V248 := do
  let r ← umulddi3 a.lo b.lo
  pure ⟨wadd r.hi (wadd (wmul a.hi b.lo) (wmul a.lo b.hi)), r.lo⟩

/-! ### Division -/

/-- The `while` loops of `varuint248.rs:922-928` and `:940-946`. The fuel of three rounds is never used up
(see `digitLoop_spec`); running out of it is a separate outcome. -/
def digitLoop (vn1 vn0 un1 : Nat) : Nat → Nat → Nat → Except Err (Nat × Nat)
  | 0, _, _ => .error .fault
  | fuel + 1, q, rhat => do
    let again ← (if B64 ≤ q then pure true
      else do
        let x ← cmul q vn0
        let y ← cadd (← cmul B64 rhat) un1
        pure (decide (x > y)))
    if again then do
      let q ← csub q 1
      let rhat ← cadd rhat vn1
      if B64 ≤ rhat then pure (q, rhat) else digitLoop vn1 vn0 un1 fuel q rhat
    else pure (q, rhat)

/-- One quotient digit: first estimate and correction (`varuint248.rs:918-928`, `:936-946`). -/
def digit (vn1 vn0 un un1 : Nat) : Except Err Nat := do
  let q ← cdiv un vn1
  let rhat ← csub un (← cmul q vn1)
  let (q, _) ← digitLoop vn1 vn0 un1 3 q rhat
  pure q

/-- `varuint248.rs:887-953` `udiv256_by_128_to_128`: quotient and remainder. -/
def udiv256 (u1 u0 v : Nat) : Except Err (Nat × Nat) := do
  let s := lzc 128 v
  let v := if s > 0 then shl128 v s else v
  let un128 := if s > 0 then shl128 u1 s ||| (u0 >>> (128 - s)) else u1
  let un10 := if s > 0 then shl128 u0 s else u0
  let vn1 := v >>> 64
  let vn0 := v % B64
  let un1 := un10 >>> 64
  let un0 := un10 % B64
  let q1 ← digit vn1 vn0 un128 un1
  let un21 := wsub (wadd (wmul un128 B64) un1) (wmul q1 v)
  let q0 ← digit vn1 vn0 un21 un0
  let r := wsub (wadd (wmul un21 B64) un0) (wmul q0 v) >>> s
  pure (← cadd (← cmul q1 B64) q0, r)

/-- `varuint248.rs:999-1017` `fullmul_u128`: low and high word of the product. -/
def fullmul128 (a b : Nat) : Except Err (Nat × Nat) := do
  let a0 := a % B64
  let a1 := a >>> 64
  let b0 := b % B64
  let b1 := b >>> 64
  let t ← cmul a0 b0
  let w3 := t % B64
  let k := t >>> 64
  let t ← cadd (← cmul a1 b0) k
  let w1 := t % B64
  let w2 := t >>> 64
  let t ← cadd (← cmul a0 b1) w1
  let k := t >>> 64
  let wHi ← cadd (← cadd (← cmul a1 b1) w2) k
  let wLo ← cadd (shl128 t 64) w3
  pure (wLo, wHi)

/-- `varuint248.rs:1020-1035` `fullmul_u256_u128` -/
def fullmul256 (a : V248) (b : Nat) : Except Err (Nat × Nat × Nat) :=
  if b ≠ 0 then do
    let (lo, carry) ← fullmul128 a.lo b
    let acc0 := lo
    let acc1 := carry
    let (lo, carry) ← fullmul128 a.hi b
    let (acc1, c) := oadd acc1 lo
    let acc2 ← cadd carry c.toNat
    pure (acc0, acc1, acc2)
  else pure (0, 0, 0)

/-- `varuint248.rs:1038-1043` `add_carry` -/
def addCarry (a b : Nat) (c : Bool) : Nat × Bool :=
  let (r1, o1) := oadd b c.toNat
  let (r2, o2) := oadd a r1
  (r2, o1 || o2)

/-- `varuint248.rs:1046-1051` `sub_carry` -/
def subCarry (a b : Nat) (c : Bool) : Nat × Bool :=
  let (r1, o1) := oadd b c.toNat
  let (r2, o2) := osub a r1
  (r2, o1 || o2)

/-- The correction loop `varuint248.rs:1083-1098`; fuel as in `digitLoop`. -/
def knuthLoop (vn1 vn2 u0 : Nat) : Nat → Nat → Nat → Except Err Nat
  | 0, _, _ => .error .fault
  | fuel + 1, qHat, rHat => do
    let (lo, hi) ← fullmul128 qHat vn2
    if decide (hi > rHat) || (decide (hi = rHat) && decide (lo > u0)) then do
      let qHat ← csub qHat 1
      let (rHat, overflow) := oadd rHat vn1
      if overflow then pure qHat else knuthLoop vn1 vn2 u0 fuel qHat rHat
    else pure qHat

/-- `varuint248.rs:963-973` `full_shl`: three words, lowest first. -/
def fullShl (a : V248) (shift : Nat) : Nat × Nat × Nat :=
  let uHi := a.shrOp (128 - shift)
  (shl128 a.lo shift, uHi.lo, uHi.hi)

/-- `varuint248.rs:976-989` `full_shr` -/
def fullShr (u0 u1 u2 shift : Nat) : V248 :=
  if shift > 0 then
    ⟨(u1 >>> shift) ||| shl128 u2 (128 - shift), (u0 >>> shift) ||| shl128 u1 (128 - shift)⟩
  else ⟨u1 >>> shift, u0 >>> shift⟩

/-- Step D3 of `varuint248.rs:1073-1104`: the quotient digit. -/
def knuthDigit (u0 u1 u2 vn1 vn2 : Nat) : Except Err Nat :=
  if u2 < vn1 then do
    let (qHat, rHat) ← udiv256 u2 u1 vn1
    knuthLoop vn1 vn2 u0 3 qHat rHat
  else pure (W128 - 1)

/-- Steps D4 and D6 of `varuint248.rs:1109-1129`: multiply, subtract, and add back on a borrow. -/
def knuthSub (u0 u1 u2 : Nat) (v : V248) (qHat : Nat) : Except Err (Nat × Nat × Nat × Nat) := do
  let (m0, m1, m2) ← fullmul256 v qHat
  let (u0, c) := subCarry u0 m0 false
  let (u1, c) := subCarry u1 m1 c
  let (u2, c) := subCarry u2 m2 c
  if c then do
    let qHat ← csub qHat 1
    let (u0, c) := addCarry u0 v.lo false
    let (u1, c) := addCarry u1 v.hi c
    pure (qHat, u0, u1, wadd u2 c.toNat)
  else pure (qHat, u0, u1, u2)

/-- `varuint248.rs:957-1138` `div_mod_knuth` for a divisor with a nonzero high word. -/
def divModKnuth (u v : V248) : Except Err (V248 × V248) := do
  let shift := lzc 128 v.hi
  let v := v.shlOp shift
  let (u0, u1, u2) := fullShl u shift
  let qHat ← knuthDigit u0 u1 u2 v.hi v.lo
  let (qHat, u0, u1, u2) ← knuthSub u0 u1 u2 v qHat
  pure (⟨0, qHat⟩, fullShr u0 u1 u2 shift)

/-- `varuint248.rs:816-884` `udivmod`: quotient and remainder. -/
def udivmod (a b : V248) : Except Err (V248 × V248) :=
  if a.hi ||| b.hi = 0 then do
    let r ← cmod a.lo b.lo
    let q ← cdiv a.lo b.lo
    pure (⟨0, q⟩, ⟨0, r⟩)
  else if b.cmp a = .gt then pure (zero, a)
  else if b.hi = 0 then
    if a.hi < b.lo then do
      let (q, r) ← udiv256 a.hi a.lo b.lo
      pure (⟨0, q⟩, ⟨0, r⟩)
    else do
      let qh ← cdiv a.hi b.lo
      let rh ← cmod a.hi b.lo
      let (q, r) ← udiv256 rh a.lo b.lo
      pure (⟨qh, q⟩, ⟨0, r⟩)
  else divModKnuth a b

/-! ### Cells -/

section Cells
variable {ρ : Type}

/-- The digits: `varuint248.rs:319-324`. -/
def storeDigits (a : V248) (bits : Nat) : Wr ρ Unit :=
  if 128 ≤ bits then do
    storeU128Part a.hi (bits - 128)
    storeU128Part a.lo 128
  else storeU128Part a.lo bits

/-- `varuint248.rs:307-323` `store_into` -/
def store (a : V248) : Wr ρ Unit := do
  Prog.check (decide (a.bytes ≤ 31)) .cellOverflow
  Wr.needs (5 + a.bytes * 8) 0
  Wr.small a.bytes 5
  a.storeDigits (a.bytes * 8)

/-- The digits: `varuint248.rs:330-342`. -/
def loadDigits (bytes : Nat) : Rd ρ V248 :=
  if 16 < bytes then do
    let hi ← loadU128Part (bytes - 16)
    let lo ← loadU128Part 16
    pure ⟨hi, lo⟩
  else do
    let lo ← loadU128Part bytes
    pure ⟨0, lo⟩

/-- `varuint248.rs:327-343` `load_from` -/
def load : Rd ρ V248 := do
  let bytes ← Rd.small 5
  loadDigits bytes

end Cells
end V248
end Verif
