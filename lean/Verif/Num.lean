import Verif.CodecPrims
/-
Model of the integer types of `num/mod.rs`: `VarUint24`, `VarUint56`, `Tokens`, `Uint9/12/15`, `SplitDepth`.
Values of the underlying primitive types are natural numbers below `2^(8·size)`.
-/
namespace Verif

/-- Number of bits up to the highest one bit. -/
def nbits (v : Nat) : Nat := if v = 0 then 0 else Nat.log2 v + 1

/-- `uN::leading_zeros` of a value of a `w`-bit primitive type. -/
def lzc (w v : Nat) : Nat := w - nbits v

/-- The types generated by `impl_var_uints!` (`num/mod.rs:534-549`). -/
inductive VarKind where
  | vu24
  | vu56
  | tokens
  deriving DecidableEq, Repr

namespace VarKind

/-- `size_of` of the underlying primitive: `u32`, `u64`, `u128`. -/
def size : VarKind → Nat
  | .vu24 => 4 | .vu56 => 8 | .tokens => 16
/-- The bound in the brackets. -/
def maxBytes : VarKind → Nat
  | .vu24 => 3 | .vu56 => 7 | .tokens => 15
/-- `num/mod.rs:344` `MAX`. -/
def max (k : VarKind) : Nat := (1 <<< (8 * k.maxBytes)) - 1
/-- `num/mod.rs:347` `LEN_BITS`. -/
def lenBits (k : VarKind) : Nat := 8 - lzc 8 k.maxBytes
/-- `num/mod.rs:350` `MAX_BITS`. -/
def maxBits (k : VarKind) : Nat := k.lenBits + k.maxBytes * 8
/-- `num/mod.rs:372-374` -/
def isValid (k : VarKind) (v : Nat) : Bool := decide (v ≤ k.max)
/-- `(size_of::<Self>() - self.0.leading_zeros() / 8) as u8` -/
def bytes (k : VarKind) (v : Nat) : Nat := k.size - lzc (8 * k.size) v / 8
/-- `num/mod.rs:378-385` -/
def bitLen (k : VarKind) (v : Nat) : Option Nat :=
  if k.bytes v > k.maxBytes then none else some (k.lenBits + k.bytes v * 8)
/-- `num/mod.rs:391-398` -/
def unwrapBitLen (k : VarKind) (v : Nat) : Nat :=
  if k.bytes v > k.maxBytes then k.maxBits else k.lenBits + k.bytes v * 8

end VarKind

/-- A checked operation of a `w`-bit primitive type followed by the `value <= MAX` guard. -/
def fitsMax (max : Nat) (r : Option Nat) : Option Nat :=
  match r with
  | some v => if v ≤ max then some v else none
  | none => none

/-- `checked_add` of a `w`-bit primitive type. -/
def primAdd (w a b : Nat) : Option Nat := if a + b < 2 ^ w then some (a + b) else none
/-- `checked_sub` of a primitive type. -/
def primSub (a b : Nat) : Option Nat := if b ≤ a then some (a - b) else none
/-- `checked_mul` of a `w`-bit primitive type. -/
def primMul (w a b : Nat) : Option Nat := if a * b < 2 ^ w then some (a * b) else none
/-- `checked_div` of a primitive type. -/
def primDiv (a b : Nat) : Option Nat := if b = 0 then none else some (a / b)

/-- The bounded integer types that share the arithmetic of `num/mod.rs:404-518` and `:744-815`: width of
the primitive type and largest valid value. -/
structure IntKind where
  width : Nat
  max : Nat

namespace IntKind
/-- `num/mod.rs:437-442` / `:777-782` -/
def checkedAdd (k : IntKind) (a b : Nat) : Option Nat := fitsMax k.max (primAdd k.width a b)
/-- `num/mod.rs:447-452` / `:787-792` -/
def checkedSub (k : IntKind) (a b : Nat) : Option Nat := fitsMax k.max (primSub a b)
/-- `num/mod.rs:457-462` / `:797-802` -/
def checkedMul (k : IntKind) (a b : Nat) : Option Nat := fitsMax k.max (primMul k.width a b)
/-- `num/mod.rs:468-473` / `:808-813` -/
def checkedDiv (k : IntKind) (a b : Nat) : Option Nat := fitsMax k.max (primDiv a b)
/-- `num/mod.rs:404-409` / `:744-749` -/
def saturatingAdd (k : IntKind) (a b : Nat) : Nat := (fitsMax k.max (primAdd k.width a b)).getD k.max
/-- `num/mod.rs:415-421` / `:755-761` -/
def saturatingSub (k : IntKind) (a b : Nat) : Nat :=
  match primSub a b with
  | some v => if v ≤ k.max then v else k.max
  | none => 0
/-- `num/mod.rs:427-432` / `:767-772` -/
def saturatingMul (k : IntKind) (a b : Nat) : Nat := (fitsMax k.max (primMul k.width a b)).getD k.max
/-- `num/mod.rs:476-518` `try_*_assign`: the new value of `*self` with the result. -/
def tryAssign (r : Option Nat) (self : Nat) : Except Err Unit × Nat :=
  match r with
  | some v => (.ok (), v)
  | none => (.error .intOverflow, self)
/-- `num/mod.rs:476-484` -/
def tryAddAssign (k : IntKind) (self other : Nat) : Except Err Unit × Nat := tryAssign (k.checkedAdd self other) self
/-- `num/mod.rs:487-495` -/
def trySubAssign (k : IntKind) (self other : Nat) : Except Err Unit × Nat := tryAssign (k.checkedSub self other) self
/-- `num/mod.rs:498-506` -/
def tryMulAssign (k : IntKind) (self other : Nat) : Except Err Unit × Nat := tryAssign (k.checkedMul self other) self
/-- `num/mod.rs:509-517` -/
def tryDivAssign (k : IntKind) (self other : Nat) : Except Err Unit × Nat := tryAssign (k.checkedDiv self other) self
end IntKind

/-- The arithmetic of a var-uint type. -/
def VarKind.kind (k : VarKind) : IntKind := ⟨8 * k.size, k.max⟩

section Cells
variable {ρ : Type}

/-- `num/mod.rs:1039-1045` `store_u128` -/
def storeU128Part (v bits : Nat) : Wr ρ Unit :=
  if 64 ≤ bits then do
    Wr.uint (v >>> 64) (bits - 64)
    Wr.uint v 64
  else Wr.uint v bits

/-- `num/mod.rs:1047-1060` `load_u128` -/
def loadU128Part (bytes : Nat) : Rd ρ Nat :=
  if 8 < bytes then do
    let hi ← Rd.uint ((bytes - 8) * 8)
    let lo ← Rd.uint (8 * 8)
    pure ((hi <<< 64) ||| lo)
  else Rd.uint (bytes * 8)

/-- The digits of a var-uint: `store_uint` for the small types, `store_u128` for `Tokens`. -/
def VarKind.storeDigits (k : VarKind) (v bits : Nat) : Wr ρ Unit :=
  match k with
  | .tokens => storeU128Part v bits
  | _ => Wr.uint v bits

/-- `num/mod.rs:615-627`, `:639-651`, `:663-675` `store_into` -/
def VarKind.store (k : VarKind) (v : Nat) : Wr ρ Unit := do
  Prog.check (decide (k.bytes v ≤ k.maxBytes)) .cellOverflow
  Wr.needs (k.lenBits + k.bytes v * 8) 0
  Wr.small (k.bytes v) k.lenBits
  k.storeDigits v (k.bytes v * 8)

/-- The digits of a var-uint. The cast to the primitive type keeps the value: at most `maxBytes` bytes. -/
def VarKind.loadDigits (k : VarKind) (bytes : Nat) : Rd ρ Nat :=
  match k with
  | .vu24 => do
    let v ← Rd.uint (bytes * 8)
    pure (v % 2 ^ 32)
  | .vu56 => Rd.uint (bytes * 8)
  | .tokens => loadU128Part bytes

/-- `num/mod.rs:629-637`, `:653-661`, `:677-685` `load_from` -/
def VarKind.load (k : VarKind) : Rd ρ Nat := do
  let bytes ← Rd.small k.lenBits
  k.loadDigits bytes

end Cells

/-! ### Small fixed-width integers -/

/-- `num/mod.rs:687-869` `impl_small_uints!`; `n` is 9, 12 or 15. `MAX` of `:711`. -/
def smallMax (n : Nat) : Nat := (1 <<< n) - 1
/-- The arithmetic of `Uint9/12/15` over `u16`. -/
def smallKind (n : Nat) : IntKind := ⟨16, smallMax n⟩

section Cells
variable {ρ : Type}

/-- `num/mod.rs:823-834` `Store` (and `StoreDictKey` `:849-857`). -/
def smallStore (n v : Nat) : Wr ρ Unit := do
  Prog.check (decide (v ≤ smallMax n)) .intOverflow
  Wr.uint v n
/-- `num/mod.rs:836-843` `Load`; the cast to `u16` keeps the at most 15 bits. -/
def smallLoad (n : Nat) : Rd ρ Nat := do
  let v ← Rd.uint n
  pure (v % 2 ^ 16)
/-- `num/mod.rs:859-865` `LoadDictKey`: the first two bytes of the key data. -/
def smallLoadKey (n : Nat) (data : List Byte) : Nat :=
  ((data.getD 0 0).toNat * 256 + (data.getD 1 0).toNat) >>> (16 - n)

/-- `num/mod.rs:935-940` `SplitDepth::new` -/
def splitDepthNew (v : Nat) : Except Err Nat := if v = 0 then .error .intOverflow else .ok v
/-- `num/mod.rs:944-950` `from_bit_len` -/
def splitDepthFromBitLen (v : Nat) : Except Err Nat := if v < 255 then splitDepthNew (v % 256) else .error .intOverflow
/-- `num/mod.rs:986-990` -/
def splitDepthStore (v : Nat) : Wr ρ Unit := Wr.small v 5
/-- `num/mod.rs:992-999` -/
def splitDepthLoad : Rd ρ Nat := do
  let v ← Rd.small 5
  match splitDepthNew v with
  | .ok v => pure v
  | .error e => Prog.fail e

end Cells
end Verif
