/-
Shared vocabulary of the model: bytes, bit strings, errors.
-/
namespace Verif

/-- A byte (`u8`). -/
abbrev Byte := BitVec 8

/-- Bit strings, first bit first. -/
abbrev Bits := List Bool

/-- `cell/mod.rs:1789` `MAX_BIT_LEN`. -/
def maxBitLen : Nat := 1023
/-- `cell/mod.rs:1791` `MAX_REF_COUNT`. -/
def maxRefCount : Nat := 4

/-- Error values of `error.rs:5-75` used by the modelled code, plus two outcomes that the Rust
type does not have: `fault` is an out-of-bounds access through a raw pointer or an
`unwrap_unchecked` on nothing (undefined behaviour), `panic` a Rust panic. -/
inductive Err where
  | cellUnderflow
  | cellOverflow
  | unexpectedExoticCell
  | unexpectedOrdinaryCell
  | invalidCell
  | invalidData
  | invalidTag
  | emptyProof
  | depthOverflow
  | invalidSignature
  | invalidPublicKey
  | intOverflow
  | cancelled
  | unbalanced
  | fault
  | panic
  deriving DecidableEq, Repr

/-- The `i`-th bit (most significant first) of a byte buffer; `false` past the end. -/
def bitAt (d : List Byte) (i : Nat) : Bool := (d.getD (i / 8) 0).getMsbD (i % 8)

/-- All bits of a byte buffer. -/
def bytesToBits (d : List Byte) : Bits := (List.range (8 * d.length)).map (bitAt d)

/-- The `w`-bit big-endian representation of `v` (of `v mod 2^w`). -/
def natBits (w v : Nat) : Bits := (List.range w).map fun i => v.testBit (w - 1 - i)

/-- The number denoted by a bit string, first bit most significant. -/
def natOfBits (l : Bits) : Nat := l.foldl (fun a b => 2 * a + b.toNat) 0

/-- The bits of a machine word, most significant first. -/
def wordBits {n : Nat} (v : BitVec n) : Bits := (List.range n).map v.getMsbD

/-- Decidable equality of results, used in the concrete examples. -/
instance instDecidableEqExcept {ε α : Type} [DecidableEq ε] [DecidableEq α] : DecidableEq (Except ε α)
  | .ok a, .ok b => if h : a = b then isTrue (by rw [h]) else isFalse (fun e => h (Except.ok.inj e))
  | .error a, .error b => if h : a = b then isTrue (by rw [h]) else isFalse (fun e => h (Except.error.inj e))
  | .ok _, .error _ => isFalse (fun e => by cases e)
  | .error _, .ok _ => isFalse (fun e => by cases e)

end Verif
