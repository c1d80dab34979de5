import Verif.TypedDictMore
import Verif.V248Props
/-
Currency collections (`models/currency.rs`): native tokens and a dictionary of other amounts.
-/
set_option linter.unusedVariables false
set_option linter.unusedSimpArgs false
namespace Verif

/-- `models/currency.rs:180-184` `ExtraCurrencyCollection(Dict<u32, VarUint248>)`. -/
def coins : DictType Nat V248 := ⟨Key.u32, V248.store, V248.load⟩

/-- `num/varuint248.rs:73-75` `is_zero` -/
def V248.isZero (a : V248) : Bool := a.hi == 0 && a.lo == 0

/-- `for entry in dict.iter()` with a fallible body over a state. -/
def forEntries {κ β : Type} (f : Option Cell → κ → β → Except Err (Option Cell)) : Option Cell → List (Except Err (κ × β)) → Except Err (Option Cell)
  | d, [] => .ok d
  | _, .error e :: _ => .error e
  | d, .ok (k, v) :: es => match f d k v with
    | .error e => .error e
    | .ok d' => forEntries f d' es

/-- The new state of a changing operation whose result is not used. -/
def changed {α : Type} : DictRes α → Except Err (Option Cell)
  | (.ok _, d) => .ok d
  | (.error e, _) => .error e

/-- The body of the loops of `checked_add` and `checked_sub` for the amount `r` that the arithmetic gave. -/
def writeAmount (acc : Cell → Bool) (d : Option Cell) (id : Nat) : Option V248 → Except Err (Option Cell)
  | some v => if v.isZero then changed (coins.remove acc d id) else changed (coins.insert acc d id v .set)
  | none => .error .intOverflow

/-- `currency.rs:266-284` the loop body of `checked_add` -/
def addStep (acc : Cell → Bool) (d : Option Cell) (id : Nat) (v : V248) : Except Err (Option Cell) :=
  match coins.get d id with
  | .error e => .error e
  | .ok o => writeAmount acc d id ((o.getD V248.zero).checkedAdd v)

/-- `currency.rs:266-284` `ExtraCurrencyCollection::checked_add` -/
def extraAdd (acc : Cell → Bool) (a b : Option Cell) : Except Err (Option Cell) := forEntries (addStep acc) a (coins.entries b)

/-- `currency.rs:288-306` the loop body of `checked_sub` -/
def subStep (acc : Cell → Bool) (d : Option Cell) (id : Nat) (v : V248) : Except Err (Option Cell) :=
  match coins.get d id with
  | .error e => .error e
  | .ok o => writeAmount acc d id ((o.getD V248.zero).checkedSub v)

/-- `currency.rs:288-306` `ExtraCurrencyCollection::checked_sub` -/
def extraSub (acc : Cell → Bool) (a b : Option Cell) : Except Err (Option Cell) := forEntries (subStep acc) a (coins.entries b)

/-- `currency.rs:308-334` the loop body of `checked_clamp` -/
def clampStep (acc : Cell → Bool) (b : Option Cell) (d : Option Cell) (id : Nat) (v : V248) : Except Err (Option Cell) :=
  match coins.get b id with
  | .error e => .error e
  | .ok (some o) => if v.cmp o = .gt then changed (coins.insert acc d id o .set) else .ok d
  | .ok none => if v.isZero then .ok d else changed (coins.removeRaw acc d id)

/-- `currency.rs:308-332` `ExtraCurrencyCollection::checked_clamp` -/
def extraClamp (acc : Cell → Bool) (a b : Option Cell) : Except Err (Option Cell) := forEntries (clampStep acc b) a (coins.entries a)

/-- `currency.rs:239-261` the loop body of `normalized` and `normalize` -/
def normStep (acc : Cell → Bool) (d : Option Cell) (id : Nat) (v : V248) : Except Err (Option Cell) :=
  if v.isZero then changed (coins.remove acc d id) else .ok d

/-- `currency.rs:239-248` `normalized` -/
def extraNormalized (acc : Cell → Bool) (a : Option Cell) : Except Err (Option Cell) := forEntries (normStep acc) a (coins.entries a)

/-- `currency.rs:251-261` `normalize`: assigned only at the end. -/
def extraNormalize (acc : Cell → Bool) (a : Option Cell) : DictRes Unit :=
  match forEntries (normStep acc) a (coins.entries a) with
  | .ok d => (.ok (), d)
  | .error e => (.error e, a)

/-- Insertion into a list sorted by identifier. -/
def insertById (e : Nat × V248) : List (Nat × V248) → List (Nat × V248)
  | [] => [e]
  | x :: l => if e.1 ≤ x.1 then e :: x :: l else x :: insertById e l

/-- `currency.rs:205-213` `try_from_iter`. The order of entries with equal identifiers is not defined by `sort_unstable_by_key`; here
it is stable, and the theorem about this is for distinct identifiers. -/
def extraFromIter (acc : Cell → Bool) (l : List (Nat × V248)) : Except Err (Option Cell) :=
  coins.build acc (l.foldr insertById [])

/-- `models/currency.rs:14-19` -/
structure Currency where
  tokens : Nat
  other : Option Cell

namespace Currency

/-- `currency.rs:29-32` -/
def zero : Currency := ⟨0, none⟩
/-- `currency.rs:46-48` -/
def isZero (a : Currency) : Bool := a.tokens == 0 && a.other.isNone
/-- `currency.rs:51-53` -/
def bitLen (a : Currency) : Nat := VarKind.tokens.unwrapBitLen a.tokens + 1

/-- The shape of `checked_add` and `checked_sub`: first the tokens, then the other amounts. -/
def combine (t : Option Nat) (o : Except Err (Option Cell)) : Except Err Currency :=
  match t with
  | none => .error .intOverflow
  | some t => match o with
    | .error e => .error e
    | .ok d => .ok ⟨t, d⟩

/-- `currency.rs:58-66` -/
def checkedAdd (acc : Cell → Bool) (a b : Currency) : Except Err Currency :=
  combine (VarKind.tokens.kind.checkedAdd a.tokens b.tokens) (extraAdd acc a.other b.other)

/-- `currency.rs:71-79` -/
def checkedSub (acc : Cell → Bool) (a b : Currency) : Except Err Currency :=
  combine (VarKind.tokens.kind.checkedSub a.tokens b.tokens) (extraSub acc a.other b.other)

/-- `currency.rs:82-90` -/
def tryAddTokens (a : Currency) (t : Nat) : Except Err Unit × Currency :=
  match VarKind.tokens.kind.checkedAdd a.tokens t with
  | some v => (.ok (), { a with tokens := v })
  | none => (.error .intOverflow, a)

/-- `currency.rs:93-101` -/
def trySubTokens (a : Currency) (t : Nat) : Except Err Unit × Currency :=
  match VarKind.tokens.kind.checkedSub a.tokens t with
  | some v => (.ok (), { a with tokens := v })
  | none => (.error .intOverflow, a)

/-- `*self = ok!(..)` -/
def assign (a : Currency) : Except Err Currency → Except Err Unit × Currency
  | .ok r => (.ok (), r)
  | .error e => (.error e, a)

/-- `currency.rs:104-107` -/
def tryAdd (acc : Cell → Bool) (a b : Currency) : Except Err Unit × Currency := a.assign (a.checkedAdd acc b)
/-- `currency.rs:110-113` -/
def trySub (acc : Cell → Bool) (a b : Currency) : Except Err Unit × Currency := a.assign (a.checkedSub acc b)

/-- `currency.rs:116-121` -/
def checkedClamp (acc : Cell → Bool) (a b : Currency) : Except Err Currency :=
  match extraClamp acc a.other b.other with
  | .error e => .error e
  | .ok d => .ok ⟨min a.tokens b.tokens, d⟩

/-- Derived `Store`: the tokens, then the dictionary as an optional reference (`dict/typed.rs:46-55`). -/
def store (a : Currency) : Wr Cell Unit := do
  VarKind.tokens.store a.tokens
  optStore Wr.ref a.other

/-- Derived `Load`. -/
def load : Rd Cell Currency := do
  let t ← VarKind.tokens.load
  let d ← optLoad Rd.ref
  pure ⟨t, d⟩

/-- `currency.rs:142-152` `AugDictExtra::comp_add` on slices of their own; what is left of the slices is ignored. -/
def compAdd (acc : Cell → Bool) (l r : CSlice Cell) : Wr Cell Unit := fun b =>
  match (load l).1 with
  | .error e => (.error e, b)
  | .ok x => match (load r).1 with
    | .error e => (.error e, b)
    | .ok y => match checkedAdd acc x y with
      | .error e => (.error e, b)
      | .ok z => store z b

end Currency

/-! ### Specification -/

def okId (id : Nat) : Prop := id < 2 ^ 32
def okAmount (v : V248) : Prop := v.WF ∧ v.val < 2 ^ 248

/-- Some amount is written with its length in bytes and at most 31 bytes. -/
def amountR (v : V248) (e : Enc Cell) : Prop := okAmount v ∧ ∃ n, n ≤ 31 ∧ v.val < 2 ^ (8 * n) ∧ e = varEnc 5 n v.val
/-- The canonical form has the least number of bytes. -/
def amountEnc (v : V248) : Enc Cell := varEnc 5 v.bytes v.val

/-- `d` is a dictionary with the amounts `m`, in any encoding. -/
def Coins (acc : Cell → Bool) (d : Option Cell) (m : Nat → Option Nat) : Prop :=
  ∃ tm, IsDict coins okId (natBits 32) amountR acc d tm ∧ ∀ id, okId id → (tm id).map V248.val = m id

/-- The same in canonical form. -/
def CoinsC (acc : Cell → Bool) (d : Option Cell) (m : Nat → Option Nat) : Prop :=
  ∃ tm, IsDictC coins okId (natBits 32) okAmount amountEnc acc d tm ∧ ∀ id, okId id → (tm id).map V248.val = m id

/-- The amount of a currency; none is zero. -/
def amount (m : Nat → Option Nat) (id : Nat) : Nat := (m id).getD 0

/-- Whether some component of `b` makes `a + b` too large. -/
def addFits (a b : Nat → Option Nat) : Prop := ∀ id, okId id → amount a id + amount b id < 2 ^ 248
/-- Whether `b` is at most `a` in every component. -/
def subFits (a b : Nat → Option Nat) : Prop := ∀ id, okId id → amount b id ≤ amount a id

/-- The result of an operation with the entries of `b`: other entries of `a` stay, a zero result is no entry. -/
def componentwise (f : Nat → Nat → Nat) (a b : Nat → Option Nat) (id : Nat) : Option Nat :=
  match b id with
  | none => a id
  | some y => if f (amount a id) y = 0 then none else some (f (amount a id) y)

/-- The lesser of both; an amount that the other collection lacks is dropped. -/
def lesser (a b : Nat → Option Nat) (id : Nat) : Option Nat :=
  match a id with
  | none => none
  | some x => match b id with
    | some y => some (min x y)
    | none => if x = 0 then some 0 else none

/-- Without zero entries. -/
def nonzero (a : Nat → Option Nat) (id : Nat) : Option Nat := if amount a id = 0 then none else a id

end Verif
