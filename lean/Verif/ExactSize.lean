import Verif.MessageProps
/-
Announced sizes: the trait `ExactSize`, the type `Size` and the counters `CellTreeStats`.
`Size` has a `u16` and a `u8`: sums outside of them panic in a debug build and wrap in a release build (`dbg`).
-/
set_option linter.unusedVariables false
namespace Verif

/-- `cell/mod.rs:1409-1414` -/
structure CSize where
  bits : Nat
  refs : Nat
  deriving DecidableEq, Repr

namespace CSize

/-- The values of the Rust type. -/
def Valid (s : CSize) : Prop := s.bits < 2 ^ 16 ∧ s.refs < 2 ^ 8

/-- `cell/mod.rs:1418` -/
def zero : CSize := ⟨0, 0⟩
/-- `cell/mod.rs:1427-1430` -/
def max : CSize := ⟨1023, 4⟩
/-- `cell/mod.rs:1434-1436` -/
def fitsIntoCell (s : CSize) : Bool := decide (s.bits ≤ 1023) && decide (s.refs ≤ 4)
/-- `cell/mod.rs:1441-1446` -/
def saturatingAdd (a b : CSize) : CSize := ⟨Nat.min (a.bits + b.bits) (2 ^ 16 - 1), Nat.min (a.refs + b.refs) (2 ^ 8 - 1)⟩
/-- `cell/mod.rs:1451-1456` -/
def saturatingSub (a b : CSize) : CSize := ⟨a.bits - b.bits, a.refs - b.refs⟩
/-- `cell/mod.rs:1459-1461` -/
def isZero (s : CSize) : Bool := s.bits == 0 && s.refs == 0

/-- `cell/mod.rs:1474-1490` `+`, `+=` -/
def add (dbg : Bool) (a b : CSize) : Except Err CSize :=
  if a.bits + b.bits < 2 ^ 16 ∧ a.refs + b.refs < 2 ^ 8 then .ok ⟨a.bits + b.bits, a.refs + b.refs⟩
  else if dbg then .error .panic
  else .ok ⟨(a.bits + b.bits) % 2 ^ 16, (a.refs + b.refs) % 2 ^ 8⟩
/-- `cell/mod.rs:1492-1508` `-`, `-=` -/
def sub (dbg : Bool) (a b : CSize) : Except Err CSize :=
  if b.bits ≤ a.bits ∧ b.refs ≤ a.refs then .ok ⟨a.bits - b.bits, a.refs - b.refs⟩
  else if dbg then .error .panic
  else .ok ⟨(a.bits + 2 ^ 16 - b.bits) % 2 ^ 16, (a.refs + 2 ^ 8 - b.refs) % 2 ^ 8⟩

end CSize

/-- `cell/mod.rs:1512-1517`; both are `u64`. -/
structure TreeStats where
  bitCount : Nat
  cellCount : Nat
  deriving DecidableEq, Repr

namespace TreeStats

def Valid (s : TreeStats) : Prop := s.bitCount < 2 ^ 64 ∧ s.cellCount < 2 ^ 64
/-- `cell/mod.rs:1521-1524` -/
def zero : TreeStats := ⟨0, 0⟩
/-- `cell/mod.rs:1464-1472` `From<Size>` -/
def ofSize (s : CSize) : TreeStats := ⟨s.bits, s.refs⟩
/-- `cell/mod.rs:1527-1545` `+`, `+=` -/
def add (a b : TreeStats) : TreeStats := ⟨Nat.min (a.bitCount + b.bitCount) (2 ^ 64 - 1), Nat.min (a.cellCount + b.cellCount) (2 ^ 64 - 1)⟩
/-- `cell/mod.rs:1547-1557`, `1570-1575` `+`, `+=` with a `Size` -/
def addSize (a : TreeStats) (b : CSize) : TreeStats := ⟨Nat.min (a.bitCount + b.bits) (2 ^ 64 - 1), Nat.min (a.cellCount + b.refs) (2 ^ 64 - 1)⟩
/-- `cell/mod.rs:1559-1568` `Sum` -/
def sum (l : List TreeStats) : TreeStats := l.foldl add zero
/-- `cell/mod.rs:1577-1593` `-`, `-=` -/
def sub (a b : TreeStats) : TreeStats := ⟨a.bitCount - b.bitCount, a.cellCount - b.cellCount⟩
/-- `cell/mod.rs:1595-1601` `-=` with a `Size` -/
def subSize (a : TreeStats) (b : CSize) : TreeStats := ⟨a.bitCount - b.bits, a.cellCount - b.refs⟩

end TreeStats

/-- `Uint9`, `Uint12`, `Uint15` (`num/mod.rs:871-880`). -/
inductive SmallW where
  | w9 | w12 | w15

def SmallW.bits : SmallW → Nat
  | .w9 => 9 | .w12 => 12 | .w15 => 15

/-- The types that implement `ExactSize` and `Store`. References, boxes and counted pointers (`cell/slice.rs:1912-1945`) are those of the
target. Tuples of more than two are pairs of pairs, from the left, as the sum in `cell/slice.rs:1965` is. `AugDict` (`dict/aug.rs:56-61`)
is the pair of the dictionary and the extra; `RawDict` and `ExtraCurrencyCollection` are dictionaries. -/
inductive SzTy where
  | unit
  | small (k : SmallW)
  | splitDepth
  | var (k : VarKind)
  | v248
  | cell
  | lazy (exotic : Bool)
  | slice
  | dict
  | currency
  | stateInit
  | msgInfo
  | relaxedInfo
  | option (t : SzTy)
  | pair (a b : SzTy)

namespace SzTy

/-- The values. -/
def Val : SzTy → Type
  | unit => Unit
  | small _ => Nat
  | splitDepth => Nat
  | var _ => Nat
  | v248 => V248
  | cell => Cell
  | lazy _ => Cell
  | slice => CSlice Cell
  | dict => Option Cell
  | currency => Currency
  | stateInit => StateInit
  | msgInfo => MsgInfo
  | relaxedInfo => RelaxedMsgInfo
  | option t => Option t.Val
  | pair a b => a.Val × b.Val

/-- `Store` of the type: `num/mod.rs`, `cell/builder.rs:86-148`, `cell/lazy.rs`, `dict/typed.rs:46-55`, `models`. -/
def store : (t : SzTy) → t.Val → Wr Cell Unit
  | unit, _ => pure ()
  | small k, v => smallStore k.bits v
  | splitDepth, v => splitDepthStore v
  | var k, v => k.store v
  | v248, v => V248.store v
  | cell, c => Wr.ref c
  | lazy x, c => (Tlb.lazy x).store c
  | slice, s => Wr.slice s
  | dict, d => Tlb.dict.store d
  | currency, c => Currency.store c
  | stateInit, i => Verif.stateInit.store i
  | msgInfo, i => Verif.msgInfo.store i
  | relaxedInfo, i => Verif.relaxedInfo.store i
  | option t, o => optStore t.store o
  | pair a b, p => pairStore a.store b.store p

/-- `exact_size`: `num/mod.rs:520-528`, `816-821`, `976-984`, `num/varuint248.rs:270-278`, `cell/slice.rs:123-132`, `203-221`, `1899-1970`,
`cell/lazy.rs:19-24`, `dict/typed.rs:25-33`, `dict/raw.rs:41-49`, `dict/aug.rs:56-61`, `models/currency.rs:134-139`, `393-398`,
`models/account/mod.rs:407-434`, `models/message/mod.rs:533-606`, `735-764`. -/
def size (dbg : Bool) : (t : SzTy) → t.Val → Except Err CSize
  | unit, _ => .ok .zero
  | small k, _ => .ok ⟨k.bits, 0⟩
  | splitDepth, _ => .ok ⟨5, 0⟩
  | var k, v => .ok ⟨(k.bitLen v).getD 0, 0⟩
  | v248, v => .ok ⟨(V248.bitLen v).getD 0, 0⟩
  | cell, _ => .ok ⟨0, 1⟩
  | lazy _, _ => .ok ⟨0, 1⟩
  | slice, s => .ok ⟨(CSlice.range s).sizeBits, (CSlice.range s).sizeRefs⟩
  | dict, d => .ok ⟨1, (Option.isSome d).toNat⟩
  | currency, c => CSize.add dbg ⟨(VarKind.tokens.bitLen (Currency.tokens c)).getD 0, 0⟩ ⟨1, (Currency.other c).isSome.toNat⟩
  | stateInit, i => .ok ⟨StateInit.bitLen i, StateInit.refCount i⟩
  | msgInfo, i => .ok ⟨(MsgInfo.size i).1, (MsgInfo.size i).2⟩
  | relaxedInfo, i => .ok ⟨(RelaxedMsgInfo.size i).1, (RelaxedMsgInfo.size i).2⟩
  | option _, none => .ok ⟨1, 0⟩
  | option t, some v => do
    let s ← size dbg t v
    CSize.add dbg ⟨1, 0⟩ s
  | pair a b, p => do
    let x ← size dbg a p.1
    let y ← size dbg b p.2
    CSize.add dbg x y

/-! ### Specification -/

/-- Values that can exist and are within the range of their type. -/
def Good : (t : SzTy) → t.Val → Prop
  | small k, v => Nat.le v (smallMax k.bits)
  | var k, v => Nat.le v k.max
  | v248, v => V248.WF v ∧ V248.val v < 2 ^ 248
  | slice, s => CSlice.WF s
  | currency, c => Currency.tokens c ≤ VarKind.tokens.max
  | msgInfo, i => Verif.msgInfo.ok i
  | relaxedInfo, i => Verif.relaxedInfo.ok i
  | option _, none => True
  | option t, some v => Good t v
  | pair a b, p => Good a p.1 ∧ Good b p.2
  | _, _ => True

/-- The number of headers of internal messages in a value. -/
def internals : (t : SzTy) → t.Val → Nat
  | msgInfo, .int _ => 1
  | relaxedInfo, .int _ => 1
  | option t, some v => internals t v
  | pair a b, p => internals a p.1 + internals b p.2
  | _, _ => 0

/-- Types without headers of messages. -/
def Plain : SzTy → Prop
  | msgInfo => False
  | relaxedInfo => False
  | option t => Plain t
  | pair a b => Plain a ∧ Plain b
  | _ => True

end SzTy

/-- A value of any of the types. -/
abbrev AnySized : Type := (t : SzTy) × t.Val

/-- The values are stored one after another, up to the first error. -/
def storeAll : List AnySized → Wr Cell Unit
  | [] => pure ()
  | v :: l => do
    v.1.store v.2
    storeAll l

end Verif
