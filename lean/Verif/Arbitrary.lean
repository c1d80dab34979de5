import Verif.MerkleCodec
import Verif.Virtual

/-! Random cells (`arbitrary.rs`, the `Arbitrary` implementations of `cell/builder.rs`, `cell/mod.rs` and `merkle`): the generators the
crate offers to fuzz tests turn the fuzzer's input into builders and cells. -/

set_option linter.unusedVariables false

namespace Verif.Arb
open Verif Merkle

/-- The fuzzer's input (`arbitrary::Unstructured`), as the list of numbers that are still to be used. Simplification: a number of a
range is made from one element here, where the library takes as many bytes as the range needs; an element is used
modulo the size of its range, as in the library. -/
abbrev Src := List Nat

/-- How a generator can stop: it refuses the input (`arbitrary::Error`), it panics (an `unwrap` on an error), or the
fuel of the model is used up (the code has none). -/
inductive Stop where
  | refused | panic | fuel
  deriving DecidableEq, Repr

/-- A generator: takes what it needs from the input. -/
def Gen (α : Type) := Src → Except Stop (α × Src)

/-- `?` -/
def Gen.bind {α β : Type} (g : Gen α) (f : α → Gen β) : Gen β := fun s =>
  match g s with
  | .ok (a, s') => f a s'
  | .error e => .error e

instance : Monad Gen where
  pure a := fun s => .ok (a, s)
  bind := Gen.bind

/-- Stop. -/
def stop {α : Type} (e : Stop) : Gen α := fun _ => .error e

/-- `Unstructured::int_in_range(lo..=hi)`: `lo` when the input is used up. -/
def intIn (lo hi : Nat) : Gen Nat := fun s =>
  match s with
  | [] => .ok (lo, [])
  | c :: s => .ok (lo + c % (hi - lo + 1), s)

/-- `Unstructured::bytes(n)`: refuses when there is too little input. -/
def bytes (n : Nat) : Gen (List Byte) := fun s =>
  if n ≤ s.length then .ok ((s.take n).map (BitVec.ofNat 8), s.drop n) else .error .refused

/-- `.unwrap()` on the result of a builder method. -/
def store (w : Wr CCell Unit) (b : CellB CCell) : Gen (CellB CCell) :=
  match w b with
  | (.ok (), b') => pure b'
  | (.error _, _) => stop .panic

/-- `cell/mod.rs:228-235` `DynCell::has_max_depth` -/
def hasMaxDepth (c : CCell) : Bool := c.desc.levelMask.toList.any fun l => c.depth l == 65535

/-- `arbitrary.rs:135-141` `check_max_depth` -/
def checked (c : CCell) : Gen CCell := if hasMaxDepth c then stop .refused else pure c

/-- `cell/builder.rs:630-641`, `arbitrary.rs:77-88`: one child, an earlier one again or a new one; `sub` makes new cells. -/
def child (sub : Gen CCell) (children : List CCell) : Gen CCell :=
  if children.length > 0 then do
    let j ← intIn 0 children.length
    if 1 ≤ j then
      match children[j - 1]? with
      | some c => pure c
      | none => stop .panic
    else
      let c ← sub
      checked c
  else do
    let c ← sub
    checked c

/-- `cell/builder.rs:628-647`, `arbitrary.rs:75-94`: the loop over the children; the first argument is the number of
children that are still missing. -/
def addChildren (sub : Gen CCell) : Nat → List CCell → CellB CCell → Gen (CellB CCell)
  | 0, _, b => pure b
  | n + 1, children, b => do
    let c ← child sub children
    let b ← store (Wr.ref c) b
    addChildren sub n (children ++ [c]) b

/-- `cell/builder.rs:620-650`, `arbitrary.rs:68-97` -/
def ordinary (sub : Gen CCell) : Gen (CellB CCell) := do
  let n ← intIn 0 1023
  let r ← intIn 0 4
  let d ← bytes ((n + 7) / 8)
  let b ← store (Wr.raw d n) CellB.new
  addChildren sub r [] b

/-- `cell/builder.rs:667-669`: the depths of a pruned branch. -/
def addDepths : Nat → CellB CCell → Gen (CellB CCell)
  | 0, b => pure b
  | n + 1, b => do
    let d ← intIn 0 65534
    let b ← store (Wr.u16 d) b
    addDepths n b

/-- `CellBuilder::new` and `set_exotic(true)` (`cell/builder.rs:654-655`, `676-677`). -/
def newExotic : CellB CCell := { CellB.new with exotic := true }

/-- `cell/builder.rs:651-672` -/
def pruned : Gen (CellB CCell) := do
  let m ← intIn 1 7
  let b ← store (Wr.u16 (256 * 1 + (LevelMask.new (BitVec.ofNat 8 m)).toNat)) newExotic
  let k := (LevelMask.new (BitVec.ofNat 8 m)).level
  let d ← bytes (32 * k)
  let b ← store (Wr.raw d (32 * k * 8)) b
  addDepths k b

/-- `cell/builder.rs:673-681` -/
def library : Gen (CellB CCell) := do
  let d ← bytes 32
  let b ← store (Wr.u8 2) newExotic
  store (Wr.raw d 256) b

/-- `merkle/proof.rs:166-173` `MerkleProof::arbitrary` -/
def proof (sub : Gen CCell) : Gen Proof := do
  let c ← sub
  let c ← checked c
  pure ⟨c.hash 0, c.depth 0, c⟩

/-- `merkle/update.rs:111-123` `MerkleUpdate::arbitrary` -/
def update (sub : Gen CCell) : Gen Update := do
  let o ← sub
  let o ← checked o
  let n ← sub
  let n ← checked n
  pure { oldHash := o.hash 0, newHash := n.hash 0, oldDepth := o.depth 0, newDepth := n.depth 0, old := o, new := n }

/-- `cell/mod.rs:403-405` `Cell::arbitrary`, `arbitrary.rs:43-46`: `build().unwrap()`. -/
def finish (H : Hasher) (b : CellB CCell) : Gen CCell :=
  match b.build H with
  | .ok c => pure c
  | .error _ => stop .panic

/-- `cell/builder.rs:617-698` `CellBuilder::arbitrary`, with `cell/mod.rs:1073-1084` for the choice of the type. The fuel bounds the
nesting of cells. -/
def builder (H : Hasher) : Nat → Gen (CellB CCell)
  | 0 => stop .fuel
  | f + 1 =>
    let sub : Gen CCell := do
      let b ← builder H f
      finish H b
    do
    let ty ← intIn 0 4
    match ty with
    | 0 => ordinary sub
    | 1 => pruned
    | 2 => library
    | 3 =>
      let p ← proof sub
      store p.store CellB.new
    | _ =>
      let u ← update sub
      store u.store CellB.new

/-- `cell/mod.rs:403-405` `Cell::arbitrary` -/
def cell (H : Hasher) (f : Nat) : Gen CCell := do
  let b ← builder H f
  finish H b

/-- `arbitrary.rs:66-98` `OrdinaryCellBuilder::arbitrary` -/
def ordBuilder (H : Hasher) : Nat → Gen (CellB CCell)
  | 0 => stop .fuel
  | f + 1 =>
    let sub : Gen CCell := do
      let b ← ordBuilder H f
      finish H b
    ordinary sub

/-- `arbitrary.rs:41-50` `OrdinaryCell::arbitrary` -/
def ordCell (H : Hasher) (f : Nat) : Gen CCell := do
  let b ← ordBuilder H f
  finish H b

/-! ### Specification -/

mutual
/-- Every Merkle cell of the tree names the hash and depth its children really have at level 0. -/
def Sound (H : Hasher) : Cell → Prop
  | .mk e b rs => (∀ c, rs = [c] → typeOf e b = some .merkleProof →
        b = natBits 8 3 ++ (bytesToBits ((c.info H).hash 0) ++ natBits 16 ((c.info H).depth 0))) ∧
      (∀ o n, rs = [o, n] → typeOf e b = some .merkleUpdate →
        b = natBits 8 4 ++ (bytesToBits ((o.info H).hash 0) ++ (bytesToBits ((n.info H).hash 0) ++
          (natBits 16 ((o.info H).depth 0) ++ natBits 16 ((n.info H).depth 0))))) ∧
      SoundList H rs
def SoundList (H : Hasher) : List Cell → Prop
  | [] => True
  | c :: cs => Sound H c ∧ SoundList H cs
end

mutual
/-- No cell of the tree is exotic. -/
def Plain : Cell → Prop
  | .mk e _ rs => e = false ∧ PlainList rs
def PlainList : List Cell → Prop
  | [] => True
  | c :: cs => Plain c ∧ PlainList cs
end

end Verif.Arb
