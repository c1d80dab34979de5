import Verif.DictFind
import Verif.Slice
/-
Model of the iterators over raw dictionaries (`dict/raw.rs:627-1466`). Stacks have their top first. The offset of a
slice inside its cell is the difference of their lengths. Where an iterator fails it becomes broken and its other
fields are never read again, so the model keeps the old ones.
-/
set_option linter.unusedVariables false
set_option linter.unusedSimpArgs false
namespace Verif

/-- `IterStatus` (`util.rs`). -/
inductive IterStatus
  | valid | unexpectedCell | broken
  deriving DecidableEq, Repr

/-- `IterSegment` (`dict/raw.rs:929-934`): the cell, what is left of it, the key bits left and the label once read. -/
structure IterSeg where
  cell : Cell
  data : Sl
  remaining : Nat
  pfx : Option Bits

/-- `CellSlice::offset_refs` -/
def IterSeg.off (g : IterSeg) : Nat := g.cell.refs.length - g.data.refs.length

/-- `CellDataBuilder::rewind_bits` on a key. -/
def rewindKey (k : Nat) (b : Bits) : Except Err Bits :=
  if b.length < k then .error .cellUnderflow else .ok (b.take (b.length - k))

/-- The part of `RawIter::next` after a segment was chosen (`dict/raw.rs:874-912`), when it is not the last step:
either a key and its value, or the segment with its label. -/
inductive ReadOut
  | value (key : Bits) (v : Sl)
  | node (seg : IterSeg) (builder : Bits)

def iterRead (seg : IterSeg) (builder : Bits) : Except Err ReadOut := do
  let (pfx, data) ← readLabel seg.data seg.remaining
  if seg.remaining < pfx.length then .error .cellUnderflow
  else if seg.remaining = pfx.length then do
    let key ← pushBits builder pfx
    .ok (.value key data)
  else if data.refs.length < 2 then .error .cellUnderflow
  else do
    let b ← pushBits builder pfx
    .ok (.node ⟨seg.cell, data, seg.remaining - pfx.length - 1, some pfx⟩ b)

/-- The state of the loops of `RawIter::next`. -/
abbrev IterRes := Except Err (Option (Bits × Sl) × List IterSeg × Bits)

/-- What follows reading a segment: return, or go on with the outer loop (`continue`). -/
def iterAfter (go : List IterSeg → Bits → IterRes) (rest : List IterSeg) (builder : Bits) : ReadOut → IterRes
  | .value key v => do
    let b ← rewindKey (!rest.isEmpty).toNat builder
    .ok (some (key, v), rest, b)
  | .node seg b => go (seg :: rest) b

/-- `next_impl` of `RawIter` (`dict/raw.rs:826-913`), both loops. -/
def iterGo (rev signed : Bool) : Nat → List IterSeg → Bits → Nat → IterRes
  | 0, _, _, _ => .error .fault
  | fuel + 1, [], builder, toRewind => .ok (none, [], builder)
  | fuel + 1, seg :: rest, builder, toRewind =>
    match seg.pfx with
    | none => do
      let r ← iterRead seg builder
      iterAfter (fun st b => iterGo rev signed fuel st b 0) rest builder r
    | some pfx =>
      if seg.off < 2 then
        let nextBit := decide (seg.off ≠ 0) ^^ rev ^^ (signed && rest.isEmpty && pfx.isEmpty)
        match seg.cell.refs[nextBit.toNat]? with
        | none => .error .cellUnderflow
        | some child => do
          let data ← asSlice child
          let b ← rewindKey toRewind builder
          let b ← pushBits b [nextBit]
          let r ← iterRead ⟨child, data, seg.remaining, none⟩ b
          iterAfter (fun st b => iterGo rev signed fuel st b 0) ({ seg with data := ⟨seg.data.bits, seg.data.refs.drop 1⟩ } :: rest) b r
      else iterGo rev signed fuel rest builder (toRewind + pfx.length + (!rest.isEmpty).toNat)

/-- `RawIter` (`dict/raw.rs:694-701`). -/
structure RawIter where
  segments : List IterSeg
  status : IterStatus
  builder : Bits
  reversed : Bool
  signed : Bool

/-- `dict/raw.rs:710-740` `RawIter::new_ext`. -/
def RawIter.new (root : Option Cell) (n : Nat) (reversed signed : Bool) : RawIter :=
  match root with
  | none => ⟨[], .valid, [], reversed, signed⟩
  | some c => match asSlice c with
    | .error _ => ⟨[], .unexpectedCell, [], reversed, signed⟩
    | .ok data => ⟨[⟨c, data, n, none⟩], .valid, [], reversed, signed⟩

/-- Enough for every run: each step takes a segment away or goes down a branch. -/
def iterFuel (st : List IterSeg) : Nat := st.length + (st.map (·.remaining)).sum + 3

/-- `dict/raw.rs:816-925` `RawIter::next`. -/
def RawIter.next (it : RawIter) : Option (Except Err (Bits × Sl)) × RawIter :=
  match it.status with
  | .unexpectedCell => (some (.error .unexpectedExoticCell), { it with status := .broken })
  | .broken => (none, it)
  | .valid => match iterGo it.reversed it.signed (iterFuel it.segments) it.segments it.builder 0 with
    | .error e => (some (.error e), { it with status := .broken })
    | .ok (none, st, b) => (none, { it with segments := st, builder := b })
    | .ok (some p, st, b) => (some (.ok p), { it with segments := st, builder := b })

/-- The parent cell in `RawIter::next_owned` (`dict/raw.rs:772-804`). -/
def RawIter.parent (it : RawIter) (root : Cell) : Except Err Cell :=
  match it.segments with
  | [] => .ok root
  | seg :: rest =>
    let nextBit := decide (seg.off ≠ 1) ^^ it.reversed ^^ (it.signed && rest.isEmpty && (seg.pfx.getD []).isEmpty)
    match seg.cell.refs[nextBit.toNat]? with
    | none => .error .cellUnderflow
    | some c => .ok c

/-- `dict/raw.rs:768-804` `RawIter::next_owned` (and `RawOwnedIter::next`, `680-682`): the value as a slice and the
cell it is a part of. -/
def RawIter.nextOwned (it : RawIter) (root : Cell) : Option (Except Err (Bits × Sl × Cell)) × RawIter :=
  match it.next with
  | (none, it) => (none, it)
  | (some (.error e), it) => (some (.error e), it)
  | (some (.ok (k, v)), it) => match it.parent root with
    | .error e => (some (.error e), { it with status := .broken })
    | .ok c => (some (.ok (k, v, c)), it)

/-- Calling an iterator up to `k` times, until it returns nothing. -/
def runIter {σ α : Type} (next : σ → Option α × σ) : Nat → σ → List α
  | 0, _ => []
  | k + 1, it => match next it with
    | (none, _) => []
    | (some x, it') => x :: runIter next k it'

/-! ### Values -/

/-- `ValuesSegment` (`dict/raw.rs:1456-1460`). -/
structure ValSeg where
  cell : Cell
  data : Sl
  remaining : Nat

def ValSeg.off (g : ValSeg) : Nat := g.cell.refs.length - g.data.refs.length

inductive ValOut
  | value (v : Sl)
  | node (seg : ValSeg)

/-- `dict/raw.rs:1416-1440`: reading the chosen segment. -/
def valRead (seg : ValSeg) : Except Err ValOut := do
  let (pfx, data) ← readLabel seg.data seg.remaining
  if seg.remaining < pfx.length then .error .cellUnderflow
  else if seg.remaining = pfx.length then .ok (.value data)
  else if data.refs.length < 2 then .error .cellUnderflow
  else .ok (.node ⟨seg.cell, data, seg.remaining - pfx.length - 1⟩)

abbrev ValRes := Except Err (Option Sl × List ValSeg)

def valAfter (go : List ValSeg → ValRes) (rest : List ValSeg) : ValOut → ValRes
  | .value v => .ok (some v, rest)
  | .node seg => go (seg :: rest)

/-- `next_impl` of `RawValues` (`dict/raw.rs:1384-1447`). A segment is fresh while its slice is at offset 0. The branch
order at the root is turned around for signed keys if the slice has no data left (not: if the label is empty). -/
def valGo (rev signed : Bool) : Nat → List ValSeg → ValRes
  | 0, _ => .error .fault
  | fuel + 1, [] => .ok (none, [])
  | fuel + 1, seg :: rest =>
    if seg.cell.bits.length - seg.data.bits.length = 0 then do
      let r ← valRead seg
      valAfter (valGo rev signed fuel) rest r
    else if seg.off < 2 then
      let nextBit := decide (seg.off ≠ 0) ^^ rev ^^ (signed && rest.isEmpty && seg.data.bits.isEmpty)
      match seg.cell.refs[nextBit.toNat]? with
      | none => .error .cellUnderflow
      | some child => do
        let data ← asSlice child
        let r ← valRead ⟨child, data, seg.remaining⟩
        valAfter (valGo rev signed fuel) ({ seg with data := ⟨seg.data.bits, seg.data.refs.drop 1⟩ } :: rest) r
    else valGo rev signed fuel rest

/-- `RawValues` (`dict/raw.rs:1299-1304`). -/
structure RawValues where
  segments : List ValSeg
  status : IterStatus
  reversed : Bool
  signed : Bool

/-- `dict/raw.rs:1313-1336` `RawValues::new_ext`. -/
def RawValues.new (root : Option Cell) (n : Nat) (reversed signed : Bool) : RawValues :=
  match root with
  | none => ⟨[], .valid, reversed, signed⟩
  | some c => match asSlice c with
    | .error _ => ⟨[], .unexpectedCell, reversed, signed⟩
    | .ok data => ⟨[⟨c, data, n⟩], .valid, reversed, signed⟩

def valFuel (st : List ValSeg) : Nat := st.length + (st.map (·.remaining)).sum + 3

/-- `dict/raw.rs:1367-1453` `RawValues::next`. -/
def RawValues.next (it : RawValues) : Option (Except Err Sl) × RawValues :=
  match it.status with
  | .unexpectedCell => (some (.error .unexpectedExoticCell), { it with status := .broken })
  | .broken => (none, it)
  | .valid => match valGo it.reversed it.signed (valFuel it.segments) it.segments with
    | .error e => (some (.error e), { it with status := .broken })
    | .ok (none, st) => (none, { it with segments := st })
    | .ok (some v, st) => (some (.ok v), { it with segments := st })

/-- The parent cell in `RawOwnedValues::next` (`dict/raw.rs:1265-1281`): the reference before the offset, whatever the
direction. -/
def RawValues.parent (it : RawValues) (root : Cell) : Except Err Cell :=
  match it.segments with
  | [] => .ok root
  | seg :: rest => match seg.cell.refs[seg.off - 1]? with
    | none => .error .cellUnderflow
    | some c => .ok c

/-- `dict/raw.rs:1262-1286` `RawOwnedValues::next`: the slice, and the cell that is returned with its range. -/
def RawValues.nextOwned (it : RawValues) (root : Cell) : Option (Except Err (Sl × Cell)) × RawValues :=
  match it.next with
  | (none, it) => (none, it)
  | (some (.error e), it) => (some (.error e), it)
  | (some (.ok v), it) => match it.parent root with
    | .error e => (some (.error e), { it with status := .broken })
    | .ok c => (some (.ok (v, c)), it)

/-! ### Union -/

/-- `UnionRawIter` (`dict/raw.rs:944-951`). -/
structure UnionIter where
  left : RawIter
  leftPeeked : Option (Bits × Sl)
  leftFinished : Bool
  right : RawIter
  rightPeeked : Option (Bits × Sl)
  rightFinished : Bool

/-- `dict/raw.rs:961-977` `UnionRawIter::new_ext`. -/
def UnionIter.new (l r : Option Cell) (n : Nat) (reversed signed : Bool) : UnionIter :=
  ⟨RawIter.new l n reversed signed, none, false, RawIter.new r n reversed signed, none, false⟩

/-- `dict/raw.rs:1013-1031` `UnionRawIter::peek`: the peeked entry, or the error, and the new state of the side. -/
def unionPeek (it : RawIter) (finished : Bool) (peeked : Option (Bits × Sl)) :
    Except Err (Option (Bits × Sl)) × RawIter × Bool × Option (Bits × Sl) :=
  if finished = false ∧ peeked = none then
    match it.next with
    | (some (.ok p), it) => (.ok (some p), it, finished, some p)
    | (some (.error e), it) => (.error e, it, true, peeked)
    | (none, it) => (.ok peeked, it, true, peeked)
  else (.ok peeked, it, finished, peeked)

/-- The comparison in `UnionRawIter::next` (`dict/raw.rs:1085-1104`); `CellSlice::lex_cmp` is `lexBits` (C04). -/
def unionCmp (reversed signed : Bool) (l r : Bits) : Ordering :=
  let rev := if signed then reversed ^^ ((l.head?.getD false) != (r.head?.getD false)) else reversed
  if rev then (lexBits l r).swap else lexBits l r

abbrev UnionItem := Bits × Option Sl × Option Sl

def UnionIter.finish (it : UnionIter) : UnionIter :=
  { it with left := { it.left with status := .broken }, right := { it.right with status := .broken } }

/-- `dict/raw.rs:1044-1132` `UnionRawIter::next`. -/
def UnionIter.next (it : UnionIter) : Option (Except Err UnionItem) × UnionIter :=
  if it.left.status ≠ .valid ∨ it.right.status ≠ .valid then
    if it.left.status ≠ .unexpectedCell ∧ it.right.status ≠ .unexpectedCell then (none, it)
    else (some (.error .unexpectedExoticCell), it.finish)
  else
    let reversed := it.left.reversed
    let signed := it.left.signed
    match unionPeek it.left it.leftFinished it.leftPeeked with
    | (.error e, l, lf, lp) => (some (.error e), UnionIter.finish { it with left := l, leftFinished := lf, leftPeeked := lp })
    | (.ok lv, l, lf, lp) =>
      match unionPeek it.right it.rightFinished it.rightPeeked with
      | (.error e, r, rf, rp) => (some (.error e), UnionIter.finish ⟨l, lp, lf, r, rp, rf⟩)
      | (.ok rv, r, rf, rp) => match lv, rv with
        | none, none => (none, ⟨l, lp, lf, r, rp, rf⟩)
        | some (k, v), none => (some (.ok (k, some v, none)), ⟨l, none, lf, r, rp, rf⟩)
        | none, some (k, v) => (some (.ok (k, none, some v)), ⟨l, lp, lf, r, none, rf⟩)
        | some (lk, lv), some (rk, rv) => match unionCmp reversed signed lk rk with
          | .lt => (some (.ok (lk, some lv, none)), ⟨l, none, lf, r, rp, rf⟩)
          | .gt => (some (.ok (rk, none, some rv)), ⟨l, lp, lf, r, none, rf⟩)
          | .eq => (some (.ok (lk, some lv, some rv)), ⟨l, none, lf, r, none, rf⟩)

end Verif
