import Verif.DictTrie
/-
Model of the dictionary operations on raw dictionaries (`dict/mod.rs`, `dict/ops/get.rs`, `insert.rs`, `remove.rs`).

* A dictionary is an `Option Cell` (its root); cells are content trees, slices are `Sl`.
* The context is the default one for loading (a cell is loaded as it is) and an arbitrary predicate `acc` for building:
  `builder.build_ext(context)` succeeds exactly on accepted cells. For the default context that is `Cell.WF` (C10).
* A value is whatever `Store` writes; here it is written as one slice.
* A function on `&mut Option<Cell>` returns its result together with the dictionary it leaves behind, also on errors.
* Loops over a path carry fuel; the top-level functions give one unit more than there are key bits, and every
  iteration that continues takes at least one bit from the key, so the fuel is never used up on a proper run.
-/
set_option linter.unusedVariables false
set_option linter.unusedSimpArgs false
namespace Verif

/-- `DynCell::as_slice` (`cell/mod.rs`): refuses exotic cells. -/
def asSlice (c : Cell) : Except Err Sl :=
  if c.exotic then .error .unexpectedExoticCell else .ok ⟨c.bits, c.refs⟩

/-- `CellBuilder::build_ext` in a context that accepts the cells `acc` (the builder is within its limits already). -/
def buildSl (acc : Cell → Bool) (b : Sl) : Except Err Cell :=
  if acc (.mk false b.bits b.refs) then .ok (.mk false b.bits b.refs) else .error .depthOverflow

/-- `SetMode` (`dict/mod.rs:236-245`) -/
inductive SetMode
  | set | replace | add
  deriving DecidableEq, Repr

/-- `dict/mod.rs:249-252` -/
def SetMode.canReplace : SetMode → Bool
  | .set | .replace => true
  | .add => false

/-- `dict/mod.rs:255-259` -/
def SetMode.canAdd : SetMode → Bool
  | .set | .add => true
  | .replace => false

/-- `dict/mod.rs:272-282` `make_leaf` -/
def makeLeaf (acc : Cell → Bool) (key : Bits) (n : Nat) (v : Sl) : Except Err Cell := do
  let b ← writeLabel key n .empty
  let b ← b.storeSlice v
  buildSl acc b

/-- The fork part of `split_edge` (`dict/mod.rs:327-332`). -/
def makeFork (acc : Cell → Bool) (key : Bits) (n : Nat) (l r : Cell) : Except Err Cell := do
  let b ← writeLabel key n .empty
  let b ← b.storeRef l
  let b ← b.storeRef r
  buildSl acc b

/-- `dict/mod.rs:300-333` `split_edge`; `lcp` is the length of the common prefix of `key` and `pfx`. -/
def splitEdge (acc : Cell → Bool) (data : Sl) (pfx : Bits) (lcp : Nat) (key : Bits) (v : Sl) : Except Err Cell :=
  if key.length < lcp + 1 then .error .cellUnderflow
  else
    let key' := key.drop (lcp + 1)
    match pfx.drop lcp with
    | [] => .error .cellUnderflow
    | oldToRight :: pfx' => do
      let left ← makeLeaf acc pfx' key'.length data
      let right ← makeLeaf acc key' key'.length v
      if oldToRight then makeFork acc (key.take lcp) key.length right left
      else makeFork acc (key.take lcp) key.length left right

/-- `Segment` (`dict/mod.rs:528-532`) -/
structure Seg where
  data : Cell
  right : Bool
  keyLen : Nat

/-- One iteration of `rebuild_dict_from_stack` (`dict/mod.rs:453-471`): the bits of the old fork with the new branch
and the old opposite one. -/
def rebuildOne (acc : Cell → Bool) (s : Seg) (leaf : Cell) : Except Err Cell :=
  match s.data.refs[if s.right then 0 else 1]? with
  | none => .error .cellUnderflow
  | some opp => do
    let b ← Sl.empty.storeBits s.data.bits
    let b ← b.storeRef (if s.right then opp else leaf)
    let b ← b.storeRef (if s.right then leaf else opp)
    buildSl acc b

/-- `dict/mod.rs:447-474` `rebuild_dict_from_stack`; the top of the stack is the head of the list. -/
def rebuild (acc : Cell → Bool) : List Seg → Cell → Except Err Cell
  | [], leaf => .ok leaf
  | s :: stack, leaf => do
    let leaf ← rebuildOne acc s leaf
    rebuild acc stack leaf

/-! ### Lookup -/

/-- The loop of `dict_get` (`dict/ops/get.rs:26-52`). -/
def dictGetGo : Nat → Bits → Cell → Except Err (Option Sl)
  | 0, _, _ => .error .fault
  | fuel + 1, key, c => do
    let data ← asSlice c
    let (pfx, data) ← readLabel data key.length
    match stripPrefix pfx key with
    | none => if key = [] then .ok (some data) else .ok none
    | some [] => .ok (some data)
    | some (bit :: key') =>
      if data.refs.length < 2 then .ok none
      else match c.refs[bit.toNat]? with
        | none => .error .cellUnderflow
        | some child => dictGetGo fuel key' child

/-- `dict/ops/get.rs:6-56` `dict_get` and `59-123` `dict_get_owned` (which walks in the same way and returns the value
as a range of its cell). -/
def dictGet (dict : Option Cell) (n : Nat) (key : Bits) : Except Err (Option Sl) :=
  if key.length ≠ n then .error .cellUnderflow
  else match dict with
    | none => .ok none
    | some root => dictGetGo (n + 1) key root

/-! ### Insertion -/

/-- How the search loop of an insertion ends. -/
inductive InsOut
  | stop (old : Option Sl)                                   -- refused by the mode
  | found (leaf : Cell) (old : Option Sl) (stack : List Seg)    -- the new node and the way up

/-- The loop of `dict_insert` (`dict/ops/insert.rs:36-106`) and `dict_insert_owned` (`279-354`). -/
def dictInsertGo (acc : Cell → Bool) (mode : SetMode) (v : Sl) : Nat → Bits → Cell → List Seg → Except Err InsOut
  | 0, _, _, _ => .error .fault
  | fuel + 1, key, data, stack => do
    let rem ← asSlice data
    let (pfx, rem) ← readLabel rem key.length
    let lcp := commonPrefixLen key pfx
    if lcp = key.length then
      if mode.canReplace = false then .ok (.stop (some rem))
      else do
        let leaf ← makeLeaf acc pfx key.length v
        .ok (.found leaf (some rem) stack)
    else if lcp < pfx.length then
      if mode.canAdd = false then .ok (.stop none)
      else do
        let leaf ← splitEdge acc rem pfx lcp key v
        .ok (.found leaf none stack)
    else if data.refs.length < 2 then .error .cellUnderflow
    else match key.drop lcp with
      | [] => .error .cellUnderflow
      | bit :: key' => match data.refs[bit.toNat]? with
        | none => .error .cellUnderflow
        | some child => dictInsertGo acc mode v fuel key' child (⟨data, bit, key.length⟩ :: stack)

/-- The result and the dictionary left behind by an operation on `&mut Option<Cell>`. -/
abbrev DictRes (α : Type) := Except Err α × Option Cell

/-- `dict/ops/insert.rs:238-376` `dict_insert_owned`: the flag and the previous value. -/
def dictInsertOwned (acc : Cell → Bool) (dict : Option Cell) (key : Bits) (n : Nat) (v : Sl) (mode : SetMode) :
    DictRes (Bool × Option Sl) :=
  if key.length ≠ n then (.error .cellUnderflow, dict)
  else match dict with
    | none =>
      if mode.canAdd then
        match makeLeaf acc key n v with
        | .error e => (.error e, none)
        | .ok c => (.ok (true, none), some c)
      else (.ok (false, none), none)
    | some root =>
      match dictInsertGo acc mode v (n + 1) key root [] with
      | .error e => (.error e, dict)
      | .ok (.stop old) => (.ok (false, old), dict)
      | .ok (.found leaf old stack) => match rebuild acc stack leaf with
        | .error e => (.error e, dict)
        | .ok c => (.ok (true, old), some c)

/-- `dict/ops/insert.rs:10-110` `dict_insert`: the same walk without the previous value. -/
def dictInsert (acc : Cell → Bool) (dict : Option Cell) (key : Bits) (n : Nat) (v : Sl) (mode : SetMode) : DictRes Bool :=
  if key.length ≠ n then (.error .cellUnderflow, dict)
  else match dict with
    | none =>
      if mode.canAdd then
        match makeLeaf acc key n v with
        | .error e => (.error e, none)
        | .ok c => (.ok true, some c)
      else (.ok false, none)
    | some root =>
      match dictInsertGo acc mode v (n + 1) key root [] with
      | .error e => (.error e, dict)
      | .ok (.stop old) => (.ok false, dict)
      | .ok (.found leaf old stack) => match rebuild acc stack leaf with
        | .error e => (.error e, dict)
        | .ok c => (.ok true, some c)

/-! ### Removal -/

/-- What `dict_find_value_to_remove` returns: the stack, the value, the remaining key (the caller's `&mut` key) and
`prev_key_bit_len`. -/
structure RemOut where
  stack : List Seg
  value : Sl
  key : Bits
  prev : Nat

/-- `dict/ops/remove.rs:83-146` `dict_find_value_to_remove`. -/
def dictFindRemove : Nat → Bits → Cell → List Seg → Nat → Except Err (Option RemOut)
  | 0, _, _, _, _ => .error .fault
  | fuel + 1, key, data, stack, prev => do
    let rem ← asSlice data
    let (pfx, rem) ← readLabel rem key.length
    let lcp := commonPrefixLen key pfx
    if lcp = key.length then .ok (some ⟨stack, rem, key, prev⟩)
    else if lcp < pfx.length then .ok none
    else if data.refs.length < 2 then .error .cellUnderflow
    else match key.drop lcp with
      | [] => .error .cellUnderflow
      | bit :: key' => match data.refs[bit.toNat]? with
        | none => .error .cellUnderflow
        | some child => dictFindRemove fuel key' child (⟨data, bit, key.length⟩ :: stack) key.length

/-- `dict/mod.rs:536-581` `Segment::rebuild_as_removed` without the returned value: the fork and the remaining branch
become one node. -/
def rebuildRemoved (acc : Cell → Bool) (s : Seg) (keyLen prev : Nat) : Except Err Cell := do
  let (pfx, _) ← readLabel ⟨s.data.bits, s.data.refs⟩ prev
  match s.data.refs[if s.right then 0 else 1]? with
  | none => .error .cellUnderflow
  | some opp =>
    let oppS ← asSlice opp
    let (rem, oppS) ← readLabel oppS keyLen
    let b ← writeLabelParts pfx (!s.right) rem prev .empty
    let b ← b.storeSlice oppS
    buildSl acc b

/-- `dict/ops/remove.rs:10-42` `dict_remove_owned`. -/
def dictRemoveOwned (acc : Cell → Bool) (dict : Option Cell) (key : Bits) (n : Nat) (allowSubtree : Bool) : DictRes (Option Sl) :=
  if allowSubtree = false ∧ key.length ≠ n then (.error .cellUnderflow, dict)
  else match dict with
    | none => (.ok none, none)
    | some root => match dictFindRemove (key.length + 1) key root [] key.length with
      | .error e => (.error e, dict)
      | .ok none => (.ok none, dict)
      | .ok (some r) => match r.stack with
        | [] => (.ok (some r.value), none)
        | s :: stack => match rebuildRemoved acc s r.key.length r.prev with
          | .error e => (.error e, dict)
          | .ok leaf => match rebuild acc stack leaf with
            | .error e => (.error e, dict)
            | .ok c => (.ok (some r.value), some c)

end Verif
