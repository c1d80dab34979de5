import Verif.Dict
/-
Model of bound lookup and removal and of neighbour lookup (`dict/ops/find.rs`, `dict/ops/remove.rs`, `dict/mod.rs:387-413`).
A branch is its bit (`Branch::into_bit`, left = `false`). `DictBound` is given as `max : Bool`. The functions with
owned results walk in the same way and return the value as a range of its cell; here the value itself is returned.
-/
set_option linter.unusedVariables false
set_option linter.unusedSimpArgs false
namespace Verif

/-- `CellDataBuilder::store_slice_data` / `store_bit` on a key under construction. -/
def pushBits (key b : Bits) : Except Err Bits :=
  if key.length + b.length ≤ 1023 then .ok (key ++ b) else .error .cellOverflow

/-- `DictBound::update_direction` (`dict/mod.rs:395-413`): the branch to take and the stored direction. -/
def updateDirection (max signed : Bool) (pfx : Bits) : Option Bool → Bool × Option Bool
  | none => (if signed && pfx.isEmpty then !max else max, some max)
  | some d => (d, some d)

/-- The end of a walk towards a bound. -/
structure BoundOut where
  stack : List Seg
  value : Sl
  key : Bits
  keyLen : Nat
  prev : Nat

/-- The loop of `dict_find_bound` (`dict/ops/find.rs:234-259`), of `dict_find_bound_owned` (`283-313`), of
`dict_remove_bound_owned` (`dict/ops/remove.rs:172-208`) and the final loop of `dict_find_owned` (`find.rs:174-201`,
with a direction given from the start). Only the removal uses the stack and the previous length. -/
def boundGo (max signed : Bool) : Nat → Option Bool → Nat → Cell → Bits → List Seg → Nat → Except Err BoundOut
  | 0, _, _, _, _, _, _ => .error .fault
  | fuel + 1, dir, n, c, key, stack, prev => do
    let data ← asSlice c
    let (pfx, data) ← readLabel data n
    let key ← pushBits key pfx
    if n < pfx.length then .error .cellUnderflow
    else if n = pfx.length then .ok ⟨stack, data, key, n, prev⟩
    else if data.refs.length < 2 then .error .cellUnderflow
    else
      let (branch, dir) := updateDirection max signed pfx dir
      let key ← pushBits key [branch]
      match c.refs[branch.toNat]? with
      | none => .error .cellUnderflow
      | some child => boundGo max signed fuel dir (n - pfx.length - 1) child key (⟨c, branch, 0⟩ :: stack) n

/-- `dict/ops/find.rs:216-266` `dict_find_bound` and `265-325` `dict_find_bound_owned`. -/
def dictFindBound (dict : Option Cell) (n : Nat) (max signed : Bool) : Except Err (Option (Bits × Sl)) :=
  match dict with
  | none => .ok none
  | some root => (boundGo max signed (n + 1) none n root [] [] n).map (fun r => some (r.key, r.value))

/-- `dict/ops/remove.rs:149-258` `dict_remove_bound_owned`. -/
def dictRemoveBound (acc : Cell → Bool) (dict : Option Cell) (n : Nat) (max signed : Bool) : DictRes (Option (Bits × Sl)) :=
  match dict with
  | none => (.ok none, none)
  | some root => match boundGo max signed (n + 1) none n root [] [] n with
    | .error e => (.error e, dict)
    | .ok r => match r.stack with
      | [] => (.ok (some (r.key, r.value)), none)
      | s :: stack => match rebuildRemoved acc s r.keyLen r.prev with
        | .error e => (.error e, dict)
        | .ok leaf => match rebuild acc stack leaf with
          | .error e => (.error e, dict)
          | .ok c => (.ok (some (r.key, r.value)), some c)

/-! ### Neighbours -/

/-- How the search for the key ends (`find.rs:22-25` and the loop variables). -/
inductive FindLeaf
  | value (v : Sl)
  | divergence (branch : Bool)

structure FindOut where
  leaf : FindLeaf
  key : Bits          -- what is left of the key
  data : Cell
  stack : List Seg

/-- The first loop of `dict_find_owned` (`dict/ops/find.rs:40-93`). The key length in a segment is what is left below
the branch. -/
def findGo (signed : Bool) : Nat → Bits → Cell → List Seg → Except Err FindOut
  | 0, _, _, _ => .error .fault
  | fuel + 1, key, data, stack => do
    let rem ← asSlice data
    let (pfx, rem) ← readLabel rem key.length
    let lcp := commonPrefixLen key pfx
    if lcp = key.length then .ok ⟨.value rem, key, data, stack⟩
    else if lcp < pfx.length then
      match key.drop lcp with
      | [] => .error .cellUnderflow
      | bit :: _ =>
        .ok ⟨.divergence (if signed && stack.isEmpty && decide (lcp = 0) then !bit else bit), key, data, stack⟩
    else if data.refs.length < 2 then .error .cellUnderflow
    else match key.drop lcp with
      | [] => .error .cellUnderflow
      | bit :: key' => match data.refs[bit.toNat]? with
        | none => .error .cellUnderflow
        | some child => findGo signed fuel key' child (⟨data, bit, key'.length⟩ :: stack)

/-- Where the final search starts: the cell, the key bits left, the prefix of the original key and the first branch. -/
structure FindStart where
  data : Cell
  remaining : Nat
  prefixLen : Nat
  firstBranch : Option Bool

/-- The rewinding loop (`dict/ops/find.rs:130-154`). -/
def findRewind (signed revDir : Bool) (n : Nat) : List Seg → Option FindStart
  | [] => none
  | s :: stack =>
    let prefixLen := n - s.keyLen
    let signedRoot := signed && decide (prefixLen = 1)
    if signedRoot = true ∧ s.right ≠ revDir then some ⟨s.data, s.keyLen, prefixLen - 1, some revDir⟩
    else if signedRoot = false ∧ s.right = revDir then some ⟨s.data, s.keyLen, prefixLen - 1, some (!revDir)⟩
    else findRewind signed revDir n stack

/-- The final search (`dict/ops/find.rs:157-212`). -/
def findFinish (orig : Bits) (revDir : Bool) (st : FindStart) : Except Err (Option (Bits × Sl)) := do
  let key ← pushBits [] (orig.take st.prefixLen)
  match st.firstBranch with
  | none =>
    let r ← boundGo revDir false (st.remaining + 1) (some revDir) st.remaining st.data key [] st.remaining
    .ok (some (r.key, r.value))
  | some branch =>
    let key ← pushBits key [branch]
    match st.data.refs[branch.toNat]? with
    | none => .error .cellUnderflow
    | some child =>
      let r ← boundGo revDir false (st.remaining + 1) (some revDir) st.remaining child key [] st.remaining
      .ok (some (r.key, r.value))

/-- Rewinding and the final search after the first loop (`dict/ops/find.rs:96-212`). -/
def findRest (orig : Bits) (n : Nat) (max inclusive signed : Bool) (r : FindOut) : Except Err (Option (Bits × Sl)) :=
  match r.leaf with
  | .value v =>
    if inclusive then (pushBits [] orig).map (fun k => some (k, v))
    else match findRewind signed (!max) n r.stack with
      | none => .ok none
      | some st => findFinish orig (!max) st
  | .divergence branch =>
    if branch = (!max) then findFinish orig (!max) ⟨r.data, r.key.length, n - r.key.length, none⟩
    else match findRewind signed (!max) n r.stack with
      | none => .ok none
      | some st => findFinish orig (!max) st

/-- `dict/ops/find.rs:8-213` `dict_find_owned`: the neighbour of a key towards the maximum (`max`) or the minimum. -/
def dictFind (dict : Option Cell) (n : Nat) (key : Bits) (max inclusive signed : Bool) : Except Err (Option (Bits × Sl)) :=
  if key.length ≠ n then .error .cellUnderflow
  else match dict with
    | none => .ok none
    | some root => do
      let r ← findGo signed (n + 1) key root []
      findRest key n max inclusive signed r

end Verif
