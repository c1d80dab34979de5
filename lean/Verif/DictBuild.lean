import Verif.Dict
/-
Model of building a dictionary from sorted entries (`dict/ops/build.rs`) and of bulk modification (`dict/ops/modify.rs`).

One model serves ordinary and augmented dictionaries: `cmp` is the extra comparator of an augmented dictionary (it
sees what follows the label, without the two branches of a fork, and yields what is stored behind the references of
the new fork) or `none`. The extra and the value of an augmented leaf are one slice. Keys are bit strings; the `Ord` of
the key type is a parameter. Arithmetic on lengths that would underflow is an explicit fault.
-/
set_option linter.unusedVariables false
set_option linter.unusedSimpArgs false
namespace Verif

/-- An extra comparator (`AugDictFn`): the extra of a fork from the contents of its branches behind the label. -/
abbrev Comparator := Option (Sl → Sl → Except Err Sl)

/-- `MergeStackItem` (`dict/ops/build.rs:270-297`); `prev` is `prev_lcp_len`. -/
inductive MItem
  | leaf (pfx : Bits) (v : Sl) (prev : Nat)
  | node (pfx : Bits) (c : Cell) (ext : Nat × Bool) (prev : Nat)
  | denorm (pfx : Bits) (c : Cell) (after : Nat) (isLeaf : Bool) (prev : Nat)

/-- `prefix_slice` (`dict/ops/build.rs:341-347`) -/
def MItem.pfx : MItem → Bits
  | .leaf p _ _ | .node p _ _ _ | .denorm p _ _ _ _ => p

/-- `prev_lcp_len` (`dict/ops/build.rs:349-355`) -/
def MItem.prev : MItem → Nat
  | .leaf _ _ p | .node _ _ _ p | .denorm _ _ _ _ p => p

/-- `CellSlice::skip_first` on a slice. -/
def Sl.skip (s : Sl) (bits refs : Nat) : Except Err Sl :=
  if s.bits.length < bits ∨ s.refs.length < refs then .error .cellUnderflow else .ok ⟨s.bits.drop bits, s.refs.drop refs⟩

/-- Label, then a slice; also the number of bits of the label. -/
def buildLabeled (acc : Cell → Bool) (label : Bits) (n : Nat) (v : Sl) : Except Err (Cell × Nat) := do
  let b ← writeLabel label n .empty
  let b' ← b.storeSlice v
  let c ← buildSl acc b'
  .ok (c, b.bits.length)

/-- The cell of an item as a branch of a fork at bit `split`, and where its extra is
(`dict/ops/build.rs:409-441`, `443-466`, `468-501` without the label of the fork, and `507-551`). -/
def MItem.branch (acc : Cell → Bool) (split n : Nat) : MItem → Except Err (Cell × Nat × Nat)
  | .leaf pfx v _ =>
    if pfx.length < split + 1 then .error .cellUnderflow
    else do
      let (c, off) ← buildLabeled acc (pfx.drop (split + 1)) n v
      .ok (c, off, 0)
  | .node _ c (off, isLeaf) _ => .ok (c, off, if isLeaf then 0 else 2)
  | .denorm pfx c after isLeaf _ =>
    if pfx.length < split + 1 then .error .cellUnderflow
    else do
      let data ← asSlice c
      let data ← data.skip after 0
      let (c, off) ← buildLabeled acc (pfx.drop (split + 1)) n data
      .ok (c, off, if isLeaf then 0 else 2)

/-- `merge_node` (`dict/ops/build.rs:177-189`, `239-266`): the references and the extra of a fork. -/
def mergeNode (cmp : Comparator) (b : Sl) (l r : Cell) (lo ro : Nat × Nat) : Except Err Sl := do
  let b ← b.storeRef l
  let b ← b.storeRef r
  match cmp with
  | none => .ok b
  | some f =>
    let ls ← asSlice l
    let ls ← ls.skip lo.1 lo.2
    let rs ← asSlice r
    let rs ← rs.skip ro.1 ro.2
    let x ← f ls rs
    b.storeSlice x

/-- `dict/ops/build.rs:384-556` `MergeStackItem::merge`. -/
def MItem.merge (cmp : Comparator) (acc : Cell → Bool) (left right : MItem) (keyOffset n : Nat) : Except Err MItem :=
  let split := right.prev
  if split < keyOffset ∨ n < split + 1 ∨ n < keyOffset then .error .fault
  else if right.pfx.length < keyOffset then .error .cellUnderflow
  else do
    let b ← writeLabel ((right.pfx.drop keyOffset).take (split - keyOffset)) (n - keyOffset) .empty
    let (rc, ro) ← right.branch acc split (n - split - 1)
    let (lc, lo) ← left.branch acc split (n - split - 1)
    let off := b.bits.length
    let b ← mergeNode cmp b lc rc lo ro
    let c ← buildSl acc b
    .ok (.node right.pfx c (off, false) left.prev)

/-- The loop of `reduce` (`dict/ops/build.rs:320-333`); the top of the stack is the head. -/
def reduceGo (cmp : Comparator) (acc : Cell → Bool) (n lcp : Nat) : List MItem → MItem → Except Err (List MItem)
  | [], right => .ok [right]
  | left :: rest, right =>
    if right.prev ≤ lcp then .ok (right :: left :: rest)
    else do
      let keyOffset := max (if rest.isEmpty then 1 else left.prev + 1) (lcp + 1)
      let right ← left.merge cmp acc right keyOffset n
      reduceGo cmp acc n lcp rest right

/-- `dict/ops/build.rs:300-339` `MergeStackItem::reduce`. -/
def reduce (cmp : Comparator) (acc : Cell → Bool) (n : Nat) (stack : List MItem) (key : Bits) : Except Err (Nat × List MItem) :=
  match stack with
  | [] => .ok (0, [])
  | last :: rest =>
    let lcp := commonPrefixLen last.pfx key
    if lcp ≤ last.prev then do
      let st ← reduceGo cmp acc n lcp rest last
      .ok (lcp, st)
    else .ok (lcp, last :: rest)

/-- The loop of `finalize` (`dict/ops/build.rs:568-576`). -/
def finalizeGo (cmp : Comparator) (acc : Cell → Bool) (n : Nat) : List MItem → MItem → Except Err MItem
  | [], result => .ok result
  | left :: rest, result => do
    let result ← left.merge cmp acc result (if rest.isEmpty then 0 else left.prev + 1) n
    finalizeGo cmp acc n rest result

/-- `dict/ops/build.rs:357-383` `MergeStackItem::build`. -/
def MItem.build (acc : Cell → Bool) (n : Nat) : MItem → Except Err Cell
  | .leaf pfx v _ => do
    let (c, _) ← buildLabeled acc pfx n v
    .ok c
  | .node _ c _ _ => .ok c
  | .denorm pfx c after _ _ => do
    let data ← asSlice c
    let data ← data.skip after 0
    makeLeaf acc pfx n data

/-- `dict/ops/build.rs:558-579` `MergeStackItem::finalize`. -/
def finalize (cmp : Comparator) (acc : Cell → Bool) (n : Nat) : List MItem → Except Err (Option Cell)
  | [] => .ok none
  | result :: stack => do
    let r ← finalizeGo cmp acc n stack result
    let c ← r.build acc n
    .ok (some c)

/-- The loop of `build_dict_from_sorted_iter` (`dict/ops/build.rs:25-56`) and of the augmented variant (`82-115`). `ord` is
the order of the key type. -/
def buildGo (cmp : Comparator) (acc : Cell → Bool) (n : Nat) (ord : Bits → Bits → Ordering) :
    List (Bits × Sl) → Option Bits → List MItem → Except Err (List MItem)
  | [], _, stack => .ok stack
  | (key, v) :: rest, prevKey, stack =>
    match prevKey.map (ord key) with
    | some .eq => buildGo cmp acc n ord rest prevKey stack
    | some .lt => .error .invalidData
    | _ => do
      let (lcp, stack) ← reduce cmp acc n stack key
      buildGo cmp acc n ord rest (some key) (.leaf key v lcp :: stack)

/-- `dict/ops/build.rs:14-60` and `69-118`. -/
def buildDict (cmp : Comparator) (acc : Cell → Bool) (n : Nat) (ord : Bits → Bits → Ordering) (entries : List (Bits × Sl)) : Except Err (Option Cell) := do
  let stack ← buildGo cmp acc n ord entries none []
  finalize cmp acc n stack

/-! ### Bulk modification -/

/-- `IterStackItem` (`dict/ops/modify.rs:346-366`); the label is kept as its bits. -/
structure IItem where
  pfx : Bits
  cell : Cell
  label : Bits
  state : Int
  flatten : Bool
  after : Nat
  remaining : Nat

/-- `dict/ops/modify.rs:376-388` `IterStackItem::load`. -/
def IItem.load (pfx : Bits) (n : Nat) (c : Cell) : Except Err IItem := do
  let data ← asSlice c
  let (label, rest) ← readLabel data n
  if n < label.length then .error .fault
  else .ok ⟨pfx, c, label, -1, false, data.bits.length - rest.bits.length, n - label.length⟩

/-- `dict/ops/modify.rs:636-661` `add_raw_leaf`. -/
def addRawLeaf (cmp : Comparator) (acc : Cell → Bool) (st : List MItem) (pfx : Bits) (c : Cell) (after : Nat) : Except Err (List MItem) := do
  let (lcp, st) ← reduce cmp acc pfx.length st pfx
  .ok (.denorm pfx c after true lcp :: st)

/-- `dict/ops/modify.rs:667-702` `add_flattened_subtree`. -/
def addFlattened (cmp : Comparator) (acc : Cell → Bool) (st : List MItem) (pfx : Bits) (n : Nat) (c : Cell) : Except Err (List MItem) := do
  let data ← asSlice c
  let (label, rest) ← readLabel data n
  let pfx' := pfx ++ label
  let (lcp, st) ← reduce cmp acc (pfx.length + n) st pfx'
  .ok (.denorm pfx' c (data.bits.length - rest.bits.length) (label.length == n) lcp :: st)

/-- `read_node_extra` (`dict/ops/build.rs:164-167`, `217-222`). -/
def readNodeExtra (cmp : Comparator) (c : Cell) (n : Nat) : Except Err (Nat × Bool) :=
  match cmp with
  | none => .ok (0, false)
  | some _ => do
    let data ← asSlice c
    let (label, rest) ← readLabel data n
    .ok (data.bits.length - rest.bits.length, label.length == n)

/-- `dict/ops/modify.rs:706-732` `add_subtree`. -/
def addSubtree (cmp : Comparator) (acc : Cell → Bool) (st : List MItem) (pfx : Bits) (n : Nat) (c : Cell) : Except Err (List MItem) := do
  let (lcp, st) ← reduce cmp acc (pfx.length + n) st pfx
  let ext ← readNodeExtra cmp c n
  .ok (.node pfx c ext lcp :: st)

/-- One iteration of the loop of `add_subtrees` (`dict/ops/modify.rs:411-441`). -/
def IItem.addChild (cmp : Comparator) (acc : Cell → Bool) (it : IItem) (flatten : Bool) (i : Nat) (st : List MItem) : Except Err (List MItem) :=
  match it.cell.refs[i]? with
  | none => .error .cellUnderflow
  | some c =>
    let pfx := it.pfx ++ it.label ++ [i != 0]
    if flatten || it.flatten then addFlattened cmp acc st pfx (it.remaining - 1) c
    else addSubtree cmp acc st pfx (it.remaining - 1) c

/-- `dict/ops/modify.rs:390-444` `add_subtrees` (`until` is -1, 0 or 1). -/
def IItem.addSubtrees (cmp : Comparator) (acc : Cell → Bool) (it : IItem) (until_ : Int) (flatten : Bool) (st : List MItem) : Except Err (List MItem) :=
  if it.remaining = 0 then addRawLeaf cmp acc st (it.pfx ++ it.label) it.cell it.after
  else do
    let st ← if it.state < 0 ∧ 0 ≤ until_ then it.addChild cmp acc flatten 0 st else .ok st
    if it.state < 1 ∧ 1 ≤ until_ then it.addChild cmp acc flatten 1 st else .ok st

inductive Seek
  | notFound (rest : Bits)
  | found

/-- `dict/ops/modify.rs:542-595` `do_seek`; the fuel is the length of the key plus one. -/
def doSeek (cmp : Comparator) (acc : Cell → Bool) (beforeRemove : Bool) : Nat → List IItem → Bits → List MItem → Except Err (Seek × List IItem × List MItem)
  | 0, _, _, _ => .error .fault
  | _ + 1, [], _, _ => .error .fault
  | fuel + 1, it :: stack, key, st =>
    match stripPrefix it.label key with
    | none => .ok (.notFound key, it :: stack, st)
    | some [] => .ok (.found, it :: stack, st)
    | some (bit :: key') => match it.cell.refs[bit.toNat]? with
      | none => .error .cellUnderflow
      | some child => do
        let st ← it.addSubtrees cmp acc ((bit.toNat : Int) - 1) beforeRemove st
        let it' ← IItem.load (it.pfx ++ it.label ++ [bit]) key'.length child
        doSeek cmp acc beforeRemove fuel (it' :: { it with state := bit.toNat } :: stack) key' st

/-- The unwinding loop of `seek_next` (`dict/ops/modify.rs:489-516`). -/
def unwind (cmp : Comparator) (acc : Cell → Bool) (common : Nat) : List IItem → Bool → List MItem → Bits → Except Err (List IItem × List MItem × Bits)
  | [], _, st, key => .ok ([], st, key)
  | it :: stack, flatten, st, key =>
    if it.pfx.length > common then do
      let flatten := flatten || it.flatten
      let st ← if it.state ≠ 2 then it.addSubtrees cmp acc 1 flatten st else .ok st
      unwind cmp acc common stack flatten st key
    else if key.length < it.pfx.length then .error .cellUnderflow
    else .ok ({ it with flatten := it.flatten || flatten } :: stack, st, key.drop it.pfx.length)

/-- `dict/ops/modify.rs:471-522` `seek_next`. -/
def seekNext (cmp : Comparator) (acc : Cell → Bool) (stack : List IItem) (prevKey key : Bits) (beforeRemove : Bool) (st : List MItem) :
    Except Err (Seek × List IItem × List MItem) :=
  match stack with
  | [it] => if it.state = 2 then .ok (.notFound key, stack, st) else do
    let (stack, st, k) ← unwind cmp acc (commonPrefixLen prevKey key) stack beforeRemove st key
    doSeek cmp acc beforeRemove (key.length + 1) stack k st
  | _ => do
    let (stack, st, k) ← unwind cmp acc (commonPrefixLen prevKey key) stack beforeRemove st key
    doSeek cmp acc beforeRemove (key.length + 1) stack k st

/-- `dict/ops/modify.rs:524-540` `seek_end`. -/
def seekEnd (cmp : Comparator) (acc : Cell → Bool) : List IItem → Bool → List MItem → Except Err (List MItem)
  | [], _, st => .ok st
  | it :: stack, flatten, st => do
    let flatten := flatten || it.flatten
    let st ← if it.state ≠ 2 then it.addSubtrees cmp acc 1 flatten st else .ok st
    seekEnd cmp acc stack flatten st

/-- `add_value` (`dict/ops/modify.rs:607-632`) of a value, if there is one. -/
def addValue (cmp : Comparator) (acc : Cell → Bool) (st : List MItem) (key : Bits) : Option Sl → Except Err (List MItem)
  | none => .ok st
  | some v => do
    let (lcp, st) ← reduce cmp acc key.length st key
    .ok (.leaf key v lcp :: st)

/-- What happens after the seek (`dict/ops/modify.rs:114-152`, aug `284-325`). -/
def modApply (cmp : Comparator) (acc : Cell → Bool) (key : Bits) (v : Option Sl) : Seek × List IItem × List MItem → Except Err (List IItem × List MItem)
  | (_, [], _) => .error .fault
  | (.notFound rest, it :: stack, st) =>
    if lexBits rest it.label = .gt ∧ it.state ≠ 2 then do
      let st ← it.addSubtrees cmp acc 1 false st
      let st ← addValue cmp acc st key v
      .ok ({ it with state := 2 } :: stack, st)
    else do
      let st ← addValue cmp acc st key v
      .ok (it :: stack, st)
  | (.found, it :: stack, st) => do
    let st ← addValue cmp acc st key v
    .ok ({ it with state := 2, flatten := it.flatten || v.isNone } :: stack, st)

/-- The loop of `dict_modify_from_sorted_iter` (`dict/ops/modify.rs:61-153`, aug `228-326`). -/
def modGo (cmp : Comparator) (acc : Cell → Bool) (root : Cell) (ord : Bits → Bits → Ordering) :
    List (Bits × Option Sl) → Option Bits → List IItem → List MItem → Except Err (Option Bits × List IItem × List MItem)
  | [], prevKey, its, st => .ok (prevKey, its, st)
  | (key, v) :: rest, prevKey, its, st =>
    match prevKey.map (ord key) with
    | some .eq => modGo cmp acc root ord rest prevKey its st
    | some .lt => .error .invalidData
    | _ => do
      let r ← match prevKey with
        | none => do
          let it ← IItem.load [] key.length root
          doSeek cmp acc v.isNone (key.length + 1) [it] key st
        | some pk => seekNext cmp acc its pk key v.isNone st
      let (its, st) ← modApply cmp acc key v r
      modGo cmp acc root ord rest (some key) its st

/-- The new dictionary of `dict_modify_from_sorted_iter` (`dict/ops/modify.rs:13-172`) and the augmented variant
(`177-344`) on a non-empty dictionary; `none` for no entries. -/
def modFull (cmp : Comparator) (acc : Cell → Bool) (n : Nat) (ord : Bits → Bits → Ordering) (root : Cell) (entries : List (Bits × Option Sl)) :
    Except Err (Option (Option Cell)) := do
  let (prevKey, its, st) ← modGo cmp acc root ord entries none [] []
  match prevKey with
  | none => .ok none
  | some _ =>
    let st ← seekEnd cmp acc its false st
    let d ← finalize cmp acc n st
    .ok (some d)

/-- The whole operation. An entry holds the key and what `extract_value` yields for it (`none`: remove). Errors of
`extract_value` itself are not modelled. -/
def modifyDict (cmp : Comparator) (acc : Cell → Bool) (n : Nat) (ord : Bits → Bits → Ordering) (dict : Option Cell) (entries : List (Bits × Option Sl)) :
    DictRes Bool :=
  match dict with
  | none => match buildDict cmp acc n ord (entries.filterMap (fun p => p.2.map (fun v => (p.1, v)))) with
    | .error e => (.error e, none)
    | .ok d => (.ok d.isSome, d)
  | some root => match modFull cmp acc n ord root entries with
    | .error e => (.error e, dict)
    | .ok none => (.ok false, dict)
    | .ok (some d) => (.ok true, d)

end Verif
