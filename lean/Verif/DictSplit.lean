import Verif.DictBuild
import Verif.DictIter
/-
Model of splitting, merging and sub-dictionaries (`dict/ops/split_merge.rs`, `dict/ops/get.rs`).
-/
set_option linter.unusedVariables false
set_option linter.unusedSimpArgs false
namespace Verif

/-- `rebuild_branch` in `dict_split_by_prefix` (`dict/ops/split_merge.rs:44-62`). -/
def rebuildBranch (acc : Cell → Bool) (n : Nat) (p : Bits) (sub : Nat) (bit : Bool) (ref : Option Cell) : Except Err Cell :=
  match ref with
  | none => .error .cellUnderflow
  | some c => do
    let branch ← asSlice c
    let (label, branch) ← readLabel branch sub
    if 1023 < (p ++ bit :: label).length then .error .cellOverflow
    else makeLeaf acc (p ++ bit :: label) n branch

/-- `dict/ops/split_merge.rs:6-67` `dict_split_by_prefix`. -/
def dictSplit (acc : Cell → Bool) (dict : Option Cell) (n : Nat) (p : Bits) : Except Err (Option Cell × Option Cell) :=
  if n = 0 then .ok (none, none)
  else match dict with
    | none => .ok (none, none)
    | some root => do
      let data ← asSlice root
      let (label, rest) ← readLabel data n
      match stripPrefix p label with
      | none => .error .cellUnderflow
      | some (bit :: _) => .ok (if bit then (none, some root) else (some root, none))
      | some [] =>
        if n < label.length + 1 then .error .cellUnderflow
        else do
          let l ← rebuildBranch acc n p (n - (label.length + 1)) false rest.refs[0]?
          let r ← rebuildBranch acc n p (n - (label.length + 1)) true rest.refs[1]?
          .ok (some l, some r)

/-- `dict/ops/split_merge.rs:71-125` `dict_split_raw`: the remaining key length and the branches. -/
def dictSplitRaw (dict : Option Cell) (n : Nat) : Except Err (Nat × Option Cell × Option Cell) :=
  if n = 0 then .ok (0, none, none)
  else match dict with
    | none => .ok (n, none, none)
    | some root => do
      let data ← asSlice root
      let (label, rest) ← readLabel data n
      match label with
      | bit :: _ => .ok (if bit then (n, none, some root) else (n, some root, none))
      | [] => match rest.refs[0]?, rest.refs[1]? with
        | some l, some r => .ok (n - 1, some l, some r)
        | _, _ => .error .cellUnderflow

/-- The references and the extra of the new root in `dict_merge_sibling_roots` (`dict/ops/split_merge.rs:262-284`). -/
def siblingNode (cmp : Comparator) (b : Sl) (left right : Cell) (ls rs : Sl) (lfork rfork : Bool) : Except Err Sl := do
  let b ← b.storeRef left
  let b ← b.storeRef right
  match cmp with
  | none => .ok b
  | some f => do
    let ls ← if lfork then ls.skip 0 2 else .ok ls
    let rs ← if rfork then rs.skip 0 2 else .ok rs
    let x ← f ls rs
    b.storeSlice x

/-- `dict/ops/split_merge.rs:219-283` `dict_merge_sibling_roots`. -/
def mergeRoots (cmp : Comparator) (acc : Cell → Bool) (n : Nat) (left right : Cell) : Except Err Cell := do
  let ls ← asSlice left
  let (ll, ls) ← readLabel ls n
  let rs ← asSlice right
  let (rl, rs) ← readLabel rs n
  let minLen := min ll.length rl.length
  let lcp := commonPrefixLen ll rl
  if minLen = 0 then .error .invalidData
  else if lcp ≥ minLen ∨ n < lcp + 1 then .error .invalidData
  else match ll.drop lcp, rl.drop lcp with
    | false :: ll', true :: rl' => do
      let left ← makeLeaf acc ll' (n - 1 - lcp) ls
      let right ← makeLeaf acc rl' (n - 1 - lcp) rs
      let b ← writeLabel (ll.take lcp) n .empty
      let b ← siblingNode cmp b left right ls rs (ll'.length < n - 1 - lcp) (rl'.length < n - 1 - lcp)
      buildSl acc b
    | _, _ => .error .invalidData

/-- `dict/ops/split_merge.rs:179-193` `dict_merge_siblings` and `201-220` `aug_dict_merge_siblings`. -/
def mergeSiblings (cmp : Comparator) (acc : Cell → Bool) (n : Nat) (left right : Option Cell) : Except Err (Option Cell) :=
  match left, right with
  | none, none => .ok none
  | some l, none => .ok (some l)
  | none, some r => .ok (some r)
  | some l, some r => do
    let c ← mergeRoots cmp acc n l r
    .ok (some c)

/-- The loop of `dict_merge` (`dict/ops/split_merge.rs:162-176`). The loop of the code has no bound; it ends when the
iterator does, so the fuel only has to be large enough. -/
def dictMergeGo (acc : Cell → Bool) : Nat → RawIter → Option Cell → DictRes Unit
  | 0, _, left => (.error .fault, left)
  | fuel + 1, it, left => match it.next with
    | (some (.ok (k, v)), it') => match dictInsert acc left k k.length v .set with
      | (.ok _, left') => dictMergeGo acc fuel it' left'
      | (.error e, left') => (.error e, left')
    | _ => (.ok (), left)

/-- `dict/ops/split_merge.rs:142-176` `dict_merge`. -/
def dictMerge (acc : Cell → Bool) (n fuel : Nat) (left right : Option Cell) : DictRes Unit :=
  match left, right with
  | _, none => (.ok (), left)
  | none, some r => (.ok (), some r)
  | some l, some r =>
    if l.bits.length ≠ r.bits.length ∧ l.bits.length ≠ n then (.error .invalidCell, left)
    else dictMergeGo acc fuel (RawIter.new (some r) n false false) left

/-- The loop of `dict_get_subdict` (`dict/ops/get.rs:150-194`). Labels are read with the length of the remaining prefix
instead of that of the remaining key, as in the code. -/
def subdictGo (acc : Cell → Bool) : Nat → Bits → Cell → Except Err Cell
  | 0, _, _ => .error .fault
  | fuel + 1, p, c => do
    let data ← asSlice c
    let (label, rest) ← readLabel data p.length
    let lcp := commonPrefixLen p label
    if lcp = p.length then makeLeaf acc label lcp rest
    else if lcp < label.length then do
      let value ← buildSl acc .empty
      splitEdge acc rest label lcp p ⟨[], [value]⟩
    else if c.refs.length < 2 then .error .cellUnderflow
    else match p.drop lcp with
      | [] => .error .cellUnderflow
      | bit :: p' => match c.refs[bit.toNat]? with
        | none => .error .cellUnderflow
        | some child => subdictGo acc fuel p' child

/-- `dict/ops/get.rs:128-198` `dict_get_subdict`. -/
def dictSubdict (acc : Cell → Bool) (dict : Option Cell) (n : Nat) (p : Bits) : Except Err (Option Cell) :=
  match dict with
  | none => .ok none
  | some root =>
    if p.length = 0 ∨ n < p.length then .ok (some root)
    else do
      let c ← subdictGo acc (p.length + 1) p root
      .ok (some c)

end Verif
