import Verif.PrunedProps
import Verif.CodecRel
/-
Model of Merkle proofs and updates (`merkle/mod.rs`, `merkle/proof.rs`, `merkle/update.rs`). The multithreaded
builders (feature `rayon`) are in MerklePar and MerkleParUpdate.

Simplifications made throughout:
* hash sets are lists of hashes, hash maps are association lists with the latest entry first;
* the explicit stacks of iterators are recursions over the references;
* a counter of type `u8` which overflows is a panic (debug build);
* `context` is the empty cell context.
-/
set_option linter.unusedVariables false
namespace Verif
namespace Merkle

/-- `merkle/mod.rs:38-46` `FilterAction` -/
inductive Action where
  | skip
  | incl
  | inclSubtree
  deriving DecidableEq, Repr

/-- `merkle/mod.rs:30-34` `MerkleFilter`: a filter only sees the hash of a cell. -/
abbrev Filter := Hash → Action

/-- `merkle/mod.rs:75-93`: a set of hashes as a filter. -/
def setFilter (s : List Hash) : Filter := fun h => if h ∈ s then .incl else .skip

/-- A hash map keyed by cell hashes. -/
def find {α : Type} : List (Hash × α) → Hash → Option α
  | [], _ => none
  | (k, v) :: m, h => if k = h then some v else find m h

/-- `merkle_depth + descriptor.is_merkle() as u8` -/
def bump (md : Nat) (c : CCell) : Except Err Nat :=
  if c.desc.isMerkle then (if md < 255 then .ok (md + 1) else .error .panic) else .ok md

/-- The cell made on leaving a node: `merkle/proof.rs:536-541`, `merkle/update.rs:168-215` (`store_cell_data`,
`cell/builder.rs:1314-1316`, stores `cell.data()` and `cell.bit_len()`; its result is ignored). -/
def rebuild (H : Hasher) (c : CCell) (kids : List CCell) : Except Err CCell :=
  CellB.build H { inner := (DataBuilder.new.storeRaw c.data c.bitLen).2, refs := kids, exotic := c.desc.isExotic }

/-- `merkle/proof.rs:832` -/
def prunedBitsThreshold : Nat := 288

/-- The parameters of `BuilderImpl` (`merkle/proof.rs:440-448`). -/
structure Config where
  filter : Filter
  pruneBig : Bool

/-- The changing fields of `BuilderImpl`: processed cells by the hash of the original, and the set of pruned hashes. -/
structure State where
  cells : List (Hash × CCell)
  pruned : List Hash

/-- The condition of `merkle/proof.rs:494-498` for replacing a skipped cell by a pruned branch. -/
def prunable (cfg : Config) (c : CCell) : Bool :=
  decide (c.desc.referenceCount > 0) || (cfg.pruneBig && decide (c.bitLen > prunedBitsThreshold))

/-- `make_pruned_branch` at Merkle depth `md`, with the panic of `1 << merkle_depth` (`merkle/pruned_branch.rs:14`). -/
def pruneAt (H : Hasher) (c : CCell) (md : Nat) : Except Err CCell :=
  if md < 8 then makePruned H c.view md else .error .panic

/-- `merkle/proof.rs:479-530`: one reference of a node whose references have the Merkle depth `md`; `visit` processes the
node itself. -/
def proofChild (H : Hasher) (cfg : Config) (md : Nat) (c : CCell) (st : State) (visit : Nat → Except Err (CCell × State)) :
    Except Err (CCell × State) :=
  match find st.cells c.reprHash with
  | some p => .ok (p, st)
  | none =>
    match cfg.filter c.reprHash, prunable cfg c with
    | .inclSubtree, _ => .ok (c, st)
    | .skip, true => do
      let p ← pruneAt H c md
      .ok (p, { st with pruned := c.reprHash :: st.pruned })
    | _, _ => do
      let md' ← bump md c
      visit md'

mutual
/-- `merkle/proof.rs:534-547`: a node with `md` the Merkle depth of its references; visits the references, builds the cell
and caches it under the hash of the original. -/
def proofNode (H : Hasher) (cfg : Config) (md : Nat) : CCell → State → Except Err (CCell × State)
  | .mk desc bitLen data refs hashes, st => do
    let (kids, st) ← proofKids H cfg md refs st
    let p ← rebuild H (.mk desc bitLen data refs hashes) kids
    .ok (p, { st with cells := ((CCell.mk desc bitLen data refs hashes).reprHash, p) :: st.cells })
/-- `merkle/proof.rs:475-533`: the references of a node, left to right. -/
def proofKids (H : Hasher) (cfg : Config) (md : Nat) : List CCell → State → Except Err (List CCell × State)
  | [], st => .ok ([], st)
  | c :: cs, st => do
    let (p, st) ← proofChild H cfg md c st fun md' => proofNode H cfg md' c st
    let (ps, st) ← proofKids H cfg md cs st
    .ok (p :: ps, st)
end

/-- `merkle/proof.rs:451-562` `BuilderImpl::build` -/
def buildRaw (H : Hasher) (cfg : Config) (allowDifferentRoot : Bool) (root : CCell) : Except Err (CCell × State) :=
  if !allowDifferentRoot && cfg.filter root.reprHash == .skip then .error .emptyProof
  else do
    let md ← bump 0 root
    proofNode H cfg md root ⟨[], []⟩

/-- `merkle/proof.rs:84-92` `MerkleProof` -/
structure Proof where
  hash : Hash
  depth : Nat
  cell : CCell

/-- `merkle/proof.rs:287-296` `MerkleProofBuilder::build_ext` -/
def Proof.build (H : Hasher) (cfg : Config) (allowDifferentRoot : Bool) (root : CCell) : Except Err Proof := do
  let (cell, _) ← buildRaw H cfg allowDifferentRoot root
  .ok ⟨root.reprHash, root.reprDepth, cell⟩

mutual
/-- The loop of `merkle/proof.rs:215-225`: the hashes of the cells from this one down to the parent of the first cell
with hash `h`. -/
def pathTo (h : Hash) : CCell → Option (List Hash)
  | .mk desc bitLen data refs hashes => (pathIn h refs).map ((CCell.mk desc bitLen data refs hashes).reprHash :: ·)
/-- The same for the remaining references of a cell. -/
def pathIn (h : Hash) : List CCell → Option (List Hash)
  | [] => none
  | c :: cs =>
    if c.reprHash = h then some []
    else match pathTo h c with
      | some p => some p
      | none => pathIn h cs
end

/-- `merkle/proof.rs:201-237` `MerkleProof::create_for_cell`: the filter it makes. When the cell is not found the stack
is empty. -/
def cellFilter (root : CCell) (h : Hash) : Filter := fun x =>
  if x ∈ (pathTo h root).getD [] ∨ x = h then .incl else .skip

/-- `MerkleProof::create_for_cell(root, hash).build()` -/
def Proof.createForCell (H : Hasher) (root : CCell) (h : Hash) : Except Err Proof :=
  Proof.build H ⟨cellFilter root h, false⟩ false root

/-- `merkle/proof.rs:150-162` `Store for MerkleProof`: the number of bits and references is checked first. -/
def Proof.store (p : Proof) : Wr CCell Unit := do
  Wr.needs 280 1
  fun b => (.ok (), { b with exotic := true })
  Wr.u8 CellType.merkleProof.toByte.toNat
  Wr.u256 p.hash
  Wr.u16 p.depth
  Wr.ref p.cell

/-- `cell/mod.rs` `as_slice_allow_exotic`: the slice over the whole cell (`cell/slice.rs:254-267`). -/
def wholeSlice (c : CCell) : CSlice CCell := ⟨c.data, c.refs, ⟨0, c.bitLen, 0, c.desc.referenceCount⟩⟩

/-- The reads of `merkle/proof.rs:131-139`. -/
def Proof.fields : Rd CCell Proof := do
  let hash ← Rd.u256
  let depth ← Rd.u16
  let cell ← Rd.ref
  pure ⟨hash, depth, cell⟩

/-- `merkle/proof.rs:118-148` `LoadCell for MerkleProof` (and `MerkleProofRef`, `merkle/proof.rs:49-76`). -/
def Proof.loadFromCell (c : CCell) : Except Err Proof :=
  if !c.desc.isExotic then .error .unexpectedOrdinaryCell
  else if c.bitLen ≠ 280 ∨ c.desc.referenceCount ≠ 1 then .error .cellUnderflow
  else
    match Rd.u8 (wholeSlice c) with
    | (.error e, _) => .error e
    | (.ok tag, s) =>
      if tag ≠ CellType.merkleProof.toByte.toNat then .error .invalidCell
      else match Proof.fields s with
        | (.error e, _) => .error e
        | (.ok res, _) => if res.cell.hash 0 = res.hash ∧ res.cell.depth 0 = res.depth then .ok res else .error .invalidCell

/-! ### Updates -/

/-- `merkle/update.rs:13-28` `MerkleUpdate` -/
structure Update where
  oldHash : Hash
  newHash : Hash
  oldDepth : Nat
  newDepth : Nat
  old : CCell
  new : CCell

/-- `merkle/update.rs:94-107` `Store for MerkleUpdate` -/
def Update.store (u : Update) : Wr CCell Unit := do
  Wr.needs 552 2
  fun b => (.ok (), { b with exotic := true })
  Wr.u8 CellType.merkleUpdate.toByte.toNat
  Wr.u256 u.oldHash
  Wr.u256 u.newHash
  Wr.u32 (u.oldDepth * 65536 + u.newDepth)
  Wr.ref u.old
  Wr.ref u.new

/-- The reads of `merkle/update.rs:71-78`. -/
def Update.fields : Rd CCell Update := do
  let oldHash ← Rd.u256
  let newHash ← Rd.u256
  let oldDepth ← Rd.u16
  let newDepth ← Rd.u16
  let old ← Rd.ref
  let new ← Rd.ref
  pure ⟨oldHash, newHash, oldDepth, newDepth, old, new⟩

/-- `merkle/update.rs:56-92` `LoadCell for MerkleUpdate` -/
def Update.loadFromCell (c : CCell) : Except Err Update :=
  if !c.desc.isExotic then .error .unexpectedOrdinaryCell
  else if c.bitLen ≠ 552 ∨ c.desc.referenceCount ≠ 2 then .error .cellUnderflow
  else
    match Rd.u8 (wholeSlice c) with
    | (.error e, _) => .error e
    | (.ok tag, s) =>
      if tag ≠ CellType.merkleUpdate.toByte.toNat then .error .invalidCell
      else match Update.fields s with
        | (.error e, _) => .error e
        | (.ok u, _) =>
          if u.old.hash 0 = u.oldHash ∧ u.old.depth 0 = u.oldDepth ∧ u.new.hash 0 = u.newHash ∧ u.new.depth 0 = u.newDepth
          then .ok u else .error .invalidCell

/-- `Resolver` (`merkle/update.rs:541-546`): visited cells with their results and the set of changed cells. -/
structure Resolved where
  visited : List (Hash × Bool)
  changed : List Hash

/-- The decision of `merkle/update.rs:557-569`: whether to process the children, and the new `skip_filter`. -/
def enters (f : Filter) (h : Hash) (skip : Bool) : Bool × Bool :=
  if skip then (true, true)
  else match f h with
    | .skip => (false, false)
    | .incl => (true, false)
    | .inclSubtree => (true, true)

/-- What is recorded for a cell whose children gave `below`: `merkle/update.rs:577-585`. -/
def record (h : Hash) (processed below isPruned : Bool) (r : Resolved) : Bool × Resolved :=
  let changed := if processed && below then h :: r.changed else r.changed
  (below || isPruned, ⟨(h, below || isPruned) :: r.visited, changed⟩)

/-- `merkle/update.rs:552-555`: visited cells give the recorded result. -/
def fillWith (c : CCell) (r : Resolved) (visit : Bool × Resolved) : Bool × Resolved :=
  match find r.visited c.reprHash with
  | some b => (b, r)
  | none => visit

mutual
/-- `merkle/update.rs:548-586` `Resolver::fill` on a cell not seen before. -/
def fillNew (f : Filter) (pruned : List Hash) : CCell → Bool → Resolved → Bool × Resolved
  | .mk desc bitLen data refs hashes, skip, r =>
    let h := (CCell.mk desc bitLen data refs hashes).reprHash
    if (enters f h skip).1 then
      let (below, r) := fillKids f pruned refs (enters f h skip).2 r
      record h true below (decide (h ∈ pruned)) r
    else record h false false (decide (h ∈ pruned)) r
/-- The loop of `merkle/update.rs:573-575`. -/
def fillKids (f : Filter) (pruned : List Hash) : List CCell → Bool → Resolved → Bool × Resolved
  | [], _, r => (false, r)
  | c :: cs, skip, r =>
    let (a, r) := fillWith c r (fillNew f pruned c skip r)
    let (b, r) := fillKids f pruned cs skip r
    (a || b, r)
end

/-- `merkle/update.rs:548-586` `Resolver::fill` -/
def fill (f : Filter) (pruned : List Hash) (c : CCell) (skip : Bool) (r : Resolved) : Bool × Resolved :=
  fillWith c r (fillNew f pruned c skip r)

/-- `merkle/update.rs:591-605` `InvertedFilter` -/
def inverted (f : Filter) : Filter := fun h => if f h = .skip then .incl else .skip

/-- The set `changed_cells` of `merkle/update.rs:640-655`. -/
def changedCells (f : Filter) (pruned : List Hash) (old : CCell) : List Hash :=
  let (any, r) := fill f pruned old false ⟨[], []⟩
  if any then old.reprHash :: r.changed else r.changed

/-- `merkle/update.rs:539-666` `BuilderImpl::build` -/
def Update.build (H : Hasher) (f : Filter) (old new : CCell) : Except Err Update :=
  if old.reprHash = new.reprHash then do
    let p ← makePruned H old.view 0
    .ok ⟨old.reprHash, old.reprHash, old.reprDepth, old.reprDepth, p, p⟩
  else do
    let (n, st) ← buildRaw H ⟨inverted f, false⟩ true new
    let (o, _) ← buildRaw H ⟨setFilter (changedCells f st.pruned old), false⟩ true old
    .ok ⟨old.reprHash, new.reprHash, old.reprDepth, new.reprDepth, o, n⟩

mutual
/-- The depth-first loops of `merkle/update.rs` (`232-259`, `307-332`, `385-411`, `423-450`): `step` sees each
reference with the current Merkle depth and says whether to go below it. -/
def dfs {σ : Type} (step : Nat → CCell → σ → Except Err (σ × Bool)) (md : Nat) : CCell → σ → Except Err σ
  | .mk _ _ _ refs _, s => dfsList step md refs s
def dfsList {σ : Type} (step : Nat → CCell → σ → Except Err (σ × Bool)) (md : Nat) : List CCell → σ → Except Err σ
  | [], s => .ok s
  | c :: cs, s => step md c s >>= fun r =>
    (if r.2 then (bump md c >>= fun md' => dfs step md' c r.1) else .ok r.1) >>= fun s => dfsList step md cs s
end

/-- A pass over a tree from its root: `merkle_depth += root.is_merkle()`, then the references. -/
def pass {σ : Type} (step : Nat → CCell → σ → Except Err (σ × Bool)) (root : CCell) (s : σ) : Except Err σ := do
  let md ← bump 0 root
  dfs step md root s

/-- Visited hashes and the hashes collected so far. -/
abbrev Seen := List Hash × List Hash

/-- `merkle/update.rs:386-403`; also `merkle/update.rs:308-325`. -/
def collectStep (md : Nat) (c : CCell) (s : Seen) : Except Err (Seen × Bool) :=
  if c.reprHash ∈ s.1 then .ok (s, false)
  else .ok ((c.reprHash :: s.1, c.hash md :: s.2), !c.desc.isPrunedBranch)

/-- All hashes of a partially pruned tree at their Merkle depths. -/
def collect (root : CCell) : Except Err (List Hash) := do
  let s ← pass collectStep root ([root.reprHash], [root.hash 0])
  .ok s.2

/-- `merkle/update.rs:424-442`: the pruned branches of the new tree must be known. -/
def checkStep (known : List Hash) (md : Nat) (c : CCell) (s : List Hash) : Except Err (List Hash × Bool) :=
  if c.reprHash ∈ s then .ok (s, false)
  else if c.desc.isPrunedBranch then
    if c.desc.levelMask.level = md + 1 ∧ c.hash md ∉ known then .error .invalidData
    else .ok (c.reprHash :: s, false)
  else .ok (c.reprHash :: s, true)

/-- `merkle/update.rs:372-457` `find_old_cells` -/
def Update.findOldCells (u : Update) : Except Err (List Hash) := do
  let known ← collect u.old
  let _ ← pass (checkStep known) u.new [u.new.reprHash]
  .ok known

/-- `merkle/update.rs:233-251`: the known cells of the full old tree. -/
def oldStep (known : List Hash) (md : Nat) (c : CCell) (s : List Hash × List (Hash × CCell)) :
    Except Err ((List Hash × List (Hash × CCell)) × Bool) :=
  if c.reprHash ∈ s.1 then .ok (s, false)
  else if c.hash md ∉ known then .ok ((c.reprHash :: s.1, s.2), false)
  else .ok ((c.reprHash :: s.1, (c.hash md, c) :: s.2), true)

/-- `merkle/update.rs:217-262`: `old_cells` -/
def oldCells (known : List Hash) (old : CCell) : Except Err (List (Hash × CCell)) := do
  let s ← pass (oldStep known) old ([old.reprHash], [(old.hash 0, old)])
  .ok s.2

/-- `merkle/update.rs:174-209`: one reference; `visit` processes the node itself. The `u8` shift by the Merkle depth panics
from 8 on. -/
def applyChild (olds : List (Hash × CCell)) (md : Nat) (c : CCell) (m : List (Hash × CCell))
    (visit : Nat → Except Err (CCell × List (Hash × CCell))) : Except Err (CCell × List (Hash × CCell)) :=
  if c.desc.isPrunedBranch then
    if 8 ≤ md then .error .panic
    else if c.desc.levelMask &&& ((1#8) <<< md) ≠ 0 then
      match find olds (c.hash (c.desc.levelMask.level - 1)) with
      | some o => .ok (o, m)
      | none => .error .invalidData
    else .ok (c, m)
  else
    match find m (c.hash md) with
    | some k => .ok (k, m)
    | none => do
      let md' ← bump md c
      let (k, m) ← visit md'
      .ok (k, (c.hash md, k) :: m)

mutual
/-- `merkle/update.rs:168-213` `Applier::run`; `md` is the Merkle depth of the references. -/
def applyNode (H : Hasher) (olds : List (Hash × CCell)) (md : Nat) : CCell → List (Hash × CCell) → Except Err (CCell × List (Hash × CCell))
  | .mk desc bitLen data refs hashes, m => do
    let (kids, m) ← applyKids H olds md refs m
    let c ← rebuild H (.mk desc bitLen data refs hashes) kids
    .ok (c, m)
/-- The loop of `merkle/update.rs:174-210`. -/
def applyKids (H : Hasher) (olds : List (Hash × CCell)) (md : Nat) : List CCell → List (Hash × CCell) → Except Err (List CCell × List (Hash × CCell))
  | [], m => .ok ([], m)
  | c :: cs, m => do
    let (k, m) ← applyChild olds md c m fun md' => applyNode H olds md' c m
    let (ks, m) ← applyKids H olds md cs m
    .ok (k :: ks, m)
end

/-- `merkle/update.rs:146-277` `MerkleUpdate::apply` -/
def Update.apply (H : Hasher) (u : Update) (old : CCell) : Except Err CCell :=
  if old.reprHash ≠ u.oldHash then .error .invalidData
  else if u.oldHash = u.newHash then .ok old
  else do
    let known ← u.findOldCells
    let olds ← oldCells known old
    let md ← bump 0 u.new
    let (c, _) ← applyNode H olds md u.new []
    if c.reprHash = u.newHash then .ok c else .error .invalidData

/-- How often a cell was met (`HashMap<&HashBytes, u32>`; the counters are unbounded here). -/
def count (h : Hash) : List (Hash × Nat) → List (Hash × Nat)
  | [] => [(h, 1)]
  | (k, n) :: m => if k = h then (k, n + 1) :: m else (k, n) :: count h m

mutual
/-- The same loop without a Merkle depth (`merkle/update.rs:344-364`). -/
def dfs0 {σ : Type} (step : CCell → σ → σ × Bool) : CCell → σ → σ
  | .mk _ _ _ refs _, s => dfs0List step refs s
def dfs0List {σ : Type} (step : CCell → σ → σ × Bool) : List CCell → σ → σ
  | [], s => s
  | c :: cs, s =>
    let r := step c s
    dfs0List step cs (if r.2 then dfs0 step c r.1 else r.1)
end

/-- `merkle/update.rs:345-361` -/
def removedStep0 (kept : List Hash) (c : CCell) (m : List (Hash × Nat)) : List (Hash × Nat) × Bool :=
  match find m c.reprHash with
  | some _ => (count c.reprHash m, false)
  | none => (count c.reprHash m, !(c.desc.referenceCount == 0 || decide (c.reprHash ∈ kept)))

/-- `merkle/update.rs:280-370` `compute_removed_cells` -/
def Update.removedCells (u : Update) (old : CCell) : Except Err (List (Hash × Nat)) :=
  if old.reprHash ≠ u.oldHash ∨ u.old.hash 0 ≠ old.reprHash then .error .invalidData
  else if u.oldHash = u.newHash then .ok []
  else do
    let kept ← collect u.new
    if old.reprHash ∈ kept then .ok [(old.reprHash, 1)]
    else .ok (dfs0 (removedStep0 kept) old [(old.reprHash, 1)])

end Merkle
end Verif
