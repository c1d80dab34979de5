import Verif.ShardDescr
import Verif.ShardProps
import Verif.DictIter
/-
The trees of shard descriptions (`models/block/shard_hashes.rs`): construction and iteration.
-/
set_option linter.unusedVariables false
set_option linter.unusedSimpArgs false
namespace Verif

/-! ### Construction -/

/-- `models/block/shard_hashes.rs:171-176` `make_leaf`: a zero bit, then the description. -/
@[irreducible] def shardLeaf (acc : Cell → Bool) (d : ShardDescription) : Except Err Cell :=
  (Wr.bit false >>= fun _ => (shardDescription acc).store d).toSl >>= buildSl acc

/-- `models/block/shard_hashes.rs:178-184` `make_edge`: a one bit and the two halves. -/
@[irreducible] def shardEdge (acc : Cell → Bool) (l r : Cell) : Except Err Cell :=
  (Wr.bit true >>= fun _ => Wr.ref l >>= fun _ => Wr.ref r : Wr Cell Unit).toSl >>= buildSl acc

/-- What the inner loop of `try_build_raw` ends with. -/
inductive Settle where
  | root (c : Cell)
  | stack (st : List (ShardIdent × Cell))

/-- `models/block/shard_hashes.rs:229-235` the common parent of two shards. -/
def commonParent (l r : ShardIdent) : Option ShardIdent :=
  match l.merge, r.merge with
  | some lp, some rp => if lp = rp then some lp else none
  | _, _ => none

/-- `models/block/shard_hashes.rs:218-248`, the inner loop of `try_build_raw`: a left child goes to the stack (the top is first here),
a right child is joined with the top of the stack. -/
def settle (acc : Cell → Bool) : List (ShardIdent × Cell) → ShardIdent × Cell → Except Err Settle
  | [], next => if next.1.isLeftChild then .ok (.stack [next]) else .error .unbalanced
  | left :: rest, next =>
    if next.1.isLeftChild then .ok (.stack (next :: left :: rest)) else
    match commonParent left.1 next.1 with
    | none => .error .unbalanced
    | some parent => match shardEdge acc left.2 next.2 with
      | .error e => .error e
      | .ok cell => if parent.isFull then .ok (.root cell) else settle acc rest (parent, cell)

/-- `models/block/shard_hashes.rs:213-249`, the outer loop of `try_build_raw`: the next leaf is made (`read_shard`, 187-198) and joined. -/
def buildShards (acc : Cell → Bool) : List (ShardIdent × Cell) → List (ShardIdent × ShardDescription) → Except Err Cell
  | _, [] => .error .unbalanced
  | st, x :: xs => match shardLeaf acc x.2 with
    | .error e => .error e
    | .ok c => match settle acc st (x.1, c) with
      | .error e => .error e
      | .ok (.root root) => .ok root
      | .ok (.stack st) => buildShards acc st xs

/-- `models/block/shard_hashes.rs:170-252` `try_build_raw`. The cell context of the code accepts what `acc` does. -/
def tryBuild (acc : Cell → Bool) : List (ShardIdent × ShardDescription) → Except Err Cell
  | [] => .error .unbalanced
  | x :: xs => match shardLeaf acc x.2 with
    | .error e => .error e
    | .ok c => if x.1.isFull then .ok c else if x.1.isRightChild then .error .unbalanced else buildShards acc [(x.1, c)] xs

/-- The order derived for `ShardIdent` (`block_id.rs:189`): the workchain, then the prefix. -/
def ShardIdent.le (a b : ShardIdent) : Bool := decide (a.workchain < b.workchain ∨ a.workchain = b.workchain ∧ a.pfx.toNat ≤ b.pfx.toNat)

/-- `models/block/shard_hashes.rs:31-55` `from_shards`. The code groups the shards in a hash map; `order` is the order in which
the workchains come out of it. The sort of the code is not stable: the order of descriptions given for one and the same shard
is a choice of the model. A dictionary is built with `Dict::set`, whose value is a reference. -/
def fromShards (acc : Cell → Bool) (order : List Int) (shards : List (ShardIdent × ShardDescription)) : Except Err (Option Cell) :=
  go order none
where
  go : List Int → Option Cell → Except Err (Option Cell)
  | [], d => .ok d
  | w :: ws, d =>
    match tryBuild acc ((shards.filter fun x => x.1.workchain = w).mergeSort fun a b => a.1.le b.1) with
    | .error e => .error e
    | .ok c =>
      let r := dictInsert acc d (natBits 32 (i32ToU32 w)) 32 ⟨[], [c]⟩ .set
      match r.1 with
      | .error e => .error e
      | .ok _ => go ws r.2

/-! ### Iteration -/

/-- `models/block/shard_hashes.rs:918-922` `IterSegment` -/
structure ShardSeg where
  cell : Cell
  right : Bool

/-- `models/block/shard_hashes.rs:797-802` `WorkchainShardsTreeRawIter`; the last segment is first here. -/
structure ShardTreeIter where
  workchain : Int
  leaf : Option Sl
  segments : List ShardSeg
  status : IterStatus

/-- `models/block/shard_hashes.rs:806-844` `new` -/
def ShardTreeIter.new (w : Int) (root : Cell) : ShardTreeIter :=
  match asSlice root with
  | .error _ => ⟨w, none, [], .unexpectedCell⟩
  | .ok s => match s.bits with
    | [] => ⟨w, none, [], .broken⟩
    | true :: _ => ⟨w, none, [⟨root, false⟩], .valid⟩
    | false :: r => ⟨w, some ⟨r, s.refs⟩, [], .valid⟩

/-- `models/block/shard_hashes.rs:856-862` `build_shard_prefix` -/
def buildShardPrefix (segs : List ShardSeg) : BitVec 64 :=
  segs.foldl (fun x g => (if g.right then ShardIdent.prefixFull else 0) ||| (x >>> 1)) ShardIdent.prefixFull

/-- `cell/mod.rs:200-205` `get_reference_as_slice`, with the cell. -/
def refSlice (c : Cell) (i : Nat) : Except Err (Cell × Sl) :=
  match c.refs[i]? with
  | none => .error .cellUnderflow
  | some r => (asSlice r).map fun s => (r, s)

/-- `models/block/shard_hashes.rs:875-895`, the loop that goes down to the next leaf. The fuel is enough for every tree: each step adds a segment. -/
def shardDescend : Nat → List ShardSeg → Except Err (Sl × List ShardSeg)
  | fuel + 1, g :: rest => match refSlice g.cell g.right.toNat with
    | .error e => .error e
    | .ok (c, s) => match s.bits with
      | [] => .error .cellUnderflow
      | false :: r => .ok (⟨r, s.refs⟩, g :: rest)
      | true :: _ => if (g :: rest).length < ShardIdent.maxSplitDepth then shardDescend fuel (⟨c, false⟩ :: g :: rest) else .error .cellUnderflow
  | _, _ => .error .fault

/-- `models/block/shard_hashes.rs:904-911` finished segments are removed, the last one goes to its right child. -/
def shardAdvance : List ShardSeg → List ShardSeg
  | [] => []
  | g :: rest => if g.right then shardAdvance rest else ⟨g.cell, true⟩ :: rest

/-- `models/block/shard_hashes.rs:855-914` `next` -/
def ShardTreeIter.next (it : ShardTreeIter) : Option (Except Err (ShardIdent × Sl)) × ShardTreeIter :=
  match it.status with
  | .unexpectedCell => (some (.error .unexpectedExoticCell), { it with status := .broken })
  | .broken => (none, it)
  | .valid => match it.leaf with
    | some leaf => (some (.ok (⟨it.workchain, buildShardPrefix it.segments⟩, leaf)), { it with leaf := none, segments := shardAdvance it.segments })
    | none => match it.segments with
      | [] => (none, it)
      | g :: rest => match shardDescend 61 (g :: rest) with
        | .error e => (some (.error e), { it with status := .broken })
        | .ok (leaf, segs) => (some (.ok (⟨it.workchain, buildShardPrefix segs⟩, leaf)), { it with segments := shardAdvance segs })

/-- `models/block/shard_hashes.rs:675-679` `ShardsTreeRawIter` -/
structure ShardsIter where
  dictIter : RawIter
  tree : Option ShardTreeIter
  status : IterStatus

/-- `models/block/shard_hashes.rs:682-688` `new` -/
def ShardsIter.new (dict : Option Cell) : ShardsIter := ⟨RawIter.new dict 32 false false, none, .valid⟩

/-- `models/block/shard_hashes.rs:710-739`, the loop of `next`. Every round but the last takes an entry of the dictionary,
of which there are at most 2^32. -/
def shardsGo : Nat → ShardsIter → Option (Except Err (ShardIdent × Sl)) × ShardsIter
  | 0, it => (some (.error .fault), it)
  | fuel + 1, it => match (it.tree.map ShardTreeIter.next) with
    | some (some x, t) => (some x, { it with tree := some t })
    | _ => match it.dictIter.next with
      | (none, d) => (none, { it with dictIter := d, tree := none })
      | (some (.error e), d) => (some (.error e), { it with dictIter := d, tree := none, status := .broken })
      | (some (.ok (key, value)), d) => match value.refs with
        | [] => (some (.error .cellUnderflow), { it with dictIter := d, tree := none, status := .broken })
        | root :: _ => shardsGo fuel { it with dictIter := d, tree := some (.new (u32ToI32 (natOfBits key)) root) }

/-- `models/block/shard_hashes.rs:700-740` `next` -/
def ShardsIter.next (it : ShardsIter) : Option (Except Err (ShardIdent × Sl)) × ShardsIter :=
  match it.status with
  | .unexpectedCell => (some (.error .unexpectedExoticCell), { it with status := .broken })
  | .broken => (none, it)
  | .valid => shardsGo (2 ^ 32 + 2) it

/-- `models/block/shard_hashes.rs:284-292` `ShardHashesIter::next`, and with `parse_block_id` in place of the loader
`:318-328` `LatestBlocksIter::next`: each item is parsed, an error breaks the iterator. -/
def ShardsIter.parsed {α : Type} (f : ShardIdent → Sl → Except Err α) (it : ShardsIter) : Option (Except Err (ShardIdent × α)) × ShardsIter :=
  match it.next with
  | (none, t) => (none, t)
  | (some (.error e), t) => (some (.error e), t)
  | (some (.ok (s, v)), t) => match f s v with
    | .ok x => (some (.ok (s, x)), t)
    | .error e => (some (.error e), { t with status := .broken })

/-- `models/block/shard_hashes.rs:352-362`, `386-395`: the same for one workchain. -/
def ShardTreeIter.parsed {α : Type} (f : ShardIdent → Sl → Except Err α) (it : ShardTreeIter) : Option (Except Err (ShardIdent × α)) × ShardTreeIter :=
  match it.next with
  | (none, t) => (none, t)
  | (some (.error e), t) => (some (.error e), t)
  | (some (.ok (s, v)), t) => match f s v with
    | .ok x => (some (.ok (s, x)), t)
    | .error e => (some (.error e), { t with status := .broken })

/-- `ShardDescription::load_from` on a leaf. -/
def loadDescr (acc : Cell → Bool) (_ : ShardIdent) (v : Sl) : Except Err ShardDescription := ((shardDescription acc).load v.reader).1

/-- `models/block/shard_hashes.rs:471-478` `as_block_id` -/
def ShardDescription.asBlockId (d : ShardDescription) (s : ShardIdent) : ShardIdent.BlockId := ⟨s, d.tip.seqno, d.tip.rootHash, d.tip.fileHash⟩

/-- `models/block/shard_hashes.rs:595-608` `parse_block_id`: four bits are skipped, then 160 bits. -/
def parseBlockIdRd (s : ShardIdent) : Rd Cell ShardIdent.BlockId :=
  Rd.skip 4 0 >>= fun _ => Rd.u32 >>= fun seqno => Rd.skip 160 0 >>= fun _ => Rd.u256 >>= fun root => Rd.u256 >>= fun file => pure ⟨s, seqno, root, file⟩
def parseBlockId (s : ShardIdent) (v : Sl) : Except Err ShardIdent.BlockId := (parseBlockIdRd s v.reader).1

end Verif
