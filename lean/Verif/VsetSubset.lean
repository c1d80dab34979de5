import Verif.BocRound2
import Verif.Shard
/-
Validator subsets (`models/config/params.rs`): the generator of pseudo-random numbers, the shuffle of the
masterchain validators and the weighted choice without repetition of the validators of a shard.
-/
set_option linter.unusedVariables false
set_option linter.unusedSimpArgs false
namespace Verif
namespace Vset
open Boc

/-! ### Model -/

/-- `models/config/params.rs:1381-1397` `ValidatorDescription` -/
structure Validator where
  publicKey : List Byte
  weight : Nat
  adnl : Option (List Byte)
  mcSeqnoSince : Nat
  prevWeight : Nat
deriving DecidableEq

/-- `models/config/params.rs:1066-1079` `ValidatorSet` -/
structure ValidatorSet where
  utimeSince : Nat
  utimeUntil : Nat
  main : Nat
  totalWeight : Nat
  list : List Validator
deriving DecidableEq

/-- `models/config/params.rs:1485-1488` `ValidatorSetPRNG`. The first word of the bag is the cursor. -/
structure Prng where
  context : List Byte
  bag : List Nat

/-- `models/config/params.rs:1498-1512` `with_seed` -/
def Prng.withSeed (s : ShardIdent) (cc : Nat) (seed : List Byte) : Prng :=
  ⟨seed ++ (beBytes 8 s.pfx.toNat ++ beBytes 4 (s.workchain % 2 ^ 32).toNat ++ beBytes 4 cc), [8, 0, 0, 0, 0, 0, 0, 0]⟩

/-- `models/config/params.rs:1491-1494` `new` -/
def Prng.new (s : ShardIdent) (cc : Nat) : Prng := .withSeed s cc (List.replicate 32 0)

/-- The loop `models/config/params.rs:1535-1540` over the reversed bytes. -/
def incRev : List Byte → List Byte
  | [] => []
  | b :: t => if b + 1 ≠ 0 then (b + 1) :: t else (b + 1) :: incRev t

/-- `models/config/params.rs:1530-1556` `reset`. `H` is `Sha512::digest`. -/
def Prng.reset (H : List Byte → List Byte) (p : Prng) : Nat × Prng :=
  let hash := H p.context
  let context := (incRev (p.context.take 32).reverse).reverse ++ p.context.drop 32
  let bag := (List.range 8).map fun k => beNat ((hash.drop (8 * k)).take 8)
  (bag.headD 0, ⟨context, bag.set 0 0⟩)

/-- `models/config/params.rs:1515-1523` `next_u64` -/
def Prng.nextU64 (H : List Byte → List Byte) (p : Prng) : Nat × Prng :=
  if p.bag.headD 0 < 7 then
    (p.bag.getD (1 + p.bag.headD 0) 0, ⟨p.context, p.bag.set 0 (p.bag.headD 0 + 1)⟩)
  else p.reset H

/-- `models/config/params.rs:1526-1529` `next_ranged` -/
def Prng.nextRanged (H : List Byte → List Byte) (p : Prng) (range : Nat) : Nat × Prng :=
  (((range * (p.nextU64 H).1) >>> 64) % 2 ^ 64, (p.nextU64 H).2)

/-- `models/config/params.rs:1205-1225` `compute_subset_hash_short` -/
def hashShort (subset : List Validator) (cc : Nat) : BitVec 32 :=
  let le := fun n v => (beBytes n v).reverse
  let hash := crc32c (le 4 0x901660ED)
  let hash := crcAppend hash (le 4 cc)
  let hash := crcAppend hash (le 4 subset.length)
  subset.foldl (fun hash node =>
    let hash := crcAppend hash node.publicKey
    let hash := crcAppend hash (le 8 node.weight)
    crcAppend hash (node.adnl.getD (List.replicate 32 0))) hash

/-- One round of the loop `models/config/params.rs:1187-1192`. An index out of bounds is a panic. -/
def shuffleStep (H : List Byte → List Byte) (st : Prng × List Nat) (i : Nat) : Except Err (Prng × List Nat) :=
  let out := st.1.nextRanged H (i + 1)
  if i < st.2.length then
    match st.2[out.1]? with
    | none => .error .panic
    | some x => .ok (out.2, (st.2.set i x).set out.1 i)
  else .error .panic

/-- A `for` loop with a fallible body. -/
def loop {σ ι : Type} (f : σ → ι → Except Err σ) : σ → List ι → Except Err σ
  | s, [] => .ok s
  | s, i :: t => match f s i with
    | .error e => .error e
    | .ok s' => loop f s' t

/-- `self.list[index].clone()` for every index, `models/config/params.rs:1194-1197`. -/
def lookAll (l : List Validator) : List Nat → Except Err (List Validator)
  | [] => .ok []
  | i :: t => match l[i]? with
    | none => .error .panic
    | some v => match lookAll l t with
      | .error e => .error e
      | .ok r => .ok (v :: r)

/-- `models/config/params.rs:1171-1202` `compute_mc_subset` -/
def mcSubset (H : List Byte → List Byte) (vs : ValidatorSet) (cc : Nat) (shuffle : Bool) : Except Err (Option (List Validator × BitVec 32)) :=
  let count := min vs.list.length vs.main
  if !shuffle then .ok (some (vs.list.take count, hashShort (vs.list.take count) cc))
  else match loop (shuffleStep H) (Prng.new ⟨-1, ShardIdent.prefixFull⟩ cc, List.replicate count 0) (List.range count) with
    | .error e => .error e
    | .ok (_, indices) => match lookAll vs.list (indices.take count) with
      | .error e => .error e
      | .ok subset => .ok (some (subset, hashShort subset cc))

/-- Checked addition of `u64`. -/
def add64 (a b : Nat) : Except Err Nat := if a + b < 2 ^ 64 then .ok (a + b) else .error .panic

/-- The loop over the holes, `models/config/params.rs:1137-1142`. -/
def overHoles : List (Nat × Nat) → Nat → Except Err Nat
  | [], p => .ok p
  | (prev, weight) :: t, p => if p < prev then .ok p else match add64 p weight with
    | .error e => .error e
    | .ok p' => overHoles t p'

/-- `models/config/params.rs:1228-1236` `at_weight`, with its debug assertions. `partition_point` is the length of
the longest prefix with the property, which is what it returns for a list ordered by it. -/
def atWeight (total : Nat) (list : List Validator) (pos : Nat) : Except Err Validator :=
  if pos < total then
    match (list.takeWhile fun v => decide (v.prevWeight ≤ pos)).length with
    | 0 => .error .panic
    | i + 1 => match list[i]? with
      | none => .error .panic
      | some v => .ok v
  else .error .panic

/-- The order of pairs. -/
def pairLe (x y : Nat × Nat) : Bool := decide (x.1 < y.1) || (decide (x.1 = y.1) && decide (x.2 ≤ y.2))

/-- `models/config/params.rs:1157-1161`: the new hole is put at its place; the debug assertion is a panic. -/
def putHole (holes : List (Nat × Nat)) (new : Nat × Nat) : Except Err (List (Nat × Nat)) :=
  let i := (holes.takeWhile fun x => pairLe x new).length
  if i = 0 ∨ pairLe new (holes.getD (i - 1) (0, 0)) = false then .ok (holes.take i ++ new :: holes.drop i)
  else .error .panic

/-- The entry of the subset, `models/config/params.rs:1146-1152`. -/
def Validator.short (v : Validator) : Validator := ⟨v.publicKey, 1, v.adnl, 0, 0⟩

/-- The variables of the loop `models/config/params.rs:1131-1162`. -/
structure Pick where
  prng : Prng
  nodes : List Validator
  holes : List (Nat × Nat)
  totalWt : Nat

/-- The body of the loop `models/config/params.rs:1131-1162` after the random number `p` is drawn. -/
def pickAt (total : Nat) (list : List Validator) (st : Pick) (prng : Prng) (p : Nat) : Except Err Pick :=
  match overHoles st.holes p with
  | .error e => .error e
  | .ok p => match atWeight total list p with
    | .error e => .error e
    | .ok entry => if entry.weight ≤ st.totalWt then
        match putHole st.holes (entry.prevWeight, entry.weight) with
        | .error e => .error e
        | .ok holes => .ok ⟨prng, st.nodes ++ [entry.short], holes, st.totalWt - entry.weight⟩
      else .error .panic

/-- One round of the loop `models/config/params.rs:1131-1162`, with its debug assertions. -/
def pickStep (H : List Byte → List Byte) (total : Nat) (list : List Validator) (st : Pick) (_ : Nat) : Except Err Pick :=
  if 0 < st.totalWt then
    pickAt total list st (st.prng.nextRanged H st.totalWt).2 (st.prng.nextRanged H st.totalWt).1
  else .error .panic

/-- A validator with another weight before it. -/
def Validator.after (v : Validator) (w : Nat) : Validator := ⟨v.publicKey, v.weight, v.adnl, v.mcSeqnoSince, w⟩

/-- The loop `models/config/params.rs:1109-1112`: the weights before each validator. -/
def reweigh : List Validator → Nat → Except Err (List Validator × Nat)
  | [], w => .ok ([], w)
  | v :: t, w => match add64 w v.weight with
    | .error e => .error e
    | .ok w' => match reweigh t w' with
      | .error e => .error e
      | .ok (l, total) => .ok (v.after w :: l, total)

/-- `models/config/params.rs:1124-1167`: the choice from a list. -/
def choose (H : List Byte → List Byte) (total : Nat) (list : List Validator) (prng : Prng) (num cc : Nat) : Except Err (Option (List Validator × BitVec 32)) :=
  match loop (pickStep H total list) ⟨prng, [], [], total⟩ (List.range (min list.length num)) with
  | .error e => .error e
  | .ok st => .ok (some (st.nodes, hashShort st.nodes cc))

/-- `models/config/params.rs:1086-1167` `compute_subset`; `isolate`, `shuffle` and `num` are the fields
`isolate_mc_validators`, `shuffle_mc_validators` and `shard_validators_num` of the catchain configuration. -/
def subset (H : List Byte → List Byte) (vs : ValidatorSet) (s : ShardIdent) (isolate shuffle : Bool) (num cc : Nat) :
    Except Err (Option (List Validator × BitVec 32)) :=
  if s.isMasterchain then mcSubset H vs cc shuffle
  else if isolate then
    if vs.list.length ≤ vs.main then .ok none
    else match reweigh (vs.list.drop vs.main) 0 with
      | .error e => .error e
      | .ok (list, total) => choose H total list (Prng.new s cc) num cc
  else choose H vs.totalWeight vs.list (Prng.new s cc) num cc

end Vset
end Verif
