import Verif.MerklePar
/-
Model of the multithreaded builder of Merkle updates (`merkle/update.rs:498-529`, `669-965`, feature `rayon`).

The tasks of `Resolver::fill` share the pruned hashes, which are only read, and the set of changed cells, which is only written
before all tasks have ended; the map `deferred` is used by the first task alone. So every interleaving leaves the
same set: the union of what the single tasks insert. The model runs them one after another. The two proofs inside an update
are built under a schedule each (see MerklePar).
-/
set_option linter.unusedVariables false
namespace Verif
namespace Merkle
namespace Par

/-- `merkle/update.rs:684-692` `CheckResult`; a promise is named by the hash of the cell of its task. -/
inductive Check where
  | immediate (b : Bool)
  | parts (h : Hash) (items : List Check) (isPruned : Bool)
  | deferred (h : Hash)

/-- A spawned task (`merkle/update.rs:789-803`): the cell, `skip_filter` and `is_pruned`. -/
structure Job where
  cell : CCell
  skip : Bool
  isPruned : Bool

/-- What a task sees: its `visited` map (`update.rs:737-741` `SubResolver`), the changed cells, and the map `deferred` with the tasks. -/
structure Main where
  visited : List (Hash × Bool)
  changed : List Hash
  jobs : List (Hash × Job)

/-- The results of the references so far (`merkle/update.rs:838-863`): a flag as long as all of them are known, then a list. -/
inductive Kids where
  | flag (b : Bool)
  | items (l : List Check)

/-- `merkle/update.rs:840-847`, `857-859`: one more result. -/
def Kids.add : Kids → Check → Kids
  | .flag b, .immediate r => .flag (b || r)
  | .flag b, r => .items [.immediate b, r]
  | .items l, r => .items (l ++ [r])

/-- `merkle/update.rs:849-855`, `861-866`: the result for a cell with the given results of its references. -/
def Kids.finish (h : Hash) (isPruned : Bool) (m : Main) : Kids → Check × Main
  | .flag b => (.immediate (b || isPruned), if b then { m with changed := h :: m.changed } else m)
  | .items l => (.parts h l isPruned, m)

/-- `merkle/update.rs:809-815`: only finished cells are marked as visited. -/
def mark (h : Hash) : Check × Main → Check × Main
  | (.immediate b, m) => (.immediate b, { m with visited := (h, b) :: m.visited })
  | r => r

/-- `merkle/update.rs:756-759`: visited cells give the recorded result. -/
def seen (c : CCell) (m : Main) (visit : Check × Main) : Check × Main :=
  match find m.visited c.reprHash with
  | some b => (.immediate b, m)
  | none => visit

mutual
/-- `merkle/update.rs:745-820` `SubResolver::fill_impl` on a cell not seen before; `scope` says that there is a scope. -/
def parNew (f : Filter) (pruned split : List Hash) (scope : Bool) : CCell → Bool → Main → Check × Main
  | .mk desc bitLen data refs hashes, skip, m =>
    let c := CCell.mk desc bitLen data refs hashes
    let h := c.reprHash
    let isPruned := decide (h ∈ pruned)
    if (enters f h skip).1 then
      if scope && decide (h ∈ split) then
        match find m.jobs h with
        | some _ => (.deferred h, m)
        | none => (.deferred h, { m with jobs := (h, ⟨c, (enters f h skip).2, isPruned⟩) :: m.jobs })
      else
        let r := parKids f pruned split scope refs (enters f h skip).2 (.flag false) m
        mark h (r.1.finish h isPruned r.2)
    else (.immediate isPruned, { m with visited := (h, isPruned) :: m.visited })
/-- The loops of `merkle/update.rs:840-847` and `857-859`. -/
def parKids (f : Filter) (pruned split : List Hash) (scope : Bool) : List CCell → Bool → Kids → Main → Kids × Main
  | [], _, k, m => (k, m)
  | c :: cs, skip, k, m =>
    let r := seen c m (parNew f pruned split scope c skip m)
    parKids f pruned split scope cs skip (k.add r.1) r.2
end

/-- A spawned task (`merkle/update.rs:793-802`): its result and the changed cells it inserts. Nothing when it reaches `unreachable!`. -/
def Job.run (f : Filter) (pruned split : List Hash) (j : Job) : Option (Bool × List Hash) :=
  let r := parKids f pruned split false j.cell.refs j.skip (.flag false) ⟨[], [], []⟩
  match r.1.finish j.cell.reprHash j.isPruned r.2 with
  | (.immediate b, m) => some (b, m.changed)
  | _ => none

/-- The changed cells that a task inserts. -/
def Job.inserted (f : Filter) (pruned split : List Hash) (j : Job) : List Hash :=
  match j.run f pruned split with
  | some (_, s) => s
  | none => []

mutual
/-- `merkle/update.rs:713-734` `finalize`: the result and the changed cells inserted; nothing when it waits for ever. -/
def Check.final (prom : Hash → Option Bool) : Check → Option (Bool × List Hash)
  | .immediate b => some (b, [])
  | .parts h items isPruned => match finalList prom items with
    | none => none
    | some (b, s) => some (b || isPruned, if b then h :: s else s)
  | .deferred h => match prom h with
    | none => none
    | some b => some (b, [])
/-- The loop of `merkle/update.rs:721-724`. -/
def finalList (prom : Hash → Option Bool) : List Check → Option (Bool × List Hash)
  | [] => some (false, [])
  | c :: cs => match c.final prom with
    | none => none
    | some (a, s) => match finalList prom cs with
      | none => none
      | some (b, s') => some (a || b, s ++ s')
end

/-- The value of the promise of the task for the cell with hash `h`. -/
def promise (f : Filter) (pruned split : List Hash) (jobs : List (Hash × Job)) (h : Hash) : Option Bool :=
  match find jobs h with
  | none => none
  | some j => (j.run f pruned split).map (·.1)

/-- `Resolver::fill` (`merkle/update.rs:702-712`) and the set `changed_cells` of `update.rs:923-940`; nothing when the call panics or waits for ever. -/
def parChanged (f : Filter) (pruned split : List Hash) (old : CCell) : Option (List Hash) :=
  let r := seen old ⟨[], [], []⟩ (parNew f pruned split true old false ⟨[], [], []⟩)
  if r.2.jobs.any fun j => (j.2.run f pruned split).isNone then none
  else match r.1.final (promise f pruned split r.2.jobs) with
    | none => none
    | some (b, s) =>
      let all := s ++ (r.2.jobs.flatMap fun j => j.2.inserted f pruned split) ++ r.2.changed
      some (if b then old.reprHash :: all else all)

/-- `merkle/update.rs:679-945` `ParBuilderImpl::build`, with a schedule for each of the two proofs. Nothing when a schedule is not a complete run. -/
def updateBuild (H : Hasher) (f : Filter) (oldSplit newSplit : List Hash) (old new : CCell) (newSched oldSched : List Nat) (n : Nat) : Option (Except Err Update) :=
  if old.reprHash = new.reprHash then
    some (makePruned H old.view 0 >>= fun p => .ok ⟨old.reprHash, old.reprHash, old.reprDepth, old.reprDepth, p, p⟩)
  else match build H ⟨inverted f, false⟩ true newSplit new newSched n with
    | none => none
    | some (.error e) => some (.error e)
    | some (.ok (nw, pruned)) => match parChanged f pruned oldSplit old with
      | none => some (.error .panic)
      | some s => match build H ⟨setFilter s, false⟩ true oldSplit old oldSched n with
        | none => none
        | some (.error e) => some (.error e)
        | some (.ok (o, _)) => some (.ok ⟨old.reprHash, new.reprHash, old.reprDepth, new.reprDepth, o, nw⟩)

end Par
end Merkle
end Verif
