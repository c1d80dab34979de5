import Verif.Merkle
/-
Model of the multithreaded builder of Merkle proofs (`merkle/proof.rs:413-437`, `565-824`, feature `rayon`, and `merkle/promise.rs`).

Tasks run interleaved: a step is one access of one task to the data shared by all tasks (the map of processed cells, the set of
pruned hashes, the list of spawned tasks) together with the local work up to the next access. A schedule is the list of the
tasks that take the steps. The concurrent map and set (`scc`) are taken to be linearizable, `rayon::scope` to return when all
spawned tasks have ended, and the filter to be a function.

Further simplifications:
* a promise is the number of the task that sets it, and it is set in the last step of that task: nothing waits for a promise
  before all tasks have ended (`proof.rs:612-622`);
* a panic of a task is the result `panic` of the task; `rayon::scope` passes it on to the caller;
* `ChildrenBuilder` is the list of the children; it is in the state `Extended` when one of them is not an ordinary cell.
-/
set_option linter.unusedVariables false
namespace Verif
namespace Merkle
namespace Par

/-- `merkle/proof.rs:809-813` `ExtCell` and `CellParts`: a finished cell, a cell that waits for others, or the result of a task. -/
inductive Ext where
  | whole (c : CCell)
  | parts (data : DataBuilder) (exotic : Bool) (kids : List Ext)
  | deferred (task : Nat)

def Ext.isWhole : Ext → Bool
  | .whole _ => true
  | _ => false

/-- The finished cells of a list. -/
def wholes : List Ext → List CCell
  | [] => []
  | .whole c :: es => c :: wholes es
  | _ :: es => wholes es

/-- `merkle/proof.rs:643-673` `ChildrenBuilder::store_reference`; only a builder of ordinary cells has a limit. -/
def storeExt (kids : List Ext) (e : Ext) : Except Err (List Ext) :=
  if kids.all Ext.isWhole && e.isWhole && decide (4 ≤ kids.length) then .error .cellOverflow else .ok (kids ++ [e])

/-- `Node` (`merkle/proof.rs:630-635`): a cell, the Merkle depth of its references, the references left and the children made. -/
structure Frame where
  cell : CCell
  md : Nat
  rest : List CCell
  kids : List Ext

/-- Where a task is: at the head of the loop of `merkle/proof.rs:689`, after a lookup that did not find the next reference,
or at its end. The stack has its top first. -/
inductive Phase where
  | walk (stack : List Frame)
  | missed (c : CCell) (stack : List Frame)
  | done (r : Except Err Ext)

/-- A run of `build_impl` with the arguments `child` and `parent_merkle_depth`. -/
structure Task where
  root : CCell
  md : Nat
  phase : Phase

/-- The beginning of `build_impl` (`merkle/proof.rs:680-687`). -/
def Task.start (c : CCell) (md : Nat) : Task :=
  ⟨c, md, match bump md c with
    | .ok md' => .walk [⟨c, md', c.refs, []⟩]
    | .error e => .done (.error e)⟩

/-- The shared data and all tasks so far; task 0 is the one that runs inside of `rayon::scope` and can spawn others. -/
structure Pool where
  cells : List (Hash × Ext)
  pruned : List Hash
  tasks : List Task

/-- What a step does: the phase that follows, the shared data, and the arguments of a spawned task. -/
structure Out where
  phase : Phase
  cells : List (Hash × Ext)
  pruned : List Hash
  spawn : Option (CCell × Nat)

/-- `scc::HashMap::insert(..).ok()`: an entry that exists stays. -/
def insertNew (m : List (Hash × Ext)) (h : Hash) (e : Ext) : List (Hash × Ext) :=
  match find m h with
  | some _ => m
  | none => (h, e) :: m

/-- `merkle/proof.rs:758-776`: the cell of a node without further references. -/
def makeExt (H : Hasher) (f : Frame) : Except Err Ext :=
  if f.kids.all Ext.isWhole then (rebuild H f.cell (wholes f.kids)).map .whole
  else match DataBuilder.new.storeRaw f.cell.data f.cell.bitLen with
    | (.ok _, d) => .ok (.parts d f.cell.desc.isExotic f.kids)
    | (.error e, _) => .error e

/-- `last.children.store_reference(child)?` (`merkle/proof.rs:750`, `784`), then on to the head of the loop. -/
def giveChild (e : Ext) : List Frame → Phase
  | [] => .done (.error .emptyProof)
  | f :: st => match storeExt f.kids e with
    | .ok kids => .walk ({ f with kids := kids } :: st)
    | .error x => .done (.error x)

/-- `merkle/proof.rs:777-788`: the cell is saved and given to its parent, or is the result. -/
def leave (e : Ext) : List Frame → Phase
  | [] => .done (.ok e)
  | g :: st => giveChild e (g :: st)

/-- One step of a task in the loop of `merkle/proof.rs:689-794`; `main` says that the task has a scope, `next` is the number
of the next task. -/
def advance (H : Hasher) (cfg : Config) (split : List Hash) (main : Bool) (next : Nat) (cells : List (Hash × Ext)) (pruned : List Hash) :
    Phase → Option Out
  | .done _ => none
  | .walk [] => some ⟨.done (.error .emptyProof), cells, pruned, none⟩
  | .walk (⟨cell, md, c :: cs, kids⟩ :: st) =>
    -- a child: the lookup of `proof.rs:694`
    match find cells c.reprHash with
    | some e => some ⟨giveChild e (⟨cell, md, cs, kids⟩ :: st), cells, pruned, none⟩
    | none => some ⟨.missed c (⟨cell, md, cs, kids⟩ :: st), cells, pruned, none⟩
  | .walk (⟨cell, md, [], kids⟩ :: st) =>
    -- no children left: `proof.rs:751-788`
    match makeExt H ⟨cell, md, [], kids⟩ with
    | .ok e => some ⟨leave e st, insertNew cells cell.reprHash e, pruned, none⟩
    | .error x => some ⟨.done (.error x), cells, pruned, none⟩
  | .missed c [] => some ⟨.done (.error .emptyProof), cells, pruned, none⟩
  | .missed c (f :: st) =>
    -- `proof.rs:697-747`
    match cfg.filter c.reprHash, prunable cfg c with
    | .inclSubtree, _ => some ⟨giveChild (.whole c) (f :: st), cells, pruned, none⟩
    | .skip, true => match pruneAt H c f.md with
      | .ok p => some ⟨giveChild (.whole p) (f :: st), cells, c.reprHash :: pruned, none⟩
      | .error x => some ⟨.done (.error x), cells, pruned, none⟩
    | _, _ =>
      if main && decide (c.reprHash ∈ split) then some ⟨giveChild (.deferred next) (f :: st), cells, pruned, some (c, f.md)⟩
      else match bump f.md c with
        | .ok md' => some ⟨.walk (⟨c, md', c.refs, []⟩ :: f :: st), cells, pruned, none⟩
        | .error x => some ⟨.done (.error x), cells, pruned, none⟩

/-- Task `i` takes a step, if it exists and has not ended. -/
def Pool.step (H : Hasher) (cfg : Config) (split : List Hash) (s : Pool) (i : Nat) : Option Pool :=
  match s.tasks[i]? with
  | none => none
  | some t => match advance H cfg split (i == 0) s.tasks.length s.cells s.pruned t.phase with
    | none => none
    | some o => some ⟨o.cells, o.pruned, s.tasks.set i { t with phase := o.phase } ++ (o.spawn.toList.map fun a => Task.start a.1 a.2)⟩

/-- The steps of a schedule. -/
def Pool.run (H : Hasher) (cfg : Config) (split : List Hash) : Pool → List Nat → Option Pool
  | s, [] => some s
  | s, i :: is => match s.step H cfg split i with
    | none => none
    | some s' => s'.run H cfg split is

def Pool.start (root : CCell) : Pool := ⟨[], [], [Task.start root 0]⟩

/-- The value of a promise, or nothing when it is not set. -/
def Pool.promise (s : Pool) (i : Nat) : Option (Except Err Ext) :=
  match s.tasks[i]? with
  | some ⟨_, _, .done r⟩ => some r
  | _ => none

def Phase.ended : Phase → Bool
  | .done _ => true
  | _ => false

/-- All tasks have ended: `rayon::scope` returns. -/
def Pool.ended (s : Pool) : Bool := s.tasks.all fun t => t.phase.ended

/-- The loop over the children in `finalize` (`merkle/proof.rs:590-593`). -/
def settleKids (f : Ext → Option (Except Err CCell)) : List Ext → List CCell → Option (Except Err (List CCell))
  | [], acc => some (.ok acc)
  | e :: es, acc => match f e with
    | none => none
    | some (.error x) => some (.error x)
    | some (.ok c) => if acc.length < 4 then settleKids f es (acc ++ [c]) else some (.error .cellOverflow)

/-- `finalize` (`merkle/proof.rs:580-604`) and the loop of `614-622`. Nothing when it waits for a promise that is never set, or when
the bound `n` on the depth of the recursion is too small. -/
def settle (H : Hasher) (prom : Nat → Option (Except Err Ext)) : Nat → Ext → Option (Except Err CCell)
  | 0, _ => none
  | _ + 1, .whole c => some (.ok c)
  | n + 1, .parts data exotic kids => match settleKids (settle H prom n) kids [] with
    | none => none
    | some (.error x) => some (.error x)
    | some (.ok cs) => some (CellB.build H { inner := data, refs := cs, exotic := exotic })
  | n + 1, .deferred p => match prom p with
    | none => none
    | some (.error x) => some (.error x)
    | some (.ok e) => settle H prom n e

/-- A task that ended with a panic. -/
def Task.panicked (t : Task) : Bool :=
  match t.phase with
  | .done (.error .panic) => true
  | _ => false

/-- What is returned after the scope (`merkle/proof.rs:612-622`). -/
def Pool.result (H : Hasher) (s : Pool) (n : Nat) : Option (Except Err CCell) :=
  if s.tasks.any Task.panicked then some (.error .panic)
  else match s.promise 0 with
    | none => none
    | some (.error x) => some (.error x)
    | some (.ok e) => settle H s.promise n e

/-- `merkle/proof.rs:419-437` `par_build_raw_ext` and `579-623` `ParBuilderImpl::build` under a schedule: the cell and the set of pruned hashes.
Nothing when the schedule is not a complete run (or `n` is too small, see `settle`). -/
def build (H : Hasher) (cfg : Config) (allowDifferentRoot : Bool) (split : List Hash) (root : CCell) (sched : List Nat) (n : Nat) :
    Option (Except Err (CCell × List Hash)) :=
  if !allowDifferentRoot && cfg.filter root.reprHash == .skip then some (.error .emptyProof)
  else match (Pool.start root).run H cfg split sched with
    | none => none
    | some s => if s.ended then (s.result H n).map fun r => r.map fun c => (c, s.pruned) else none

end Par
end Merkle
end Verif
