/-
Model of the release of cells that are shared by several threads (`cell/cell_impl/mod.rs:257-388`, `cell/cell_impl/sync.rs`, feature `sync`), with weak handles.

Memory is a list of places; an address is an index, a released place is `none`. Each running destructor is a stack of frames, one for each call that has not
returned. A step of a thread is one access to a reference count together with the local work that follows it; steps of all threads are interleaved in any order. The counts of `Arc` are taken to be
atomic and in one total order (`Arc` orders what matters: a thread that sees the last count sees all writes before). `Arc::get_mut` is one access.

The same steps describe `Rc` (feature `sync` off) when only one thread runs at a time, also with weak handles, which `CellDrop.lean` leaves out. As there, cells without references are nodes without slots, and the
wrappers for virtual and tracked cells are not modelled.
-/
set_option linter.unusedVariables false
namespace Verif.DropPar

/-- What must not happen: access to released memory or to a slot that was not written, a count that is already zero, and a change of a cell that others may see. -/
inductive DropErr
  | released
  | slot
  | zero
  | shared
deriving DecidableEq, Repr

/-- A cell in memory: `OrdinaryCellHeader` (`mod.rs:227-235`) with the slots of `references`, the reference count of the descriptor and `without_first`; the strong and weak counts of its
`Arc`. No step reads `built` (the references the cell was built with) and `turned` (whether the first slot was replaced by `replace_first_child`): they are there for the statements and proofs. -/
structure Node where
  refs : List Nat
  cnt : Nat
  noFirst : Bool
  strong : Nat
  weak : Nat
  built : List Nat
  turned : Bool
deriving DecidableEq, Repr

abbrev Heap := List (Option Node)

/-- The slots that a cell owns: those below its count, without the first one if it was taken. -/
def Node.owned (n : Node) : List Nat := if n.noFirst then (n.refs.take n.cnt).drop 1 else n.refs.take n.cnt

/-- A call that has not returned. `drop` releases a handle; `each` is the loop of the destructor over the slots that are left (`mod.rs:375-386`); `deep` is `deep_drop_impl` (`mod.rs:358-370`) on a
child of the destructor's cell, and `rest` its inner loop; `main` is the beginning of `main_deep_safe_drop` (`mod.rs:317-326`), `loop` the head of its loop with `parent` and `current` (`mod.rs:328`), and
`next` is `take_ancestor_next_child` (`mod.rs:297-315`) together with the value of `current` that is released afterwards, if there is one. -/
inductive Frame
  | drop (a : Nat)
  | each (cs : List Nat)
  | deep (c : Nat)
  | rest (c : Nat)
  | main (p : Nat)
  | loop (p c : Nat)
  | next (p : Nat) (keep : Option Nat)
deriving DecidableEq, Repr

/-- Access through a pointer. -/
def Heap.node (h : Heap) (a : Nat) : Except DropErr Node :=
  match h[a]? with
  | some (some n) => .ok n
  | _ => .error .released

/-- `ptr::read` of a slot. -/
def Node.slot (n : Node) (i : Nat) : Except DropErr Nat :=
  match n.refs[i]? with
  | some c => .ok c
  | none => .error .slot

/-- `Arc::get_mut` (`sync.rs` `try_as_mut`) gives access if there are no other pointers, weak ones included. -/
def Node.unique (n : Node) : Bool := decide (n.strong = 1 ∧ n.weak = 0)

/-- A change through `&mut`: it must be the only pointer. -/
def Heap.change (h : Heap) (a : Nat) (n n' : Node) : Except DropErr Heap :=
  if n.unique then .ok (h.set a (some n')) else .error .shared

/-- `mod.rs:257-265` `take_first_child` -/
def Heap.takeFirst (h : Heap) (a : Nat) (n : Node) : Except DropErr (Option Nat × Heap) :=
  if 0 < n.cnt ∧ n.noFirst = false then n.slot 0 >>= fun c => h.change a n { n with noFirst := true } >>= fun h => .ok (some c, h)
  else .ok (none, h)

/-- `mod.rs:267-278` `replace_first_child_with_parent`; `none` stands for `Err(parent)`. -/
def Heap.replaceFirst (h : Heap) (a : Nat) (n : Node) (parent : Nat) : Except DropErr (Option Nat × Heap) :=
  if 0 < n.cnt ∧ n.noFirst = false then
    n.slot 0 >>= fun c => h.change a n { n with refs := n.refs.set 0 parent, turned := true } >>= fun h => .ok (some c, h)
  else .ok (none, h)

/-- `mod.rs:280-289` `take_next_child` -/
def Heap.takeNext (h : Heap) (a : Nat) (n : Node) : Except DropErr (Option Nat × Heap) :=
  if 1 < n.cnt then n.slot (n.cnt - 1) >>= fun c => h.change a n { n with cnt := n.cnt - 1 } >>= fun h => .ok (some c, h)
  else .ok (none, h)

/-- One step of a thread: what its top frame does, with the frames below. -/
def advance (h : Heap) : List Frame → Except DropErr (Heap × List Frame)
  | [] => .ok (h, [])
  -- a handle is released; at zero the destructor of the cell runs and its memory is released. The memory is released before the loop over the slots here, so that an access to the cell during its destructor is an error
  | .drop a :: st => h.node a >>= fun n =>
    if n.strong = 0 then .error .zero
    else if 1 < n.strong then .ok (h.set a (some { n with strong := n.strong - 1 }), st)
    else .ok (h.set a none, .each n.owned :: st)
  | .each [] :: st => .ok (h, st)
  | .each (c :: cs) :: st => .ok (h, .deep c :: .drop c :: .each cs :: st)
  | .deep c :: st => h.node c >>= fun n =>
    if n.unique then h.takeFirst c n >>= fun r => match r with
      | (some first, h) => .ok (h, .main first :: .rest c :: st)
      | (none, h) => .ok (h, st)
    else .ok (h, st)
  | .rest c :: st => h.node c >>= fun n => h.takeNext c n >>= fun r => match r with
    | (some x, h) => .ok (h, .main x :: .rest c :: st)
    | (none, h) => .ok (h, st)
  | .main p :: st => h.node p >>= fun n =>
    if n.unique then h.takeFirst p n >>= fun r => match r with
      | (some first, h) => .ok (h, .loop p first :: st)
      | (none, h) => .ok (h, .drop p :: st)
    else .ok (h, .drop p :: st)
  | .loop p c :: st => h.node c >>= fun n =>
    if n.unique then h.replaceFirst c n p >>= fun r => match r with
      | (some first, h) => .ok (h, .loop c first :: st)
      | (none, h) => .ok (h, .drop c :: .next p none :: st)
    else .ok (h, .next p (some c) :: st)
  | .next p keep :: st => h.node p >>= fun n =>
    if n.unique then h.takeNext p n >>= fun r => match r with
      | (some x, h) => .ok (h, keep.toList.map .drop ++ .loop p x :: st)
      | (none, h) => h.takeFirst p n >>= fun r => match r with
        | (some grand, h) => .ok (h, .drop p :: .next grand keep :: st)
        | (none, h) => .ok (h, .drop p :: (keep.toList.map .drop ++ st))
    else .ok (h, .drop p :: (keep.toList.map .drop ++ st))

/-- The memory, the strong and weak handles that the program holds (in any of its threads), and the destructors that run. -/
structure State where
  heap : Heap
  held : List Nat
  weaks : List Nat
  threads : List (List Frame)
deriving DecidableEq, Repr

/-- What can happen next. -/
inductive Act
  | new (as : List Nat)    -- build a cell with the given references (at most four), whose handles are given away (`CellBuilder::build`)
  | clone (a : Nat)        -- clone a held handle
  | child (a j : Nat)      -- `reference_cloned`: hold a child of a held cell
  | drop (a : Nat)         -- begin to release a held handle
  | weak (a : Nat)         -- `Cell::downgrade`
  | upgrade (a : Nat)      -- `WeakCell::upgrade`
  | cloneWeak (a : Nat)
  | dropWeak (a : Nat)
  | step (t : Nat)         -- a step of a running destructor
deriving Repr

/-- The list without the given elements, each removed once. -/
def giveAway : List Nat → List Nat → Option (List Nat)
  | [], l => some l
  | a :: as, l => if a ∈ l then giveAway as (l.erase a) else none

/-- `Arc::clone` -/
def Heap.clone (h : Heap) (a : Nat) : Except DropErr Heap :=
  h.node a >>= fun n => if n.strong = 0 then .error .zero else .ok (h.set a (some { n with strong := n.strong + 1 }))

/-- One action. Actions that name a handle which is not held do nothing. New cells get new places. The weak count of a released cell is of no further use. -/
def Act.run (s : State) : Act → Except DropErr State
  | .new as => match giveAway as s.held with
    | some held => if as.length ≤ 4 then .ok { s with heap := s.heap ++ [some ⟨as, as.length, false, 1, 0, as, false⟩], held := s.heap.length :: held } else .ok s
    | none => .ok s
  | .clone a => if a ∈ s.held then s.heap.clone a >>= fun h => .ok { s with heap := h, held := a :: s.held } else .ok s
  | .child a j => if a ∈ s.held then s.heap.node a >>= fun n =>
      if j < n.cnt then n.slot j >>= fun c => s.heap.clone c >>= fun h => .ok { s with heap := h, held := c :: s.held } else .ok s
    else .ok s
  | .drop a => if a ∈ s.held then .ok { s with held := s.held.erase a, threads := s.threads ++ [[.drop a]] } else .ok s
  | .weak a => if a ∈ s.held then s.heap.node a >>= fun n => .ok { s with heap := s.heap.set a (some { n with weak := n.weak + 1 }), weaks := a :: s.weaks } else .ok s
  | .upgrade a => if a ∈ s.weaks then match s.heap[a]? with
      | some (some n) => .ok { s with heap := s.heap.set a (some { n with strong := n.strong + 1 }), held := a :: s.held }
      | _ => .ok s
    else .ok s
  | .cloneWeak a => if a ∈ s.weaks then match s.heap[a]? with
      | some (some n) => .ok { s with heap := s.heap.set a (some { n with weak := n.weak + 1 }), weaks := a :: s.weaks }
      | _ => .ok { s with weaks := a :: s.weaks }
    else .ok s
  | .dropWeak a => if a ∈ s.weaks then match s.heap[a]? with
      | some (some n) => if n.weak = 0 then .error .zero else .ok { s with heap := s.heap.set a (some { n with weak := n.weak - 1 }), weaks := s.weaks.erase a }
      | _ => .ok { s with weaks := s.weaks.erase a }
    else .ok s
  | .step t => match s.threads[t]? with
    | some st => advance s.heap st >>= fun r => .ok { s with heap := r.1, threads := s.threads.set t r.2 }
    | none => .ok s

def State.runs : State → List Act → Except DropErr State
  | s, [] => .ok s
  | s, a :: as => a.run s >>= fun s => s.runs as

def State.init : State := ⟨[], [], [], []⟩

end Verif.DropPar
