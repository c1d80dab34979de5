/-
Model of the release of cells (`cell/cell_impl/mod.rs:257-388`): the destructor of an ordinary cell releases deep trees in a loop, keeping the way back in the cells themselves.

Memory is a list of places; an address is an index, a released place is `none`. Reference counts are those of `Rc` (`Arc` with the feature `sync`, where the
atomicity of the counts is not modelled here but in `CellDropPar.lean`). Cells without references (empty, static, library and pruned cells) are nodes without slots. The wrappers for virtual and tracked cells,
which pass the calls on to the cell inside, are not modelled.
-/
set_option linter.unusedVariables false
namespace Verif.Drop

/-- What can go wrong: access to released memory or to a slot that was not written, a count that is already zero, more nested destructors than allowed, and more rounds of a
loop than allowed. -/
inductive DropErr
  | released
  | slot
  | zero
  | nesting
  | rounds
deriving DecidableEq, Repr

/-- A cell in memory: `OrdinaryCellHeader` (`mod.rs:227-235`) with the slots of `references`, the reference count of the descriptor and `without_first`; the strong and weak counts of its `Rc`. -/
structure Node where
  refs : List Nat
  cnt : Nat
  noFirst : Bool
  strong : Nat
  weak : Nat
deriving DecidableEq, Repr

abbrev Heap := List (Option Node)

/-- Access through a pointer. -/
def Heap.node (h : Heap) (a : Nat) : Except DropErr Node :=
  match h[a]? with
  | some (some n) => .ok n
  | _ => .error .released

/-- `ptr::read` of a slot. -/
def Node.slot (n : Node) (i : Nat) : Except DropErr Nat :=
  match n.refs[i]? with
  | some c => .ok c
  | none => .error .slot

/-- `Rc::get_mut` (`rc.rs:142-152` `try_as_mut`) gives access if there are no other pointers, weak ones included. -/
def Heap.isUnique (h : Heap) (a : Nat) : Except DropErr Bool := h.node a >>= fun n => .ok (decide (n.strong = 1 ∧ n.weak = 0))

/-- `mod.rs:257-265` `take_first_child` -/
def Heap.takeFirst (h : Heap) (a : Nat) : Except DropErr (Option Nat × Heap) :=
  h.node a >>= fun n =>
    if 0 < n.cnt ∧ n.noFirst = false then n.slot 0 >>= fun c => .ok (some c, h.set a (some { n with noFirst := true }))
    else .ok (none, h)

/-- `mod.rs:267-278` `replace_first_child_with_parent`; `none` stands for `Err(parent)`. -/
def Heap.replaceFirst (h : Heap) (a parent : Nat) : Except DropErr (Option Nat × Heap) :=
  h.node a >>= fun n =>
    if 0 < n.cnt ∧ n.noFirst = false then n.slot 0 >>= fun c => .ok (some c, h.set a (some { n with refs := n.refs.set 0 parent }))
    else .ok (none, h)

/-- `mod.rs:280-289` `take_next_child` -/
def Heap.takeNext (h : Heap) (a : Nat) : Except DropErr (Option Nat × Heap) :=
  h.node a >>= fun n =>
    if 1 < n.cnt then n.slot (n.cnt - 1) >>= fun c => .ok (some c, h.set a (some { n with cnt := n.cnt - 1 }))
    else .ok (none, h)

/-- `mod.rs:297-315` `take_ancestor_next_child`. The function `drop` is the release of a pointer; pointers still held at the end of a function are released there. -/
def nextChild (drop : Heap → Nat → Except DropErr Heap) : Nat → Heap → Nat → Except DropErr (Option (Nat × Nat) × Heap)
  | 0, _, _ => .error .rounds
  | fuel + 1, h, ancestor => h.isUnique ancestor >>= fun u =>
    if u then h.takeNext ancestor >>= fun r => match r with
      | (some child, h) => .ok (some (ancestor, child), h)
      | (none, h) => h.takeFirst ancestor >>= fun r => match r with
        | (some grand, h) => drop h ancestor >>= fun h => nextChild drop fuel h grand
        | (none, h) => drop h ancestor >>= fun h => .ok (none, h)
    else drop h ancestor >>= fun h => .ok (none, h)

/-- The loop of `main_deep_safe_drop` (`mod.rs:328-355`). The old value of `current` is released when the next one is assigned, or at the return. -/
def mainLoop (drop : Heap → Nat → Except DropErr Heap) : Nat → Heap → Nat → Nat → Except DropErr Heap
  | 0, _, _, _ => .error .rounds
  | fuel + 1, h, parent, current => h.isUnique current >>= fun u =>
    if u then h.replaceFirst current parent >>= fun r => match r with
      | (some first, h) => mainLoop drop fuel h current first
      | (none, h) => drop h current >>= fun h => nextChild drop (fuel + 1) h parent >>= fun r => match r with
        | (none, h) => .ok h
        | (some (ancestor, child), h) => mainLoop drop fuel h ancestor child
    else nextChild drop (fuel + 1) h parent >>= fun r => match r with
      | (none, h) => drop h current
      | (some (ancestor, child), h) => drop h current >>= fun h => mainLoop drop fuel h ancestor child

/-- `mod.rs:317-356` `main_deep_safe_drop` -/
def mainDrop (drop : Heap → Nat → Except DropErr Heap) (fuel : Nat) (h : Heap) (parent : Nat) : Except DropErr Heap :=
  h.isUnique parent >>= fun u =>
    if u then h.takeFirst parent >>= fun r => match r with
      | (some first, h) => mainLoop drop fuel h parent first
      | (none, h) => drop h parent
    else drop h parent

/-- `mod.rs:366-368` -/
def restDrop (drop : Heap → Nat → Except DropErr Heap) (fuel : Nat) : Nat → Heap → Nat → Except DropErr Heap
  | 0, _, _ => .error .rounds
  | k + 1, h, a => h.takeNext a >>= fun r => match r with
    | (some next, h) => mainDrop drop fuel h next >>= fun h => restDrop drop fuel k h a
    | (none, h) => .ok h

/-- `mod.rs:358-370` `deep_drop_impl` -/
def deepDrop (drop : Heap → Nat → Except DropErr Heap) (fuel : Nat) (h : Heap) (a : Nat) : Except DropErr Heap :=
  h.isUnique a >>= fun u =>
    if u then h.takeFirst a >>= fun r => match r with
      | (some first, h) => mainDrop drop fuel h first >>= fun h => restDrop drop fuel fuel h a
      | (none, h) => .ok h
    else .ok h

/-- The loop of `drop` (`mod.rs:375-386`) over the slots that are left. -/
def eachDrop (drop : Heap → Nat → Except DropErr Heap) (fuel : Nat) : List Nat → Heap → Except DropErr Heap
  | [], h => .ok h
  | c :: cs, h => deepDrop drop fuel h c >>= fun h => drop h c >>= fun h => eachDrop drop fuel cs h

/-- The slots that a cell owns: those below its count, without the first one if it was taken. -/
def Node.owned (n : Node) : List Nat := if n.noFirst then (n.refs.take n.cnt).drop 1 else n.refs.take n.cnt

/-- Release of a pointer: the count is decreased; at zero the destructor of the cell (`mod.rs:292-388`) runs and its memory is released. The memory is released before the loop over
the slots here, so that an access to the cell during its destructor is an error. The first argument bounds the nesting of destructors. -/
def dropRef (fuel : Nat) : Nat → Heap → Nat → Except DropErr Heap
  | 0, _, _ => .error .nesting
  | d + 1, h, a => h.node a >>= fun n =>
    if n.strong = 0 then .error .zero
    else if 1 < n.strong then .ok (h.set a (some { n with strong := n.strong - 1 }))
    else eachDrop (dropRef fuel d) fuel n.owned (h.set a none)

/-! ### Programs that use cells -/

/-- A program: the memory and the addresses of the cells that it holds. -/
structure World where
  heap : Heap
  held : List Nat
deriving Repr

inductive Op
  | new (k : Nat)          -- build a cell whose references are the first `k` held cells, which are given away (`CellBuilder::build`)
  | clone (i : Nat)        -- clone a held cell
  | child (i j : Nat)      -- `reference_cloned`: hold a child of a held cell
  | drop (i : Nat)         -- release a held cell
deriving Repr

/-- `Rc::clone` -/
def Heap.clone (h : Heap) (a : Nat) : Except DropErr Heap :=
  h.node a >>= fun n => if n.strong = 0 then .error .zero else .ok (h.set a (some { n with strong := n.strong + 1 }))

/-- One step, where destructors may be nested `d` deep. Steps that name a cell that is not held do nothing; a cell has at most four references. New cells get new places (`rc.rs:197-250`, with both counts at their initial value). -/
def Op.run (d : Nat) (w : World) : Op → Except DropErr World
  | .new k => if k ≤ 4 ∧ k ≤ w.held.length then .ok ⟨w.heap ++ [some ⟨w.held.take k, k, false, 1, 0⟩], w.heap.length :: w.held.drop k⟩ else .ok w
  | .clone i => match w.held[i]? with
    | some a => w.heap.clone a >>= fun h => .ok ⟨h, a :: w.held⟩
    | none => .ok w
  | .child i j => match w.held[i]? with
    | some a => w.heap.node a >>= fun n => if j < n.cnt then n.slot j >>= fun c => w.heap.clone c >>= fun h => .ok ⟨h, c :: w.held⟩ else .ok w
    | none => .ok w
  | .drop i => match w.held[i]? with
    | some a => dropRef (10 * w.heap.length + 1) d w.heap a >>= fun h => .ok ⟨h, w.held.eraseIdx i⟩
    | none => .ok w

def World.runs (d : Nat) : World → List Op → Except DropErr World
  | w, [] => .ok w
  | w, op :: ops => op.run d w >>= fun w => w.runs d ops

def World.init : World := ⟨[], []⟩

/-! ### Specification -/

/-- A cell is in memory. -/
def Heap.Live (h : Heap) (a : Nat) (n : Node) : Prop := h[a]? = some (some n)

/-- The cells that can be reached from those with `roots a` handles. -/
inductive Reach (h : Heap) (roots : Nat → Nat) : Nat → Prop
  | root {a : Nat} : 0 < roots a → Reach h roots a
  | step {a b : Nat} {n : Node} : Reach h roots a → h.Live a n → b ∈ n.refs → Reach h roots b

/-- The sum of the first values of a function. -/
def sumTo (f : Nat → Nat) : Nat → Nat
  | 0 => 0
  | n + 1 => sumTo f n + f n

/-- The slots owned by the cell at an address. -/
def ownedAt (h : Heap) (i : Nat) : List Nat :=
  match h[i]? with
  | some (some n) => n.owned
  | _ => []

/-- The number of slots in memory that hold the address. -/
def indeg (h : Heap) (a : Nat) : Nat := sumTo (fun i => (ownedAt h i).count a) h.length

def strongAt (h : Heap) (a : Nat) : Nat :=
  match h[a]? with
  | some (some n) => n.strong
  | _ => 0

/-- Every strong count is the number of handles outside of memory and of slots in memory. -/
structure Acct (h : Heap) (L : Nat → Nat) : Prop where
  count : ∀ a, strongAt h a = L a + indeg h a
  pos : ∀ a n, h.Live a n → 0 < n.strong

/-- One more handle. -/
def hold (c : Nat) (L : Nat → Nat) : Nat → Nat := fun x => L x + if x = c then 1 else 0

/-- Cells as they are built: at most four references, to cells built before, nothing taken, no weak handles. -/
def Fresh (h : Heap) : Prop := ∀ x n, h.Live x n → n.weak = 0 ∧ n.noFirst = false ∧ n.cnt = n.refs.length ∧ n.cnt ≤ 4 ∧ ∀ b, b ∈ n.refs → b < x

/-- The same programs where nothing is ever released: the references of all cells that were built, and the held cells. -/
structure Plan where
  built : List (List Nat)
  held : List Nat

def Op.plan (p : Plan) : Op → Plan
  | .new k => if k ≤ 4 ∧ k ≤ p.held.length then ⟨p.built ++ [p.held.take k], p.built.length :: p.held.drop k⟩ else p
  | .clone i => match p.held[i]? with
    | some a => ⟨p.built, a :: p.held⟩
    | none => p
  | .child i j => match p.held[i]? with
    | some a => match (p.built.getD a [])[j]? with
      | some c => ⟨p.built, c :: p.held⟩
      | none => p
    | none => p
  | .drop i => ⟨p.built, p.held.eraseIdx i⟩

def Plan.after (ops : List Op) : Plan := ops.foldl Op.plan ⟨[], []⟩

/-- The cells that a program can still get to. -/
inductive Needed (p : Plan) : Nat → Prop
  | held {a : Nat} : a ∈ p.held → Needed p a
  | child {a b : Nat} {rs : List Nat} : Needed p a → p.built[a]? = some rs → b ∈ rs → Needed p b

end Verif.Drop
