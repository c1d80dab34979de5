import Verif.StorageStat
/-
`UsageTree` (`cell/usage_tree.rs`): which cells were visited.
-/
set_option linter.unusedVariables false
set_option linter.unusedSimpArgs false
namespace Verif
namespace Usage
open Boc (Below Clash below_apart)
open Merkle (Filter)

/-! ### Model -/

/-- `cell/usage_tree.rs:245-251` `UsageCell` (without `sync`). Its children are numbers of other usage cells; the weak reference to the tree is the state
around it. -/
structure Node where
  cell : CCell
  kids : List (Option Nat)
  inserted : Bool

/-- The state of a usage tree with all usage cells made from it. `alive` is whether the tree still exists (weak references can be upgraded). -/
structure Tree where
  onLoad : Bool
  alive : Bool
  visited : List Hash
  nodes : List Node

/-- `cell/usage_tree.rs:22-26` `UsageTree::new` -/
def Tree.new (onLoad : Bool) : Tree := ⟨onLoad, true, [], []⟩

/-- `cell/usage_tree.rs:225-227` `insert`, behind an upgrade of the weak reference. -/
def Tree.insert (t : Tree) (h : Hash) : Tree :=
  if t.alive then (if h ∈ t.visited then t else { t with visited := h :: t.visited }) else t

/-- `cell/usage_tree.rs:254-262` `UsageCell::new` -/
def Tree.push (t : Tree) (c : CCell) : Tree × Nat :=
  ({ t with nodes := t.nodes ++ [⟨c, [none, none, none, none], t.onLoad⟩] }, t.nodes.length)

/-- `cell/usage_tree.rs:39-44` `track` -/
def Tree.track (t : Tree) (c : CCell) : Tree × Nat := (if t.onLoad then t.insert c.reprHash else t).push c

/-- `cell/usage_tree.rs:276-299` `load_reference`; `reference` and `reference_cloned` (`135-151`) return the same usage cell. -/
def Tree.load (t : Tree) (id i : Nat) : Tree × Option Nat :=
  match t.nodes[id]? with
  | none => (t, none)
  | some n =>
    if i < 4 then
      match (n.kids[i]?).join with
      | some k => (t, some k)
      | none => match n.cell.refs[i]? with
        | none => (t, none)
        | some c =>
          let t1 := if t.onLoad then t.insert c.reprHash else t
          let (t2, k) := t1.push c
          ({ t2 with nodes := t2.nodes.set id { n with kids := n.kids.set i (some k) } }, some k)
    else (t, none)

/-- `cell/usage_tree.rs:121-129` `data` -/
def Tree.data (t : Tree) (id : Nat) : Tree × Option (List Byte) :=
  match t.nodes[id]? with
  | none => (t, none)
  | some n =>
    if n.inserted then (t, some n.cell.data)
    else
      let t1 := t.insert n.cell.reprHash
      ({ t1 with nodes := t1.nodes.set id { n with inserted := true } }, some n.cell.data)

/-- `cell/usage_tree.rs:48-50` `contains` -/
def Tree.contains (t : Tree) (h : Hash) : Bool := decide (h ∈ t.visited)

/-- `merkle/mod.rs:54-62` -/
def Tree.filter (t : Tree) : Filter := fun h => if t.contains h then .incl else .skip

/-- `merkle/mod.rs:64-74`, with the subtree roots of `UsageTreeWithSubtrees` (`cell/usage_tree.rs:71-110`). -/
def Tree.filterSub (t : Tree) (subtrees : List Hash) : Filter := fun h =>
  if t.contains h then .incl else if h ∈ subtrees then .inclSubtree else .skip

/-- What can be done with a usage tree. Usage cells are kept in numbered registers, each operation that gives one appends a register. -/
inductive Op where
  /-- `track` a cell. -/
  | track (c : CCell)
  /-- `reference`/`reference_cloned` number `i` of the cell in register `r`. -/
  | load (r i : Nat)
  /-- `data` of the cell in register `r`. -/
  | data (r : Nat)
  /-- `descriptor`, `bit_len`, `hash`, `depth` (`cell/usage_tree.rs:117-119`, `131-133`, `157-163`) of the cell in register `r`. -/
  | info (r l : Nat)
  /-- `untrack` (`cell/usage_tree.rs:113-115`) of the cell in register `r`. -/
  | untrack (r : Nat)
  /-- The usage tree is dropped. -/
  | drop

/-- What the caller sees. -/
inductive Out where
  | unit
  | cell (present : Bool)
  | bytes (d : Option (List Byte))
  | info (d : Option (CellDescriptor × Nat × Hash × Nat))
  | plain (c : Option CCell)

structure Machine where
  tree : Tree
  regs : List (Option Nat)

def Machine.reg (m : Machine) (r : Nat) : Option Nat := (m.regs[r]?).join

def Machine.node (m : Machine) (r : Nat) : Option Node := (m.reg r).bind fun id => m.tree.nodes[id]?

/-- One operation on the model of the code. Nothing can be tracked once the tree is dropped. -/
def Machine.step (m : Machine) : Op → Machine × Out
  | .track c => if m.tree.alive then (⟨(m.tree.track c).1, m.regs ++ [some (m.tree.track c).2]⟩, .cell true) else (⟨m.tree, m.regs ++ [none]⟩, .cell false)
  | .load r i => match m.reg r with
    | none => (⟨m.tree, m.regs ++ [none]⟩, .cell false)
    | some id => (⟨(m.tree.load id i).1, m.regs ++ [(m.tree.load id i).2]⟩, .cell (m.tree.load id i).2.isSome)
  | .data r => match m.reg r with
    | none => (m, .bytes none)
    | some id => (⟨(m.tree.data id).1, m.regs⟩, .bytes (m.tree.data id).2)
  | .info r l => (m, .info ((m.node r).map fun n => (n.cell.desc, n.cell.bitLen, n.cell.hash l, n.cell.depth l)))
  | .untrack r => (m, .plain ((m.node r).map Node.cell))
  | .drop => ({ m with tree := { m.tree with alive := false } }, .unit)

def Machine.run : Machine → List Op → Machine × List Out
  | m, [] => (m, [])
  | m, o :: os => ((Machine.run (m.step o).1 os).1, (m.step o).2 :: (Machine.run (m.step o).1 os).2)

def Machine.start (onLoad : Bool) : Machine := ⟨Tree.new onLoad, []⟩

/-! ### Specification -/

/-- Plain cells in the registers; the hashes of the cells accessed while the tree existed. -/
structure Plain where
  onLoad : Bool
  alive : Bool
  regs : List (Option CCell)
  seen : List Hash

def Plain.reg (m : Plain) (r : Nat) : Option CCell := (m.regs[r]?).join

/-- A cell is met: it counts if the tree exists and the mode asks for it. -/
def Plain.meet (m : Plain) (counts : Bool) (c : Option CCell) : Plain :=
  match c with
  | none => m
  | some c => if m.alive && counts then { m with seen := c.reprHash :: m.seen } else m

/-- One operation on ordinary cells. -/
def Plain.step (m : Plain) : Op → Plain × Out
  | .track c => if m.alive then (({ m with regs := m.regs ++ [some c] }).meet m.onLoad (some c), .cell true) else ({ m with regs := m.regs ++ [none] }, .cell false)
  | .load r i =>
    let child := (m.reg r).bind fun c => c.refs[i]?
    (({ m with regs := m.regs ++ [child] }).meet m.onLoad child, .cell child.isSome)
  | .data r => (m.meet (!m.onLoad) (m.reg r), .bytes ((m.reg r).map CCell.data))
  | .info r l => (m, .info ((m.reg r).map fun c => (c.desc, c.bitLen, c.hash l, c.depth l)))
  | .untrack r => (m, .plain (m.reg r))
  | .drop => ({ m with alive := false }, .unit)

def Plain.run : Plain → List Op → Plain × List Out
  | m, [] => (m, [])
  | m, o :: os => ((Plain.run (m.step o).1 os).1, (m.step o).2 :: (Plain.run (m.step o).1 os).2)

def Plain.start (onLoad : Bool) : Plain := ⟨onLoad, true, [], []⟩

/-! ### Refinement -/

/-- A number of a usage cell around `c`. -/
def Wraps (t : Tree) (id : Nat) (c : CCell) : Prop := ∃ n, t.nodes[id]? = some n ∧ n.cell = c

structure Sim (m : Machine) (p : Plain) : Prop where
  mode : m.tree.onLoad = p.onLoad
  alive : m.tree.alive = p.alive
  len : m.regs.length = p.regs.length
  reg : ∀ r, (m.reg r = none ∧ p.reg r = none) ∨ ∃ id c, m.reg r = some id ∧ p.reg r = some c ∧ Wraps m.tree id c
  kids : ∀ (id : Nat) (n : Node), m.tree.nodes[id]? = some n → ∀ (i k : Nat), (n.kids[i]?).join = some k → ∃ c, n.cell.refs[i]? = some c ∧ Wraps m.tree k c
  four : ∀ (id : Nat) (n : Node), m.tree.nodes[id]? = some n → n.kids.length = 4 ∧ n.cell.refs.length ≤ 4
  loaded : m.tree.onLoad = true → m.tree.alive = true → ∀ (id : Nat) (n : Node), m.tree.nodes[id]? = some n → n.cell.reprHash ∈ m.tree.visited
  inserted : ∀ (id : Nat) (n : Node), m.tree.nodes[id]? = some n → (m.tree.onLoad = true → n.inserted = true) ∧
    (m.tree.onLoad = false → m.tree.alive = true → n.inserted = true → n.cell.reprHash ∈ m.tree.visited)
  visited : ∀ h, h ∈ m.tree.visited ↔ h ∈ p.seen
  nodup : m.tree.visited.Nodup

theorem Tree.insert_nodes (t : Tree) (h : Hash) : (t.insert h).nodes = t.nodes ∧ (t.insert h).onLoad = t.onLoad ∧ (t.insert h).alive = t.alive := by
  unfold Tree.insert
  split
  · split <;> exact ⟨rfl, rfl, rfl⟩
  · exact ⟨rfl, rfl, rfl⟩

theorem Tree.insert_visited (t : Tree) (h k : Hash) : k ∈ (t.insert h).visited ↔ k ∈ t.visited ∨ (t.alive = true ∧ k = h) := by
  unfold Tree.insert
  split
  · rename_i ha
    split
    · rename_i hm
      constructor
      · exact Or.inl
      · rintro (h | ⟨_, rfl⟩)
        · exact h
        · exact hm
    · rw [List.mem_cons]; simp only [ha, true_and]; exact Or.comm
  · rename_i ha
    simp [ha]

theorem Tree.insert_nodup (t : Tree) (h : Hash) (hn : t.visited.Nodup) : (t.insert h).visited.Nodup := by
  unfold Tree.insert
  split
  · split
    · exact hn
    · rename_i hm; exact List.nodup_cons.mpr ⟨hm, hn⟩
  · exact hn

theorem join_append {α : Type} (l : List (Option α)) (x : Option α) (r : Nat) : ((l ++ [x])[r]?).join = if r = l.length then x else (l[r]?).join := by
  rw [List.getElem?_append]
  by_cases h : r < l.length
  · rw [if_pos h, if_neg (by omega)]
  · rw [if_neg h]
    by_cases h2 : r = l.length
    · rw [if_pos h2, h2]; simp
    · rw [if_neg h2]
      have h3 : 1 ≤ r - l.length := by omega
      rw [List.getElem?_eq_none (by simpa using h3), List.getElem?_eq_none (by omega)]

theorem set_get {α : Type} {l : List α} {id j : Nat} {x q : α} (h : (l.set id x)[j]? = some q) : q = x ∨ l[j]? = some q := by
  rw [List.getElem?_set] at h
  split at h
  · split at h
    · injection h with h; exact Or.inl h.symm
    · cases h
  · exact Or.inr h

/-- A new usage cell. -/
theorem Tree.push_node (t : Tree) (c : CCell) (id : Nat) (n : Node) : (t.push c).1.nodes[id]? = some n ↔
    t.nodes[id]? = some n ∨ (id = t.nodes.length ∧ n = ⟨c, [none, none, none, none], t.onLoad⟩) := by
  unfold Tree.push
  dsimp only
  rw [List.getElem?_append]
  by_cases h : id < t.nodes.length
  · rw [if_pos h]
    constructor
    · exact Or.inl
    · rintro (h1 | ⟨h1, _⟩)
      · exact h1
      · omega
  · rw [if_neg h]
    have hnone : t.nodes[id]? = none := List.getElem?_eq_none (by omega)
    rw [hnone]
    by_cases h2 : id = t.nodes.length
    · subst h2; simp [eq_comm]
    · have h3 : 1 ≤ id - t.nodes.length := by omega
      rw [List.getElem?_eq_none (by simpa using h3)]
      simp [h2]

theorem Wraps.push {t : Tree} {id : Nat} {c d : CCell} (h : Wraps t id c) : Wraps (t.push d).1 id c := by
  obtain ⟨n, h1, h2⟩ := h
  exact ⟨n, (Tree.push_node t d id n).mpr (Or.inl h1), h2⟩

theorem Wraps.new (t : Tree) (c : CCell) : Wraps (t.push c).1 t.nodes.length c :=
  ⟨_, (Tree.push_node t c _ _).mpr (Or.inr ⟨rfl, rfl⟩), rfl⟩

/-- Meeting a cell on both sides. -/
theorem Sim.meet {m : Machine} {p : Plain} (h : Sim m p) (b : Bool) (c : CCell) :
    Sim ⟨if b then m.tree.insert c.reprHash else m.tree, m.regs⟩ (p.meet b (some c)) ∧
      (b = true → m.tree.alive = true → c.reprHash ∈ (if b then m.tree.insert c.reprHash else m.tree).visited) ∧
      (if b then m.tree.insert c.reprHash else m.tree).nodes = m.tree.nodes := by
  cases b with
  | false =>
    refine ⟨?_, by simp, rfl⟩
    have : p.meet false (some c) = p := by unfold Plain.meet; simp
    rw [this]; exact h
  | true =>
    simp only [if_true]
    obtain ⟨e1, e2, e3⟩ := m.tree.insert_nodes c.reprHash
    have hv := m.tree.insert_visited c.reprHash
    refine ⟨?_, fun _ ha => (hv _).mpr (Or.inr ⟨ha, rfl⟩), e1⟩
    have hp : (p.meet true (some c)).onLoad = p.onLoad ∧ (p.meet true (some c)).alive = p.alive ∧ (p.meet true (some c)).regs = p.regs ∧
        ∀ k, k ∈ (p.meet true (some c)).seen ↔ k ∈ p.seen ∨ (p.alive = true ∧ k = c.reprHash) := by
      unfold Plain.meet
      dsimp only
      cases ha : p.alive with
      | true => simp [Or.comm, ha]
      | false => simp [ha]
    obtain ⟨p1, p2, p3, p4⟩ := hp
    refine ⟨?_, ?_, ?_, ?_, ?_, ?_, ?_, ?_, ?_, ?_⟩
    · show (m.tree.insert c.reprHash).onLoad = _; rw [e2, p1]; exact h.mode
    · show (m.tree.insert c.reprHash).alive = _; rw [e3, p2]; exact h.alive
    · rw [p3]; exact h.len
    · intro r
      unfold Plain.reg Wraps
      dsimp only
      rw [p3, e1]
      exact h.reg r
    · intro id n
      unfold Wraps
      dsimp only
      rw [e1]
      exact h.kids id n
    · intro id n
      dsimp only
      rw [e1]
      exact h.four id n
    · intro h1 h2 id n h3
      dsimp only at h1 h2 h3 ⊢
      rw [e2] at h1
      rw [e3] at h2
      rw [e1] at h3
      exact (hv _).mpr (Or.inl (h.loaded h1 h2 id n h3))
    · intro id n h3
      dsimp only at h3 ⊢
      rw [e1] at h3
      rw [e2, e3]
      exact ⟨(h.inserted id n h3).1, fun a b c => (hv _).mpr (Or.inl ((h.inserted id n h3).2 a b c))⟩
    · intro k
      dsimp only
      rw [hv, p4, h.visited, h.alive]
    · exact m.tree.insert_nodup _ h.nodup

/-- A new usage cell in a new register. -/
theorem Sim.push {m : Machine} {p : Plain} (h : Sim m p) (c : CCell) (hc : c.refs.length ≤ 4) (hl : m.tree.onLoad = true → m.tree.alive = true → c.reprHash ∈ m.tree.visited) :
    Sim ⟨(m.tree.push c).1, m.regs ++ [some (m.tree.push c).2]⟩ { p with regs := p.regs ++ [some c] } where
  mode := h.mode
  alive := h.alive
  len := by simp [h.len]
  reg := by
    intro r
    unfold Machine.reg Plain.reg
    dsimp only
    rw [join_append, join_append, h.len]
    by_cases hr : r = p.regs.length
    · rw [if_pos hr, if_pos hr]
      exact Or.inr ⟨_, c, rfl, rfl, Wraps.new _ _⟩
    · rw [if_neg hr, if_neg hr]
      rcases h.reg r with h | ⟨id, d, h1, h2, h3⟩
      · exact Or.inl h
      · exact Or.inr ⟨id, d, h1, h2, h3.push⟩
  kids := by
    intro id n hn i k hk
    rcases (Tree.push_node _ _ _ _).mp hn with hn | ⟨_, rfl⟩
    · obtain ⟨d, h1, h2⟩ := h.kids id n hn i k hk
      exact ⟨d, h1, h2.push⟩
    · exfalso
      dsimp only at hk
      match i, hk with
      | 0, hk => cases hk
      | 1, hk => cases hk
      | 2, hk => cases hk
      | 3, hk => cases hk
      | i + 4, hk => cases hk
  four := by
    intro id n hn
    rcases (Tree.push_node _ _ _ _).mp hn with hn | ⟨_, rfl⟩
    · exact h.four id n hn
    · exact ⟨rfl, hc⟩
  loaded := by
    intro h1 h2 id n hn
    rcases (Tree.push_node _ _ _ _).mp hn with hn | ⟨_, rfl⟩
    · exact h.loaded h1 h2 id n hn
    · exact hl h1 h2
  inserted := by
    intro id n hn
    rcases (Tree.push_node _ _ _ _).mp hn with hn | ⟨_, rfl⟩
    · exact h.inserted id n hn
    · refine ⟨fun h => h, fun h1 _ h2 => ?_⟩
      dsimp only at h2
      have h1 : m.tree.onLoad = false := h1
      rw [h1] at h2; cases h2
  visited := h.visited
  nodup := h.nodup

/-- A register without a cell. -/
theorem Sim.empty {m : Machine} {p : Plain} (h : Sim m p) : Sim ⟨m.tree, m.regs ++ [none]⟩ { p with regs := p.regs ++ [none] } :=
  { h with
    len := by simp [h.len]
    reg := by
      intro r
      unfold Machine.reg Plain.reg
      dsimp only
      rw [join_append, join_append, h.len]
      by_cases hr : r = p.regs.length
      · rw [if_pos hr, if_pos hr]; exact Or.inl ⟨rfl, rfl⟩
      · rw [if_neg hr, if_neg hr]; exact h.reg r }

/-- A register with a known usage cell. -/
theorem Sim.again {m : Machine} {p : Plain} (h : Sim m p) {k : Nat} {c : CCell} (hk : Wraps m.tree k c) : Sim ⟨m.tree, m.regs ++ [some k]⟩ { p with regs := p.regs ++ [some c] } :=
  { h with
    len := by simp [h.len]
    reg := by
      intro r
      unfold Machine.reg Plain.reg
      dsimp only
      rw [join_append, join_append, h.len]
      by_cases hr : r = p.regs.length
      · rw [if_pos hr, if_pos hr]; exact Or.inr ⟨k, c, rfl, rfl, hk⟩
      · rw [if_neg hr, if_neg hr]; exact h.reg r }

/-- An updated usage cell. -/
theorem Sim.set {m : Machine} {p : Plain} (h : Sim m p) {id : Nat} {n n' : Node} (hn : m.tree.nodes[id]? = some n) (hc : n'.cell = n.cell) (hl : n'.kids.length = 4)
    (hk : ∀ (i k : Nat), (n'.kids[i]?).join = some k → ∃ c, n.cell.refs[i]? = some c ∧ Wraps m.tree k c)
    (hi : (m.tree.onLoad = true → n'.inserted = true) ∧ (m.tree.onLoad = false → m.tree.alive = true → n'.inserted = true → n.cell.reprHash ∈ m.tree.visited)) :
    Sim ⟨{ m.tree with nodes := m.tree.nodes.set id n' }, m.regs⟩ p := by
  have hlt : id < m.tree.nodes.length := by
    rcases Nat.lt_or_ge id m.tree.nodes.length with h | h
    · exact h
    · rw [List.getElem?_eq_none h] at hn; cases hn
  have hget : ∀ j q, (m.tree.nodes.set id n')[j]? = some q → (j = id ∧ q = n') ∨ (j ≠ id ∧ m.tree.nodes[j]? = some q) := by
    intro j q hq
    rw [List.getElem?_set] at hq
    by_cases hj : id = j
    · rw [if_pos hj, if_pos hlt] at hq
      injection hq with hq
      exact Or.inl ⟨hj.symm, hq.symm⟩
    · rw [if_neg hj] at hq
      exact Or.inr ⟨fun e => hj e.symm, hq⟩
  have hwr : ∀ j c, Wraps m.tree j c → Wraps { m.tree with nodes := m.tree.nodes.set id n' } j c := by
    rintro j c ⟨q, h1, h2⟩
    by_cases hj : j = id
    · refine ⟨n', ?_, ?_⟩
      · show (m.tree.nodes.set id n')[j]? = _
        rw [List.getElem?_set, if_pos hj.symm, if_pos hlt]
      · rw [hj, hn] at h1
        injection h1 with h1
        rw [hc, h1, h2]
    · refine ⟨q, ?_, h2⟩
      show (m.tree.nodes.set id n')[j]? = _
      rw [List.getElem?_set, if_neg (fun e => hj e.symm), h1]
  refine ⟨h.mode, h.alive, h.len, ?_, ?_, ?_, ?_, ?_, h.visited, h.nodup⟩
  · intro r
    rcases h.reg r with h | ⟨j, d, h1, h2, h3⟩
    · exact Or.inl h
    · exact Or.inr ⟨j, d, h1, h2, hwr j d h3⟩
  · intro j q hq i k hik
    rcases hget j q hq with ⟨_, rfl⟩ | ⟨_, hq⟩
    · obtain ⟨c, h1, h2⟩ := hk i k hik
      exact ⟨c, by rw [hc]; exact h1, hwr k c h2⟩
    · obtain ⟨c, h1, h2⟩ := h.kids j q hq i k hik
      exact ⟨c, h1, hwr k c h2⟩
  · intro j q hq
    rcases hget j q hq with ⟨_, rfl⟩ | ⟨_, hq⟩
    · exact ⟨hl, by rw [hc]; exact (h.four id n hn).2⟩
    · exact h.four j q hq
  · intro h1 h2 j q hq
    rcases hget j q hq with ⟨_, rfl⟩ | ⟨_, hq⟩
    · rw [hc]; exact h.loaded h1 h2 id n hn
    · exact h.loaded h1 h2 j q hq
  · intro j q hq
    rcases hget j q hq with ⟨_, rfl⟩ | ⟨_, hq⟩
    · rw [hc]; exact hi
    · exact h.inserted j q hq

/-- Meeting a cell that is already counted. -/
theorem Sim.known {m : Machine} {p : Plain} (h : Sim m p) {b : Bool} {c : CCell} (hk : b = true → m.tree.alive = true → c.reprHash ∈ m.tree.visited) :
    Sim m (p.meet b (some c)) := by
  unfold Plain.meet
  dsimp only
  split
  · rename_i hb
    rw [Bool.and_eq_true] at hb
    have hv := hk hb.2 (h.alive.trans hb.1)
    have hvis : ∀ k, k ∈ m.tree.visited ↔ k ∈ c.reprHash :: p.seen := by
      intro k
      rw [List.mem_cons, h.visited]
      constructor
      · exact Or.inr
      · rintro (rfl | h')
        · exact (h.visited _).mp hv
        · exact h'
    exact { h with visited := hvis }
  · exact h

theorem meet_regs (p : Plain) (b : Bool) (c : Option CCell) (rs : List (Option CCell)) : ({ p with regs := rs } : Plain).meet b c = { p.meet b c with regs := rs } := by
  unfold Plain.meet
  cases c with
  | none => rfl
  | some c =>
    dsimp only
    split <;> rfl

theorem meet_keeps (p : Plain) (b : Bool) (c : Option CCell) : (p.meet b c).regs = p.regs ∧ (p.meet b c).alive = p.alive ∧ (p.meet b c).onLoad = p.onLoad := by
  unfold Plain.meet
  cases c with
  | none => exact ⟨rfl, rfl, rfl⟩
  | some c =>
    dsimp only
    split <;> exact ⟨rfl, rfl, rfl⟩

/-- A cell with its references one after the other: at most four, as for every cell that was built. -/
def Op.Ok (S : CCell → Prop) : Op → Prop
  | .track c => S c
  | _ => True

structure SimIn (S : CCell → Prop) (m : Machine) (p : Plain) : Prop extends Sim m p where
  inS : ∀ (id : Nat) (n : Node), m.tree.nodes[id]? = some n → S n.cell

/-- One operation. -/
theorem SimIn.step {S : CCell → Prop} (hS : ∀ {c r}, S c → r ∈ c.refs → S r) (h4 : ∀ {c}, S c → c.refs.length ≤ 4) {m : Machine} {p : Plain} (h : SimIn S m p) (o : Op) (ho : o.Ok S) :
    SimIn S (m.step o).1 (p.step o).1 ∧ (m.step o).2 = (p.step o).2 := by
  cases o with
  | drop =>
    refine ⟨⟨⟨h.mode, rfl, h.len, h.reg, h.kids, h.four, ?_, ?_, h.visited, h.nodup⟩, h.inS⟩, rfl⟩
    · intro _ h2; cases h2
    · intro id n hn; exact ⟨(h.inserted id n hn).1, fun _ h2 => by cases h2⟩
  | info r l =>
    refine ⟨h, ?_⟩
    show Out.info _ = Out.info _
    congr 1
    unfold Machine.node
    rcases h.reg r with ⟨h1, h2⟩ | ⟨id, c, h1, h2, n, h3, h4⟩
    · rw [h1, h2]; rfl
    · rw [h1, h2]
      show (m.tree.nodes[id]?).map _ = _
      rw [h3, ← h4]; rfl
  | untrack r =>
    refine ⟨h, ?_⟩
    show Out.plain _ = Out.plain _
    congr 1
    unfold Machine.node
    rcases h.reg r with ⟨h1, h2⟩ | ⟨id, c, h1, h2, n, h3, h4⟩
    · rw [h1, h2]; rfl
    · rw [h1, h2]
      show (m.tree.nodes[id]?).map _ = _
      rw [h3, ← h4]; rfl
  | track c =>
    have ho : S c := ho
    unfold Machine.step Plain.step
    dsimp only
    cases ha : m.tree.alive with
    | false =>
      rw [if_neg (by simp), if_neg (by rw [← h.alive, ha]; simp)]
      exact ⟨⟨h.toSim.empty, h.inS⟩, rfl⟩
    | true =>
      rw [if_pos rfl, if_pos (by rw [← h.alive, ha])]
      refine ⟨?_, rfl⟩
      obtain ⟨g1, g2, g3⟩ := h.toSim.meet m.tree.onLoad c
      rw [meet_regs, ← h.mode]
      have e : (m.tree.track c) = ((if m.tree.onLoad then m.tree.insert c.reprHash else m.tree).push c) := rfl
      rw [e]
      have hp := g1.push c (h4 ho) (by
        dsimp only
        intro hl _
        refine g2 ?_ ha
        split at hl
        · rename_i hh; exact hh
        · exact hl)
      rw [(meet_keeps p m.tree.onLoad (some c)).1] at hp
      refine ⟨hp, ?_⟩
      intro id n hn
      rcases (Tree.push_node _ _ _ _).mp hn with hn | ⟨_, rfl⟩
      · rw [g3] at hn; exact h.inS id n hn
      · exact ho
  | data r =>
    unfold Machine.step Plain.step
    dsimp only
    rcases h.reg r with ⟨h1, h2⟩ | ⟨id, c, h1, h2, n, h3, h5⟩
    · rw [h1, h2]; exact ⟨h, rfl⟩
    · rw [h1, h2]
      dsimp only
      unfold Tree.data
      rw [h3]
      dsimp only
      cases hi : n.inserted with
      | true =>
        simp only [if_true]
        refine ⟨⟨h.toSim.known ?_, h.inS⟩, by rw [h5]; rfl⟩
        intro hb ha
        rw [← h5]
        refine (h.inserted id n h3).2 ?_ ha hi
        rw [h.mode]
        simpa using hb
      | false =>
        simp only [Bool.false_eq_true, if_false]
        have hmode : m.tree.onLoad = false := by
          cases hm : m.tree.onLoad with
          | false => rfl
          | true => rw [(h.inserted id n h3).1 hm] at hi; cases hi
        have hp : p.onLoad = false := by rw [← h.mode]; exact hmode
        rw [hp]
        obtain ⟨g1, g2, g3⟩ := h.toSim.meet true c
        simp only [if_true] at g1 g2 g3
        rw [← h5] at g1 g2 g3 ⊢
        refine ⟨⟨g1.set (n := n) (id := id) (n' := { n with inserted := true }) (by dsimp only; rw [g3]; exact h3) rfl (h.four id n h3).1 ?_ ?_, ?_⟩, rfl⟩
        · intro i k hk
          exact g1.kids id n (by dsimp only; rw [g3]; exact h3) i k hk
        · refine ⟨fun _ => rfl, fun _ ha _ => g2 trivial ?_⟩
          rw [← (m.tree.insert_nodes n.cell.reprHash).2.2]; exact ha
        · intro j q hq
          dsimp only at hq
          rw [g3] at hq
          rcases set_get hq with rfl | hq
          · exact h.inS id n h3
          · exact h.inS j q hq
  | load r i =>
    unfold Machine.step Plain.step
    dsimp only
    rcases h.reg r with ⟨h1, h2⟩ | ⟨id, c, h1, h2, n, h3, h5⟩
    · rw [h1, h2]
      exact ⟨⟨h.toSim.empty, h.inS⟩, rfl⟩
    · rw [h1, h2]
      dsimp only [Option.bind_some]
      unfold Tree.load
      rw [h3]
      dsimp only
      obtain ⟨l1, l2⟩ := h.four id n h3
      rw [← h5]
      show SimIn S (Machine.mk _ _) _ ∧ _
      by_cases hi : i < 4
      · rw [if_pos hi]
        cases hk : (n.kids[i]?).join with
        | some k =>
          dsimp only
          obtain ⟨d, e1, e2⟩ := h.kids id n h3 i k hk
          rw [e1]
          refine ⟨⟨?_, h.inS⟩, rfl⟩
          rw [meet_regs]
          have := (h.toSim.known (b := p.onLoad) (c := d) (by
            intro hb ha
            obtain ⟨q, q1, q2⟩ := e2
            rw [← q2]
            exact h.loaded (h.mode.trans hb) ha k q q1)).again e2
          rw [(meet_keeps p p.onLoad (some d)).1] at this
          exact this
        | none =>
          dsimp only
          cases e1 : n.cell.refs[i]? with
          | none =>
            dsimp only
            exact ⟨⟨h.toSim.empty, h.inS⟩, rfl⟩
          | some d =>
            dsimp only
            have hd : S d := hS (h.inS id n h3) (List.mem_of_getElem? e1)
            refine ⟨?_, rfl⟩
            obtain ⟨g1, g2, g3⟩ := h.toSim.meet m.tree.onLoad d
            rw [meet_regs, ← h.mode]
            have hp := g1.push d (h4 hd) (by
              dsimp only
              intro hl _
              refine g2 ?_ ?_
              · split at hl
                · rename_i hh; exact hh
                · exact hl
              · have hal : (if m.tree.onLoad = true then m.tree.insert d.reprHash else m.tree).alive = m.tree.alive := by
                  split
                  · exact (m.tree.insert_nodes _).2.2
                  · rfl
                rw [← hal]; assumption)
            rw [(meet_keeps p m.tree.onLoad (some d)).1] at hp
            have hold : ((if m.tree.onLoad then m.tree.insert d.reprHash else m.tree).push d).1.nodes[id]? = some n :=
              (Tree.push_node _ _ _ _).mpr (Or.inl (by rw [g3]; exact h3))
            have hset := hp.set (id := id) (n := n) (n' := { n with kids := n.kids.set i (some ((if m.tree.onLoad then m.tree.insert d.reprHash else m.tree).push d).2) }) hold rfl
              (by simp [l1]) (by
                intro j k hk'
                dsimp only at hk'
                rw [List.getElem?_set] at hk'
                by_cases hj : i = j
                · rw [if_pos hj, if_pos (by omega)] at hk'
                  injection hk' with hk'
                  rw [← hk', ← hj]
                  exact ⟨d, e1, Wraps.new _ _⟩
                · rw [if_neg hj] at hk'
                  obtain ⟨c', f1, f2⟩ := hp.kids id n hold j k hk'
                  exact ⟨c', f1, f2⟩) (hp.inserted id n hold)
            refine ⟨hset, ?_⟩
            intro j q hq
            dsimp only at hq
            rcases set_get hq with rfl | hq
            · exact h.inS id n h3
            · rcases (Tree.push_node _ _ _ _).mp hq with hn | ⟨_, rfl⟩
              · rw [g3] at hn; exact h.inS j q hn
              · exact hd
      · rw [if_neg hi]
        have hnone : n.cell.refs[i]? = none := List.getElem?_eq_none (by omega)
        rw [hnone]
        exact ⟨⟨h.toSim.empty, h.inS⟩, rfl⟩

theorem sim_start (S : CCell → Prop) (onLoad : Bool) : SimIn S (Machine.start onLoad) (Plain.start onLoad) := by
  refine ⟨⟨rfl, rfl, rfl, fun r => Or.inl ⟨rfl, rfl⟩, ?_, ?_, ?_, ?_, ?_, ?_⟩, ?_⟩
  · intro id n hn; cases hn
  · intro id n hn; cases hn
  · intro _ _ id n hn; cases hn
  · intro id n hn; cases hn
  · intro h; exact Iff.rfl
  · exact List.nodup_nil
  · intro id n hn; cases hn

theorem SimIn.run {S : CCell → Prop} (hS : ∀ {c r}, S c → r ∈ c.refs → S r) (h4 : ∀ {c}, S c → c.refs.length ≤ 4) : ∀ (os : List Op) {m : Machine} {p : Plain}, SimIn S m p →
    (∀ o ∈ os, o.Ok S) → SimIn S (m.run os).1 (p.run os).1 ∧ (m.run os).2 = (p.run os).2
  | [], m, p, h, _ => ⟨h, rfl⟩
  | o :: os, m, p, h, ho => by
    obtain ⟨h1, h2⟩ := h.step hS h4 o (ho o (by simp))
    obtain ⟨h3, h4'⟩ := SimIn.run hS h4 os h1 (fun x hx => ho x (by simp [hx]))
    refine ⟨h3, ?_⟩
    show (m.step o).2 :: _ = (p.step o).2 :: _
    rw [h2, h4']

/-! ### C39 -/

/-- Whatever is done with a usage tree and the cells tracked by it: the caller sees exactly what they would see with the plain cells, and the tree contains exactly
the cells met while it existed: those tracked and loaded in the mode `OnLoad`, those whose data was read in the mode `OnDataAccess`. -/
theorem C39_exact {H : Hasher} (onLoad : Bool) (os : List Op) (hb : ∀ c, Op.track c ∈ os → Built H c) :
    ((Machine.start onLoad).run os).2 = ((Plain.start onLoad).run os).2 ∧
    (∀ h, ((Machine.start onLoad).run os).1.tree.contains h = true ↔ h ∈ ((Plain.start onLoad).run os).1.seen) ∧
    ((Machine.start onLoad).run os).1.tree.visited.Nodup := by
  obtain ⟨h1, h2⟩ := SimIn.run (S := Built H) (fun h hr => h.of_ref hr) (fun h => h.facts.refs_le) os (sim_start (Built H) onLoad) (by
    intro o ho
    cases o with
    | track c => exact hb c ho
    | _ => trivial)
  refine ⟨h2, fun h => ?_, h1.nodup⟩
  unfold Tree.contains
  rw [decide_eq_true_iff]
  exact h1.visited h

end Usage
end Verif
