import Verif.UsageProps
/-
`UsageTree` of the feature `sync` (`cell/usage_tree.rs`): cells tracked by several threads at once.
-/
set_option linter.unusedVariables false
namespace Verif
namespace Usage
namespace Sync

/-! ### Model -/

/-- A `Once` with the data it guards (`cell/usage_tree.rs:367-368` `reference_states`, `reference_data`): not called yet, being run by a thread, or
finished with a usage cell or nothing in the slot. -/
inductive Slot where
  | fresh
  | running (t : Nat)
  | done (k : Option Nat)

/-- Where a thread is inside of an operation. -/
inductive Pc where
  /-- before `insert` in `track` (`cell/usage_tree.rs:40-42`) -/
  | track (c : CCell)
  /-- before `wrap` in `track` (`cell/usage_tree.rs:43`) -/
  | wrap (c : CCell)
  /-- at `call_once_force` in `load_reference` (`cell/usage_tree.rs:403`) for the reference `i` of the usage cell `id` -/
  | once (i id : Nat)
  /-- in the closure (`cell/usage_tree.rs:404-419`) -/
  | closure (i id : Nat)
  /-- after it (`cell/usage_tree.rs:422-431`), `ins` is `should_insert` -/
  | read (i id : Nat) (ins : Bool)
  /-- at `should_insert` in `data` (`cell/usage_tree.rs:122`) of the usage cell `id` -/
  | flag (id : Nat)
  /-- before `insert` in `data` (`cell/usage_tree.rs:123-125`) -/
  | insert (id : Nat)
  /-- before `set_inserted` in `data` (`cell/usage_tree.rs:126`) -/
  | set (id : Nat)

/-- `cell/usage_tree.rs:316-319` `UsageTreeState`, `363-371` the fields of all usage cells by number (`cells`, `slot`, `flag`), the cells the
threads have got (`regs`, in the order of the returns), the threads inside of an operation, and the operations that have returned with their results.
The atomic operations on the flag, the `Once`s and the concurrent set take effect in one step each, in one order for all threads. The
tree outlives the threads here: nobody can ask a dropped tree. -/
structure State where
  onLoad : Bool
  visited : List Hash
  cells : List CCell
  slot : Nat → Nat → Slot
  flag : Nat → Bool
  regs : List (Option Nat)
  busy : Nat → Option (Op × Pc)
  log : List (Nat × Op × Out)

/-- `cell/usage_tree.rs:22-26` `UsageTree::new`, `374-383` `UsageCell::new` for the initial values of the fields. -/
def State.start (onLoad : Bool) : State := ⟨onLoad, [], [], fun _ _ => .fresh, fun _ => onLoad, [], fun _ => none, []⟩

def State.reg (s : State) (r : Nat) : Option Nat := (s.regs[r]?).join

/-- `cell/usage_tree.rs:343-345` `insert` -/
def State.add (s : State) (h : Hash) : State := { s with visited := if h ∈ s.visited then s.visited else h :: s.visited }

def State.setSlot (s : State) (id i : Nat) (x : Slot) : State :=
  { s with slot := fun j k => if j = id ∧ k = i then x else s.slot j k }

/-- The thread goes on inside of the operation. -/
def State.go (s : State) (t : Nat) (o : Op) (pc : Pc) : State := { s with busy := fun u => if u = t then some (o, pc) else s.busy u }

/-- The operation returns. -/
def State.ret (s : State) (t : Nat) (o : Op) (out : Out) : State :=
  { s with busy := fun u => if u = t then none else s.busy u, log := s.log ++ [(t, o, out)] }

/-- The operation returns a cell, or nothing. -/
def State.retCell (s : State) (t : Nat) (o : Op) (k : Option Nat) : State :=
  { s.ret t o (.cell k.isSome) with regs := s.regs ++ [k] }

def State.retData (s : State) (t : Nat) (o : Op) (id : Nat) : State := s.ret t o (.bytes (s.cells[id]?.map CCell.data))

/-- A thread without an operation begins one: `cell/usage_tree.rs:39-44` `track`, `135-151` `reference` with `400-401` the test of the index,
`121` `data`; `117-119`, `131-133`, `157-163` and `385-390` are done at once. `drop` is left out (see `State`). -/
def State.call (s : State) (t : Nat) (o : Op) : State :=
  match o with
  | .track c => s.go t o (if s.onLoad then .track c else .wrap c)
  | .load r i => match s.reg r with
    | none => s.retCell t o none
    | some id => if i < 4 then s.go t o (.once i id) else s.retCell t o none
  | .data r => match s.reg r with
    | none => s.ret t o (.bytes none)
    | some id => s.go t o (.flag id)
  | .info r l => s.ret t o (.info (((s.reg r).bind (s.cells[·]?)).map fun c => (c.desc, c.bitLen, c.hash l, c.depth l)))
  | .untrack r => s.ret t o (.plain ((s.reg r).bind (s.cells[·]?)))
  | .drop => s

/-- One step of a thread inside of the operation `o`. It does nothing while it waits for another thread. -/
def State.exec (s : State) (t : Nat) (o : Op) : Pc → State
  | .track c => (s.add c.reprHash).go t o (.wrap c)
  | .wrap c => { s with cells := s.cells ++ [c] }.retCell t o (some s.cells.length)
  | .once i id => match s.slot id i with
    | .fresh => (s.setSlot id i (.running t)).go t o (.closure i id)
    | .running _ => s
    | .done _ => s.go t o (.read i id false)
  | .closure i id => match s.cells[id]? with
    | none => s
    | some c => match c.refs[i]? with
      | none => (s.setSlot id i (.done none)).go t o (.read i id false)
      | some d => ({ s with cells := s.cells ++ [d] }.setSlot id i (.done (some s.cells.length))).go t o (.read i id s.onLoad)
  | .read i id ins => match s.slot id i with
    | .done k =>
      if ins = true then match k.bind (s.cells[·]?) with
        | some d => (s.add d.reprHash).go t o (.read i id false)
        | none => s.go t o (.read i id false)
      else s.retCell t o k
    | _ => s
  | .flag id => if s.flag id = true then s.retData t o id else s.go t o (.insert id)
  | .insert id => match s.cells[id]? with
    | none => s
    | some c => (s.add c.reprHash).go t o (.set id)
  | .set id => { s with flag := fun j => if j = id then true else s.flag j }.retData t o id

/-- What a scheduler can do: let an idle thread begin an operation, or let a thread make a step. -/
inductive Act where
  | call (t : Nat) (o : Op)
  | step (t : Nat)

def State.act (s : State) : Act → State
  | .call t o => match s.busy t with
    | some _ => s
    | none => s.call t o
  | .step t => match s.busy t with
    | some (o, pc) => s.exec t o pc
    | none => s

def State.run : State → List Act → State
  | s, [] => s
  | s, a :: as => (s.act a).run as

/-- `cell/usage_tree.rs:348-350` `contains` -/
def State.contains (s : State) (h : Hash) : Bool := decide (h ∈ s.visited)

/-- The operations that have returned, in this order. -/
def State.ops (s : State) : List Op := s.log.map (·.2.1)

/-- Their results. -/
def State.outs (s : State) : List Out := s.log.map (·.2.2)

def State.Idle (s : State) : Prop := ∀ t, s.busy t = none

/-! ### Lemmas about plain cells -/

/-- The hashes of the cells an operation meets. -/
def hashOf (p : Plain) : Op → List Hash
  | .track c => if p.onLoad then [c.reprHash] else []
  | .load r i => if p.onLoad then (((p.reg r).bind fun c => c.refs[i]?).map CCell.reprHash).toList else []
  | .data r => if p.onLoad then [] else ((p.reg r).map CCell.reprHash).toList
  | _ => []

def IsDrop : Op → Prop
  | .drop => True
  | _ => False

theorem meet_eq {p : Plain} (ha : p.alive = true) (b : Bool) (c : Option CCell) :
    p.meet b c = { p with seen := (if b then (c.map CCell.reprHash).toList else []) ++ p.seen } := by
  obtain ⟨l, a, rs, sn⟩ := p
  dsimp only at ha
  subst ha
  cases c with
  | none => cases b <;> rfl
  | some c => cases b <;> rfl

theorem step_facts {p : Plain} (ha : p.alive = true) {o : Op} (ho : ¬ IsDrop o) :
    (p.step o).1.seen = hashOf p o ++ p.seen ∧ (p.step o).1.onLoad = p.onLoad ∧ (p.step o).1.alive = true ∧ ∃ l, (p.step o).1.regs = p.regs ++ l := by
  cases o with
  | track c =>
    have e : p.step (.track c) = (({ p with regs := p.regs ++ [some c] }).meet p.onLoad (some c), .cell true) := if_pos ha
    rw [e, meet_eq (p := { p with regs := p.regs ++ [some c] }) ha]
    exact ⟨rfl, rfl, ha, _, rfl⟩
  | load r i =>
    simp only [Plain.step]
    rw [meet_eq (p := { p with regs := p.regs ++ [_] }) ha]
    exact ⟨rfl, rfl, ha, _, rfl⟩
  | data r =>
    simp only [Plain.step]
    rw [meet_eq ha]
    refine ⟨?_, rfl, ha, [], (List.append_nil _).symm⟩
    show (if !p.onLoad then _ else _) ++ p.seen = (if p.onLoad then _ else _) ++ p.seen
    cases p.onLoad <;> rfl
  | info r l => exact ⟨rfl, rfl, ha, [], (List.append_nil _).symm⟩
  | untrack r => exact ⟨rfl, rfl, ha, [], (List.append_nil _).symm⟩
  | drop => exact absurd trivial ho

/-- The register an operation uses, if it exists. -/
def Bound (n : Nat) : Op → Prop
  | .load r _ => r < n
  | .data r => r < n
  | _ => True

theorem hashOf_later {p q : Plain} {l : List (Option CCell)} (h1 : q.onLoad = p.onLoad) (h2 : q.regs = p.regs ++ l) {o : Op} (h : Bound p.regs.length o) :
    hashOf q o = hashOf p o := by
  have hr : ∀ r, r < p.regs.length → q.reg r = p.reg r := by
    intro r hr
    unfold Plain.reg
    rw [h2, List.getElem?_append_left hr]
  cases o with
  | load r i =>
    have := hr r h
    simp only [hashOf, h1, this]
  | data r =>
    have := hr r h
    simp only [hashOf, h1, this]
  | track c =>
    unfold hashOf
    rw [h1]
  | _ => rfl

theorem run_snoc (p : Plain) (os : List Op) (o : Op) :
    (p.run (os ++ [o])).1 = ((p.run os).1.step o).1 ∧ (p.run (os ++ [o])).2 = (p.run os).2 ++ [((p.run os).1.step o).2] := by
  induction os generalizing p with
  | nil => exact ⟨rfl, rfl⟩
  | cons a os ih =>
    obtain ⟨h1, h2⟩ := ih (p.step a).1
    refine ⟨h1, ?_⟩
    show (p.step a).2 :: ((p.step a).1.run (os ++ [o])).2 = _
    rw [h2]
    rfl

/-! ### Invariant -/

/-- What a thread knows at its place. -/
def PcOk (s : State) (t : Nat) (o : Op) : Pc → Prop
  | .track c => o = .track c ∧ s.onLoad = true
  | .wrap c => o = .track c ∧ (s.onLoad = true → c.reprHash ∈ s.visited)
  | .once i id => i < 4 ∧ ∃ r, o = .load r i ∧ s.reg r = some id
  | .closure i id => (i < 4 ∧ ∃ r, o = .load r i ∧ s.reg r = some id) ∧ s.slot id i = .running t
  | .read i id ins => (i < 4 ∧ ∃ r, o = .load r i ∧ s.reg r = some id) ∧ ∃ k, s.slot id i = .done k ∧ (ins = true → s.onLoad = true ∧ k ≠ none)
  | .flag id => ∃ r, o = .data r ∧ s.reg r = some id
  | .insert id => (∃ r, o = .data r ∧ s.reg r = some id) ∧ s.onLoad = false
  | .set id => (∃ r, o = .data r ∧ s.reg r = some id) ∧ s.onLoad = false ∧ ∀ c, s.cells[id]? = some c → c.reprHash ∈ s.visited

/-- The thread `t` is about to insert `h` after another thread may have seen the cell. -/
def LateBy (s : State) (t : Nat) (h : Hash) : Prop :=
  ∃ o i id k d, s.busy t = some (o, .read i id true) ∧ s.slot id i = .done (some k) ∧ s.cells[k]? = some d ∧ h = d.reprHash

structure Core (H : Hasher) (s : State) (p : Plain) : Prop where
  mode : p.onLoad = s.onLoad
  alive : p.alive = true
  built : ∀ c ∈ s.cells, Built H c
  regs : p.regs = s.regs.map fun k => k.bind (s.cells[·]?)
  valid : ∀ k, some k ∈ s.regs → k < s.cells.length
  slots : ∀ id i k, s.slot id i = .done k → ∃ c, s.cells[id]? = some c ∧ c.refs[i]? = k.bind (s.cells[·]?) ∧ ∀ j, k = some j → j < s.cells.length
  always : s.onLoad = true → ∀ id, s.flag id = true
  flags : s.onLoad = false → ∀ id, s.flag id = true → ∃ c, s.cells[id]? = some c ∧ c.reprHash ∈ s.visited

structure Inv (H : Hasher) (s : State) (p : Plain) : Prop where
  core : Core H s p
  pcs : ∀ t o pc, s.busy t = some (o, pc) → PcOk s t o pc
  runs : ∀ id i t, s.slot id i = .running t → ∃ o, s.busy t = some (o, .closure i id)
  made : s.onLoad = true → ∀ id i k d, s.slot id i = .done (some k) → s.cells[k]? = some d → d.reprHash ∈ s.visited ∨ ∃ t, LateBy s t d.reprHash
  low : ∀ h ∈ p.seen, h ∈ s.visited ∨ ∃ t, LateBy s t h
  high : ∀ h ∈ s.visited, h ∈ p.seen ∨ ∃ t o pc, s.busy t = some (o, pc) ∧ h ∈ hashOf p o

/-- What a step of the thread `t` leaves as it is. -/
structure Ext (t : Nat) (s s' : State) : Prop where
  mode : s'.onLoad = s.onLoad
  visited : ∀ h ∈ s.visited, h ∈ s'.visited
  cells : ∃ l, s'.cells = s.cells ++ l
  regs : ∃ l, s'.regs = s.regs ++ l
  done : ∀ id i k, s.slot id i = .done k → s'.slot id i = .done k
  running : ∀ id i u, u ≠ t → s.slot id i = .running u → s'.slot id i = .running u
  busy : ∀ u, u ≠ t → s'.busy u = s.busy u

theorem reg_append {l m : List (Option Nat)} {r id : Nat} (h : (l[r]?).join = some id) : r < l.length ∧ ((l ++ m)[r]?).join = some id := by
  have hlt : r < l.length := by
    refine Classical.byContradiction fun hn => ?_
    rw [List.getElem?_eq_none (by omega)] at h
    cases h
  exact ⟨hlt, by rw [List.getElem?_append_left hlt]; exact h⟩

theorem Ext.reg {t : Nat} {s s' : State} (e : Ext t s s') {r id : Nat} (h : s.reg r = some id) : s'.reg r = some id := by
  obtain ⟨l, hl⟩ := e.regs
  unfold State.reg
  rw [hl]
  exact (reg_append h).2

theorem Ext.cell {t : Nat} {s s' : State} (e : Ext t s s') {id : Nat} {c : CCell} (h : s.cells[id]? = some c) : s'.cells[id]? = some c := by
  obtain ⟨l, hl⟩ := e.cells
  rw [hl, List.getElem?_append_left (List.getElem?_eq_some_iff.mp h).1]
  exact h

theorem Core.cellOf {H : Hasher} {s : State} {p : Plain} (h : Core H s p) {r id : Nat} (hr : s.reg r = some id) :
    ∃ c, s.cells[id]? = some c ∧ p.reg r = some c ∧ r < p.regs.length ∧ c ∈ s.cells := by
  obtain ⟨hlt, _⟩ := reg_append (m := []) hr
  have hget : s.regs[r]? = some (some id) := by
    unfold State.reg at hr
    cases e : s.regs[r]? with
    | none => rw [e] at hr; cases hr
    | some x => rw [e] at hr; exact congrArg some hr
  have hk := h.valid id (List.mem_of_getElem? hget)
  refine ⟨s.cells[id], List.getElem?_eq_getElem hk, ?_, ?_, List.getElem_mem hk⟩
  · unfold Plain.reg
    rw [h.regs, List.getElem?_map, hget]
    show (s.cells[id]?) = _
    rw [List.getElem?_eq_getElem hk]
  · rw [h.regs, List.length_map]; exact hlt

theorem Core.noReg {H : Hasher} {s : State} {p : Plain} (h : Core H s p) {r : Nat} (hr : s.reg r = none) : p.reg r = none := by
  unfold Plain.reg
  unfold State.reg at hr
  rw [h.regs, List.getElem?_map]
  cases e : s.regs[r]? with
  | none => rfl
  | some x => rw [e] at hr; rw [show x = none from hr]; rfl

theorem Core.anyReg {H : Hasher} {s : State} {p : Plain} (h : Core H s p) (r : Nat) : p.reg r = (s.reg r).bind (s.cells[·]?) := by
  cases e : s.reg r with
  | none => exact h.noReg e
  | some id =>
    obtain ⟨c, h1, h2, _⟩ := h.cellOf e
    rw [h2]
    exact h1.symm

theorem PcOk.ext {H : Hasher} {s s' : State} {p : Plain} (hc : Core H s p) {t u : Nat} (e : Ext t s s') (hu : u ≠ t) {o : Op} {pc : Pc} (h : PcOk s u o pc) : PcOk s' u o pc := by
  cases pc with
  | track c => exact ⟨h.1, e.mode.trans h.2⟩
  | wrap c => exact ⟨h.1, fun hl => e.visited _ (h.2 (e.mode.symm.trans hl))⟩
  | once i id => obtain ⟨h1, r, h2, h3⟩ := h; exact ⟨h1, r, h2, e.reg h3⟩
  | closure i id => obtain ⟨⟨h1, r, h2, h3⟩, h4⟩ := h; exact ⟨⟨h1, r, h2, e.reg h3⟩, e.running _ _ _ hu h4⟩
  | read i id ins =>
    obtain ⟨⟨h1, r, h2, h3⟩, k, h4, h5⟩ := h
    exact ⟨⟨h1, r, h2, e.reg h3⟩, k, e.done _ _ _ h4, fun hi => ⟨e.mode.trans (h5 hi).1, (h5 hi).2⟩⟩
  | flag id => obtain ⟨r, h2, h3⟩ := h; exact ⟨r, h2, e.reg h3⟩
  | insert id => obtain ⟨⟨r, h2, h3⟩, h4⟩ := h; exact ⟨⟨r, h2, e.reg h3⟩, e.mode.trans h4⟩
  | set id =>
    obtain ⟨⟨r, h2, h3⟩, h4, h5⟩ := h
    refine ⟨⟨r, h2, e.reg h3⟩, e.mode.trans h4, fun c hcc => ?_⟩
    obtain ⟨c', g1, _⟩ := hc.cellOf h3
    rw [e.cell g1] at hcc
    injection hcc with hcc
    rw [← hcc]
    exact e.visited _ (h5 c' g1)

theorem PcOk.bound {H : Hasher} {s : State} {p : Plain} (hc : Core H s p) {t : Nat} {o : Op} {pc : Pc} (h : PcOk s t o pc) : ¬ IsDrop o ∧ Bound p.regs.length o := by
  cases pc with
  | track c => rw [h.1]; exact ⟨id, trivial⟩
  | wrap c => rw [h.1]; exact ⟨id, trivial⟩
  | once i id => obtain ⟨h1, r, rfl, h3⟩ := h; exact ⟨fun x => x, (hc.cellOf h3).choose_spec.2.2.1⟩
  | closure i id => obtain ⟨⟨h1, r, rfl, h3⟩, h4⟩ := h; exact ⟨fun x => x, (hc.cellOf h3).choose_spec.2.2.1⟩
  | read i id ins => obtain ⟨⟨h1, r, rfl, h3⟩, h4⟩ := h; exact ⟨fun x => x, (hc.cellOf h3).choose_spec.2.2.1⟩
  | flag id => obtain ⟨r, rfl, h3⟩ := h; exact ⟨fun x => x, (hc.cellOf h3).choose_spec.2.2.1⟩
  | insert id => obtain ⟨⟨r, rfl, h3⟩, h4⟩ := h; exact ⟨fun x => x, (hc.cellOf h3).choose_spec.2.2.1⟩
  | set id => obtain ⟨⟨r, rfl, h3⟩, h4⟩ := h; exact ⟨fun x => x, (hc.cellOf h3).choose_spec.2.2.1⟩

theorem LateBy.ext {s s' : State} {t u : Nat} (e : Ext t s s') (hu : u ≠ t) {h : Hash} (hl : LateBy s u h) : LateBy s' u h := by
  obtain ⟨o, i, id, k, d, h1, h2, h3, h4⟩ := hl
  exact ⟨o, i, id, k, d, (e.busy u hu).trans h1, e.done _ _ _ h2, e.cell h3, h4⟩

/-- One step of the thread `t` keeps the invariant; `p'` is `p`, or `p` after the operation that returned. -/
theorem Inv.next {H : Hasher} {s s' : State} {p p' : Plain} {t : Nat} (h : Inv H s p) (e : Ext t s s') (core : Core H s' p')
    (own : ∀ o pc, s'.busy t = some (o, pc) → PcOk s' t o pc)
    (runs : ∀ id i u, s'.slot id i = .running u → (u ≠ t ∧ s.slot id i = .running u) ∨ (u = t ∧ ∃ o, s'.busy t = some (o, .closure i id)))
    (late : ∀ x, LateBy s t x → x ∈ s'.visited)
    (made : s.onLoad = true → ∀ id i k d, s'.slot id i = .done (some k) → s'.cells[k]? = some d → s.slot id i = .done (some k) ∨ LateBy s' t d.reprHash)
    (plain : p' = p ∨ ∃ o, p' = (p.step o).1 ∧ ¬ IsDrop o)
    (low : ∀ x ∈ p'.seen, x ∈ p.seen ∨ x ∈ s'.visited ∨ ∃ u, LateBy s' u x)
    (high : ∀ x ∈ s'.visited, x ∈ s.visited ∨ x ∈ p'.seen ∨ ∃ o pc, s'.busy t = some (o, pc) ∧ x ∈ hashOf p' o)
    (keep : ∀ o pc, s.busy t = some (o, pc) → ∀ x ∈ hashOf p o, x ∈ p'.seen ∨ ∃ o' pc', s'.busy t = some (o', pc') ∧ x ∈ hashOf p' o') : Inv H s' p' := by
  have lateNext : ∀ x, (∃ u, LateBy s u x) → x ∈ s'.visited ∨ ∃ u, LateBy s' u x := by
    rintro x ⟨u, hu⟩
    by_cases hut : u = t
    · subst hut; exact Or.inl (late x hu)
    · exact Or.inr ⟨u, hu.ext e hut⟩
  have seenMono : ∀ x ∈ p.seen, x ∈ p'.seen := by
    intro x hx
    rcases plain with rfl | ⟨o, rfl, ho⟩
    · exact hx
    · rw [(step_facts h.core.alive ho).1]; exact List.mem_append_right _ hx
  have later : ∀ o, Bound p.regs.length o → hashOf p' o = hashOf p o := by
    intro o ho
    rcases plain with rfl | ⟨o', rfl, ho'⟩
    · rfl
    · obtain ⟨_, h2, _, l, h4⟩ := step_facts h.core.alive ho'
      exact hashOf_later h2 h4 ho
  refine ⟨core, ?_, ?_, ?_, ?_, ?_⟩
  · intro u o pc hu
    by_cases hut : u = t
    · subst hut; exact own o pc hu
    · rw [e.busy u hut] at hu
      exact (h.pcs u o pc hu).ext h.core e hut
  · intro id i u hu
    rcases runs id i u hu with ⟨h1, h2⟩ | ⟨rfl, h2⟩
    · rw [e.busy u h1]; exact h.runs id i u h2
    · exact h2
  · intro hl id i k d h1 h2
    have hl' : s.onLoad = true := e.mode.symm.trans hl
    rcases made hl' id i k d h1 h2 with h3 | h3
    · obtain ⟨c, g1, g2, g3⟩ := h.core.slots id i (some k) h3
      have hk := g3 k rfl
      have h4 := e.cell (List.getElem?_eq_getElem hk)
      rw [h2] at h4
      injection h4 with h4
      rw [h4]
      rcases h.made hl' id i k _ h3 (List.getElem?_eq_getElem hk) with h5 | h5
      · exact Or.inl (e.visited _ h5)
      · exact lateNext _ h5
    · exact Or.inr ⟨t, h3⟩
  · intro x hx
    rcases low x hx with h1 | h1
    · rcases h.low x h1 with h2 | h2
      · exact Or.inl (e.visited _ h2)
      · exact lateNext _ h2
    · exact h1
  · intro x hx
    rcases high x hx with h1 | h1 | ⟨o, pc, h1, h2⟩
    · rcases h.high x h1 with h2 | ⟨u, o, pc, h2, h3⟩
      · exact Or.inl (seenMono x h2)
      · by_cases hut : u = t
        · subst hut
          rcases keep o pc h2 x h3 with h4 | ⟨o', pc', h4, h5⟩
          · exact Or.inl h4
          · exact Or.inr ⟨u, o', pc', h4, h5⟩
        · refine Or.inr ⟨u, o, pc, (e.busy u hut).trans h2, ?_⟩
          rw [later o ((h.pcs u o pc h2).bound h.core).2]
          exact h3
    · exact Or.inl h1
    · exact Or.inr ⟨t, o, pc, h1, h2⟩

/-- The invariant without a change of the plain side: the thread goes on, some hashes are inserted. -/
theorem Inv.goOn {H : Hasher} {s : State} {p : Plain} (h : Inv H s p) {t : Nat} {o : Op} {pc : Pc} {v : List Hash} (hv : ∀ x ∈ s.visited, x ∈ v)
    (hn : ∀ x ∈ v, x ∈ s.visited ∨ x ∈ hashOf p o) (own : PcOk ({ s with visited := v }.go t o pc) t o pc)
    (same : ∀ o' pc', s.busy t = some (o', pc') → o' = o ∧ ∀ i id, pc' ≠ .closure i id) (late : ∀ x, LateBy s t x → x ∈ v) :
    Inv H ({ s with visited := v }.go t o pc) p := by
  have hbt : ({ s with visited := v }.go t o pc).busy t = some (o, pc) := if_pos rfl
  refine Inv.next (t := t) h ⟨rfl, hv, ⟨[], (List.append_nil _).symm⟩, ⟨[], (List.append_nil _).symm⟩, fun _ _ _ hd => hd, fun _ _ _ _ hr => hr, fun u hu => if_neg hu⟩
    ⟨h.core.mode, h.core.alive, h.core.built, h.core.regs, h.core.valid, h.core.slots, h.core.always, ?_⟩ ?_ ?_ late ?_ (Or.inl rfl) (fun x hx => Or.inl hx) ?_ ?_
  · intro hl id hf
    obtain ⟨c, h1, h2⟩ := h.core.flags hl id hf
    exact ⟨c, h1, hv _ h2⟩
  · intro o' pc' hb
    rw [hbt] at hb
    injection hb with hb
    injection hb with h1 h2
    subst h1; subst h2
    exact own
  · intro id i u hu
    refine Or.inl ⟨fun hut => ?_, hu⟩
    subst hut
    obtain ⟨o', ho'⟩ := h.runs id i u hu
    exact (same _ _ ho').2 i id rfl
  · intro _ id i k d h1 _
    exact Or.inl h1
  · intro x hx
    rcases hn x hx with h1 | h1
    · exact Or.inl h1
    · exact Or.inr (Or.inr ⟨o, pc, hbt, h1⟩)
  · intro o' pc' hb x hx
    rw [(same _ _ hb).1] at hx
    exact Or.inr ⟨o, pc, hbt, hx⟩

/-- The invariant when the operation returns. -/
theorem Inv.retOn {H : Hasher} {s s' : State} {p : Plain} (h : Inv H s p) {t : Nat} {o : Op} {l : List CCell} {m : List (Option Nat)}
    (e1 : s'.onLoad = s.onLoad) (e2 : s'.visited = s.visited) (e3 : s'.cells = s.cells ++ l) (e4 : s'.regs = s.regs ++ m) (e5 : s'.slot = s.slot)
    (e6 : s'.busy = fun u => if u = t then none else s.busy u) (ho : ¬ IsDrop o) (hl : ∀ c ∈ l, Built H c)
    (hm : ∀ k, some k ∈ m → k < s'.cells.length) (hr : (p.step o).1.regs = p.regs ++ m.map fun k => k.bind (s'.cells[·]?))
    (f1 : s.onLoad = true → ∀ id, s'.flag id = true) (f2 : s.onLoad = false → ∀ id, s'.flag id = true → ∃ c, s'.cells[id]? = some c ∧ c.reprHash ∈ s.visited)
    (same : ∀ o' pc', s.busy t = some (o', pc') → o' = o ∧ (∀ i id, pc' ≠ .closure i id) ∧ ∀ i id, pc' ≠ .read i id true)
    (met : ∀ x ∈ hashOf p o, x ∈ s.visited ∨ ∃ u, LateBy s u x) : Inv H s' (p.step o).1 := by
  obtain ⟨q1, q2, q3, _⟩ := step_facts h.core.alive ho
  have hbt : s'.busy t = none := by rw [e6]; exact if_pos rfl
  have noLate : ∀ x, ¬ LateBy s t x := by
    rintro x ⟨o', i, id, k, d, h1, _⟩
    exact (same _ _ h1).2.2 i id rfl
  have e : Ext t s s' := ⟨e1, fun x hx => by rw [e2]; exact hx, ⟨l, e3⟩, ⟨m, e4⟩, fun _ _ _ hd => by rw [e5]; exact hd, fun _ _ _ _ hr => by rw [e5]; exact hr,
    fun u hu => by rw [e6]; exact if_neg hu⟩
  have hlen : s.cells.length ≤ s'.cells.length := by rw [e3, List.length_append]; omega
  have hget : ∀ k, k < s.cells.length → s'.cells[k]? = s.cells[k]? := fun k hk => by rw [e3, List.getElem?_append_left hk]
  refine Inv.next (t := t) h e ⟨q2.trans (h.core.mode.trans e1.symm), q3, ?_, ?_, ?_, ?_, ?_, ?_⟩ ?_ ?_ ?_ ?_ (Or.inr ⟨o, rfl, ho⟩) ?_ ?_ ?_
  · intro c hc
    rw [e3] at hc
    rcases List.mem_append.mp hc with h1 | h1
    · exact h.core.built c h1
    · exact hl c h1
  · rw [hr, e4, List.map_append, h.core.regs]
    congr 1
    refine List.map_congr_left fun k hk => ?_
    cases k with
    | none => rfl
    | some k => exact (hget k (h.core.valid k hk)).symm
  · intro k hk
    rw [e4] at hk
    rcases List.mem_append.mp hk with h1 | h1
    · have := h.core.valid k h1; omega
    · exact hm k h1
  · intro id i k hk
    rw [e5] at hk
    obtain ⟨c, g1, g2, g3⟩ := h.core.slots id i k hk
    refine ⟨c, e.cell g1, ?_, fun j hj => by have := g3 j hj; omega⟩
    rw [g2]
    cases k with
    | none => rfl
    | some k => exact (hget k (g3 k rfl)).symm
  · intro hl'; exact f1 (e1.symm.trans hl')
  · intro hl'; rw [e2]; exact f2 (e1.symm.trans hl')
  · intro o' pc' hb
    rw [hbt] at hb; cases hb
  · intro id i u hu
    rw [e5] at hu
    refine Or.inl ⟨fun hut => ?_, hu⟩
    subst hut
    obtain ⟨o', ho'⟩ := h.runs id i u hu
    exact (same _ _ ho').2.1 i id rfl
  · intro x hx; exact absurd hx (noLate x)
  · intro _ id i k d h1 _
    rw [e5] at h1
    exact Or.inl h1
  · intro x hx
    rw [q1] at hx
    rcases List.mem_append.mp hx with h1 | h1
    · rcases met x h1 with h2 | ⟨u, h2⟩
      · exact Or.inr (Or.inl (by rw [e2]; exact h2))
      · refine Or.inr (Or.inr ⟨u, h2.ext e fun hut => ?_⟩)
        subst hut
        exact noLate x h2
    · exact Or.inl h1
  · intro x hx
    rw [e2] at hx
    exact Or.inl hx
  · intro o' pc' hb x hx
    rw [(same _ _ hb).1] at hx
    exact Or.inl (by rw [q1]; exact List.mem_append_left _ hx)

theorem step_track {p : Plain} (ha : p.alive = true) (c : CCell) : (p.step (.track c)).1.regs = p.regs ++ [some c] ∧ (p.step (.track c)).2 = .cell true := by
  have e : p.step (.track c) = (({ p with regs := p.regs ++ [some c] }).meet p.onLoad (some c), .cell true) := if_pos ha
  rw [e, meet_eq (p := { p with regs := p.regs ++ [some c] }) ha]
  exact ⟨rfl, rfl⟩

theorem step_load {p : Plain} (ha : p.alive = true) (r i : Nat) : (p.step (.load r i)).1.regs = p.regs ++ [(p.reg r).bind fun c => c.refs[i]?] ∧
    (p.step (.load r i)).2 = .cell ((p.reg r).bind fun c => c.refs[i]?).isSome := by
  simp only [Plain.step]
  rw [meet_eq (p := { p with regs := p.regs ++ [_] }) ha]
  exact ⟨rfl, trivial⟩

theorem step_data {p : Plain} (ha : p.alive = true) (r : Nat) : (p.step (.data r)).1.regs = p.regs ∧ (p.step (.data r)).2 = .bytes ((p.reg r).map CCell.data) := by
  simp only [Plain.step]
  rw [meet_eq ha]
  exact ⟨rfl, trivial⟩

def State.plain (s : State) : Plain := ((Plain.start s.onLoad).run s.ops).1

/-- The invariant, and the results so far are those of the plain cells. -/
def Good (H : Hasher) (s : State) : Prop := Inv H s s.plain ∧ s.outs = ((Plain.start s.onLoad).run s.ops).2

theorem Good.stay {H : Hasher} {s s' : State} (g : Good H s) (h1 : s'.log = s.log) (h2 : s'.onLoad = s.onLoad) (h : Inv H s' s.plain) : Good H s' := by
  unfold Good State.plain State.outs State.ops
  rw [h1, h2]
  exact ⟨h, g.2⟩

theorem Good.ret {H : Hasher} {s s' : State} (g : Good H s) {t : Nat} {o : Op} {out : Out} (h1 : s'.log = s.log ++ [(t, o, out)]) (h2 : s'.onLoad = s.onLoad)
    (h : Inv H s' (s.plain.step o).1) (ho : out = (s.plain.step o).2) : Good H s' := by
  obtain ⟨r1, r2⟩ := run_snoc (Plain.start s.onLoad) s.ops o
  have hops : s'.ops = s.ops ++ [o] := by unfold State.ops; rw [h1, List.map_append]; rfl
  have houts : s'.outs = s.outs ++ [out] := by unfold State.outs; rw [h1, List.map_append]; rfl
  unfold Good State.plain
  rw [h2, hops, houts, r1, r2, g.2, ho]
  exact ⟨h, rfl⟩

end Sync
end Usage
end Verif
