import Verif.PrunedProps
/-
Model of virtualized cells (`cell/cell_impl/mod.rs:619-816`, `cell/cell_impl/sync.rs:132-139`).
-/
set_option linter.unusedVariables false
set_option linter.unusedSimpArgs false
namespace Verif

/-- A cell handle: a cell itself, a borrowed cell behind `VirtualCellWrapper<_, L>` (`mod.rs:690`) or an owned handle
inside `VirtualCell` (`mod.rs:621`). -/
inductive VCell where
  | plain (c : CCell)
  | wrapped (c : CCell) (level : Nat)
  | boxed (v : VCell)

namespace VCell

/-- The cell whose data, descriptor and bit length the handle shows (`mod.rs:632-642`, `709-719`). -/
def cell : VCell → CCell
  | plain c => c
  | wrapped c _ => c
  | boxed v => v.cell

/-- `virtual_hash_index` (`mod.rs:811-816`). -/
def virtIndex (m : LevelMask) (level offset : Nat) : Nat := (m.virtualize (1 + offset)).hashIndex level

/-- `hash` (`mod.rs:657-660`, `734-737`). -/
def hash : VCell → Nat → Hash
  | plain c, l => c.hash l
  | wrapped c L, l => c.hash (virtIndex c.desc.levelMask l L)
  | boxed v, l => v.hash (virtIndex v.cell.desc.levelMask l 0)

/-- `depth` (`mod.rs:662-665`, `739-742`). -/
def depth : VCell → Nat → Nat
  | plain c, l => c.depth l
  | wrapped c L, l => c.depth (virtIndex c.desc.levelMask l L)
  | boxed v, l => v.depth (virtIndex v.cell.desc.levelMask l 0)

/-- `virtualize` on a borrowed cell. Plain cells: `mod.rs:421-427` (ordinary), `568-570` (pruned branch, whose mask is never
empty), `69-71`, `156-158`, `491-493` (static cells and libraries, whose mask is empty). Wrappers go on to the wrappers
with `L = 1` and `L = 2` (`mod.rs:730-732`, `772-809`); `VirtualCell` starts again from its inner cell (`653-655`). -/
def virtualize : VCell → VCell
  | plain c => if c.desc.levelMask.isEmpty then plain c else wrapped c 0
  | wrapped c L => wrapped c (if L = 0 then 1 else 2)
  | boxed v => v.virtualize

/-- `Cell::virtualize` on an owned cell (`sync.rs:132-139`). -/
def virtualizeOwned (v : VCell) : VCell := if v.cell.desc.levelMask.isEmpty then v else boxed v

/-- `reference` (`mod.rs:645-647`, `722-724`, `763-765`). -/
def reference : VCell → Nat → Option VCell
  | plain c, i => (c.refs[i]?).map plain
  | wrapped c _, i => (c.refs[i]?).map fun r => (plain r).virtualize
  | boxed v, i => (v.reference i).map virtualize

/-- `reference_cloned` (`mod.rs:649-651`, `726-728`, `768-770`). -/
def referenceCloned : VCell → Nat → Option VCell
  | plain c, i => (c.refs[i]?).map plain
  | wrapped c _, i => (c.refs[i]?).map fun r => (plain r).virtualizeOwned
  | boxed v, i => (v.referenceCloned i).map virtualizeOwned

/-- Specification: follow a path of references through ordinary cells, each step borrowed (`false`) or cloned
(`true`). -/
def walk : VCell → List (Nat × Bool) → Option VCell
  | v, [] => some v
  | v, (i, b) :: p =>
    if v.cell.desc.isExotic then none
    else match (if b then v.referenceCloned i else v.reference i) with
      | none => none
      | some r => r.walk p

end VCell

/-- Specification: the same path through plain cells. -/
def CCell.walk : CCell → List Nat → Option CCell
  | c, [] => some c
  | c, i :: p => match c.refs[i]? with
    | none => none
    | some r => r.walk p

/-- Specification: the highest significant level of a mask. -/
def LevelMask.top (m : LevelMask) : Nat :=
  if m.getLsbD 2 then 3 else if m.getLsbD 1 then 2 else if m.getLsbD 0 then 1 else 0

theorem virtIndex_slot {m : LevelMask} (hm : m.toNat < 8) (L l : Nat) (hL : L ≤ 2) :
    m.hashIndex (VCell.virtIndex m l L) = m.hashIndex (min l (m.top - (1 + L))) ↔ ¬ (m = 5 ∧ L = 0 ∧ l = 1) := by
  have hge : ∀ l, 3 ≤ l → VCell.virtIndex m l L = VCell.virtIndex m 3 L := by
    intro l hl
    unfold VCell.virtIndex
    have h8 : (m.virtualize (1 + L)).toNat < 8 := by
      unfold LevelMask.virtualize
      rw [BitVec.toNat_ushiftRight]
      exact Nat.lt_of_le_of_lt (Nat.shiftRight_le _ _) hm
    rw [LevelMask.hashIndex_eq h8, LevelMask.hashIndex_eq h8, show l = 3 + (l - 3) by omega, LevelMask.countUpTo_ge h8]
  have key : ∀ m : Fin 8, ∀ L : Fin 3, ∀ l : Fin 4,
    let m : LevelMask := BitVec.ofNat 8 m
    (m.hashIndex (VCell.virtIndex m l L) = m.hashIndex (min l.val (m.top - (1 + L.val))) ↔ ¬ (m = 5 ∧ L.val = 0 ∧ l.val = 1)) ∧ m.top ≤ 3 := by
    decide +kernel
  have h := fun l => key ⟨m.toNat, hm⟩ ⟨L, by omega⟩ l
  simp only [BitVec.ofNat_toNat, BitVec.setWidth_eq] at h
  by_cases hl : l < 4
  · exact (h ⟨l, hl⟩).1
  · have h3 := h ⟨3, by omega⟩
    have htop := h3.2
    rw [hge l (by omega)]
    have e : min l (m.top - (1 + L)) = min 3 (m.top - (1 + L)) := by omega
    rw [e, h3.1]
    constructor
    · rintro _ ⟨_, _, h⟩; omega
    · rintro _ ⟨_, _, h⟩; exact absurd (show (3:Nat) = 1 from h) (by decide)

theorem CCell.hash_of_slot {c : CCell} {a b : Nat} (h : c.desc.levelMask.hashIndex a = c.desc.levelMask.hashIndex b) :
    c.hash a = c.hash b ∧ c.depth a = c.depth b := by
  obtain ⟨d, n, bs, rs, hs⟩ := c
  constructor
  · rw [CCell.hash_mk, CCell.hash_mk]
    have h : d.levelMask.hashIndex a = d.levelMask.hashIndex b := h
    rw [h]
  · rw [CCell.depth_mk, CCell.depth_mk]
    have h : d.levelMask.hashIndex a = d.levelMask.hashIndex b := h
    rw [h]

theorem Built.of_ref {H : Hasher} {c r : CCell} (h : Built H c) (hr : r ∈ c.refs) : Built H r := by
  cases h with
  | mk hp hc h =>
    obtain ⟨hs, rfl⟩ := finalize_fields h
    exact hc r hr

theorem CCell.tree_eta (c : CCell) : c.tree = .mk c.desc.isExotic c.tree.bits (c.refs.map CCell.tree) := by
  obtain ⟨d, n, bs, rs, hs⟩ := c
  show Cell.mk _ _ _ = Cell.mk _ _ _
  rw [CCell.treeList_eq]; rfl

theorem hashIndex_top {m : LevelMask} (hm : m.toNat < 8) : m = 0 → ∀ l, m.hashIndex l = 0 := by
  intro h l
  rw [LevelMask.hashIndex_eq hm, h]
  induction l with
  | zero => rfl
  | succ l ih => rw [LevelMask.countUpTo, ih]; simp

theorem masks_le {m : LevelMask} (hm : m.toNat < 8) (h : ∀ i, i ≠ 0 → m.getLsbD i = false) : m = 0 ∨ m = 1 := by
  have key : ∀ m : Fin 8, (∀ i : Fin 3, i.val ≠ 0 → (BitVec.ofNat 8 m.val).getLsbD i = false) → BitVec.ofNat 8 m.val = 0 ∨ BitVec.ofNat 8 m.val = 1 := by
    decide +kernel
  have := key ⟨m.toNat, hm⟩
  simp only [BitVec.ofNat_toNat, BitVec.setWidth_eq] at this
  exact this fun i hi => h i hi

theorem orMasks_zero : ∀ {ms : List LevelMask}, orMasks ms = 0 → ∀ m ∈ ms, m = 0
  | [], _, m, hm => by cases hm
  | x :: xs, h, m, hm => by
    rw [orMasks] at h
    have hx : x = 0 ∧ orMasks xs = 0 := by
      constructor <;>
      · apply BitVec.eq_of_getLsbD_eq
        intro i hi
        have := congrArg (BitVec.getLsbD · i) h
        have h0 : BitVec.getLsbD (0 : LevelMask) i = false := by show BitVec.getLsbD 0#8 i = false; simp
        simp only [BitVec.getLsbD_or, h0, Bool.or_eq_false_iff] at this
        rw [h0]
        simp [this]
    rcases List.mem_cons.mp hm with rfl | hm
    · exact hx.1
    · exact orMasks_zero hx.2 m hm

/-- The children of an ordinary cell of level 0 have level 0. -/
theorem Built.child_mask {H : Hasher} {c r : CCell} (h : Built H c) (he : c.desc.isExotic = false) (h0 : c.desc.levelMask = 0)
    (hr : r ∈ c.refs) : r.desc.levelMask = 0 := by
  have f := h.facts
  rw [f.agrees.mask, CCell.tree_eta, he] at h0
  have h0 : orMasks ((Cell.infoList H (c.refs.map CCell.tree)).map (·.mask)) = 0 := h0
  rw [(h.of_ref hr).facts.agrees.mask]
  refine orMasks_zero h0 _ ?_
  rw [Cell.infoList_eq, List.map_map, List.map_map]
  exact List.mem_map.mpr ⟨r, hr, rfl⟩

end Verif
