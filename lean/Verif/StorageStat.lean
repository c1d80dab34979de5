import Verif.MerkleUpdateProps
/-
`StorageStat` (`cell/mod.rs:1602-1720`): the size of the distinct cells of several trees.
-/
set_option linter.unusedVariables false
set_option linter.unusedSimpArgs false
set_option linter.dupNamespace false
namespace Verif
namespace Stat
open Boc (Below Clash below_apart)

/-! ### Model -/

/-- `cell/mod.rs:1606-1612` `StorageStat`, without the stack that is empty between calls. The set of hashes is a list; the counters are unbounded
(the code has `u64`). -/
structure Stat where
  visited : List Hash
  bits : Nat
  cells : Nat
  limit : Nat

/-- `cell/mod.rs:1646-1653` `with_limit` -/
def Stat.withLimit (limit : Nat) : Stat := ⟨[], 0, 0, limit⟩

/-- `cell/mod.rs:1697-1706`: one reference; `visit` goes through the references of a new cell. -/
def Stat.visit (s : Stat) (c : CCell) (visit : Stat → Stat × Bool) : Stat × Bool :=
  if c.reprHash ∈ s.visited then (s, true)
  else if s.limit ≤ s.cells then ({ s with visited := c.reprHash :: s.visited }, false)
  else visit { s with visited := c.reprHash :: s.visited, bits := s.bits + c.bitLen, cells := s.cells + 1 }

/-- The rest of the loop, if it was not left. -/
def andThen (r : Stat × Bool) (f : Stat → Stat × Bool) : Stat × Bool := if r.2 then f r.1 else r

mutual
/-- `cell/mod.rs:1693-1717` `reduce_stack`: the references of a cell. The explicit stack is a recursion here. -/
def reduceCell : CCell → Stat → Stat × Bool
  | .mk _ _ _ refs _, s => reduce refs s
def reduce : List CCell → Stat → Stat × Bool
  | [], s => (s, true)
  | c :: cs, s => andThen (s.visit c (fun s => reduceCell c s)) (fun s => reduce cs s)
end

/-- `cell/mod.rs:1668-1679` `add_cell` -/
def Stat.addCell (s : Stat) (c : CCell) : Stat × Bool :=
  if c.reprHash ∈ s.visited then (s, true)
  else reduce c.refs { s with visited := c.reprHash :: s.visited, bits := s.bits + c.bitLen, cells := s.cells + 1 }

/-- `cell/mod.rs:1684-1690` `add_slice` -/
def Stat.addSlice (s : Stat) (x : CSlice CCell) : Stat × Bool :=
  reduce x.refList { s with bits := s.bits + x.range.sizeBits }

/-- `cell/mod.rs:1636-1643` `compute_for_cell` -/
def computeForCell (c : CCell) (limit : Nat) : Option (Nat × Nat) :=
  let r := (Stat.withLimit limit).addCell c
  if r.2 then some (r.1.bits, r.1.cells) else none

/-- `cell/mod.rs:1621-1631` `compute_for_slice` -/
def computeForSlice (x : CSlice CCell) (limit : Nat) : Option (Nat × Nat) :=
  let r := (Stat.withLimit limit).addSlice x
  if r.2 then some (r.1.bits, r.1.cells) else none

/-! ### Specification -/

/-- Something whose size is counted. -/
inductive Item where
  | cell (c : CCell)
  | slice (x : CSlice CCell)

/-- The cells at the top of an item. -/
def Item.roots : Item → List CCell
  | .cell c => [c]
  | .slice x => x.refList

/-- The data bits of a slice, which are not in any cell of the item. -/
def Item.own : Item → Nat
  | .cell _ => 0
  | .slice x => x.bits.length

/-- The root of a cell item is counted without looking at the limit. -/
def Item.free : Item → Nat
  | .cell _ => 1
  | .slice _ => 0

def Stat.add (s : Stat) : Item → Stat × Bool
  | .cell c => s.addCell c
  | .slice x => s.addSlice x

/-- Adding several items, stopping at the first that does not fit. -/
def Stat.addAll : Stat → List Item → Stat × Bool
  | s, [] => (s, true)
  | s, i :: is => andThen (s.add i) (fun s => s.addAll is)

/-- `D` lists the different cells of the trees `rs`, each once. -/
structure Distinct (rs : List CCell) (D : List Cell) : Prop where
  nodup : D.Nodup
  mem : ∀ t, t ∈ D ↔ ∃ r ∈ rs, Cell.Sub t r.tree

/-- The total number of bits in the cells of `D`. -/
def bitSum (D : List Cell) : Nat := (D.map fun t => t.bits.length).sum

/-! ### The traversal -/

/-- `D` are the cells counted so far. -/
structure Counted (S : CCell → Prop) (s : Stat) (D : List CCell) (own : Nat) : Prop where
  inS : ∀ c ∈ D, S c
  visited : s.visited = D.map CCell.reprHash
  nodup : (D.map CCell.reprHash).Nodup
  cells : s.cells = D.length
  bits : s.bits = own + (D.map CCell.bitLen).sum

/-- What the traversal of some references does. -/
structure Step (S : CCell → Prop) (cs : List CCell) (s s' : Stat) (D D' : List CCell) (own : Nat) : Prop where
  counted : Counted S s' D' own
  mono : ∀ c ∈ D, c ∈ D'
  all : ∀ c ∈ cs, c.reprHash ∈ s'.visited
  closed : ∀ x ∈ D', x ∈ D ∨ ∀ r ∈ x.refs, r.reprHash ∈ s'.visited
  from_ : ∀ x ∈ D', x ∈ D ∨ ∃ c ∈ cs, CCell.Sub x c
  le : s'.cells ≤ s.limit ∨ s'.cells = s.cells
  limit : s'.limit = s.limit

/-- The traversal stopped: as many cells as allowed were counted and there is another one. -/
structure Stop (S : CCell → Prop) (cs : List CCell) (s s' : Stat) (D D' : List CCell) (own : Nat) : Prop where
  cells : s'.cells = D'.length
  nodup : (D'.map CCell.reprHash).Nodup
  mono : ∀ c ∈ D, c ∈ D'
  le : s.limit ≤ s'.cells
  inS : ∀ c ∈ D', S c
  from_ : ∀ x ∈ D', x ∈ D ∨ ∃ c ∈ cs, CCell.Sub x c
  more : ∃ x, (∃ c ∈ cs, CCell.Sub x c) ∧ x.reprHash ∉ D'.map CCell.reprHash

def Outcome (S : CCell → Prop) (cs : List CCell) (s : Stat) (D : List CCell) (own : Nat) (r : Stat × Bool) : Prop :=
  (r.2 = true ∧ ∃ D', Step S cs s r.1 D D' own) ∨ (r.2 = false ∧ ∃ D', Stop S cs s r.1 D D' own)

theorem Counted.add {S : CCell → Prop} {s : Stat} {D : List CCell} {own : Nat} (h : Counted S s D own) {c : CCell} (hc : S c) (hn : c.reprHash ∉ s.visited) :
    Counted S { s with visited := c.reprHash :: s.visited, bits := s.bits + c.bitLen, cells := s.cells + 1 } (c :: D) own where
  inS := by
    intro x hx
    rcases List.mem_cons.mp hx with rfl | hx
    · exact hc
    · exact h.inS x hx
  visited := by simp [h.visited]
  nodup := by
    rw [List.map_cons, List.nodup_cons]
    exact ⟨by rw [← h.visited]; exact hn, h.nodup⟩
  cells := by simp [h.cells]
  bits := by simp [h.bits]; omega

mutual
theorem reduceCell_spec {S : CCell → Prop} (hch : ∀ {c r}, S c → r ∈ c.refs → S r) : ∀ (c : CCell) (s : Stat) (D : List CCell) (own : Nat), S c → Counted S s D own →
    Outcome S c.refs s D own (reduceCell c s)
  | .mk desc bitLen data refs hashes, s, D, own, hc, h => by
    exact reduce_spec hch refs s D own (fun r hr => hch hc hr) h
theorem reduce_spec {S : CCell → Prop} (hch : ∀ {c r}, S c → r ∈ c.refs → S r) : ∀ (cs : List CCell) (s : Stat) (D : List CCell) (own : Nat), (∀ c ∈ cs, S c) → Counted S s D own →
    Outcome S cs s D own (reduce cs s)
  | [], s, D, own, hs, h => by
    refine Or.inl ⟨rfl, D, h, fun _ h => h, by simp, fun _ h => Or.inl h, fun _ h => Or.inl h, Or.inr rfl, rfl⟩
  | c :: cs, s, D, own, hs, h => by
    have hcell := reduceCell_spec hch c
    have hrest := reduce_spec hch cs
    have hc := hs c (by simp)
    have hrun : reduce (c :: cs) s = andThen (s.visit c (fun s => reduceCell c s)) (fun s => reduce cs s) := rfl
    rw [hrun]
    have hfirst : Outcome S [c] s D own (s.visit c (fun s => reduceCell c s)) := by
      unfold Stat.visit
      by_cases hv : c.reprHash ∈ s.visited
      · rw [if_pos hv]
        exact Or.inl ⟨rfl, D, h, fun _ h => h, by simpa using hv, fun _ h => Or.inl h, fun _ h => Or.inl h, Or.inr rfl, rfl⟩
      · rw [if_neg hv]
        by_cases hl : s.limit ≤ s.cells
        · rw [if_pos hl]
          refine Or.inr ⟨rfl, D, h.cells, h.nodup, fun _ h => h, hl, h.inS, fun _ h => Or.inl h, c, ⟨c, by simp, .refl _⟩, ?_⟩
          rw [← h.visited]; exact hv
        · rw [if_neg hl]
          rcases hcell _ (c :: D) own hc (h.add hc hv) with ⟨e, D', g⟩ | ⟨e, D', g⟩
          · refine Or.inl ⟨e, D', g.counted, fun x hx => g.mono x (by simp [hx]), ?_, ?_, ?_, ?_, g.limit⟩
            · intro x hx
              rw [List.mem_singleton.mp hx, g.counted.visited]
              exact List.mem_map.mpr ⟨c, g.mono c (by simp), rfl⟩
            · intro x hx
              rcases g.closed x hx with hx | hx
              · rcases List.mem_cons.mp hx with rfl | hx
                · exact Or.inr g.all
                · exact Or.inl hx
              · exact Or.inr hx
            · intro x hx
              rcases g.from_ x hx with hx | ⟨q, hq, hs⟩
              · rcases List.mem_cons.mp hx with rfl | hx
                · exact Or.inr ⟨x, by simp, .refl _⟩
                · exact Or.inl hx
              · exact Or.inr ⟨c, by simp, .child hq hs⟩
            · rcases g.le with hle | hle
              · exact Or.inl hle
              · left
                dsimp only at hle ⊢
                omega
          · refine Or.inr ⟨e, D', g.cells, g.nodup, fun x hx => g.mono x (by simp [hx]), g.le, g.inS, ?_, ?_⟩
            · intro x hx
              rcases g.from_ x hx with hx | ⟨q, hq, hs⟩
              · rcases List.mem_cons.mp hx with rfl | hx
                · exact Or.inr ⟨x, by simp, .refl _⟩
                · exact Or.inl hx
              · exact Or.inr ⟨c, by simp, .child hq hs⟩
            · obtain ⟨x, ⟨q, hq, hs⟩, hn⟩ := g.more
              exact ⟨x, ⟨c, by simp, .child hq hs⟩, hn⟩
    generalize s.visit c (fun s => reduceCell c s) = out at hfirst ⊢
    obtain ⟨s1, b⟩ := out
    rcases hfirst with ⟨e, D1, g⟩ | ⟨e, D1, g⟩
    · dsimp only at e g
      subst e
      show Outcome S (c :: cs) s D own (reduce cs s1)
      rcases hrest s1 D1 own (fun x hx => hs x (by simp [hx])) g.counted with ⟨e2, D2, g2⟩ | ⟨e2, D2, g2⟩
      · have hvis : ∀ k, k ∈ s1.visited → k ∈ (reduce cs s1).1.visited := by
          intro k hk
          rw [g.counted.visited] at hk
          obtain ⟨x, hx, rfl⟩ := List.mem_map.mp hk
          rw [g2.counted.visited]
          exact List.mem_map.mpr ⟨x, g2.mono x hx, rfl⟩
        refine Or.inl ⟨e2, D2, g2.counted, fun x hx => g2.mono x (g.mono x hx), ?_, ?_, ?_, ?_, g2.limit.trans g.limit⟩
        · intro x hx
          rcases List.mem_cons.mp hx with rfl | hx
          · exact hvis _ (g.all _ (by simp))
          · exact g2.all x hx
        · intro x hx
          rcases g2.closed x hx with hx | hx
          · rcases g.closed x hx with hx | hx
            · exact Or.inl hx
            · exact Or.inr fun r hr => hvis _ (hx r hr)
          · exact Or.inr hx
        · intro x hx
          rcases g2.from_ x hx with hx | ⟨q, hq, hs⟩
          · rcases g.from_ x hx with hx | ⟨q, hq, hs⟩
            · exact Or.inl hx
            · exact Or.inr ⟨c, by simp, by rw [List.mem_singleton.mp hq] at hs; exact hs⟩
          · exact Or.inr ⟨q, by simp [hq], hs⟩
        · have h1 := g2.le
          have h2 := g.le
          rw [g.limit] at h1
          omega
      · refine Or.inr ⟨e2, D2, g2.cells, g2.nodup, fun x hx => g2.mono x (g.mono x hx), by rw [← g.limit]; exact g2.le, g2.inS, ?_, ?_⟩
        · intro x hx
          rcases g2.from_ x hx with hx | ⟨q, hq, hs⟩
          · rcases g.from_ x hx with hx | ⟨q, hq, hs⟩
            · exact Or.inl hx
            · exact Or.inr ⟨c, by simp, by rw [List.mem_singleton.mp hq] at hs; exact hs⟩
          · exact Or.inr ⟨q, by simp [hq], hs⟩
        · obtain ⟨x, ⟨q, hq, hs⟩, hn⟩ := g2.more
          exact ⟨x, ⟨q, by simp [hq], hs⟩, hn⟩
    · dsimp only at e g
      subst e
      refine Or.inr ⟨rfl, D1, g.cells, g.nodup, g.mono, g.le, g.inS, ?_, ?_⟩
      · intro x hx
        rcases g.from_ x hx with hx | ⟨q, hq, hs⟩
        · exact Or.inl hx
        · exact Or.inr ⟨c, by simp, by rw [List.mem_singleton.mp hq] at hs; exact hs⟩
      · obtain ⟨x, ⟨q, hq, hs⟩, hn⟩ := g.more
        exact ⟨x, ⟨c, by simp, by rw [List.mem_singleton.mp hq] at hs; exact hs⟩, hn⟩
end

theorem Stat.add_outcome {S : CCell → Prop} (hch : ∀ {c r}, S c → r ∈ c.refs → S r) {i : Item} {s : Stat} {D : List CCell} {own : Nat}
    (hi : ∀ c ∈ i.roots, S c) (h : Counted S s D own) (hcl : ∀ x ∈ D, ∀ r ∈ x.refs, r.reprHash ∈ s.visited) :
    ((s.add i).2 = true ∧ ∃ D', Counted S (s.add i).1 D' (own + i.own) ∧ (s.add i).1.limit = s.limit ∧ (∀ c ∈ D, c ∈ D') ∧ (∀ c ∈ i.roots, c.reprHash ∈ (s.add i).1.visited) ∧
        (∀ x ∈ D', ∀ r ∈ x.refs, r.reprHash ∈ (s.add i).1.visited) ∧ (∀ x ∈ D', x ∈ D ∨ ∃ c ∈ i.roots, CCell.Sub x c) ∧
        (D'.length ≤ s.limit ∨ D'.length ≤ D.length + i.free)) ∨
    ((s.add i).2 = false ∧ ∃ D' : List CCell, (D'.map CCell.reprHash).Nodup ∧ (∀ c ∈ D', S c) ∧ s.limit ≤ D'.length ∧ D.length + i.free ≤ D'.length ∧
        (∀ x ∈ D', x ∈ D ∨ ∃ c ∈ i.roots, CCell.Sub x c) ∧ ∃ x, (∃ c ∈ i.roots, CCell.Sub x c) ∧ x.reprHash ∉ D'.map CCell.reprHash) := by
  cases i with
  | slice x =>
    have h1 : Counted S { s with bits := s.bits + x.range.sizeBits } D (own + x.bits.length) := by
      refine ⟨h.inS, h.visited, h.nodup, h.cells, ?_⟩
      show s.bits + x.range.sizeBits = _
      have : x.bits.length = x.range.sizeBits := by simp [CSlice.bits, SliceRange.sizeBits]
      rw [h.bits, this]; omega
    show ((reduce x.refList { s with bits := s.bits + x.range.sizeBits }).2 = true ∧ _) ∨ ((reduce x.refList { s with bits := s.bits + x.range.sizeBits }).2 = false ∧ _)
    rcases reduce_spec hch x.refList _ D _ hi h1 with ⟨e, D', g⟩ | ⟨e, D', g⟩
    · refine Or.inl ⟨e, D', g.counted, g.limit, g.mono, g.all, ?_, g.from_, ?_⟩
      · intro y hy
        rcases g.closed y hy with hy | hy
        · intro r hr
          have := hcl y hy r hr
          rw [h.visited] at this
          obtain ⟨z, hz, e⟩ := List.mem_map.mp this
          rw [← e]
          show _ ∈ (reduce x.refList { s with bits := s.bits + x.range.sizeBits }).1.visited
          rw [g.counted.visited]
          exact List.mem_map.mpr ⟨z, g.mono z hz, rfl⟩
        · exact hy
      · have h2 := g.le
        rw [g.counted.cells] at h2
        rcases h2 with h2 | h2
        · exact Or.inl h2
        · right
          dsimp only at h2 ⊢
          rw [h.cells] at h2
          omega
    · refine Or.inr ⟨e, D', g.nodup, g.inS, ?_, ?_, g.from_, g.more⟩
      · have := g.le; rw [g.cells] at this; exact this
      · have hsub : (D.map CCell.reprHash).length ≤ (D'.map CCell.reprHash).length := by
          refine List.Nodup.length_le_of_subset h.nodup ?_
          intro k hk
          obtain ⟨z, hz, e⟩ := List.mem_map.mp hk
          exact List.mem_map.mpr ⟨z, g.mono z hz, e⟩
        simpa [Item.free] using hsub
  | cell c =>
    have hc : S c := hi c (by simp [Item.roots])
    show ((s.addCell c).2 = true ∧ _) ∨ ((s.addCell c).2 = false ∧ _)
    have hadd : (s.add (.cell c)) = s.addCell c := rfl
    rw [hadd]
    unfold Stat.addCell
    by_cases hv : c.reprHash ∈ s.visited
    · rw [if_pos hv]
      exact Or.inl ⟨rfl, D, h, rfl, fun _ h => h, by simpa [Item.roots] using hv, hcl, fun _ h => Or.inl h, Or.inr (Nat.le_add_right _ _)⟩
    · rw [if_neg hv]
      rcases reduce_spec hch c.refs _ (c :: D) own (fun r hr => hch hc hr) (h.add hc hv) with ⟨e, D', g⟩ | ⟨e, D', g⟩
      · refine Or.inl ⟨e, D', g.counted, g.limit, fun x hx => g.mono x (by simp [hx]), ?_, ?_, ?_, ?_⟩
        · intro x hx
          rw [show x = c by simpa [Item.roots] using hx, g.counted.visited]
          exact List.mem_map.mpr ⟨c, g.mono c (by simp), rfl⟩
        · intro y hy
          rcases g.closed y hy with hy | hy
          · rcases List.mem_cons.mp hy with rfl | hy
            · exact g.all
            · intro r hr
              have := hcl y hy r hr
              rw [h.visited] at this
              obtain ⟨z, hz, e⟩ := List.mem_map.mp this
              rw [← e, g.counted.visited]
              exact List.mem_map.mpr ⟨z, g.mono z (by simp [hz]), rfl⟩
          · exact hy
        · intro x hx
          rcases g.from_ x hx with hx | ⟨q, hq, hs⟩
          · rcases List.mem_cons.mp hx with rfl | hx
            · exact Or.inr ⟨x, by simp [Item.roots], .refl _⟩
            · exact Or.inl hx
          · exact Or.inr ⟨c, by simp [Item.roots], .child hq hs⟩
        · have h2 := g.le
          rw [g.counted.cells] at h2
          rcases h2 with h2 | h2
          · exact Or.inl h2
          · right
            dsimp only [Item.free] at h2 ⊢
            rw [h.cells] at h2
            omega
      · refine Or.inr ⟨e, D', g.nodup, g.inS, ?_, ?_, ?_, ?_⟩
        · have := g.le; rw [g.cells] at this; exact this
        · have hsub : ((c :: D).map CCell.reprHash).length ≤ (D'.map CCell.reprHash).length := by
            refine List.Nodup.length_le_of_subset (h.add hc hv).nodup ?_
            intro k hk
            obtain ⟨z, hz, e⟩ := List.mem_map.mp hk
            exact List.mem_map.mpr ⟨z, g.mono z hz, e⟩
          simpa [Item.free] using hsub
        · intro x hx
          rcases g.from_ x hx with hx | ⟨q, hq, hs⟩
          · rcases List.mem_cons.mp hx with rfl | hx
            · exact Or.inr ⟨x, by simp [Item.roots], .refl _⟩
            · exact Or.inl hx
          · exact Or.inr ⟨c, by simp [Item.roots], .child hq hs⟩
        · obtain ⟨x, ⟨q, hq, hs⟩, hn⟩ := g.more
          exact ⟨x, ⟨c, by simp [Item.roots], .child hq hs⟩, hn⟩

/-! ### Distinct cells -/

theorem nodup_of (α : Type) (l : List α) : ∃ D : List α, D.Nodup ∧ ∀ x, x ∈ D ↔ x ∈ l := by
  induction l with
  | nil => exact ⟨[], by simp, by simp⟩
  | cons a l ih =>
    obtain ⟨D, h1, h2⟩ := ih
    by_cases ha : a ∈ D
    · exact ⟨D, h1, fun x => by rw [h2, List.mem_cons]; constructor <;> intro h; exact Or.inr h; rcases h with rfl | h; exact (h2 _).mp ha; exact h⟩
    · exact ⟨a :: D, List.nodup_cons.mpr ⟨ha, h1⟩, fun x => by simp [h2]⟩

mutual
theorem subs_finite : ∀ t : Cell, ∃ l : List Cell, ∀ x, x ∈ l ↔ Cell.Sub x t
  | .mk e b rs => by
    obtain ⟨l, h⟩ := subs_finite_list rs
    refine ⟨.mk e b rs :: l, fun x => ?_⟩
    rw [List.mem_cons, h]
    constructor
    · rintro (rfl | ⟨r, hr, hs⟩)
      · exact .refl _
      · exact .child (show r ∈ (Cell.mk e b rs).refs from hr) hs
    · intro hs
      cases hs with
      | refl => exact Or.inl rfl
      | child hr s => exact Or.inr ⟨_, hr, s⟩
theorem subs_finite_list : ∀ ts : List Cell, ∃ l : List Cell, ∀ x, x ∈ l ↔ ∃ t ∈ ts, Cell.Sub x t
  | [] => ⟨[], by simp⟩
  | t :: ts => by
    obtain ⟨l1, h1⟩ := subs_finite t
    obtain ⟨l2, h2⟩ := subs_finite_list ts
    exact ⟨l1 ++ l2, fun x => by simp [h1, h2]⟩
end

/-- Every list of trees has a list of its distinct cells. -/
theorem Distinct.exists (rs : List CCell) : ∃ D, Distinct rs D := by
  obtain ⟨l, h⟩ := subs_finite_list (rs.map CCell.tree)
  obtain ⟨D, h1, h2⟩ := nodup_of Cell l
  exact ⟨D, h1, fun t => by rw [h2, h]; simp⟩

theorem nodup_perm {α : Type} : ∀ {a b : List α}, a.Nodup → b.Nodup → (∀ x, x ∈ a ↔ x ∈ b) → a.Perm b
  | [], b, _, _, h => by
    cases b with
    | nil => exact .refl _
    | cons y b => exact absurd ((h y).mpr (by simp)) (by simp)
  | x :: a, b, ha, hb, h => by
    obtain ⟨b1, b2, rfl⟩ := List.append_of_mem ((h x).mp (by simp))
    have hp : (b1 ++ x :: b2).Perm (x :: (b1 ++ b2)) := List.perm_middle
    have hb' := hp.nodup_iff.mp hb
    rw [List.nodup_cons] at ha hb'
    refine List.Perm.trans (List.Perm.cons x (nodup_perm ha.2 hb'.2 ?_)) hp.symm
    intro y
    have := h y
    rw [hp.mem_iff, List.mem_cons, List.mem_cons] at this
    constructor
    · intro hy
      rcases this.mp (Or.inr hy) with rfl | hy'
      · exact absurd hy ha.1
      · exact hy'
    · intro hy
      rcases this.mpr (Or.inr hy) with rfl | hy'
      · exact absurd hy hb'.1
      · exact hy'

/-- The number of distinct cells and their bits do not depend on the order. -/
theorem Distinct.unique {rs : List CCell} {D E : List Cell} (h : Distinct rs D) (h' : Distinct rs E) : D.length = E.length ∧ bitSum D = bitSum E := by
  have hp := nodup_perm h.nodup h'.nodup (fun t => by rw [h.mem, h'.mem])
  refine ⟨hp.length_eq, ?_⟩
  unfold bitSum
  exact (hp.map _).sum_nat

/-! ### Histories -/

/-- The state after items `is` that all fitted. -/
structure Has (S : CCell → Prop) (is : List Item) (s : Stat) (D : List CCell) : Prop where
  counted : Counted S s D ((is.map Item.own).sum)
  closed : ∀ x ∈ D, ∀ r ∈ x.refs, r.reprHash ∈ s.visited
  roots : ∀ c ∈ is.flatMap Item.roots, c.reprHash ∈ s.visited
  from_ : ∀ x ∈ D, ∃ c ∈ is.flatMap Item.roots, CCell.Sub x c

theorem Has.sub {H : Hasher} {S : CCell → Prop} (ha : Boc.Writer.Apart H S) {is : List Item} {s : Stat} {D : List CCell} (h : Has S is s D)
    {c x : CCell} (hx : CCell.Sub x c) (hc : c.reprHash ∈ s.visited) (hS : S c) : x.reprHash ∈ s.visited := by
  induction hx with
  | refl => exact hc
  | @child r t hr s ih =>
    refine ih ?_ (ha.child hS hr)
    rw [h.counted.visited] at hc
    obtain ⟨z, hz, e⟩ := List.mem_map.mp hc
    have htree := ha.inj (h.counted.inS z hz) hS e
    have : r.tree ∈ z.tree.refs := by rw [htree]; exact Merkle.mem_refs_tree hr
    rw [CCell.tree_refs] at this
    obtain ⟨q, hq, e'⟩ := List.mem_map.mp this
    have hh := h.closed z hz q hq
    have hqS := ha.child (h.counted.inS z hz) hq
    have hrS := ha.child hS hr
    have heq : q.reprHash = r.reprHash := (C11_content_only (ha.built hqS) (ha.built hrS) e' 3).1
    rwa [heq] at hh

theorem CCell.bits_len {H : Hasher} {c : CCell} (h : Built H c) : c.tree.bits.length = c.bitLen := h.facts.len

theorem Has.distinct {H : Hasher} {S : CCell → Prop} (ha : Boc.Writer.Apart H S) {is : List Item} {s : Stat} {D : List CCell} (h : Has S is s D)
    (hS : ∀ c ∈ is.flatMap Item.roots, S c) : Distinct (is.flatMap Item.roots) (D.map CCell.tree) ∧ s.cells = (D.map CCell.tree).length ∧
      s.bits = (is.map Item.own).sum + bitSum (D.map CCell.tree) := by
  refine ⟨⟨?_, ?_⟩, by rw [h.counted.cells]; simp, ?_⟩
  · have := h.counted.nodup
    unfold List.Nodup at *
    rw [List.pairwise_map] at this ⊢
    refine this.imp_of_mem ?_
    intro a b h1 h2 hne e
    exact hne ((C11_content_only (ha.built (h.counted.inS a h1)) (ha.built (h.counted.inS b h2)) e 3).1)
  · intro t
    constructor
    · intro ht
      obtain ⟨x, hx, rfl⟩ := List.mem_map.mp ht
      obtain ⟨c, hc, hs⟩ := h.from_ x hx
      exact ⟨c, hc, hs.tree⟩
    · rintro ⟨r, hr, hs⟩
      obtain ⟨q, hq, rfl⟩ := Merkle.sub_tree_inv hs rfl
      have := h.sub ha hq (h.roots r hr) (hS r hr)
      rw [h.counted.visited] at this
      obtain ⟨z, hz, e⟩ := List.mem_map.mp this
      have hqS := ha.sub hq (hS r hr)
      exact List.mem_map.mpr ⟨z, hz, ha.inj (h.counted.inS z hz) hqS e⟩
  · rw [h.counted.bits]
    unfold bitSum
    rw [List.map_map]
    congr 2
    apply List.map_congr_left
    intro x hx
    exact (CCell.bits_len (ha.built (h.counted.inS x hx))).symm

theorem addAll_snoc : ∀ (is : List Item) (s : Stat) (i : Item), s.addAll (is ++ [i]) = andThen (s.addAll is) (fun s => s.add i)
  | [], s, i => by
    show andThen (s.add i) (fun s => (s, true)) = s.add i
    unfold andThen
    split
    · rename_i h; exact Prod.ext rfl h.symm
    · rfl
  | j :: is, s, i => by
    show andThen (s.add j) (fun s => s.addAll (is ++ [i])) = andThen (andThen (s.add j) (fun s => s.addAll is)) (fun s => s.add i)
    unfold andThen
    cases h : (s.add j).2 with
    | true => simp only [if_true]; rw [addAll_snoc]; rfl
    | false => simp only [Bool.false_eq_true, if_false, h]

theorem sum_snoc (is : List Item) (i : Item) : ((is ++ [i]).map Item.own).sum = (is.map Item.own).sum + i.own := by simp

/-- One more item, after items that fitted. -/
theorem Has.next {H : Hasher} {S : CCell → Prop} (ha : Boc.Writer.Apart H S) {is : List Item} {s : Stat} {D : List CCell} (h : Has S is s D) (i : Item)
    (hi : ∀ c ∈ i.roots, S c) :
    ((s.add i).2 = true ∧ ∃ D', Has S (is ++ [i]) (s.add i).1 D' ∧ (s.add i).1.limit = s.limit ∧ (D'.length ≤ s.limit ∨ D'.length ≤ D.length + i.free)) ∨
    ((s.add i).2 = false ∧ ∃ D' : List CCell, (D'.map CCell.reprHash).Nodup ∧ (∀ c ∈ D', S c) ∧ s.limit ≤ D'.length ∧ D.length + i.free ≤ D'.length ∧
        (∀ x ∈ D', ∃ c ∈ (is ++ [i]).flatMap Item.roots, CCell.Sub x c) ∧
        ∃ x, (∃ c ∈ (is ++ [i]).flatMap Item.roots, CCell.Sub x c) ∧ x.reprHash ∉ D'.map CCell.reprHash) := by
  have hfr : ∀ (D' : List CCell), (∀ x ∈ D', x ∈ D ∨ ∃ c ∈ i.roots, CCell.Sub x c) → ∀ x ∈ D', ∃ c ∈ (is ++ [i]).flatMap Item.roots, CCell.Sub x c := by
    intro D' hf x hx
    rcases hf x hx with hx | ⟨c, hc, hs⟩
    · obtain ⟨c, hc, hs⟩ := h.from_ x hx
      exact ⟨c, by rw [List.flatMap_append, List.mem_append]; exact Or.inl hc, hs⟩
    · exact ⟨c, by rw [List.flatMap_append, List.mem_append]; exact Or.inr (by simpa using hc), hs⟩
  rcases Stat.add_outcome (fun h1 h2 => ha.child h1 h2) hi h.counted h.closed with ⟨e, D', g1, gl, g2, g3, g4, g5, g6⟩ | ⟨e, D', g1, g2, g3, g4, g5, x, ⟨c, hc, hs⟩, hn⟩
  · refine Or.inl ⟨e, D', ⟨by rw [sum_snoc]; exact g1, g4, ?_, hfr D' g5⟩, gl, g6⟩
    intro c hc
    rw [List.flatMap_append, List.mem_append] at hc
    rcases hc with hc | hc
    · have := h.roots c hc
      rw [h.counted.visited] at this
      obtain ⟨z, hz, e⟩ := List.mem_map.mp this
      rw [← e, g1.visited]
      exact List.mem_map.mpr ⟨z, g2 z hz, rfl⟩
    · exact g3 c (by simpa using hc)
  · exact Or.inr ⟨e, D', g1, g2, g3, g4, hfr D' g5, x, ⟨c, by rw [List.flatMap_append, List.mem_append]; exact Or.inr (by simpa using hc), hs⟩, hn⟩

theorem has_start (S : CCell → Prop) (limit : Nat) : Has S [] (Stat.withLimit limit) [] where
  counted := ⟨by simp, rfl, by simp, rfl, rfl⟩
  closed := by simp
  roots := by simp
  from_ := by simp

theorem addAll_has {H : Hasher} {S : CCell → Prop} (ha : Boc.Writer.Apart H S) (limit : Nat) (is : List Item) : (∀ c ∈ is.flatMap Item.roots, S c) →
    ((Stat.withLimit limit).addAll is).2 = true → ((Stat.withLimit limit).addAll is).1.limit = limit ∧ ∃ D, Has S is ((Stat.withLimit limit).addAll is).1 D := by
  have key : ∀ n, ∀ is : List Item, is.length = n → (∀ c ∈ is.flatMap Item.roots, S c) →
    ((Stat.withLimit limit).addAll is).2 = true → ((Stat.withLimit limit).addAll is).1.limit = limit ∧ ∃ D, Has S is ((Stat.withLimit limit).addAll is).1 D := by
    intro n
    induction n with
    | zero =>
      intro is hl hS _
      have : is = [] := List.length_eq_zero_iff.mp hl
      subst this
      exact ⟨rfl, [], has_start S limit⟩
    | succ n ih =>
      intro is hl hS ht
      obtain ⟨i, js, rfl⟩ : ∃ i js, is = js ++ [i] := by
        rcases List.eq_nil_or_concat is with rfl | ⟨js, i, rfl⟩
        · cases hl
        · exact ⟨i, js, by simp⟩
      rw [addAll_snoc] at ht ⊢
      unfold andThen at ht ⊢
      cases hb : ((Stat.withLimit limit).addAll js).2 with
      | false => rw [hb] at ht; simp only [Bool.false_eq_true, if_false] at ht; rw [hb] at ht; cases ht
      | true =>
        rw [hb] at ht
        simp only [if_true] at ht ⊢
        obtain ⟨hlim, D, hD⟩ := ih js (by simpa using hl) (fun c hc => hS c (by rw [List.flatMap_append, List.mem_append]; exact Or.inl hc)) hb
        rcases hD.next ha i (fun c hc => hS c (by rw [List.flatMap_append, List.mem_append]; exact Or.inr (by simpa using hc))) with ⟨_, D', g, gl, _⟩ | ⟨e, _⟩
        · exact ⟨gl.trans hlim, D', g⟩
        · rw [e] at ht; cases ht
  exact key _ is rfl

/-! ### C40 -/

/-- After any number of cells and slices that all fitted, the counters are the number and the size of the distinct cells, plus the data of the
slices themselves. -/
theorem C40_history {H : Hasher} {limit : Nat} {is : List Item} (hb : ∀ c ∈ is.flatMap Item.roots, Built H c)
    (ht : ((Stat.withLimit limit).addAll is).2 = true) :
    Clash H (is.flatMap Item.roots) ∨ ∃ D, Distinct (is.flatMap Item.roots) D ∧ ((Stat.withLimit limit).addAll is).1.cells = D.length ∧
      ((Stat.withLimit limit).addAll is).1.bits = (is.map Item.own).sum + bitSum D := by
  by_cases hcl : Clash H (is.flatMap Item.roots)
  · exact Or.inl hcl
  · have ha := below_apart hb hcl
    have hS : ∀ c ∈ is.flatMap Item.roots, Below (is.flatMap Item.roots) c := fun c hc => ⟨c, hc, .refl _⟩
    obtain ⟨_, D, h⟩ := addAll_has ha limit is hS ht
    obtain ⟨h1, h2, h3⟩ := h.distinct ha hS
    exact Or.inr ⟨_, h1, h2, h3⟩

/-- When the next item fits: with `n` distinct cells before and `m` after adding it, the answer is `true` exactly when `m` is within the limit or the item adds no cell (besides
its own root, which is never compared with the limit). -/
theorem C40_limit {H : Hasher} {limit : Nat} {is : List Item} {i : Item} (hb : ∀ c ∈ (is ++ [i]).flatMap Item.roots, Built H c)
    (ht : ((Stat.withLimit limit).addAll is).2 = true) {D D' : List Cell} (hD : Distinct (is.flatMap Item.roots) D) (hD' : Distinct ((is ++ [i]).flatMap Item.roots) D') :
    Clash H ((is ++ [i]).flatMap Item.roots) ∨
    (((Stat.withLimit limit).addAll (is ++ [i])).2 = true ↔ D'.length ≤ limit ∨ D'.length ≤ D.length + i.free) := by
  by_cases hcl : Clash H ((is ++ [i]).flatMap Item.roots)
  · exact Or.inl hcl
  · right
    have ha := below_apart hb hcl
    have hS : ∀ c ∈ (is ++ [i]).flatMap Item.roots, Below ((is ++ [i]).flatMap Item.roots) c := fun c hc => ⟨c, hc, .refl _⟩
    have hS1 : ∀ c ∈ is.flatMap Item.roots, Below ((is ++ [i]).flatMap Item.roots) c := fun c hc => hS c (by rw [List.flatMap_append, List.mem_append]; exact Or.inl hc)
    have hS2 : ∀ c ∈ i.roots, Below ((is ++ [i]).flatMap Item.roots) c := fun c hc => hS c (by rw [List.flatMap_append, List.mem_append]; exact Or.inr (by simpa using hc))
    obtain ⟨hlim, E, h⟩ := addAll_has ha limit is hS1 ht
    rw [addAll_snoc]
    unfold andThen
    rw [ht]
    simp only [if_true]
    obtain ⟨d1, _, _⟩ := h.distinct ha hS1
    have hlen : D.length = E.length := by rw [(hD.unique d1).1]; simp
    rcases h.next ha i hS2 with ⟨e, E', g, gl, gm⟩ | ⟨e, E', g1, g2, g3, g4, g5, x, ⟨c, hc, hs⟩, hn⟩
    · obtain ⟨d2, _, _⟩ := g.distinct ha hS
      have hlen' : D'.length = E'.length := by rw [(hD'.unique d2).1]; simp
      rw [e, hlen, hlen', ← hlim]
      exact ⟨fun _ => gm, fun _ => rfl⟩
    · rw [e]
      refine ⟨fun h => (Bool.false_ne_true h).elim, fun hle => ?_⟩
      exfalso
      have hxS := ha.sub hs (hS c hc)
      have hmore : (((x :: E').map CCell.tree)).length ≤ D'.length := by
        refine List.Nodup.length_le_of_subset ?_ ?_
        · rw [List.map_cons, List.nodup_cons]
          constructor
          · intro hm
            obtain ⟨z, hz, e⟩ := List.mem_map.mp hm
            refine hn (List.mem_map.mpr ⟨z, hz, ?_⟩)
            exact (C11_content_only (ha.built (g2 z hz)) (ha.built hxS) e 3).1
          · have := g1
            unfold List.Nodup at *
            rw [List.pairwise_map] at this ⊢
            refine this.imp_of_mem ?_
            intro a b h1 h2 hne e
            exact hne ((C11_content_only (ha.built (g2 a h1)) (ha.built (g2 b h2)) e 3).1)
        · intro t ht
          rw [hD'.mem]
          obtain ⟨z, hz, rfl⟩ := List.mem_map.mp ht
          rcases List.mem_cons.mp hz with rfl | hz
          · exact ⟨c, hc, hs.tree⟩
          · obtain ⟨c', hc', hs'⟩ := g5 z hz
            exact ⟨c', hc', hs'.tree⟩
      simp only [List.length_map, List.length_cons] at hmore
      omega

/-- `compute_for_cell` gives the number and the bits of the distinct cells if there are at most `limit` of them (a single cell always fits), and otherwise nothing. -/
theorem C40_cell {H : Hasher} {c : CCell} (hc : Built H c) (limit : Nat) {D : List Cell} (hD : Distinct [c] D) :
    Clash H [c] ∨ computeForCell c limit = if D.length ≤ max limit 1 then some (bitSum D, D.length) else none := by
  have hb : ∀ x ∈ ([] ++ [Item.cell c]).flatMap Item.roots, Built H x := by simpa [Item.roots] using hc
  have hr : ([] ++ [Item.cell c]).flatMap Item.roots = [c] := by simp [Item.roots]
  have h0 : Distinct (([] : List Item).flatMap Item.roots) [] := ⟨by simp, by simp⟩
  have hrun : (Stat.withLimit limit).addAll ([] ++ [Item.cell c]) = (Stat.withLimit limit).addCell c := by
    rw [addAll_snoc]; rfl
  rcases C40_limit (is := []) (i := .cell c) (limit := limit) hb rfl h0 (by rw [hr]; exact hD) with hcl | h
  · rw [hr] at hcl; exact Or.inl hcl
  · rw [hrun] at h
    unfold computeForCell
    dsimp only
    by_cases hle : D.length ≤ max limit 1
    · have ht : ((Stat.withLimit limit).addCell c).2 = true := h.mpr (by simp [Item.free]; omega)
      rcases C40_history (limit := limit) (is := [] ++ [.cell c]) hb (by rw [hrun]; exact ht) with hcl | ⟨E, h1, h2, h3⟩
      · rw [hr] at hcl; exact Or.inl hcl
      · rw [hrun] at h2 h3
        rw [hr] at h1
        obtain ⟨u1, u2⟩ := hD.unique h1
        rw [if_pos ht, if_pos hle, h2, h3, u1, u2]
        right
        simp [Item.own]
    · right
      rw [if_neg hle, if_neg]
      intro ht
      have := h.mp ht
      simp [Item.free] at this
      omega

/-- The same for the cells below a slice; its own data bits are added. -/
theorem C40_slice {H : Hasher} {x : CSlice CCell} (hx : ∀ c ∈ x.refList, Built H c) (limit : Nat) {D : List Cell} (hD : Distinct x.refList D) :
    Clash H x.refList ∨ computeForSlice x limit = if D.length ≤ limit then some (x.bits.length + bitSum D, D.length) else none := by
  have hr : ([] ++ [Item.slice x]).flatMap Item.roots = x.refList := by simp [Item.roots]
  have hb : ∀ c ∈ ([] ++ [Item.slice x]).flatMap Item.roots, Built H c := by rw [hr]; exact hx
  have h0 : Distinct (([] : List Item).flatMap Item.roots) [] := ⟨by simp, by simp⟩
  have hrun : (Stat.withLimit limit).addAll ([] ++ [Item.slice x]) = (Stat.withLimit limit).addSlice x := by
    rw [addAll_snoc]; rfl
  rcases C40_limit (is := []) (i := .slice x) (limit := limit) hb rfl h0 (by rw [hr]; exact hD) with hcl | h
  · rw [hr] at hcl; exact Or.inl hcl
  · rw [hrun] at h
    unfold computeForSlice
    dsimp only
    by_cases hle : D.length ≤ limit
    · have ht : ((Stat.withLimit limit).addSlice x).2 = true := h.mpr (Or.inl hle)
      rcases C40_history (limit := limit) (is := [] ++ [.slice x]) hb (by rw [hrun]; exact ht) with hcl | ⟨E, h1, h2, h3⟩
      · rw [hr] at hcl; exact Or.inl hcl
      · rw [hrun] at h2 h3
        rw [hr] at h1
        obtain ⟨u1, u2⟩ := hD.unique h1
        rw [if_pos ht, if_pos hle, h2, h3, u1, u2]
        right
        simp [Item.own]
    · right
      rw [if_neg hle, if_neg]
      intro ht
      have := h.mp ht
      have h3 : D.length ≤ limit ∨ D.length ≤ 0 + 0 := this
      omega

/-! ### Concrete cases -/

/-- A tree of three distinct cells (seven bits) in which a leaf occurs twice, the inner cell and the leaf. -/
def shared : Except Err (CCell × CCell × CCell) := do
  let leaf ← Merkle.mkCell false [true, false, true, true] []
  let g ← Merkle.mkCell false [true] [leaf]
  let root ← Merkle.mkCell false [false, true] [g, leaf]
  .ok (root, g, leaf)

-- the leaf is counted once; with a smaller limit nothing is returned
example : (match shared with
  | .ok (root, _) => decide (computeForCell root 3 = some (7, 3) ∧ computeForCell root 2 = none)
  | .error _ => false) = true := by decide +kernel

/-- The root of a cell is not compared with the limit: a single cell fits a limit of 0, and an additional cell fits after the limit is used up. -/
theorem C40_root_unchecked :
    (match shared with
      | .ok (root, g, leaf) => decide (computeForCell leaf 0 = some (4, 1)) &&
        (match (Stat.withLimit 1).addAll [.cell leaf, .cell g] with | (s, b) => decide (b = true ∧ s.cells = 2 ∧ s.limit = 1))
      | .error _ => false) = true := by decide +kernel

/-- After an item that did not fit, the cell at which the traversal stopped counts as visited: adding it succeeds and changes nothing. -/
theorem C40_after_failure :
    (match shared with
      | .ok (root, g, leaf) => match (Stat.withLimit 1).addCell g with
        | (s, false) => match s.addCell leaf with
          | (s', b) => decide (b = true ∧ s'.cells = 1 ∧ s'.bits = 1)
        | _ => false
      | .error _ => false) = true := by decide +kernel

end Stat
end Verif
