import Verif.CellText
/-
C96: the text of a tree of cells.
-/
set_option linter.unusedVariables false
namespace Verif
namespace CellText

/-- Printing a tree prints each cell before its references, the references in their order and two columns further to the right; the loop ends. -/
theorem C96_preorder {H : Hasher} {c : CCell} (h : Built H c) (alt : Bool) : displayTree alt c = some (shown alt 0 c) := by
  unfold displayTree
  rw [treeGo_eq (H := H) alt _ _ _ (fun x hx => by rw [List.mem_singleton.1 hx]; exact h) (by simp [stackSteps])]
  simp [shownStack]

/-- The full text determines the tree: its types, its bits and its references. -/
theorem C96_determines {H : Hasher} {a b : CCell} (ha : Built H a) (hb : Built H b) (h : displayTree false a = displayTree false b) : a.tree = b.tree := by
  rw [C96_preorder ha, C96_preorder hb] at h
  injection h with h
  exact (shown_inj a b ha hb [] [] (by rw [h])).1

/-- No text of a tree is the beginning of another one: texts written one after another can be told apart. -/
theorem C96_prefix_free {H : Hasher} {a b : CCell} (ha : Built H a) (hb : Built H b) {x y r s : List Char} (hx : displayTree false a = some x)
    (hy : displayTree false b = some y) (h : x ++ r = y ++ s) : a.tree = b.tree ∧ r = s := by
  rw [C96_preorder ha] at hx
  rw [C96_preorder hb] at hy
  injection hx with hx
  injection hy with hy
  rw [← hx, ← hy] at h
  exact shown_inj a b ha hb r s h

/-- Equal trees print alike, however their cells have been obtained. -/
theorem C96_same_text {H : Hasher} {a b : CCell} (ha : Built H a) (hb : Built H b) (h : a.tree = b.tree) (alt : Bool) : displayTree alt a = displayTree alt b := by
  rw [C96_preorder ha, C96_preorder hb, shown_of_tree a b 0 ha hb h]

/-- The text of a root alone tells its type, data, number of bits, number of references, depth and hash. -/
theorem C96_root {level : Nat} {a b : CCell} (h : rootText false level a = rootText false level b) :
    a.desc.cellType = b.desc.cellType ∧ a.data = b.data ∧ a.bitLen = b.bitLen ∧ a.desc.referenceCount = b.desc.referenceCount ∧
      a.depth 3 = b.depth 3 ∧ a.reprHash = b.reprHash := by
  obtain ⟨h1, h2, h3, h4, h5, h6, _⟩ := rootText_inj (a := a) (b := b) (level := level) (r := []) (s := []) (by rw [h])
  exact ⟨h1, h2, h3, h4, h5, h6⟩

/-- The short text determines the shape of the tree and the stored bytes of each cell (not the numbers of bits and the types: `C96_short_ambiguous`). -/
theorem C96_short_partial {H : Hasher} {a b : CCell} (ha : Built H a) (hb : Built H b) (h : displayTree true a = displayTree true b) : bytesTree a = bytesTree b := by
  rw [C96_preorder ha, C96_preorder hb] at h
  injection h with h
  exact (short_inj (level := 0) a b [] [] (.inl rfl) (.inl rfl) (by rw [h])).1

/-- Two leaves: eight bits, and seven bits that become the same byte with their tag. -/
def exWhole : CellB CCell := builderOf false (natBits 8 0x81) []
def exTagged : CellB CCell := builderOf false (natBits 7 0x40) []

/-- The short text does not determine the tree: two different cells print alike. -/
theorem C96_short_ambiguous : ∃ a b, Built toyHasher a ∧ Built toyHasher b ∧ a.tree ≠ b.tree ∧ displayTree true a = displayTree true b := by
  obtain ⟨a, ha⟩ := Except.exists_of_isOk (r := exWhole.build toyHasher) (by decide +kernel)
  obtain ⟨b, hb⟩ := Except.exists_of_isOk (r := exTagged.build toyHasher) (by decide +kernel)
  have wa : exWhole.WF := (builderOf_wf _ _ _ (by simp) (by simp)).1
  have wb : exTagged.WF := (builderOf_wf _ _ _ (by simp) (by simp)).1
  refine ⟨a, b, (Boc.C15_builder toyHasher wa (by intro r h; cases h) ha).1, (Boc.C15_builder toyHasher wb (by intro r h; cases h) hb).1, ?_, ?_⟩
  · intro e
    have h : (match exWhole.build toyHasher, exTagged.build toyHasher with
        | .ok a, .ok b => decide (a.tree.bits.length = 8 ∧ b.tree.bits.length = 7)
        | _, _ => false) = true := by decide +kernel
    rw [ha, hb] at h
    have h := of_decide_eq_true h
    rw [e, h.2] at h
    exact absurd h.1 (by decide)
  · have h : (match exWhole.build toyHasher, exTagged.build toyHasher with
        | .ok a, .ok b => decide (displayTree true a = displayTree true b)
        | _, _ => false) = true := by decide +kernel
    rw [ha, hb] at h
    exact of_decide_eq_true h

/-- A parent of two leaves, of eight and of seven bits. -/
def exPair (a b : CCell) : CellB CCell := builderOf false (natBits 4 0xf) [a, b]

/-- The texts of a tree of three cells. -/
example : (match exWhole.build toyHasher, exTagged.build toyHasher with
    | .ok a, .ok b => (match (exPair a b).build toyHasher with
      | .ok c => decide (displayTree true c = some "f8\n  81\n  81\n".toList ∧ (displayTree false c).map (·.take 50) = some "Ordinary: f8\nbits:    4, refs: 2, l: 000, depth: 1".toList)
      | _ => false)
    | _, _ => false) = true := by decide +kernel

/-- The hypotheses of the theorems are met: a cell that has been built and whose text differs from that of another one. -/
example : ∃ a b, Built toyHasher a ∧ Built toyHasher b ∧ displayTree false a ≠ displayTree false b := by
  obtain ⟨a, b, ha, hb, hn, _⟩ := C96_short_ambiguous
  exact ⟨a, b, ha, hb, fun h => hn (C96_determines ha hb h)⟩

end CellText
end Verif
