import Verif.Pruned
/-!
# C13: pruned branches stand in for the cells they replace
-/
set_option linter.unusedVariables false

namespace Verif

/-! ### C13 -/

/-- C13: `make_pruned_branch(cell, d)` for `d ≤ 2` succeeds exactly when the cell has no significant level above `d + 1`. The
result is a valid pruned branch which shows the cell's own hash and depth at every level up to `d`. Otherwise the call
fails with `InvalidCell`. -/
theorem C13_make_pruned (H : Hasher) {v : CellView} (hv : v.Ok) {d : Nat} (hd : d ≤ 2) :
    (v.mask.toNat < 2 ^ (d + 1) → ∃ p, makePruned H v d = .ok p ∧ Built H p ∧ p.desc.cellType = .prunedBranch ∧
      p.refs = [] ∧ p.desc.levelMask.getLsbD d = true ∧ (∀ i, i ≠ d → p.desc.levelMask.getLsbD i = v.mask.getLsbD i) ∧
      ∀ l, l ≤ d → p.hash l = v.hash l ∧ p.depth l = v.depth l) ∧
    (¬ v.mask.toNat < 2 ^ (d + 1) → makePruned H v d = .error .invalidCell) := by
  obtain ⟨m1, m2, m3, m4, m5, m7, m6⟩ := pruned_masks hv.mask hd
  have hw := prunedOps_bits hv hd
  dsimp only at hw
  obtain ⟨w1, w2, w3⟩ := hw
  have hbwf : (CellB.WF { inner := (DataBuilder.runStores DataBuilder.new (prunedOps v d)).2, refs := ([] : List CCell), exotic := true }) :=
    CellB.wf_leaf w1
  generalize LevelMask.new (v.mask ||| (1#8 <<< d)) = mask at *
  generalize LevelMask.new (v.mask &&& ((1#8 <<< d) - 1)) = low at *
  have hb := C10_build H hbwf (by intro r h; cases h)
  dsimp only at hb
  rw [w2] at hb
  generalize hbits : bytesToBits [1, mask] ++ ((low.toList.map fun l => bytesToBits (v.hash l)).flatten
      ++ (low.toList.map fun l => natBits 16 (v.depth l)).flatten) = bits at *
  have hby : byteAt bits 0 = 1 ∧ byteAt bits 1 = mask.toNat := by
    have h16 : bits.take 16 = bytesToBits [1, mask] := by rw [← hbits]; exact List.take_left' (by simp)
    constructor
    · rw [← byteAt_take bits 16 0 (by omega), h16, byteAt_bytes]; rfl
    · rw [← byteAt_take bits 16 1 (by omega), h16, byteAt_bytes]; rfl
  have hty : typeOf true bits = some .prunedBranch := by
    unfold typeOf
    rw [if_pos rfl, if_neg (by omega), hby.1]; rfl
  have hmask8 : BitVec.ofNat 8 (byteAt bits 1) = mask := by rw [hby.2]; simp
  have hwf : (Cell.mk true bits []).WF H ↔ v.mask.toNat < 2 ^ (d + 1) := by
    rw [← m4]
    unfold Cell.WF
    constructor
    · rintro ⟨⟨ty, h1, h2, _⟩, _⟩
      rw [hty] at h1
      simp only [Option.some.injEq] at h1
      subst h1
      unfold shape at h2
      dsimp only at h2
      split at h2
      · rename_i g
        have := g.2.2.1
        rw [hmask8, w3] at this
        omega
      · exact absurd rfl h2
    · intro h
      refine ⟨⟨_, hty, ?_, ?_⟩, ?_⟩
      · unfold shape
        dsimp only
        rw [if_pos ⟨by rw [hby.2]; exact m1, by rw [hby.2]; exact m2, by rw [hmask8, w3, h], rfl⟩]
        simp
      · intro l _ _ i hi; cases hi
      · trivial
  constructor
  · intro h
    obtain ⟨p, e1, e2, e3, e4⟩ := hb.1 (hwf.mpr h)
    have f := e2.facts
    have hmk : p.desc.levelMask = mask := by
      rw [f.agrees.mask, e3]
      show (nodeInfo H true bits []).mask = mask
      unfold nodeInfo
      rw [hty]; exact hmask8
    have hct : p.desc.cellType = .prunedBranch := by
      have h1 := f.type
      have h2 : p.desc.isExotic = true := by
        have := (C10_invariant e2).2.2.1
        rw [e3] at this; exact this
      rw [h2, e3] at h1
      have : some CellType.prunedBranch = some p.desc.cellType := by rw [← hty]; exact h1
      simpa using this.symm
    refine ⟨p, e1, e2, hct, e4, by rw [hmk]; exact m7, fun i hi => by rw [hmk]; exact m6 i hi, ?_⟩
    intro l hl
    obtain ⟨g1, g2⟩ := m5 l hl
    have hn := m4.mpr h
    obtain ⟨g3, g4⟩ := hv.hash_idx _ _ g2
    rw [f.agrees.hash, f.agrees.depth, e3]
    show (nodeInfo H true bits []).hash l = _ ∧ (nodeInfo H true bits []).depth l = _
    unfold nodeInfo
    rw [hty]
    dsimp only
    rw [hmask8, if_neg (by omega), if_neg (by omega)]
    have hget : low.toList.getD (mask.countUpTo l) 0 = low.toList[mask.countUpTo l]'g1 := by
      rw [List.getD_eq_getElem?_getD, List.getElem?_eq_getElem g1]; rfl
    rw [hget] at g3 g4
    constructor
    · have hd : bits.drop (16 + 256 * mask.countUpTo l) = ((low.toList.map fun l => bytesToBits (v.hash l)).flatten
          ++ (low.toList.map fun l => natBits 16 (v.depth l)).flatten).drop (256 * mask.countUpTo l) := by
        rw [← List.drop_drop, ← hbits, List.drop_left' (by simp)]
      rw [hd, flatten_seg 256 _ _ _ (by
        intro x hx
        obtain ⟨l, _, rfl⟩ := List.mem_map.mp hx
        rw [bytesToBits_length, hv.len]) (by rw [List.length_map]; exact g1)]
      rw [List.getD_eq_getElem?_getD, List.getElem?_map, List.getElem?_eq_getElem g1]
      simp only [Option.map_some, Option.getD_some, bytesOfBits_bytesToBits]
      exact g3
    · have hfl : (low.toList.map fun l => bytesToBits (v.hash l)).flatten.length = 256 * mask.countUpTo 3 := by
        rw [flatten_length 256, List.length_map, hn]
        intro x hx
        obtain ⟨l, _, rfl⟩ := List.mem_map.mp hx
        rw [bytesToBits_length, hv.len]
      have hd : bits.drop (16 + 256 * mask.countUpTo 3 + 16 * mask.countUpTo l) =
          ((low.toList.map fun l => natBits 16 (v.depth l)).flatten ++ []).drop (16 * mask.countUpTo l) := by
        rw [← List.drop_drop, ← List.drop_drop, ← hbits, List.drop_left' (l₁ := bytesToBits [1, mask]) (by simp),
          List.drop_left' hfl, List.append_nil]
      rw [hd, flatten_seg 16 _ _ _ (by
        intro x hx
        obtain ⟨l, _, rfl⟩ := List.mem_map.mp hx
        simp) (by rw [List.length_map]; exact g1)]
      rw [List.getD_eq_getElem?_getD, List.getElem?_map, List.getElem?_eq_getElem g1]
      simp only [Option.map_some, Option.getD_some]
      rw [natOfBits_natBits, Nat.mod_eq_of_lt (hv.depth _)]
      exact g4
  · intro h
    rcases hb.2 (fun hw => h (hwf.mp hw)) with e | e
    · exact e
    · -- a pruned branch has no children, so the depth cannot overflow
      exfalso
      have hagree : ∀ r ∈ (CellB.parts { inner := (DataBuilder.runStores DataBuilder.new (prunedOps v d)).2, refs := ([] : List CCell), exotic := true }).refs, r.Agrees H := by
        intro r hr; cases hr
      have hspec := CellParts.finalize_spec (H := H) (CellB.parts_ok hbwf) hagree
      dsimp only at hspec
      obtain ⟨s1, s2, s3⟩ := hspec
      have hcase := e
      unfold CellB.build at hcase
      by_cases hex : ∃ ty, typeOf (CellB.parts { inner := (DataBuilder.runStores DataBuilder.new (prunedOps v d)).2, refs := ([] : List CCell), exotic := true }).desc.isExotic
          (CellB.parts { inner := (DataBuilder.runStores DataBuilder.new (prunedOps v d)).2, refs := ([] : List CCell), exotic := true }).bits = some ty ∧
          shape ty (CellB.parts { inner := (DataBuilder.runStores DataBuilder.new (prunedOps v d)).2, refs := ([] : List CCell), exotic := true }).bits
            ((Cell.infoList H (CCell.treeList (CellB.parts { inner := (DataBuilder.runStores DataBuilder.new (prunedOps v d)).2, refs := ([] : List CCell), exotic := true }).refs)).map (·.mask)) =
              some (CellB.parts { inner := (DataBuilder.runStores DataBuilder.new (prunedOps v d)).2, refs := ([] : List CCell), exotic := true }).desc.levelMask
      · obtain ⟨ty, x1, x2⟩ := hex
        obtain ⟨hs, y, _⟩ := s1 ty ⟨x1, x2, fun l _ _ i hi => by cases hi⟩
        rw [y] at hcase; cases hcase
      · rw [s2 hex] at hcase; cases hcase

/-- Replace subtrees by pruned branches: `Prunes H d s t` when `t` comes from `s` by replacing any set of disjoint
subtrees by cells that `make_pruned_branch` gives for them at Merkle depth `d` plus the number of Merkle
cells on the way down. -/
inductive Prunes (H : Hasher) : Nat → Cell → Cell → Prop
  | same (d : Nat) (t : Cell) : Prunes H d t t
  | prune {d : Nat} {c p : CCell} (hc : Built H c) (hd : d ≤ 2) (h : makePruned H c.view d = .ok p) : Prunes H d c.tree p.tree
  | node {d : Nat} {e : Bool} {b : Bits} {rs rs' : List Cell} (hl : rs.length = rs'.length)
      (h : ∀ i (h1 : i < rs.length) (h2 : i < rs'.length), Prunes H (d + offOf e b) rs[i] rs'[i]) :
      Prunes H d (.mk e b rs) (.mk e b rs')

/-- C13: pruning subtrees anywhere below never changes the hash or depth of an ancestor at the levels up to the
Merkle depth it was made for. -/
theorem C13_ancestors {H : Hasher} {d : Nat} {s t : Cell} (h : Prunes H d s t) :
    (∀ i, i ≠ d → (s.info H).mask.getLsbD i = (t.info H).mask.getLsbD i) ∧
    ∀ l, l ≤ d → (t.info H).hash l = (s.info H).hash l ∧ (t.info H).depth l = (s.info H).depth l := by
  induction h with
  | same d t => exact ⟨fun _ _ => rfl, fun _ _ => ⟨rfl, rfl⟩⟩
  | @prune d c p hc hd h =>
    by_cases hm : c.view.mask.toNat < 2 ^ (d + 1)
    · obtain ⟨p', e1, e2, _, _, _, e3, e4⟩ := (C13_make_pruned H hc.view_ok hd).1 hm
      rw [h] at e1
      simp only [Except.ok.injEq] at e1
      subst e1
      constructor
      · intro i hi
        rw [← e2.facts.agrees.mask, ← hc.facts.agrees.mask, e3 i hi]; rfl
      · intro l hl
        rw [← e2.facts.agrees.hash, ← e2.facts.agrees.depth, ← hc.facts.agrees.hash, ← hc.facts.agrees.depth]
        exact e4 l hl
    · rw [(C13_make_pruned H hc.view_ok hd).2 hm] at h; cases h
  | @node d e b rs rs' hl h ih =>
    have hlen : ∀ rs : List Cell, (Cell.infoList H rs).length = rs.length := by intro rs; rw [Cell.infoList_eq]; simp
    have hmaps : ∀ l, l ≤ d + offOf e b →
        (Cell.infoList H rs').map (·.hash l) = (Cell.infoList H rs).map (·.hash l) ∧
        (Cell.infoList H rs').map (·.depth l) = (Cell.infoList H rs).map (·.depth l) := by
      intro l hl'
      constructor <;>
      · apply List.ext_getElem
        · simp [hlen, hl]
        · intro i h1 h2
          simp only [Cell.infoList_eq, List.getElem_map]
          simp only [List.length_map, hlen] at h1 h2
          first
            | exact ((ih i h2 h1).2 l hl').1
            | exact ((ih i h2 h1).2 l hl').2
    have hor : ∀ i, i ≠ d + offOf e b → (orMasks ((Cell.infoList H rs).map (·.mask))).getLsbD i =
        (orMasks ((Cell.infoList H rs').map (·.mask))).getLsbD i := by
      intro i hi
      apply orMasks_agree
      · simp [hlen, hl]
      · intro k h1 h2
        simp only [Cell.infoList_eq, List.getElem_map]
        simp only [List.length_map, hlen] at h1 h2
        exact (ih k h1 h2).1 i hi
    show (∀ i, i ≠ d → (nodeInfo H e b (Cell.infoList H rs)).mask.getLsbD i = (nodeInfo H e b (Cell.infoList H rs')).mask.getLsbD i) ∧
      ∀ l, l ≤ d → (nodeInfo H e b (Cell.infoList H rs')).hash l = (nodeInfo H e b (Cell.infoList H rs)).hash l ∧
        (nodeInfo H e b (Cell.infoList H rs')).depth l = (nodeInfo H e b (Cell.infoList H rs)).depth l
    -- levels of a plain node
    have hlev : ∀ (m m' : LevelMask) (off : Nat), off = offOf e b → (∀ i, i ≠ d → m.getLsbD i = m'.getLsbD i) → ∀ l, l ≤ d →
        levelHash H m' e b off (Cell.infoList H rs') l = levelHash H m e b off (Cell.infoList H rs) l ∧
        levelDepth m' off (Cell.infoList H rs') l = levelDepth m off (Cell.infoList H rs) l := by
      intro m m' off hoff hm l
      subst hoff
      induction l with
      | zero =>
        intro _
        obtain ⟨a1, a2⟩ := hmaps (offOf e b) (by omega)
        rw [levelHash, levelHash, levelDepth, levelDepth, a1, a2]
        exact ⟨rfl, rfl⟩
      | succ l ihl =>
        intro hl'
        obtain ⟨a1, a2⟩ := hmaps (l + 1 + offOf e b) (by omega)
        obtain ⟨b1, b2⟩ := ihl (by omega)
        rw [levelHash, levelHash, levelDepth, levelDepth, a1, a2, b1, b2, hm l (by omega)]
        exact ⟨rfl, rfl⟩
    cases ht : typeOf e b with
    | none =>
      have ho : offOf e b = 0 := by unfold offOf; rw [ht]
      unfold nodeInfo
      rw [ht]
      dsimp only
      have hmm : ∀ i, i ≠ d → _ := fun i hi => hor i (by omega)
      exact ⟨hmm, hlev _ _ 0 ho.symm hmm⟩
    | some ty =>
      cases ty with
      | prunedBranch =>
        unfold nodeInfo
        rw [ht]
        exact ⟨fun _ _ => rfl, fun _ _ => ⟨rfl, rfl⟩⟩
      | ordinary =>
        have ho : offOf e b = 0 := by unfold offOf; rw [ht]; rfl
        unfold nodeInfo
        rw [ht]
        dsimp only
        have hmm : ∀ i, i ≠ d → _ := fun i hi => hor i (by omega)
        exact ⟨hmm, hlev _ _ 0 ho.symm hmm⟩
      | libraryReference =>
        have ho : offOf e b = 0 := by unfold offOf; rw [ht]; rfl
        unfold nodeInfo
        rw [ht]
        dsimp only
        exact ⟨fun _ _ => rfl, hlev _ _ 0 ho.symm fun _ _ => rfl⟩
      | merkleProof =>
        have ho : offOf e b = 1 := by unfold offOf; rw [ht]; rfl
        unfold nodeInfo
        rw [ht]
        dsimp only
        have hmm : ∀ i, i ≠ d → (orMasks ((Cell.infoList H rs).map (·.mask)) >>> 1).getLsbD i =
            (orMasks ((Cell.infoList H rs').map (·.mask)) >>> 1).getLsbD i := by
          intro i hi
          rw [BitVec.getLsbD_ushiftRight, BitVec.getLsbD_ushiftRight]
          exact hor _ (by omega)
        exact ⟨hmm, hlev _ _ 1 ho.symm hmm⟩
      | merkleUpdate =>
        have ho : offOf e b = 1 := by unfold offOf; rw [ht]; rfl
        unfold nodeInfo
        rw [ht]
        dsimp only
        have hmm : ∀ i, i ≠ d → (orMasks ((Cell.infoList H rs).map (·.mask)) >>> 1).getLsbD i =
            (orMasks ((Cell.infoList H rs').map (·.mask)) >>> 1).getLsbD i := by
          intro i hi
          rw [BitVec.getLsbD_ushiftRight, BitVec.getLsbD_ushiftRight]
          exact hor _ (by omega)
        exact ⟨hmm, hlev _ _ 1 ho.symm hmm⟩

/-- Non-vacuity: the example tree (mask 1) can be pruned at depth 0 and 1, and the pruned branch shows its hash. -/
example : ∃ c p, Built toyHasher c ∧ makePruned toyHasher c.view 0 = .ok p ∧ p.hash 0 = c.hash 0 := by
  obtain ⟨a, ha⟩ := Except.exists_of_isOk (r := exLeaf.build toyHasher) (by decide +kernel)
  have ha' : Built toyHasher a := .mk (CellB.parts_ok (builderOf_wf _ _ _ (by simp) (by simp)).1) (by intro r h; cases h) ha
  have hm : a.view.mask.toNat < 2 ^ (0 + 1) := by
    obtain ⟨hs, rfl⟩ := finalize_fields ha
    show exLeaf.parts.desc.levelMask.toNat < 2 ^ (0 + 1)
    decide +kernel
  obtain ⟨p, e1, _, _, _, _, _, e2⟩ := (C13_make_pruned toyHasher ha'.view_ok (by omega : 0 ≤ 2)).1 hm
  exact ⟨a, p, ha', e1, (e2 0 (by omega)).1⟩

end Verif
