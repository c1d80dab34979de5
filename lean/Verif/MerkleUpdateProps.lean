import Verif.MerkleUpdate
/-
Concrete updates: cases that meet the hypotheses of C37, and updates that cannot be applied.
-/
set_option linter.unusedVariables false
set_option linter.unusedSimpArgs false
namespace Verif
namespace Merkle

/-- A filter that includes the given cells. -/
def visited (cs : List CCell) : Filter := fun h => if h ∈ cs.map CCell.reprHash then .incl else .skip

/-- An old tree, a new tree that shares a subtree with it, and the cells met on the way to the shared subtree. -/
def pair : Except Err (CCell × CCell × List CCell) := do
  let leaf ← mkCell false [true, false] []
  let y ← mkCell false [true] [leaf]
  let a ← mkCell false [false] [y]
  let b ← mkCell false [false, false] [leaf]
  let old ← mkCell false [] [a, b]
  let a' ← mkCell false [true, true] [y, leaf]
  let new ← mkCell false [] [a', leaf]
  .ok (old, new, [old, a, y])

/-- Creating the update and applying it to the old tree. -/
def updated (f : Filter) (old new : CCell) : Except Err CCell := do
  let u ← Update.build toyHasher f old new
  u.apply toyHasher old

-- the update is made, prunes the shared cell in both trees and gives the new tree
example : (match pair with
  | .ok (old, new, vis) => match Update.build toyHasher (visited vis) old new with
    | .ok u => decide (u.old.reprHash ≠ old.reprHash ∧ u.new.reprHash ≠ new.reprHash ∧
        ((u.new.refs.getD 0 new).refs.getD 0 new).desc.isPrunedBranch = true) &&
      (match u.apply toyHasher old with | .ok c => decide (c.reprHash = new.reprHash) | .error _ => false)
    | .error _ => false
  | .error _ => false) = true := by decide +kernel

-- the hypotheses of `C37_visited` hold for it
example : ∃ old new vis, pair = .ok (old, new, vis) ∧ Plain toyHasher old ∧ Plain toyHasher new ∧ (∀ h, visited vis h ≠ .inclSubtree) := by
  have hall : pair.isOk = true := by decide +kernel
  obtain ⟨⟨old, new, vis⟩, h⟩ := Except.exists_of_isOk hall
  refine ⟨old, new, vis, h, ?_⟩
  unfold pair at h
  obtain ⟨leaf, e1, h⟩ := ebind_inv h
  obtain ⟨y, e2, h⟩ := ebind_inv h
  obtain ⟨a, e3, h⟩ := ebind_inv h
  obtain ⟨b, e4, h⟩ := ebind_inv h
  obtain ⟨o, e5, h⟩ := ebind_inv h
  obtain ⟨a', e6, h⟩ := ebind_inv h
  obtain ⟨n, e7, h⟩ := ebind_inv h
  injection h with h
  injection h with h1 h
  injection h with h2 h3
  subst h1 h2
  obtain ⟨b1, t1, _⟩ := mkCell_built e1 (by simp) (by decide) (by decide)
  obtain ⟨b2, t2, _⟩ := mkCell_built e2 (by simpa using b1) (by decide) (by simp)
  obtain ⟨b3, t3, _⟩ := mkCell_built e3 (by simpa using b2) (by decide) (by simp)
  obtain ⟨b4, t4, _⟩ := mkCell_built e4 (by simpa using b1) (by decide) (by simp)
  obtain ⟨b5, t5, _⟩ := mkCell_built e5 (by simpa using ⟨b3, b4⟩) (by decide) (by simp)
  obtain ⟨b6, t6, _⟩ := mkCell_built e6 (by simpa using ⟨b2, b1⟩) (by decide) (by simp)
  obtain ⟨b7, t7, _⟩ := mkCell_built e7 (by simpa using ⟨b6, b1⟩) (by decide) (by simp)
  have n1 : NoMerkle leaf.tree := by rw [t1]; exact noMerkle_ordinary (by simp)
  have n2 : NoMerkle y.tree := by rw [t2]; exact noMerkle_ordinary (by simpa using n1)
  have n3 : NoMerkle a.tree := by rw [t3]; exact noMerkle_ordinary (by simpa using n2)
  have n4 : NoMerkle b.tree := by rw [t4]; exact noMerkle_ordinary (by simpa using n1)
  have n6 : NoMerkle a'.tree := by rw [t6]; exact noMerkle_ordinary (by simpa using ⟨n2, n1⟩)
  have lv : (match pair with | .ok (o, n, _) => decide (o.desc.levelMask = 0 ∧ n.desc.levelMask = 0) | .error _ => false) = true := by decide +kernel
  have hp : pair = .ok (o, n, vis) := by
    unfold pair
    rw [e1]; show (mkCell false [true] [leaf] >>= _) = _
    rw [e2]; show (mkCell false [false] [y] >>= _) = _
    rw [e3]; show (mkCell false [false, false] [leaf] >>= _) = _
    rw [e4]; show (mkCell false [] [a, b] >>= _) = _
    rw [e5]; show (mkCell false [true, true] [y, leaf] >>= _) = _
    rw [e6]; show (mkCell false [] [a', leaf] >>= _) = _
    rw [e7, ← h3]; rfl
  rw [hp] at lv
  obtain ⟨l1, l2⟩ := of_decide_eq_true lv
  refine ⟨⟨b5, l1, ?_⟩, ⟨b7, l2, ?_⟩, ?_⟩
  · rw [t5]; exact noMerkle_ordinary (by simpa using ⟨n3, n4⟩)
  · rw [t7]; exact noMerkle_ordinary (by simpa using ⟨n6, n1⟩)
  · intro h; unfold visited; split <;> simp

/-- A skipped cell that occurs both directly below the root and inside an included subtree; the order of the references is the parameter. -/
def twoWays (flip : Bool) : Except Err (Except Err CCell × CCell) := do
  let leaf ← mkCell false [true, false] []
  let y ← mkCell false [true] [leaf]
  let a ← mkCell false [false] [y]
  let b ← mkCell false [false, false] [a]
  let old ← mkCell false [] (if flip then [b, a] else [a, b])
  let new ← mkCell false [true, true] [y]
  let f : Filter := fun h => if h = old.reprHash ∨ h = y.reprHash then .incl else if h = b.reprHash then .inclSubtree else .skip
  .ok (updated f old new, new)

/-- The builder remembers cells without their surroundings: when a skipped cell is met first outside and then inside a subtree that is included as a
whole, the cells below it are forgotten and the update cannot be applied; with the references in the other order it can. -/
theorem C37_forgotten :
    (match twoWays false with | .ok (.error .invalidData, _) => true | _ => false) = true ∧
    (match twoWays true with | .ok (.ok c, new) => decide (c.reprHash = new.reprHash) | _ => false) = true := by decide +kernel

/-- A Merkle proof cell around `c`. -/
def wrap (c : CCell) : Except Err CCell := mkCell true (Proof.bits ⟨c.hash 0, c.depth 0, c⟩) [c]

/-- Two trees of level 0 with the same cell `y` inside two Merkle proofs; below `y` is a pruned branch of the given Merkle depth. -/
def nested (d : Nat) : Except Err (Except Err CCell × CCell × CCell) := do
  let leaf ← mkCell false [true, false] []
  let p ← makePruned toyHasher leaf.view d
  let y ← mkCell false [true] [p]
  let x ← mkCell false [false] [y]
  let x' ← mkCell false [true] [y]
  let m ← wrap x
  let mm ← wrap m
  let old ← mkCell false [] [mm]
  let m' ← wrap x'
  let mm' ← wrap m'
  let new ← mkCell false [] [mm']
  .ok (updated (visited [old, mm, m, x, y]) old new, old, new)

/-- The number of bits of a level mask is taken for the highest level: an update over a cell two Merkle proofs deep that has level mask `0b010` is made but cannot be
applied; with level mask `0b001` it can. All four trees have level 0. -/
theorem C37_level_gap :
    (match nested 1 with | .ok (.error .invalidData, old, new) => decide (old.desc.levelMask = 0 ∧ new.desc.levelMask = 0) | _ => false) = true ∧
    (match nested 0 with | .ok (.ok c, old, new) => decide (c.reprHash = new.reprHash ∧ old.desc.levelMask = 0 ∧ new.desc.levelMask = 0) | _ => false) = true := by
  decide +kernel

/-- `n` Merkle proofs around a cell. -/
def wraps : Nat → CCell → Except Err CCell
  | 0, c => .ok c
  | n + 1, c => do
    let d ← wrap c
    wraps n d

/-- An update whose new tree has a pruned branch below `n` Merkle proofs, applied to the old tree it names. -/
def deep (n : Nat) : Except Err (Except Err CCell) := do
  let leaf ← mkCell false [true, false] []
  let p ← makePruned toyHasher leaf.view 0
  let x ← mkCell false [true] [p]
  let new ← wraps n x
  .ok (Update.apply toyHasher ⟨leaf.reprHash, new.reprHash, leaf.reprDepth, new.reprDepth, leaf, new⟩ leaf)

/-- Applying a loaded update can panic (`1 << child_merkle_depth` on an `u8`): seven nested Merkle proofs are fine, eight are not. -/
theorem C38_deep_panic :
    (match deep 7 with | .ok (.ok _) => true | _ => false) = true ∧ (match deep 8 with | .ok (.error .panic) => true | _ => false) = true := by
  decide +kernel

-- an application that succeeds, with different hashes
example : ∃ u old c, Update.apply toyHasher u old = .ok c ∧ u.oldHash ≠ u.newHash := by
  have : (match pair with
    | .ok (old, new, vis) => match Update.build toyHasher (visited vis) old new with
      | .ok u => match u.apply toyHasher old with | .ok c => decide (u.oldHash ≠ u.newHash) | .error _ => false
      | .error _ => false
    | .error _ => false) = true := by decide +kernel
  revert this
  cases pair with
  | error e => simp
  | ok p =>
    obtain ⟨old, new, vis⟩ := p
    dsimp only
    cases Update.build toyHasher (visited vis) old new with
    | error e => simp
    | ok u =>
      dsimp only
      cases h : u.apply toyHasher old with
      | error e => simp
      | ok c => intro hd; exact ⟨u, old, c, h, of_decide_eq_true hd⟩

end Merkle
end Verif
