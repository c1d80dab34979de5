import Verif.Merkle
import Verif.BocRound
import Verif.VirtualProps
/-
Helper lemmas for Merkle proofs: depths under pruning, well-formedness of pruned trees, rebuilding cells.
-/
set_option linter.unusedVariables false
set_option linter.unusedSimpArgs false
namespace Verif
namespace Merkle

/-- Children are looked at one level higher below a Merkle cell. -/
def _root_.Verif.Cell.off (t : Cell) : Nat := offOf t.exotic t.bits

theorem countUpTo_succ_of {m : LevelMask} {l : Nat} (h : m.getLsbD l = false) : m.countUpTo (l + 1) = m.countUpTo l := by
  rw [LevelMask.countUpTo, h]; simp

/-- An insignificant level shows the depth of the level below. -/
theorem depth_step {H : Hasher} {t : Cell} (hw : t.WF H) {l : Nat} (h : (t.info H).mask.getLsbD l = false) :
    (t.info H).depth (l + 1) = (t.info H).depth l := by
  obtain ⟨e, b, rs⟩ := t
  unfold Cell.WF at hw
  obtain ⟨⟨ty, ht, hs, _⟩, _⟩ := hw
  by_cases hp : ty = .prunedBranch
  · subst hp
    have he : Cell.info H (.mk e b rs) = nodeInfo H e b (Cell.infoList H rs) := rfl
    rw [he] at h ⊢
    unfold nodeInfo at h ⊢
    rw [ht] at h ⊢
    dsimp only at h ⊢
    rw [countUpTo_succ_of h]
  · have he : Cell.info H (.mk e b rs) = nodeInfo H e b (Cell.infoList H rs) := rfl
    rw [he] at h ⊢
    rw [nodeInfo_plain ht hp]
    dsimp only
    rw [levelDepth, h]
    simp

theorem shape_mask_bit {ty : CellType} {b : Bits} {ms : List LevelMask} {m : LevelMask} (hp : ty ≠ .prunedBranch)
    (h : shape ty b ms = some m) (l : Nat) : m.getLsbD l = (orMasks ms).getLsbD (l + if ty.isMerkle then 1 else 0) := by
  unfold shape at h
  cases ty with
  | prunedBranch => exact absurd rfl hp
  | ordinary =>
    dsimp only at h
    split at h
    · injection h with h; rw [← h]; rfl
    · cases h
  | libraryReference =>
    dsimp only at h
    split at h
    · rename_i g
      injection h with h; rw [← h, g.2]; simp [orMasks, CellType.isMerkle]
    · cases h
  | merkleProof =>
    dsimp only at h
    split at h
    · injection h with h; rw [← h, BitVec.getLsbD_ushiftRight, Nat.add_comm]; rfl
    · cases h
  | merkleUpdate =>
    dsimp only at h
    split at h
    · injection h with h; rw [← h, BitVec.getLsbD_ushiftRight, Nat.add_comm]; rfl
    · cases h

theorem orMasks_bit : ∀ {ms : List LevelMask} {i : Nat}, (orMasks ms).getLsbD i = false → ∀ m ∈ ms, m.getLsbD i = false
  | [], _, _, m, hm => by cases hm
  | x :: xs, i, h, m, hm => by
    rw [orMasks, BitVec.getLsbD_or, Bool.or_eq_false_iff] at h
    rcases List.mem_cons.mp hm with rfl | hm
    · exact h.1
    · exact orMasks_bit h.2 m hm

theorem orMasks_bit_true : ∀ {ms : List LevelMask} {i : Nat}, (orMasks ms).getLsbD i = true → ∃ m ∈ ms, m.getLsbD i = true
  | [], i, h => by
    have : (orMasks ([] : List LevelMask)) = 0#8 := rfl
    rw [this] at h; simp at h
  | x :: xs, i, h => by
    rw [orMasks, BitVec.getLsbD_or, Bool.or_eq_true] at h
    rcases h with h | h
    · exact ⟨x, by simp, h⟩
    · obtain ⟨m, hm, h⟩ := orMasks_bit_true h
      exact ⟨m, by simp [hm], h⟩

/-- The parts of well-formedness of a node that is not a pruned branch. -/
theorem wf_node {H : Hasher} {e : Bool} {b : Bits} {rs : List Cell} (hw : (Cell.mk e b rs).WF H) :
    ∃ ty m, typeOf e b = some ty ∧ shape ty b (rs.map fun r => (r.info H).mask) = some m ∧
      (Cell.info H (.mk e b rs)).mask = m ∧ (∀ r ∈ rs, r.WF H) ∧ offOf e b = (if ty.isMerkle then 1 else 0) ∧
      (ty = .prunedBranch → rs = []) ∧
      ∀ l, l ≤ 3 → (l = 0 ∨ m.getLsbD (l - 1) = true) → ∀ r ∈ rs, (r.info H).depth (l + offOf e b) < 65535 := by
  unfold Cell.WF at hw
  obtain ⟨⟨ty, ht, hs, hd⟩, hk⟩ := hw
  have hl : (Cell.infoList H rs).map (·.mask) = rs.map fun r => (r.info H).mask := by rw [Cell.infoList_eq, List.map_map]; rfl
  obtain ⟨m, hm⟩ := Option.ne_none_iff_exists'.mp hs
  have hoff : offOf e b = (if ty.isMerkle then 1 else 0) := by unfold offOf; rw [ht]
  have hmask : (Cell.info H (.mk e b rs)).mask = m := nodeInfo_mask ht hm
  refine ⟨ty, m, ht, hl ▸ hm, hmask, (Cell.WFList_iff H rs).mp hk, hoff, ?_, ?_⟩
  · rintro rfl
    unfold shape at hm
    dsimp only at hm
    split at hm
    · rename_i g
      have := g.2.2.2
      rw [Cell.infoList_eq] at this
      cases rs with
      | nil => rfl
      | cons => cases this
    · cases hm
  · intro l hl h r hr
    rw [hoff]
    rw [hmask] at hd
    refine hd l hl h (r.info H) ?_
    rw [Cell.infoList_eq]
    exact List.mem_map.mpr ⟨r, hr, rfl⟩

/-- A child's mask bit is the parent's, one level lower below a Merkle cell. -/
theorem child_bit {H : Hasher} {e : Bool} {b : Bits} {rs : List Cell} (hw : (Cell.mk e b rs).WF H) {l : Nat}
    (h : (Cell.info H (.mk e b rs)).mask.getLsbD l = false) : ∀ r ∈ rs, (r.info H).mask.getLsbD (l + offOf e b) = false := by
  obtain ⟨ty, m, ht, hs, hm, hk, ho, hpr, hd⟩ := wf_node hw
  intro r hr
  have hp : ty ≠ .prunedBranch := by
    intro h; rw [hpr h] at hr; cases hr
  rw [hm, shape_mask_bit hp hs] at h
  rw [ho]
  exact orMasks_bit h _ (List.mem_map.mpr ⟨r, hr, rfl⟩)

/-- The children's depths leave room for one more at every level. -/
theorem child_depth_lt {H : Hasher} {e : Bool} {b : Bits} {rs : List Cell} (hw : (Cell.mk e b rs).WF H) (l : Nat) :
    ∀ r ∈ rs, (r.info H).depth (l + offOf e b) < 65535 := by
  obtain ⟨ty, m, ht, hs, hm, hk, ho, hpr, hd⟩ := wf_node hw
  induction l with
  | zero => exact hd 0 (by omega) (Or.inl rfl)
  | succ l ih =>
    intro r hr
    by_cases hb : m.getLsbD l = true
    · have h8 : m.toNat < 8 := hm ▸ Cell.info_mask_lt H _ hw
      have hl : l < 3 := by
        refine Classical.byContradiction fun h => ?_
        have := Nat.testBit_lt_two_pow (Nat.lt_of_lt_of_le h8 (Nat.pow_le_pow_right (n := 2) (by omega) (show 3 ≤ l by omega)))
        rw [BitVec.getLsbD] at hb
        rw [this] at hb; cases hb
      exact hd (l + 1) (by omega) (Or.inr hb) r hr
    · have hb : (Cell.info H (.mk e b rs)).mask.getLsbD l = false := by rw [hm]; simpa using hb
      rw [show l + 1 + offOf e b = l + offOf e b + 1 by omega, depth_step (hk r hr) (child_bit hw hb r hr)]
      exact ih r hr

/-- The depth of a node that is not a pruned branch comes from its children at the shifted level. -/
theorem node_depth {H : Hasher} {e : Bool} {b : Bits} {rs : List Cell} (hw : (Cell.mk e b rs).WF H)
    (hp : typeOf e b ≠ some .prunedBranch) (l : Nat) :
    (Cell.info H (.mk e b rs)).depth l = depthOver (rs.map fun r => (r.info H).depth (l + offOf e b)) := by
  obtain ⟨ty, m, ht, hs, hm, hk, ho, hpr, hd⟩ := wf_node hw
  have hp : ty ≠ .prunedBranch := fun h => hp (h ▸ ht)
  have key : ∀ l, levelDepth (nodeInfo H e b (Cell.infoList H rs)).mask (offOf e b) (Cell.infoList H rs) l
      = depthOver (rs.map fun r => (r.info H).depth (l + offOf e b)) := by
    intro l
    induction l with
    | zero => rw [levelDepth, Cell.infoList_eq, List.map_map, Nat.zero_add]; rfl
    | succ l ih =>
      rw [levelDepth]
      split
      · rw [Cell.infoList_eq, List.map_map]; rfl
      · rename_i hb
        rw [ih]
        congr 1
        apply List.map_congr_left
        intro r hr
        have hb : (Cell.info H (.mk e b rs)).mask.getLsbD l = false := by
          show (nodeInfo H e b (Cell.infoList H rs)).mask.getLsbD l = false
          simpa using hb
        rw [show l + 1 + offOf e b = l + offOf e b + 1 by omega, depth_step (hk r hr) (child_bit hw hb r hr)]
  show (nodeInfo H e b (Cell.infoList H rs)).depth l = _
  rw [nodeInfo_plain ht hp]
  exact key l

theorem depthOver_le {k : Nat} : ∀ {l : List Nat}, (∀ x ∈ l, x < k) → depthOver l ≤ k
  | [], _ => Nat.zero_le _
  | x :: xs, h => by
    rw [depthOver]
    have h1 := h x (by simp)
    have h2 : depthOver xs ≤ k := depthOver_le fun y hy => h y (List.mem_cons_of_mem _ hy)
    omega

theorem lt_depthOver : ∀ {l : List Nat} {x : Nat}, x ∈ l → x < depthOver l
  | y :: ys, x, h => by
    rw [depthOver]
    rcases List.mem_cons.mp h with rfl | h
    · omega
    · have := lt_depthOver h; omega

/-- The result of replacing subtrees by pruned branches is well-formed, and no depth grows beyond those of the
original. -/
theorem prunes_wf {H : Hasher} {d : Nat} {s t : Cell} (h : Prunes H d s t) (hw : s.WF H) :
    t.WF H ∧ ∀ l, (t.info H).depth l ≤ max ((s.info H).depth l) ((s.info H).depth d) := by
  induction h with
  | same d t => exact ⟨hw, fun l => Nat.le_max_left _ _⟩
  | @prune d c p hc hd h =>
    by_cases hm : c.view.mask.toNat < 2 ^ (d + 1)
    · obtain ⟨p', e1, e2, e5, e6, e7, e3, e4⟩ := (C13_make_pruned H hc.view_ok hd).1 hm
      rw [h] at e1
      injection e1 with e1
      subst e1
      refine ⟨e2.facts.wf, fun l => ?_⟩
      by_cases hl : l ≤ d
      · rw [← e2.facts.agrees.depth, (e4 l hl).2]
        refine Nat.le_trans ?_ (Nat.le_max_left _ _)
        rw [← hc.facts.agrees.depth]; exact Nat.le_refl _
      · -- above the new level the pruned branch shows depth 0
        have hbit : ∀ i, d < i → (p.tree.info H).mask.getLsbD i = false := by
          intro i hi
          rw [← e2.facts.agrees.mask, e3 i (by omega)]
          have := Nat.testBit_lt_two_pow (Nat.lt_of_lt_of_le hm (Nat.pow_le_pow_right (n := 2) (by omega) (show d + 1 ≤ i by omega)))
          exact this
        have h0 : (p.tree.info H).depth l = 0 := by
          have ht := e2.facts.type
          rw [e5] at ht
          have htr := CCell.tree_eta p
          have hmask : (p.tree.info H).mask = BitVec.ofNat 8 (byteAt p.tree.bits 1) := by
            rw [htr]
            show (nodeInfo H _ _ _).mask = _
            unfold nodeInfo
            rw [ht]; rfl
          rw [hmask] at hbit
          have hcnt : ∀ l, d < l → LevelMask.countUpTo (BitVec.ofNat 8 (byteAt p.tree.bits 1)) l = LevelMask.countUpTo (BitVec.ofNat 8 (byteAt p.tree.bits 1)) (d + 1) := by
            intro l hl
            obtain ⟨k, rfl⟩ : ∃ k, l = d + 1 + k := ⟨l - (d + 1), by omega⟩
            induction k with
            | zero => rfl
            | succ k ih => rw [← Nat.add_assoc, countUpTo_succ_of (hbit _ (by omega))]; exact ih (by omega)
          rw [htr]
          show (nodeInfo H _ _ _).depth l = 0
          unfold nodeInfo
          rw [ht]
          dsimp only
          rw [hcnt l (by omega), hcnt 3 (by omega), if_pos rfl]
        rw [h0]; exact Nat.zero_le _
    · rw [(C13_make_pruned H hc.view_ok hd).2 hm] at h; cases h
  | @node d e b rs rs' hl h ih =>
    obtain ⟨ty, m, ht, hs, hm, hk, ho, hpr, hd⟩ := wf_node hw
    by_cases hp : ty = .prunedBranch
    · have hrs := hpr hp
      subst hrs
      have : rs' = [] := List.eq_nil_of_length_eq_zero hl.symm
      subst this
      exact ⟨hw, fun l => Nat.le_max_left _ _⟩
    have hkid : ∀ r' ∈ rs', ∃ r ∈ rs, r'.WF H ∧ ∀ l, (r'.info H).depth l ≤ max ((r.info H).depth l) ((r.info H).depth (d + offOf e b)) := by
      intro r' hr'
      obtain ⟨i, hi, rfl⟩ := List.mem_iff_getElem.mp hr'
      have hi' : i < rs.length := by omega
      exact ⟨rs[i], List.getElem_mem hi', ih i hi' hi (hk _ (List.getElem_mem hi'))⟩
    have hdl : ∀ l, ∀ r' ∈ rs', (r'.info H).depth (l + offOf e b) < 65535 := by
      intro l r' hr'
      obtain ⟨r, hr, _, h⟩ := hkid r' hr'
      have h1 := child_depth_lt hw l r hr
      have h2 := child_depth_lt hw d r hr
      exact Nat.lt_of_le_of_lt (h _) (Nat.max_lt.mpr ⟨h1, h2⟩)
    have hwf : (Cell.mk e b rs').WF H := by
      unfold Cell.WF
      refine ⟨⟨ty, ht, ?_, ?_⟩, (Cell.WFList_iff H rs').mpr fun r' hr' => (hkid r' hr').elim fun _ h => h.2.1⟩
      · have hlen : (Cell.infoList H rs').length = rs.length := by rw [Cell.infoList_eq]; simp [hl]
        unfold shape at hs ⊢
        cases ty with
        | prunedBranch => exact absurd rfl hp
        | ordinary =>
          dsimp only at hs ⊢
          split at hs
          · rename_i g
            rw [if_pos ⟨g.1, by rw [List.length_map, hlen]; have := g.2; rw [List.length_map] at this; exact this⟩]; simp
          · cases hs
        | libraryReference =>
          dsimp only at hs ⊢
          split at hs
          · rename_i g
            have : rs = [] := List.map_eq_nil_iff.mp g.2
            subst this
            have : rs' = [] := List.eq_nil_of_length_eq_zero hl.symm
            subst this
            rw [if_pos ⟨g.1, rfl⟩]; simp
          · cases hs
        | merkleProof =>
          dsimp only at hs ⊢
          split at hs
          · rename_i g
            rw [if_pos ⟨g.1, by rw [List.length_map, hlen]; have := g.2; rw [List.length_map] at this; exact this⟩]; simp
          · cases hs
        | merkleUpdate =>
          dsimp only at hs ⊢
          split at hs
          · rename_i g
            rw [if_pos ⟨g.1, by rw [List.length_map, hlen]; have := g.2; rw [List.length_map] at this; exact this⟩]; simp
          · cases hs
      · intro l hl3 _ i hi
        rw [Cell.infoList_eq] at hi
        obtain ⟨r', hr', rfl⟩ := List.mem_map.mp hi
        rw [← ho]
        exact hdl l r' hr'
    refine ⟨hwf, fun l => ?_⟩
    have hnp : typeOf e b ≠ some .prunedBranch := by rw [ht]; simpa using hp
    rw [node_depth hwf hnp, node_depth hw hnp, node_depth hw hnp]
    apply depthOver_le
    intro x hx
    obtain ⟨r', hr', rfl⟩ := List.mem_map.mp hx
    obtain ⟨r, hr, _, h⟩ := hkid r' hr'
    have h1 := lt_depthOver (List.mem_map.mpr ⟨r, hr, rfl⟩ : (r.info H).depth (l + offOf e b) ∈ rs.map fun r => (r.info H).depth (l + offOf e b))
    have h2 := lt_depthOver (List.mem_map.mpr ⟨r, hr, rfl⟩ : (r.info H).depth (d + offOf e b) ∈ rs.map fun r => (r.info H).depth (d + offOf e b))
    have := h (l + offOf e b)
    omega

/-- `is_merkle` on a finished cell says whether its references count one level deeper. -/
theorem isMerkle_off {H : Hasher} {c : CCell} (h : Built H c) : c.desc.isMerkle = decide (c.tree.off = 1) ∧ c.tree.off ≤ 1 := by
  have ht := h.facts.type
  have hoff : c.tree.off = if c.desc.cellType.isMerkle then 1 else 0 := by
    rw [CCell.tree_eta]
    show offOf _ _ = _
    unfold offOf
    show (match typeOf c.desc.isExotic c.tree.bits with | some ty => _ | none => _) = _
    rw [ht]
  have hty : c.desc.isMerkle = c.desc.cellType.isMerkle := by
    have key : ∀ x : BitVec 8, (CellDescriptor.isMerkle ⟨x, 0⟩) = (CellDescriptor.cellType ⟨x, 0⟩).isMerkle := by decide +kernel
    exact key c.desc.d1
  rw [hoff, hty]
  cases c.desc.cellType.isMerkle <;> decide

theorem bump_eq {H : Hasher} {c : CCell} (h : Built H c) (md : Nat) (hmd : md ≤ 255) :
    bump md c = if md + c.tree.off ≤ 255 then .ok (md + c.tree.off) else .error .panic := by
  obtain ⟨h1, h2⟩ := isMerkle_off h
  unfold bump
  rw [h1]
  by_cases ho : c.tree.off = 1
  · rw [if_pos (by simpa using ho), ho]
    by_cases hm : md < 255
    · rw [if_pos hm, if_pos (by omega)]
    · rw [if_neg hm, if_neg (by omega)]
  · rw [if_neg (by simpa using ho), if_pos (by omega), show c.tree.off = 0 by omega]; rfl

theorem inner_copy {H : Hasher} {c : CCell} (h : Built H c) :
    (DataBuilder.new.storeRaw c.data c.bitLen).2.WF ∧ (DataBuilder.new.storeRaw c.data c.bitLen).2.bits = c.tree.bits := by
  have f := h.facts
  have hb := f.bitLen
  have hd := f.data
  obtain ⟨b', e, hwf, hbits⟩ := DataBuilder.storeRaw_spec DataBuilder.wf_new c.data (by omega) (n := c.bitLen)
    (show 0 + c.bitLen ≤ 1023 by omega)
  rw [e]
  refine ⟨hwf, ?_⟩
  show b'.bits = _
  rw [hbits, show DataBuilder.new.bits = [] from rfl, List.nil_append]
  unfold rawBits
  rw [if_pos (by omega)]
  obtain ⟨d, n, bs, rs, hs⟩ := c
  rfl

/-- Rebuilding a node over new references. -/
theorem rebuild_spec {H : Hasher} {c : CCell} (h : Built H c) {kids : List CCell} (hk : ∀ k ∈ kids, Built H k)
    (hl : kids.length ≤ 4) (hw : (Cell.mk c.desc.isExotic c.tree.bits (kids.map CCell.tree)).WF H) :
    ∃ p, rebuild H c kids = .ok p ∧ Built H p ∧ p.tree = .mk c.desc.isExotic c.tree.bits (kids.map CCell.tree) ∧ p.refs = kids := by
  obtain ⟨h1, h2⟩ := inner_copy h
  have := (C10_build H (b := { inner := (DataBuilder.new.storeRaw c.data c.bitLen).2, refs := kids, exotic := c.desc.isExotic })
    ⟨h1, hl⟩ hk).1
  dsimp only at this
  rw [h2] at this
  exact this hw

/-- Rebuilding gives nothing but the node over the new references. -/
theorem rebuild_ok {H : Hasher} {c : CCell} (h : Built H c) {kids : List CCell} (hk : ∀ k ∈ kids, Built H k)
    (hl : kids.length ≤ 4) {p : CCell} (hp : rebuild H c kids = .ok p) :
    Built H p ∧ p.tree = .mk c.desc.isExotic c.tree.bits (kids.map CCell.tree) ∧ p.refs = kids := by
  obtain ⟨h1, h2⟩ := inner_copy h
  have := C10_build H (b := { inner := (DataBuilder.new.storeRaw c.data c.bitLen).2, refs := kids, exotic := c.desc.isExotic })
    ⟨h1, hl⟩ hk
  dsimp only at this
  rw [h2] at this
  by_cases hw : (Cell.mk c.desc.isExotic c.tree.bits (kids.map CCell.tree)).WF H
  · obtain ⟨q, e, hq⟩ := this.1 hw
    have e' : rebuild H c kids = .ok q := e
    rw [e'] at hp
    injection hp with hp
    subst hp
    exact hq
  · have e' : rebuild H c kids = .error .invalidCell ∨ rebuild H c kids = .error .depthOverflow := this.2 hw
    rcases e' with e | e <;> rw [e] at hp <;> cases hp

/-! ### Pruned branches at any Merkle depth -/

/-- Specification of the pruned branch for a cell at Merkle depth `d`: type byte, the cell's level mask with level `d + 1`
added, then the hashes and the depths of the cell's own levels up to `d`. -/
def prunedTree (H : Hasher) (d : Nat) (t : Cell) : Cell :=
  let m := (t.info H).mask
  let levels := (List.range (d + 1)).filter fun l => l == 0 || m.getLsbD (l - 1)
  .mk true (bytesToBits [1, m ||| (1#8 <<< d)] ++ (levels.map fun l => bytesToBits ((t.info H).hash l)).flatten
    ++ (levels.map fun l => natBits 16 ((t.info H).depth l)).flatten) []

theorem low_levels {m : LevelMask} (hm : m.toNat < 8) {d : Nat} (hd : d ≤ 2) :
    (LevelMask.new (m &&& ((1#8 <<< d) - 1))).toList = (List.range (d + 1)).filter (fun l => l == 0 || m.getLsbD (l - 1)) ∧
    LevelMask.new (m ||| (1#8 <<< d)) = m ||| (1#8 <<< d) := by
  have key : ∀ cm : Fin 8, ∀ d : Fin 3,
    let m : LevelMask := BitVec.ofNat 8 cm
    (LevelMask.new (m &&& ((1#8 <<< d.val) - 1))).toList = (List.range (d.val + 1)).filter (fun l => l == 0 || m.getLsbD (l - 1)) ∧
    LevelMask.new (m ||| (1#8 <<< d.val)) = m ||| (1#8 <<< d.val) := by decide +kernel
  have h := key ⟨m.toNat, hm⟩ ⟨d, by omega⟩
  simp only [BitVec.ofNat_toNat, BitVec.setWidth_eq] at h
  exact h

/-- `makePruned` on a finished cell gives the specified pruned branch. -/
theorem makePruned_tree {H : Hasher} {c p : CCell} (hc : Built H c) {d : Nat} (hd : d ≤ 2) (h : makePruned H c.view d = .ok p) :
    p.tree = prunedTree H d c.tree := by
  have hv := hc.view_ok
  have hw := prunedOps_bits hv hd
  dsimp only at hw
  obtain ⟨w1, w2, w3⟩ := hw
  have hbwf : (CellB.WF { inner := (DataBuilder.runStores DataBuilder.new (prunedOps c.view d)).2, refs := ([] : List CCell), exotic := true }) :=
    CellB.wf_leaf w1
  have hb := C10_build H hbwf (by intro r h; cases h)
  dsimp only at hb
  have ht : p.tree = .mk true (DataBuilder.runStores DataBuilder.new (prunedOps c.view d)).2.bits [] := by
    by_cases hwf : (Cell.mk true (DataBuilder.runStores DataBuilder.new (prunedOps c.view d)).2.bits []).WF H
    · obtain ⟨q, e, _, e2, _⟩ := hb.1 hwf
      have e' : makePruned H c.view d = .ok q := e
      rw [e'] at h
      injection h with h
      rw [← h, e2]; rfl
    · have e' : makePruned H c.view d = .error .invalidCell ∨ makePruned H c.view d = .error .depthOverflow := hb.2 hwf
      rcases e' with e | e <;> rw [e] at h <;> cases h
  obtain ⟨l1, l2⟩ := low_levels hv.mask hd
  have hmask : c.view.mask = (c.tree.info H).mask := hc.facts.agrees.mask
  have hhash : ∀ l, c.view.hash l = (c.tree.info H).hash l := fun l => hc.facts.agrees.hash l
  have hdepth : ∀ l, c.view.depth l = (c.tree.info H).depth l := fun l => hc.facts.agrees.depth l
  rw [ht, w2, l1, l2]
  unfold prunedTree
  dsimp only
  simp only [hmask, hhash, hdepth, List.append_assoc]

/-- Lengths alone decide which stores fit. -/
def fitLen (n : Nat) : List Nat → Nat
  | [] => n
  | k :: ks => fitLen (if n + k ≤ 1023 then n + k else n) ks

theorem specStores_len : ∀ (ops : List DataBuilder.StoreOp) (s : Bits),
    (DataBuilder.specStores s ops).2.length = fitLen s.length (ops.map fun o => o.expected.length)
  | [], s => rfl
  | op :: ops, s => by
    rw [List.map_cons, fitLen]
    show (DataBuilder.specStores (DataBuilder.specStore s op.expected).2 ops).2.length = _
    rw [specStores_len ops]
    congr 1
    unfold DataBuilder.specStore
    split
    · rename_i h
      exact List.length_append
    · rfl

theorem specStores_prefix : ∀ (ops : List DataBuilder.StoreOp) (s : Bits), ∃ e, (DataBuilder.specStores s ops).2 = s ++ e
  | [], s => ⟨[], by simp [DataBuilder.specStores]⟩
  | op :: ops, s => by
    show ∃ e, (DataBuilder.specStores (DataBuilder.specStore s op.expected).2 ops).2 = s ++ e
    obtain ⟨e, he⟩ := specStores_prefix ops (DataBuilder.specStore s op.expected).2
    rw [he]
    unfold DataBuilder.specStore
    split
    · exact ⟨op.expected ++ e, by simp⟩
    · exact ⟨e, rfl⟩

/-- Deeper than two Merkle cells no pruned branch can be made. -/
theorem makePruned_deep {H : Hasher} {v : CellView} (hv : v.Ok) {d : Nat} (h3 : 3 ≤ d) (h8 : d < 8) {p : CCell} :
    makePruned H v d ≠ .ok p := by
  intro h
  have hval : ∀ op ∈ prunedOps v d, op.Valid := by
    intro op hop
    unfold prunedOps at hop
    dsimp only at hop
    simp only [List.mem_append, List.mem_cons, List.not_mem_nil, or_false, List.mem_map] at hop
    rcases hop with (rfl | ⟨l, _, rfl⟩) | ⟨l, _, rfl⟩
    · trivial
    · exact hv.len l
    · trivial
  have hh := DataBuilder.C01_store_history (prunedOps v d) hval DataBuilder.wf_new
  have e : DataBuilder.new.bits = [] := rfl
  rw [e] at hh
  have hbwf : (CellB.WF { inner := (DataBuilder.runStores DataBuilder.new (prunedOps v d)).2, refs := ([] : List CCell), exotic := true }) :=
    CellB.wf_leaf hh.2.2
  have hb := C10_build H hbwf (by intro r h; cases h)
  dsimp only at hb
  by_cases hwf : (Cell.mk true (DataBuilder.runStores DataBuilder.new (prunedOps v d)).2.bits []).WF H
  · rw [hh.2.1] at hwf
    have key : ∀ cm : Fin 8, ∀ d : Fin 8, 3 ≤ d.val →
      let m : LevelMask := BitVec.ofNat 8 cm
      let mask := LevelMask.new (m ||| (1#8 <<< d.val))
      let low := LevelMask.new (m &&& ((1#8 <<< d.val) - 1))
      fitLen 16 (low.toList.map (fun _ => 256) ++ low.toList.map fun _ => 16) ≠ 16 + 272 * mask.countUpTo 3 := by decide +kernel
    have key := key ⟨v.mask.toNat, hv.mask⟩ ⟨d, h8⟩ h3
    simp only [BitVec.ofNat_toNat, BitVec.setWidth_eq] at key
    have hlen := specStores_len (prunedOps v d) []
    have hfirst : ∃ e, (DataBuilder.specStores [] (prunedOps v d)).2 = bytesToBits [1, LevelMask.new (v.mask ||| (1#8 <<< d))] ++ e := by
      unfold prunedOps
      dsimp only
      rw [List.append_assoc, List.cons_append, List.nil_append]
      have hx : (DataBuilder.specStore [] (DataBuilder.StoreOp.u16 (CellType.prunedBranch.toByte ++ LevelMask.new (v.mask ||| (1#8 <<< d)))).expected).2
          = bytesToBits [1, LevelMask.new (v.mask ||| (1#8 <<< d))] := by
        have e1 : (DataBuilder.StoreOp.u16 (CellType.prunedBranch.toByte ++ LevelMask.new (v.mask ||| (1#8 <<< d)))).expected
            = bytesToBits [1, LevelMask.new (v.mask ||| (1#8 <<< d))] := natBits_append16 _ _
        rw [e1]
        unfold DataBuilder.specStore
        rw [if_pos (by rw [bytesToBits_length]; simp)]
        rfl
      show ∃ e, (DataBuilder.specStores (DataBuilder.specStore [] (DataBuilder.StoreOp.u16 (CellType.prunedBranch.toByte ++ LevelMask.new (v.mask ||| (1#8 <<< d)))).expected).2 _).2 = _
      rw [hx]
      exact specStores_prefix _ _
    have hops : (prunedOps v d).map (fun o => o.expected.length) = 16 ::
        ((LevelMask.new (v.mask &&& ((1#8 <<< d) - 1))).toList.map (fun _ => 256) ++
         (LevelMask.new (v.mask &&& ((1#8 <<< d) - 1))).toList.map fun _ => 16) := by
      unfold prunedOps
      dsimp only
      rw [List.map_append, List.map_append, List.map_map, List.map_map]
      show _ :: (_ ++ _) = _
      congr 1
      congr 1
      apply List.map_congr_left
      intro l _
      show (bytesToBits (v.hash l)).length = 256
      rw [bytesToBits_length, hv.len]
    rw [hops] at hlen
    obtain ⟨x, hx⟩ := hfirst
    generalize (DataBuilder.specStores [] (prunedOps v d)).2 = bits at *
    have hby : byteAt bits 0 = 1 ∧ byteAt bits 1 = (LevelMask.new (v.mask ||| (1#8 <<< d))).toNat := by
      have h16 : bits.take 16 = bytesToBits [1, LevelMask.new (v.mask ||| (1#8 <<< d))] := by rw [hx]; exact List.take_left' (by simp)
      constructor
      · rw [← byteAt_take bits 16 0 (by omega), h16, byteAt_bytes]; rfl
      · rw [← byteAt_take bits 16 1 (by omega), h16, byteAt_bytes]; rfl
    have hbl : bits.length ≥ 16 := by rw [hx, List.length_append, bytesToBits_length]; simp
    have hty : typeOf true bits = some .prunedBranch := by
      unfold typeOf
      rw [if_pos rfl, if_neg (by omega), hby.1]; rfl
    unfold Cell.WF at hwf
    obtain ⟨⟨ty, g1, g2, _⟩, _⟩ := hwf
    rw [hty] at g1
    injection g1 with g1
    subst g1
    unfold shape at g2
    dsimp only at g2
    split at g2
    · rename_i g
      have := g.2.2.1
      rw [hby.2, BitVec.ofNat_toNat, BitVec.setWidth_eq, hlen] at this
      exact key this
    · exact absurd rfl g2
  · have e' : makePruned H v d = .error .invalidCell ∨ makePruned H v d = .error .depthOverflow := hb.2 hwf
    rcases e' with e | e <;> rw [e] at h <;> cases h

end Merkle
end Verif
