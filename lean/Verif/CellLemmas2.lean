import Verif.CellLemmas
set_option linter.unusedVariables false
set_option linter.unusedSimpArgs false
namespace Verif

theorem CellDescriptor.cellType_eq (d : CellDescriptor) : d.cellType =
    if d.isExotic then
      if d.referenceCount = 0 then (if d.levelMask = 0 then .libraryReference else .prunedBranch)
      else if d.referenceCount = 1 then .merkleProof else .merkleUpdate
    else .ordinary := by
  have key : ∀ x : Fin 256, let d : CellDescriptor := ⟨BitVec.ofNat 8 x, 0⟩
    d.cellType = if d.isExotic then
      if d.referenceCount = 0 then (if d.levelMask = 0 then .libraryReference else .prunedBranch)
      else if d.referenceCount = 1 then .merkleProof else .merkleUpdate
    else .ordinary := by decide +kernel
  have h := key ⟨d.d1.toNat, d.d1.isLt⟩
  simp only [BitVec.ofNat_toNat, BitVec.setWidth_eq] at h
  exact h

theorem CCell.hash_mk (d : CellDescriptor) (n : Nat) (bs : List Byte) (rs : List CCell) (hs : List (Hash × Nat)) (l : Nat) :
    (CCell.mk d n bs rs hs).hash l = match d.cellType with
    | .prunedBranch => if d.levelMask.hashIndex l = d.levelMask.level then (hs.getD 0 ([], 0)).1
      else (bs.drop (2 + d.levelMask.hashIndex l * 32)).take 32
    | .libraryReference => (hs.getD 0 ([], 0)).1
    | _ => (hs.getD (d.levelMask.hashIndex l) ([], 0)).1 := rfl

theorem CCell.depth_mk (d : CellDescriptor) (n : Nat) (bs : List Byte) (rs : List CCell) (hs : List (Hash × Nat)) (l : Nat) :
    (CCell.mk d n bs rs hs).depth l = match d.cellType with
    | .prunedBranch => if d.levelMask.hashIndex l = d.levelMask.level then 0
      else natOfBits (bytesToBits ((bs.drop (2 + d.levelMask.level * 32 + d.levelMask.hashIndex l * 2)).take 2))
    | .libraryReference => 0
    | _ => (hs.getD (d.levelMask.hashIndex l) ([], 0)).2 := rfl

theorem LevelMask.countUpTo_zero (l : Nat) : LevelMask.countUpTo 0 l = 0 := by
  induction l with
  | zero => rfl
  | succ l ih => rw [LevelMask.countUpTo, ih]; simp

/-- All depths a level looks at leave room for one more. -/
def DepthOk (mask : LevelMask) (off : Nat) (ch : List Info) (l : Nat) : Prop :=
  (l = 0 ∨ mask.getLsbD (l - 1) = true) → ∀ i ∈ ch, i.depth (l + off) < 65535

/-- The mask a node shows is the one its shape gives. -/
theorem nodeInfo_mask {H : Hasher} {e : Bool} {b : Bits} {ch : List Info} {ty : CellType} {m : LevelMask}
    (ht : typeOf e b = some ty) (hs : shape ty b (ch.map (·.mask)) = some m) : (nodeInfo H e b ch).mask = m := by
  unfold nodeInfo
  rw [ht]
  unfold shape at hs
  cases ty <;> dsimp only at hs ⊢ <;> split at hs <;> simp_all

namespace CellParts

/-- Stored hashes up to level `l`. -/
def LoopInv (H : Hasher) (p : CellParts) (off : Nat) (ch : List Info) (l : Nat) (hs : List (Hash × Nat)) : Prop :=
  hs.length = p.desc.levelMask.countUpTo l + 1 ∧
  ∀ j, j ≤ l → hs.getD (p.desc.levelMask.countUpTo j) ([], 0) =
    (levelHash H p.desc.levelMask p.desc.isExotic p.bits off ch j, levelDepth p.desc.levelMask off ch j)

section
variable {H : Hasher} {p : CellParts} {off : Nat} {ch : List Info}

theorem any_depth (l : List Nat) : l.any (fun d => decide (d + 1 > 65535)) = true ↔ ¬ ∀ d ∈ l, d < 65535 := by
  rw [List.any_eq_true]
  constructor
  · rintro ⟨d, hd, h⟩ hall
    have := hall d hd
    simp at h; omega
  · intro h
    refine Decidable.byContradiction fun hn => h fun d hd => ?_
    refine Nat.lt_of_not_le fun hle => hn ⟨d, hd, by simp; omega⟩

theorem countUpTo_mono (m : LevelMask) {a b : Nat} (h : a ≤ b) : m.countUpTo a ≤ m.countUpTo b := by
  induction b with
  | zero => rw [Nat.le_zero.mp h]; exact Nat.le_refl _
  | succ b ih =>
    by_cases e : a = b + 1
    · rw [e]; exact Nat.le_refl _
    · exact Nat.le_trans (ih (by omega)) (by rw [LevelMask.countUpTo]; omega)

/-- Any step that is not skipped. -/
theorem levelStep_run (hp : p.Ok) (hd : ∀ l, p.refs.map (fun c => c.depth l) = ch.map (·.depth l))
    (hh : ∀ l, p.refs.map (fun c => c.hash l) = ch.map (·.hash l)) (isPruned : Bool) (l : Nat) (hs : List (Hash × Nat))
    (hns : ¬ (l ≠ 0 ∧ (isPruned = true ∨ p.desc.levelMask.contains l = false))) :
    p.levelStep H isPruned off l hs =
      if ∀ i ∈ ch, i.depth (l + off) < 65535 then
        .ok (hs ++ [(nodeHash H (if isPruned then p.desc.levelMask else LevelMask.fromLevel l) p.desc.isExotic p.bits.length
          (if l = 0 then bytesOfBits (Verif.tagged p.bits) else ((hs.getLast?).getD ([], 0)).1)
          (ch.map (·.depth (l + off))) (ch.map (·.hash (l + off))), depthOver (ch.map (·.depth (l + off))))])
      else .error .depthOverflow := by
  unfold levelStep
  dsimp only
  rw [if_neg hns, hd, hh, hp.bytes, depthOver_eq]
  have hlen : (ch.map (·.depth (l + off))).length = p.desc.referenceCount := by
    rw [← hd, List.length_map, hp.refs]
  have hlm : (if isPruned = true then p.desc.levelMask else LevelMask.fromLevel l).toNat < 8 := by
    split
    · exact CellDescriptor.levelMask_lt _
    · exact LevelMask.fromLevel_lt _
  have hall : (∀ i ∈ ch, i.depth (l + off) < 65535) ↔ ∀ d ∈ ch.map (·.depth (l + off)), d < 65535 := by simp
  by_cases h : ∀ i ∈ ch, i.depth (l + off) < 65535
  · rw [if_pos h, if_neg (by rw [any_depth]; exact fun hn => hn (hall.mp h))]
    unfold nodeHash preimage
    rw [repr_d1 _ _ hlm, hlen, hp.d2, hp.bits_length]
  · rw [if_neg h, if_pos (by rw [any_depth]; exact fun hn => h (hall.mpr hn))]

theorem step0 (hp : p.Ok) (hd : ∀ l, p.refs.map (fun c => c.depth l) = ch.map (·.depth l))
    (hh : ∀ l, p.refs.map (fun c => c.hash l) = ch.map (·.hash l)) :
    (DepthOk p.desc.levelMask off ch 0 → ∃ hs, p.levelStep H false off 0 [] = .ok hs ∧ LoopInv H p off ch 0 hs) ∧
    (¬ DepthOk p.desc.levelMask off ch 0 → p.levelStep H false off 0 [] = .error .depthOverflow) := by
  rw [levelStep_run hp hd hh false 0 [] (by simp)]
  constructor
  · intro h
    rw [if_pos (h (Or.inl rfl))]
    refine ⟨_, rfl, rfl, ?_⟩
    intro j hj
    obtain rfl : j = 0 := by omega
    simp [LevelMask.countUpTo, levelHash, levelDepth, LevelMask.fromLevel]
  · intro h
    rw [if_neg fun g => h fun _ => g]

theorem stepS (hp : p.Ok) (hd : ∀ l, p.refs.map (fun c => c.depth l) = ch.map (·.depth l))
    (hh : ∀ l, p.refs.map (fun c => c.hash l) = ch.map (·.hash l)) {l : Nat} (hl : l + 1 ≤ 3)
    {hs : List (Hash × Nat)} (hi : LoopInv H p off ch l hs) :
    (DepthOk p.desc.levelMask off ch (l + 1) → ∃ hs', p.levelStep H false off (l + 1) hs = .ok hs' ∧
      LoopInv H p off ch (l + 1) hs') ∧
    (¬ DepthOk p.desc.levelMask off ch (l + 1) → p.levelStep H false off (l + 1) hs = .error .depthOverflow) := by
  have hlt := CellDescriptor.levelMask_lt p.desc
  have hc := (C08_mask _ hlt).2.2.1 (l + 1) hl
  unfold LevelMask.Significant at hc
  simp only [Nat.add_sub_cancel, Nat.succ_ne_zero, false_or] at hc
  by_cases hsig : p.desc.levelMask.getLsbD l = true
  · have hcc := hc.mpr hsig
    rw [levelStep_run hp hd hh false (l + 1) hs (by simp [hcc])]
    constructor
    · intro h
      rw [if_pos (h (Or.inr (by simpa using hsig)))]
      refine ⟨_, rfl, ?_, ?_⟩
      · rw [LevelMask.countUpTo, hsig]
        simp [hi.1]
      · intro j hj
        have hlast : ((hs.getLast?).getD ([], 0)) = (levelHash H p.desc.levelMask p.desc.isExotic p.bits off ch l,
            levelDepth p.desc.levelMask off ch l) := by
          have := hi.2 l (Nat.le_refl _)
          rw [List.getD_eq_getElem?_getD] at this
          rw [List.getLast?_eq_getElem?, hi.1, Nat.add_sub_cancel]
          exact this
        by_cases hjl : j = l + 1
        · subst hjl
          rw [List.getD_eq_getElem?_getD, LevelMask.countUpTo, hsig, List.getElem?_append_right (by rw [hi.1]; simp), hi.1]
          simp only [Bool.toNat_true, Nat.sub_self, List.getElem?_cons_zero, Option.getD_some]
          rw [levelHash, levelDepth, if_pos hsig, if_pos hsig, hlast]
          simp
        · have := hi.2 j (by omega)
          have hm := countUpTo_mono p.desc.levelMask (show j ≤ l by omega)
          rw [List.getD_eq_getElem?_getD, List.getElem?_append_left (by rw [hi.1]; omega), ← List.getD_eq_getElem?_getD, this]
    · intro h
      rw [if_neg fun g => h fun _ => g]
  · have hsf : p.desc.levelMask.getLsbD l = false := by simpa using hsig
    have hcf : p.desc.levelMask.contains (l + 1) = false := by
      cases h : p.desc.levelMask.contains (l + 1) with
      | false => rfl
      | true => exact absurd (hc.mp h) hsig
    have hskip : p.levelStep H false off (l + 1) hs = .ok hs := by
      unfold levelStep
      dsimp only
      rw [if_pos ⟨by omega, Or.inr hcf⟩]
    rw [hskip]
    constructor
    · intro _
      refine ⟨hs, rfl, ?_, ?_⟩
      · rw [LevelMask.countUpTo, hsf]; exact hi.1
      · intro j hj
        by_cases hjl : j = l + 1
        · subst hjl
          rw [LevelMask.countUpTo, levelHash, levelDepth, hsf]
          simp only [Bool.toNat_false, Nat.add_zero, Bool.false_eq_true, if_false]
          exact hi.2 l (Nat.le_refl _)
        · exact hi.2 j (by omega)
    · intro h
      exfalso
      apply h
      intro g
      simp only [Nat.add_sub_cancel, Nat.succ_ne_zero, false_or] at g
      exact absurd g hsig

/-- The whole loop for cells that are not pruned branches. -/
theorem loop (hp : p.Ok) (hd : ∀ l, p.refs.map (fun c => c.depth l) = ch.map (·.depth l))
    (hh : ∀ l, p.refs.map (fun c => c.hash l) = ch.map (·.hash l)) :
    let run : Except Err (List (Hash × Nat)) := do
      let h0 ← p.levelStep H false off 0 []
      let h1 ← p.levelStep H false off 1 h0
      let h2 ← p.levelStep H false off 2 h1
      p.levelStep H false off 3 h2
    ((∀ l, l ≤ 3 → DepthOk p.desc.levelMask off ch l) → ∃ hs, run = .ok hs ∧ LoopInv H p off ch 3 hs) ∧
    ((¬ ∀ l, l ≤ 3 → DepthOk p.desc.levelMask off ch l) → run = .error .depthOverflow) := by
  dsimp only
  have s0 := step0 (H := H) (off := off) hp hd hh
  by_cases g0 : DepthOk p.desc.levelMask off ch 0
  case neg => rw [s0.2 g0]; exact ⟨fun h => absurd (h 0 (by omega)) g0, fun _ => rfl⟩
  obtain ⟨h0, e0, i0⟩ := s0.1 g0
  rw [e0, DataBuilder.bind_ok]
  have s1 := stepS hp hd hh (by omega) i0
  by_cases g1 : DepthOk p.desc.levelMask off ch 1
  case neg => rw [s1.2 g1]; exact ⟨fun h => absurd (h 1 (by omega)) g1, fun _ => rfl⟩
  obtain ⟨h1, e1, i1⟩ := s1.1 g1
  rw [e1, DataBuilder.bind_ok]
  have s2 := stepS hp hd hh (by omega) i1
  by_cases g2 : DepthOk p.desc.levelMask off ch 2
  case neg => rw [s2.2 g2]; exact ⟨fun h => absurd (h 2 (by omega)) g2, fun _ => rfl⟩
  obtain ⟨h2, e2, i2⟩ := s2.1 g2
  rw [e2, DataBuilder.bind_ok]
  have s3 := stepS hp hd hh (by omega) i2
  by_cases g3 : DepthOk p.desc.levelMask off ch 3
  case neg => rw [s3.2 g3]; exact ⟨fun h => absurd (h 3 (by omega)) g3, fun _ => rfl⟩
  obtain ⟨h3, e3, i3⟩ := s3.1 g3
  refine ⟨fun _ => ⟨h3, e3, i3⟩, fun h => absurd (fun l hl => ?_) h⟩
  match l, hl with
  | 0, _ => exact g0
  | 1, _ => exact g1
  | 2, _ => exact g2
  | 3, _ => exact g3

end

theorem levelHash_ge {H : Hasher} {m : LevelMask} (hm : m.toNat < 8) (e : Bool) (b : Bits) (off : Nat) (ch : List Info) (k : Nat) :
    levelHash H m e b off ch (3 + k) = levelHash H m e b off ch 3 ∧ levelDepth m off ch (3 + k) = levelDepth m off ch 3 := by
  induction k with
  | zero => exact ⟨rfl, rfl⟩
  | succ k ih =>
    rw [← Nat.add_assoc, levelHash, levelDepth, LevelMask.getLsbD_ge hm (by omega)]
    exact ih

/-- `LoopInv` at level 3 answers every level. -/
theorem LoopInv.get {H : Hasher} {p : CellParts} {off : Nat} {ch : List Info} {hs : List (Hash × Nat)}
    (h : LoopInv H p off ch 3 hs) (l : Nat) : hs.getD (p.desc.levelMask.hashIndex l) ([], 0) =
    (levelHash H p.desc.levelMask p.desc.isExotic p.bits off ch l, levelDepth p.desc.levelMask off ch l) := by
  have hlt := CellDescriptor.levelMask_lt p.desc
  rw [LevelMask.hashIndex_eq hlt]
  by_cases hl : l ≤ 3
  · exact h.2 l hl
  · obtain ⟨k, rfl⟩ : ∃ k, l = 3 + k := ⟨l - 3, by omega⟩
    rw [LevelMask.countUpTo_ge hlt, (levelHash_ge hlt _ _ _ _ k).1, (levelHash_ge (H := H) hlt p.desc.isExotic p.bits _ _ k).2]
    exact h.2 3 (by omega)

/-- The shape condition of a node together with the depth condition. -/
structure NodeOk (p : CellParts) (ch : List Info) (ty : CellType) : Prop where
  type : typeOf p.desc.isExotic p.bits = some ty
  shape : Verif.shape ty p.bits (ch.map (·.mask)) = some p.desc.levelMask
  depth : ∀ l, l ≤ 3 → DepthOk p.desc.levelMask (if ty.isMerkle then 1 else 0) ch l

/-- The number of stored hashes. -/
def slots (ty : CellType) (m : LevelMask) : Nat := if ty = .prunedBranch then 1 else m.level + 1

theorem slice_bits {p : CellParts} (hp : p.Ok) (k n : Nat) (h : 8 * (k + n) ≤ p.bitLen) :
    (p.bits.drop (8 * k)).take (8 * n) = bytesToBits ((p.data.drop k).take n) := by
  unfold bits
  rw [bytesToBits_take, bytesToBits_drop, List.drop_take, List.take_take]
  congr 1; omega

/-- The descriptor's own idea of the type agrees with the contents. -/
theorem NodeOk.cellType {p : CellParts} (hp : p.Ok) {ch : List Info} {ty : CellType} (hl : ch.length = p.refs.length)
    (h : NodeOk p ch ty) : p.desc.cellType = ty := by
  rw [CellDescriptor.cellType_eq, hp.refs]
  have ht := h.type
  have hs := h.shape
  unfold typeOf at ht
  cases he : p.desc.isExotic with
  | false =>
    rw [he] at ht
    simp at ht
    simp [ht]
  | true =>
    rw [he] at ht
    simp only [if_true] at ht ⊢
    have hno : ty ≠ .ordinary := by
      intro e
      split at ht
      · cases ht
      · exact exoticTypeOf_ne _ (e ▸ ht)
    unfold Verif.shape at hs
    cases ty with
    | ordinary => exact absurd rfl hno
    | prunedBranch =>
      dsimp only at hs
      split at hs
      · rename_i g
        have : ch = [] := by simpa using g.2.2.2
        rw [this] at hl
        rw [if_pos (by simpa using hl.symm), if_neg]
        intro e
        simp only [Option.some.injEq] at hs
        rw [e] at hs
        have := congrArg BitVec.toNat hs
        simp at this
        omega
      · cases hs
    | libraryReference =>
      dsimp only at hs
      split at hs
      · rename_i g
        have : ch = [] := by simpa using g.2
        rw [this] at hl
        simp only [Option.some.injEq] at hs
        rw [if_pos (by simpa using hl.symm), if_pos hs.symm]
      · cases hs
    | merkleProof =>
      dsimp only at hs
      split at hs
      · rename_i g
        rw [List.length_map] at g
        rw [if_neg (by omega), if_pos (by omega)]
      · cases hs
    | merkleUpdate =>
      dsimp only at hs
      split at hs
      · rename_i g
        rw [List.length_map] at g
        rw [if_neg (by omega), if_neg (by omega)]
      · cases hs

/-- The result of `finalize` in terms of the node conditions. -/
theorem finalize_spec {H : Hasher} {p : CellParts} (hp : p.Ok) (hr : ∀ r ∈ p.refs, r.Agrees H) :
    let ch := Cell.infoList H (CCell.treeList p.refs)
    (∀ ty, NodeOk p ch ty → ∃ hs, p.finalize H = .ok (.mk p.desc p.bitLen p.data p.refs hs) ∧
      hs.length = slots ty p.desc.levelMask ∧ (CCell.mk p.desc p.bitLen p.data p.refs hs).Agrees H) ∧
    ((¬ ∃ ty, typeOf p.desc.isExotic p.bits = some ty ∧ Verif.shape ty p.bits (ch.map (·.mask)) = some p.desc.levelMask) →
      p.finalize H = .error .invalidCell) ∧
    (∀ ty, typeOf p.desc.isExotic p.bits = some ty → Verif.shape ty p.bits (ch.map (·.mask)) = some p.desc.levelMask →
      (¬ ∀ l, l ≤ 3 → DepthOk p.desc.levelMask (if ty.isMerkle then 1 else 0) ch l) → p.finalize H = .error .depthOverflow) := by
  intro ch
  have hch : ch = p.refs.map fun r => r.tree.info H := by
    show Cell.infoList H (CCell.treeList p.refs) = _
    rw [Cell.infoList_eq, CCell.treeList_eq, List.map_map]; rfl
  have hmk : ch.map (·.mask) = p.refs.map fun c => c.desc.levelMask := by
    rw [hch, List.map_map]
    exact List.map_congr_left fun r h => (hr r h).mask.symm
  have hd : ∀ l, p.refs.map (fun c => c.depth l) = ch.map (·.depth l) := by
    intro l
    rw [hch, List.map_map]
    exact List.map_congr_left fun r h => (hr r h).depth l
  have hh : ∀ l, p.refs.map (fun c => c.hash l) = ch.map (·.hash l) := by
    intro l
    rw [hch, List.map_map]
    exact List.map_congr_left fun r h => (hr r h).hash l
  have hlen : ch.length = p.refs.length := by rw [hch]; simp
  have hcl := classify_iff hp (ch.map (·.mask)) hmk
  have hlt := CellDescriptor.levelMask_lt p.desc
  have hinfo : ∀ hs, (CCell.mk p.desc p.bitLen p.data p.refs hs).tree.info H = nodeInfo H p.desc.isExotic p.bits ch := by
    intro hs; rfl
  -- the run after classification
  have hrun : ∀ ty, typeOf p.desc.isExotic p.bits = some ty →
      Verif.shape ty p.bits (ch.map (·.mask)) = some p.desc.levelMask →
      p.computeHashes H = (do
        let off := if ty.isMerkle then 1 else 0
        let h0 ← p.levelStep H ty.isPrunedBranch off 0 []
        let h1 ← p.levelStep H ty.isPrunedBranch off 1 h0
        let h2 ← p.levelStep H ty.isPrunedBranch off 2 h1
        p.levelStep H ty.isPrunedBranch off 3 h2) := by
    intro ty h1 h2
    unfold computeHashes
    rw [(hcl ty).mpr ⟨h1, h2⟩]
    simp only [DataBuilder.bind_ok, ne_eq, not_true_eq_false, if_false]
  refine ⟨?_, ?_, ?_⟩
  · intro ty hn
    have hrun := hrun ty hn.type hn.shape
    have hct := hn.cellType hp hlen
    unfold finalize
    rw [hrun]
    by_cases hpr : ty = .prunedBranch
    · subst hpr
      have hsh := hn.shape
      unfold Verif.shape at hsh
      dsimp only at hsh
      split at hsh
      case isFalse => cases hsh
      case isTrue g =>
        obtain ⟨g1, g2, g3, g4⟩ := g
        simp only [Option.some.injEq] at hsh
        have hnil : ch = [] := by simpa using g4
        have hs0 := levelStep_run (H := H) (off := 0) hp hd hh true 0 [] (by simp)
        rw [hnil] at hs0
        simp only [List.not_mem_nil, false_imp_iff, implies_true, if_true, List.map_nil, List.nil_append] at hs0
        have hskip : ∀ l, l ≠ 0 → ∀ hs, p.levelStep H true 0 l hs = .ok hs := by
          intro l hl hs
          unfold levelStep
          dsimp only
          rw [if_pos ⟨hl, Or.inl rfl⟩]
        refine ⟨[(nodeHash H p.desc.levelMask p.desc.isExotic p.bits.length (bytesOfBits (Verif.tagged p.bits)) [] [],
          depthOver [])], ?_, rfl, ?_⟩
        · show (do
            let h0 ← p.levelStep H true 0 0 []
            let h1 ← p.levelStep H true 0 1 h0
            let h2 ← p.levelStep H true 0 2 h1
            p.levelStep H true 0 3 h2) >>= _ = _
          rw [hs0]
          simp only [DataBuilder.bind_ok, hskip 1 (by omega), hskip 2 (by omega), hskip 3 (by omega)]
        · have hlen3 : p.bitLen = 16 + 272 * p.desc.levelMask.countUpTo 3 := by
            rw [← hp.bits_length, g3, hsh]
          have hlv : p.desc.levelMask.level = p.desc.levelMask.countUpTo 3 := (C08_mask _ hlt).1
          have hidx : ∀ l, (p.desc.levelMask.hashIndex l = p.desc.levelMask.level ↔
              p.desc.levelMask.countUpTo l = p.desc.levelMask.countUpTo 3) := by
            intro l; rw [hlv, LevelMask.hashIndex_eq hlt]
          have hle : ∀ l, p.desc.levelMask.countUpTo l ≤ p.desc.levelMask.countUpTo 3 := by
            intro l
            by_cases h : l ≤ 3
            · exact countUpTo_mono _ h
            · rw [show l = 3 + (l - 3) by omega, LevelMask.countUpTo_ge hlt]; exact Nat.le_refl _
          refine ⟨?_, ?_, ?_⟩
          · rw [hinfo, nodeInfo_mask hn.type hn.shape]; rfl
          · intro l
            rw [hinfo]
            rw [CCell.hash_mk, hct]
            unfold nodeInfo
            rw [hn.type]
            dsimp only
            rw [hsh]
            by_cases h : p.desc.levelMask.countUpTo l = p.desc.levelMask.countUpTo 3
            · rw [if_pos (hidx l |>.mpr h), if_pos h]; rfl
            · rw [if_neg fun g => h (hidx l |>.mp g), if_neg h, LevelMask.hashIndex_eq hlt]
              have := hle l
              have e := slice_bits hp (2 + p.desc.levelMask.countUpTo l * 32) 32 (by omega)
              rw [show 8 * (2 + p.desc.levelMask.countUpTo l * 32) = 16 + 256 * p.desc.levelMask.countUpTo l by omega] at e
              have e' := congrArg bytesOfBits e
              rw [bytesOfBits_bytesToBits] at e'
              exact e'.symm
          · intro l
            rw [hinfo]
            rw [CCell.depth_mk, hct]
            unfold nodeInfo
            rw [hn.type]
            dsimp only
            rw [hsh]
            by_cases h : p.desc.levelMask.countUpTo l = p.desc.levelMask.countUpTo 3
            · rw [if_pos (hidx l |>.mpr h), if_pos h]
            · rw [if_neg fun g => h (hidx l |>.mp g), if_neg h, LevelMask.hashIndex_eq hlt, hlv]
              have := hle l
              have e := slice_bits hp (2 + p.desc.levelMask.countUpTo 3 * 32 + p.desc.levelMask.countUpTo l * 2) 2 (by omega)
              rw [← e]
              congr 3; omega
    · have hip : ty.isPrunedBranch = false := by cases ty <;> simp_all [CellType.isPrunedBranch]
      rw [hip]
      obtain ⟨hs, e1, inv⟩ := (loop (H := H) (off := if ty.isMerkle then 1 else 0) hp hd hh).1 hn.depth
      refine ⟨hs, ?_, ?_, ?_⟩
      · dsimp only at e1 ⊢
        rw [e1]; rfl
      · rw [inv.1, slots, if_neg hpr, (C08_mask _ hlt).1]
      · have hm := nodeInfo_mask (H := H) hn.type hn.shape
        have hsh := hn.shape
        unfold Verif.shape at hsh
        refine ⟨?_, ?_, ?_⟩
        · rw [hinfo, hm]; rfl
        · intro l
          rw [hinfo]
          have hg := congrArg Prod.fst (inv.get l)
          have ht := hn.type
          rw [CCell.hash_mk, hct]
          unfold nodeInfo
          rw [ht]
          cases ty with
          | prunedBranch => exact absurd rfl hpr
          | ordinary =>
            dsimp only at hsh hg ⊢
            split at hsh
            · simp only [Option.some.injEq] at hsh
              rw [hg, hsh]; rfl
            · cases hsh
          | libraryReference =>
            dsimp only at hsh hg ⊢
            split at hsh
            · simp only [Option.some.injEq] at hsh
              rw [← hsh] at hg
              rw [show LevelMask.hashIndex 0 l = 0 from by rw [LevelMask.hashIndex_eq (by decide), LevelMask.countUpTo_zero]] at hg
              rw [hg]; rfl
            · cases hsh
          | merkleProof =>
            dsimp only at hsh hg ⊢
            split at hsh
            · simp only [Option.some.injEq] at hsh
              rw [hg, hsh]; rfl
            · cases hsh
          | merkleUpdate =>
            dsimp only at hsh hg ⊢
            split at hsh
            · simp only [Option.some.injEq] at hsh
              rw [hg, hsh]; rfl
            · cases hsh
        · intro l
          rw [hinfo]
          have hg := congrArg Prod.snd (inv.get l)
          have ht := hn.type
          rw [CCell.depth_mk, hct]
          unfold nodeInfo
          rw [ht]
          cases ty with
          | prunedBranch => exact absurd rfl hpr
          | ordinary =>
            dsimp only at hsh hg ⊢
            split at hsh
            · simp only [Option.some.injEq] at hsh
              rw [hg, hsh]; rfl
            · cases hsh
          | libraryReference =>
            dsimp only at hsh hg ⊢
            split at hsh
            · rename_i g
              have : ch = [] := by simpa using g.2
              rw [this]
              clear hg
              induction l with
              | zero => rfl
              | succ l ih => rw [levelDepth]; simpa using ih
            · cases hsh
          | merkleProof =>
            dsimp only at hsh hg ⊢
            split at hsh
            · simp only [Option.some.injEq] at hsh
              rw [hg, hsh]; rfl
            · cases hsh
          | merkleUpdate =>
            dsimp only at hsh hg ⊢
            split at hsh
            · simp only [Option.some.injEq] at hsh
              rw [hg, hsh]; rfl
            · cases hsh
  · intro hn
    unfold finalize computeHashes
    cases hc : p.classify with
    | error e =>
      have : e = .invalidCell := by
        unfold classify at hc
        dsimp only at hc
        repeat' split at hc
        all_goals (first | cases hc; rfl | cases hc)
      rw [this]; rfl
    | ok r =>
      obtain ⟨ty, m⟩ := r
      simp only [DataBuilder.bind_ok]
      rw [if_pos]
      · rfl
      · intro e
        subst e
        exact hn ⟨ty, (hcl ty).mp hc⟩
  · intro ty h1 h2 h3
    have hrun := hrun ty h1 h2
    unfold finalize
    rw [hrun]
    have hip : ty ≠ .prunedBranch := by
      intro e
      subst e
      apply h3
      unfold Verif.shape at h2
      dsimp only at h2
      split at h2
      case isFalse => cases h2
      case isTrue g =>
        have hnil : ch = [] := by simpa using g.2.2.2
        intro l hl _ i hi
        rw [hnil] at hi; cases hi
    have hip : ty.isPrunedBranch = false := by cases ty <;> simp_all [CellType.isPrunedBranch]
    rw [hip]
    have := (loop (H := H) (off := if ty.isMerkle then 1 else 0) hp hd hh).2 h3
    dsimp only at this ⊢
    rw [this]; rfl

end CellParts

end Verif
