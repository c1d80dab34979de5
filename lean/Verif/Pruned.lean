import Verif.CellInj
/-
Model of `make_pruned_branch` (`merkle/pruned_branch.rs:5-37`) and C13.
-/
set_option linter.unusedVariables false
set_option linter.unusedSimpArgs false
namespace Verif

/-- What `make_pruned_branch` reads from the cell: its level mask, hashes and depths. -/
structure CellView where
  mask : LevelMask
  hash : Nat → Hash
  depth : Nat → Nat

/-- A finished cell as seen through its accessors. -/
def CCell.view (c : CCell) : CellView := ⟨c.desc.levelMask, c.hash, c.depth⟩

/-- The stores of `merkle/pruned_branch.rs:19-34`; their results are ignored by the code. -/
def prunedOps (v : CellView) (d : Nat) : List DataBuilder.StoreOp :=
  let newLevel : Byte := 1#8 <<< d
  let mask := LevelMask.new (v.mask ||| newLevel)
  let low := LevelMask.new (v.mask &&& (newLevel - 1))
  [.u16 (CellType.prunedBranch.toByte ++ mask)] ++ low.toList.map (fun l => .u256 (v.hash l))
    ++ low.toList.map (fun l => .u16 (BitVec.ofNat 16 (v.depth l)))

/-- `merkle/pruned_branch.rs:5-37` `make_pruned_branch`; for `d ≥ 8` the shift overflows in the code. -/
def makePruned (H : Hasher) (v : CellView) (d : Nat) : Except Err CCell :=
  CellB.build H { inner := (DataBuilder.runStores DataBuilder.new (prunedOps v d)).2, refs := [], exotic := true }

/-- A view of a proper cell: 32-byte hashes, 16-bit depths, and both depend on the level only through the
number of significant levels below. -/
structure CellView.Ok (v : CellView) : Prop where
  mask : v.mask.toNat < 8
  len : ∀ l, (v.hash l).length = 32
  depth : ∀ l, v.depth l < 65536
  hash_idx : ∀ l l', v.mask.hashIndex l = v.mask.hashIndex l' → v.hash l = v.hash l' ∧ v.depth l = v.depth l'

/-- Depths always fit 16 bits. -/
theorem Cell.info_depth_lt (H : Hasher) (t : Cell) (hw : t.WF H) (l : Nat) : (t.info H).depth l < 65536 := by
  obtain ⟨e, b, rs⟩ := t
  have hlt := Cell.info_mask_lt H _ hw
  unfold Cell.WF at hw
  obtain ⟨⟨ty, ht, hs, hd⟩, _⟩ := hw
  show (nodeInfo H e b (Cell.infoList H rs)).depth l < 65536
  by_cases hp : ty = .prunedBranch
  · subst hp
    unfold nodeInfo
    rw [ht]
    dsimp only
    split
    · omega
    · refine Nat.lt_of_lt_of_le (natOfBits_lt _) ?_
      have : ∀ x : Bits, (x.take 16).length ≤ 16 := by intro x; simp; omega
      exact Nat.pow_le_pow_right (n := 2) (by omega) (this _)
  · have hoff : offOf e b = if ty.isMerkle then 1 else 0 := by unfold offOf; rw [ht]
    rw [nodeInfo_plain ht hp]
    dsimp only
    have hover : ∀ ds : List Nat, (∀ d ∈ ds, d < 65535) → depthOver ds < 65536 := by
      intro ds
      induction ds with
      | nil => intro _; decide
      | cons d ds ih =>
        intro h
        have h1 := h d (by simp)
        have h2 := ih fun x hx => h x (by simp [hx])
        rw [depthOver]; omega
    have hm : ∀ l, l ≤ 3 → (l = 0 ∨ (nodeInfo H e b (Cell.infoList H rs)).mask.getLsbD (l - 1) = true) →
        ∀ i ∈ Cell.infoList H rs, i.depth (l + offOf e b) < 65535 := by
      rw [hoff]; exact hd
    have hlt : (nodeInfo H e b (Cell.infoList H rs)).mask.toNat < 8 := hlt
    generalize (nodeInfo H e b (Cell.infoList H rs)).mask = m at hm hlt
    induction l with
    | zero =>
      rw [levelDepth]
      refine hover _ fun d hd => ?_
      obtain ⟨i, hi, rfl⟩ := List.mem_map.mp hd
      have := hm 0 (by omega) (Or.inl rfl) i hi
      rwa [Nat.zero_add] at this
    | succ l ih =>
      rw [levelDepth]
      split
      · rename_i hb
        refine hover _ fun d hd => ?_
        obtain ⟨i, hi, rfl⟩ := List.mem_map.mp hd
        have hl3 : l < 3 := by
          refine Nat.lt_of_not_le fun h => ?_
          rw [LevelMask.getLsbD_ge hlt h] at hb; cases hb
        exact hm (l + 1) (by omega) (Or.inr (by simpa using hb)) i hi
      · exact ih

theorem Built.view_ok {H : Hasher} {c : CCell} (h : Built H c) : c.view.Ok := by
  have f := h.facts
  refine ⟨CellDescriptor.levelMask_lt _, ?_, ?_, ?_⟩
  · intro l
    show (c.hash l).length = 32
    rw [f.agrees.hash]
    exact Cell.info_hash_len H _ f.wf l
  · intro l
    show c.depth l < 65536
    rw [f.agrees.depth]
    exact Cell.info_depth_lt H _ f.wf l
  · intro l l' e
    have e : c.desc.levelMask.hashIndex l = c.desc.levelMask.hashIndex l' := e
    constructor
    · show c.hash l = c.hash l'
      unfold CCell.hash; rw [e]
    · show c.depth l = c.depth l'
      unfold CCell.depth; rw [e]

/-! ### Finite facts about the masks involved -/

theorem pruned_masks {cm : LevelMask} (hm : cm.toNat < 8) {d : Nat} (hd : d ≤ 2) :
    let mask := LevelMask.new (cm ||| (1#8 <<< d))
    let low := LevelMask.new (cm &&& ((1#8 <<< d) - 1))
    1 ≤ mask.toNat ∧ mask.toNat ≤ 7 ∧ low.toList.length ≤ 3 ∧
    (low.toList.length = mask.countUpTo 3 ↔ cm.toNat < 2 ^ (d + 1)) ∧
    (∀ l, l ≤ d → mask.countUpTo l < low.toList.length ∧
      cm.hashIndex (low.toList.getD (mask.countUpTo l) 0) = cm.hashIndex l) ∧
    mask.getLsbD d = true ∧ (∀ i, i ≠ d → mask.getLsbD i = cm.getLsbD i) := by
  have key : ∀ cm : Fin 8, ∀ d : Fin 3,
    let cm : LevelMask := BitVec.ofNat 8 cm
    let mask := LevelMask.new (cm ||| (1#8 <<< d.val))
    let low := LevelMask.new (cm &&& ((1#8 <<< d.val) - 1))
    1 ≤ mask.toNat ∧ mask.toNat ≤ 7 ∧ low.toList.length ≤ 3 ∧
    (low.toList.length = mask.countUpTo 3 ↔ cm.toNat < 2 ^ (d.val + 1)) ∧
    (∀ l : Fin 3, l ≤ d → mask.countUpTo l < low.toList.length ∧
      cm.hashIndex (low.toList.getD (mask.countUpTo l) 0) = cm.hashIndex l) ∧
    mask.getLsbD d = true ∧ (∀ i : Fin 8, i.val ≠ d.val → mask.getLsbD i = cm.getLsbD i) := by decide +kernel
  have h := key ⟨cm.toNat, hm⟩ ⟨d, by omega⟩
  simp only [BitVec.ofNat_toNat, BitVec.setWidth_eq] at h
  obtain ⟨h1, h2, h3, h4, h5, h7, h6⟩ := h
  refine ⟨h1, h2, h3, h4, fun l hl => h5 ⟨l, by omega⟩ hl, h7, fun i hi => ?_⟩
  by_cases h8 : i < 8
  · exact h6 ⟨i, h8⟩ hi
  · rw [BitVec.getLsbD_of_ge _ _ (by omega), BitVec.getLsbD_of_ge _ _ (by omega)]

/-! ### Cutting out equal-sized pieces -/

theorem flatten_seg (k : Nat) : ∀ (cs : List Bits) (rest : Bits) (i : Nat), (∀ x ∈ cs, x.length = k) → i < cs.length →
    ((cs.flatten ++ rest).drop (k * i)).take k = cs.getD i [] := by
  intro cs
  induction cs with
  | nil => intro rest i _ h; simp at h
  | cons c cs ih =>
    intro rest i h hi
    have hc := h c (by simp)
    cases i with
    | zero =>
      rw [List.flatten_cons, List.append_assoc, Nat.mul_zero, List.drop_zero, ← hc, List.take_left]
      rfl
    | succ i =>
      rw [List.flatten_cons, List.append_assoc, List.drop_append, List.drop_eq_nil_of_le (by rw [hc, Nat.mul_succ]; omega),
        List.nil_append, hc, show k * (i + 1) - k = k * i by rw [Nat.mul_succ]; omega, List.getD_cons_succ]
      exact ih rest i (fun x hx => h x (by simp [hx])) (by simpa using hi)

theorem flatten_length (k : Nat) : ∀ cs : List Bits, (∀ x ∈ cs, x.length = k) → cs.flatten.length = k * cs.length := by
  intro cs
  induction cs with
  | nil => intro _; rfl
  | cons c cs ih =>
    intro h
    rw [List.flatten_cons, List.length_append, h c (by simp), ih fun x hx => h x (by simp [hx]), List.length_cons, Nat.mul_succ]
    omega

theorem specStores_all : ∀ (ops : List DataBuilder.StoreOp) (s : Bits),
    s.length + (ops.map (·.expected)).flatten.length ≤ 1023 →
    (DataBuilder.specStores s ops).2 = s ++ (ops.map (·.expected)).flatten := by
  intro ops
  induction ops with
  | nil => intro s _; simp [DataBuilder.specStores]
  | cons op ops ih =>
    intro s h
    rw [List.map_cons, List.flatten_cons, List.length_append] at h
    unfold DataBuilder.specStores DataBuilder.specStore
    rw [if_pos (by omega)]
    dsimp only
    rw [ih _ (by rw [List.length_append]; omega)]
    simp

theorem natBits_append16 (a b : Byte) : natBits 16 (a ++ b).toNat = bytesToBits [a, b] := by
  apply natOfBits_inj
  · simp
  · rw [natOfBits_natBits, bytesToBits_cons, bytesToBits_singleton, natOfBits_append, natOfBits_wordBits, natOfBits_wordBits,
      BitVec.toNat_append, wordBits_length, ← Nat.shiftLeft_add_eq_or_of_lt b.isLt, Nat.shiftLeft_eq]
    have := a.isLt
    have := b.isLt
    omega

/-- The bits of the pruned branch of a view. -/
theorem prunedOps_bits {v : CellView} (hv : v.Ok) {d : Nat} (hd : d ≤ 2) :
    let mask := LevelMask.new (v.mask ||| (1#8 <<< d))
    let low := LevelMask.new (v.mask &&& ((1#8 <<< d) - 1))
    let bits := bytesToBits [1, mask] ++ ((low.toList.map fun l => bytesToBits (v.hash l)).flatten
      ++ (low.toList.map fun l => natBits 16 (v.depth l)).flatten)
    (DataBuilder.runStores DataBuilder.new (prunedOps v d)).2.WF ∧
    (DataBuilder.runStores DataBuilder.new (prunedOps v d)).2.bits = bits ∧ bits.length = 16 + 272 * low.toList.length := by
  intro mask low bits
  obtain ⟨_, _, h3, _⟩ := pruned_masks hv.mask hd
  have hval : ∀ op ∈ prunedOps v d, op.Valid := by
    intro op hop
    unfold prunedOps at hop
    dsimp only at hop
    simp only [List.mem_append, List.mem_cons, List.not_mem_nil, or_false, List.mem_map] at hop
    rcases hop with (rfl | ⟨l, _, rfl⟩) | ⟨l, _, rfl⟩
    · trivial
    · exact hv.len l
    · trivial
  have hexp : ((prunedOps v d).map (·.expected)).flatten = bits := by
    unfold prunedOps
    dsimp only
    simp only [List.map_append, List.flatten_append, List.map_cons, List.map_nil, List.flatten_cons, List.flatten_nil,
      List.append_nil, List.map_map]
    show _ = bytesToBits [1, mask] ++ (_ ++ _)
    rw [List.append_assoc]
    congr 1
    · exact natBits_append16 _ _
    · congr 1
      congr 1
      apply List.map_congr_left
      intro l _
      show natBits 16 (BitVec.ofNat 16 (v.depth l)).toNat = natBits 16 (v.depth l)
      rw [BitVec.toNat_ofNat, Nat.mod_eq_of_lt (hv.depth l)]
  have hlen : bits.length = 16 + 272 * low.toList.length := by
    show (bytesToBits [1, mask] ++ (_ ++ _)).length = _
    rw [List.length_append, List.length_append, flatten_length 256, flatten_length 16, bytesToBits_length, List.length_map, List.length_map]
    · simp only [List.length_cons, List.length_nil]; omega
    · intro x hx
      obtain ⟨l, _, rfl⟩ := List.mem_map.mp hx
      simp
    · intro x hx
      obtain ⟨l, _, rfl⟩ := List.mem_map.mp hx
      rw [bytesToBits_length, hv.len]
  have hh := DataBuilder.C01_store_history (prunedOps v d) hval DataBuilder.wf_new
  have e : DataBuilder.new.bits = [] := rfl
  rw [e] at hh
  refine ⟨hh.2.2, ?_, hlen⟩
  have h3 : low.toList.length ≤ 3 := h3
  rw [hh.2.1, specStores_all _ _ (by rw [hexp, hlen]; simp; omega), hexp]
  rfl

theorem CellB.wf_leaf {i : DataBuilder} (h : i.WF) :
    CellB.WF { inner := i, refs := ([] : List CCell), exotic := true } := ⟨h, Nat.zero_le _⟩

theorem orMasks_agree (i : Nat) : ∀ (a b : List LevelMask), a.length = b.length →
    (∀ k (h1 : k < a.length) (h2 : k < b.length), a[k].getLsbD i = b[k].getLsbD i) →
    (orMasks a).getLsbD i = (orMasks b).getLsbD i := by
  intro a
  induction a with
  | nil => intro b h _; cases b with
    | nil => rfl
    | cons _ _ => simp at h
  | cons x a ih =>
    intro b h hk
    cases b with
    | nil => simp at h
    | cons y b =>
      have h0 : x.getLsbD i = y.getLsbD i := hk 0 (by simp) (by simp)
      rw [orMasks, orMasks, BitVec.getLsbD_or, BitVec.getLsbD_or, h0]
      congr 1
      exact ih b (by simpa using h) fun k h1 h2 => hk (k + 1) (by simp; omega) (by simp; omega)

end Verif
