import Verif.CellProps
/-
C12: equal representation hashes mean equal trees, or a collision between representations inside the two trees.
-/
set_option linter.unusedVariables false
set_option linter.unusedSimpArgs false
namespace Verif

/-- The bytes hashed for a node: descriptor bytes, payload, children's depths, children's hashes. -/
def reprBytes (mask : LevelMask) (exotic : Bool) (bitLen : Nat) (payload : List Byte) (depths : List Nat)
    (hashes : List Hash) : List Byte :=
  [CellDescriptor.computeD1 mask exotic depths.length, CellDescriptor.computeD2 bitLen] ++ payload
    ++ depths.flatMap u16be ++ hashes.flatten

/-- The bytes hashed at the highest significant level up to `l`, for a node that is not a pruned branch. -/
def levelPre (H : Hasher) (mask : LevelMask) (exotic : Bool) (bits : Bits) (off : Nat) (ch : List Info) : Nat → List Byte
  | 0 => reprBytes 0 exotic bits.length (bytesOfBits (tagged bits)) (ch.map (·.depth off)) (ch.map (·.hash off))
  | l + 1 =>
    if mask.getLsbD l then
      reprBytes (LevelMask.fromLevel (l + 1)) exotic bits.length (levelHash H mask exotic bits off ch l)
        (ch.map (·.depth (l + 1 + off))) (ch.map (·.hash (l + 1 + off)))
    else levelPre H mask exotic bits off ch l

/-- Children are looked at one level higher under a Merkle cell. -/
def offOf (exotic : Bool) (bits : Bits) : Nat :=
  match typeOf exotic bits with
  | some ty => if ty.isMerkle then 1 else 0
  | none => 0

/-- The representation of a cell at level `l`: the bytes whose hash the cell shows at that level (for a pruned branch: at
its top level). -/
def Cell.pre (H : Hasher) : Cell → Nat → List Byte
  | .mk e b rs, l =>
    let ch := Cell.infoList H rs
    let m := (nodeInfo H e b ch).mask
    if typeOf e b = some .prunedBranch then reprBytes m e b.length (bytesOfBits (tagged b)) [] []
    else levelPre H m e b (offOf e b) ch l

/-- The representation hash. -/
def Cell.reprHash (H : Hasher) (t : Cell) : Hash := (t.info H).hash 3

/-- `a` is `t` or a cell below it. -/
inductive Cell.Sub : Cell → Cell → Prop
  | refl (t) : Cell.Sub t t
  | child {a r t : Cell} (h : r ∈ t.refs) (s : Cell.Sub a r) : Cell.Sub a t

/-- Two different representations, one of a cell in `s` and one of a cell in `t`, with the same hash. -/
def Collision (H : Hasher) (s t : Cell) : Prop :=
  ∃ a b i j, Cell.Sub a s ∧ Cell.Sub b t ∧ a.pre H i ≠ b.pre H j ∧ H.sha (a.pre H i) = H.sha (b.pre H j)

theorem Cell.ind {P : Cell → Prop} (h : ∀ e b rs, (∀ r ∈ rs, P r) → P (.mk e b rs)) : ∀ c, P c
  | .mk e b rs => h e b rs (fun r hr => Cell.ind h r)
termination_by c => sizeOf c
decreasing_by
  have := List.sizeOf_lt_of_mem hr
  simp only [Cell.mk.sizeOf_spec]
  omega

theorem levelHash_sha (H : Hasher) (m : LevelMask) (e : Bool) (b : Bits) (off : Nat) (ch : List Info) (l : Nat) :
    levelHash H m e b off ch l = H.sha (levelPre H m e b off ch l) := by
  induction l with
  | zero => rfl
  | succ l ih =>
    rw [levelHash, levelPre]
    split
    · rfl
    · exact ih

theorem levelHash_len (H : Hasher) (m : LevelMask) (e : Bool) (b : Bits) (off : Nat) (ch : List Info) (l : Nat) :
    (levelHash H m e b off ch l).length = 32 := by rw [levelHash_sha, H.len]

/-- A node that is not a pruned branch, in uniform terms. -/
theorem nodeInfo_plain {H : Hasher} {e : Bool} {b : Bits} {ch : List Info} {ty : CellType} (ht : typeOf e b = some ty)
    (hp : ty ≠ .prunedBranch) :
    nodeInfo H e b ch = ⟨(nodeInfo H e b ch).mask, levelHash H (nodeInfo H e b ch).mask e b (offOf e b) ch,
      levelDepth (nodeInfo H e b ch).mask (offOf e b) ch⟩ := by
  unfold nodeInfo offOf
  rw [ht]
  cases ty <;> first | exact absurd rfl hp | rfl

/-- Hashes have 32 bytes at every level. -/
theorem Cell.info_hash_len (H : Hasher) (t : Cell) (hw : t.WF H) (l : Nat) : ((t.info H).hash l).length = 32 := by
  obtain ⟨e, b, rs⟩ := t
  unfold Cell.WF at hw
  obtain ⟨⟨ty, ht, hs, _⟩, _⟩ := hw
  show ((nodeInfo H e b (Cell.infoList H rs)).hash l).length = 32
  by_cases hp : ty = .prunedBranch
  · subst hp
    unfold nodeInfo
    rw [ht]
    dsimp only
    split
    · exact H.len _
    · rename_i hne
      unfold shape at hs
      dsimp only at hs
      split at hs
      · rename_i g
        rw [bytesOfBits_length, List.length_take, List.length_drop, g.2.2.1]
        have hlt : (BitVec.ofNat 8 (byteAt b 1)).toNat < 8 := by simp; omega
        have : LevelMask.countUpTo (BitVec.ofNat 8 (byteAt b 1)) l < LevelMask.countUpTo (BitVec.ofNat 8 (byteAt b 1)) 3 := by
          refine Nat.lt_of_le_of_ne ?_ hne
          by_cases h : l ≤ 3
          · exact CellParts.countUpTo_mono _ h
          · rw [show l = 3 + (l - 3) by omega, LevelMask.countUpTo_ge hlt]; exact Nat.le_refl _
        omega
      · exact absurd rfl hs
  · rw [nodeInfo_plain ht hp]
    exact levelHash_len _ _ _ _ _ _ _

/-- The mask of a well-formed tree fits three bits. -/
theorem Cell.info_mask_lt (H : Hasher) : ∀ t : Cell, t.WF H → (t.info H).mask.toNat < 8 := by
  intro t
  induction t using Cell.ind with
  | h e b rs ih =>
    intro hw
    unfold Cell.WF at hw
    obtain ⟨⟨ty, ht, hs, _⟩, hw⟩ := hw
    rw [Cell.WFList_iff] at hw
    obtain ⟨m, hm⟩ := Option.ne_none_iff_exists'.mp hs
    show (nodeInfo H e b (Cell.infoList H rs)).mask.toNat < 8
    rw [nodeInfo_mask ht hm]
    have hor : (orMasks ((Cell.infoList H rs).map (·.mask))).toNat < 8 := by
      refine orMasks_lt fun x hx => ?_
      rw [Cell.infoList_eq, List.map_map] at hx
      obtain ⟨r, hr, rfl⟩ := List.mem_map.mp hx
      exact ih r hr (hw r hr)
    unfold shape at hm
    cases ty <;> dsimp only at hm <;> split at hm <;> simp only [Option.some.injEq, reduceCtorEq] at hm <;> subst hm
    · exact hor
    · simp; omega
    · decide
    · exact LevelMask.shift_lt hor 1
    · exact LevelMask.shift_lt hor 1

/-- From a level above all significant ones on, the hash does not change. -/
theorem Cell.info_stable (H : Hasher) (t : Cell) (hw : t.WF H) {l : Nat} (h : ∀ i, l ≤ i → (t.info H).mask.getLsbD i = false) :
    ∀ k, l ≤ k → (t.info H).hash k = (t.info H).hash l ∧ (t.info H).depth k = (t.info H).depth l := by
  intro k hk
  obtain ⟨d, rfl⟩ : ∃ d, k = l + d := ⟨k - l, by omega⟩
  clear hk
  obtain ⟨e, b, rs⟩ := t
  unfold Cell.WF at hw
  obtain ⟨⟨ty, ht, hs, _⟩, _⟩ := hw
  show (nodeInfo H e b (Cell.infoList H rs)).hash _ = (nodeInfo H e b (Cell.infoList H rs)).hash _ ∧
    (nodeInfo H e b (Cell.infoList H rs)).depth _ = (nodeInfo H e b (Cell.infoList H rs)).depth _
  replace h : ∀ i, l ≤ i → (nodeInfo H e b (Cell.infoList H rs)).mask.getLsbD i = false := h
  by_cases hp : ty = .prunedBranch
  · subst hp
    have hm : (nodeInfo H e b (Cell.infoList H rs)).mask = BitVec.ofNat 8 (byteAt b 1) := by unfold nodeInfo; rw [ht]
    rw [hm] at h
    have hc : LevelMask.countUpTo (BitVec.ofNat 8 (byteAt b 1)) (l + d) = LevelMask.countUpTo (BitVec.ofNat 8 (byteAt b 1)) l := by
      induction d with
      | zero => rfl
      | succ d ih => rw [← Nat.add_assoc, LevelMask.countUpTo, h _ (by omega), ih]; rfl
    unfold nodeInfo
    rw [ht]
    dsimp only
    rw [hc]
    exact ⟨rfl, rfl⟩
  · rw [nodeInfo_plain ht hp]
    generalize (nodeInfo H e b (Cell.infoList H rs)).mask = m at h
    dsimp only
    induction d with
    | zero => exact ⟨rfl, rfl⟩
    | succ d ih =>
      rw [← Nat.add_assoc, levelHash, levelDepth, h _ (by omega)]
      exact ih

theorem Cell.hash_pre (H : Hasher) (t : Cell) (hw : t.WF H) : (t.info H).hash 3 = H.sha (t.pre H 3) := by
  obtain ⟨e, b, rs⟩ := t
  unfold Cell.WF at hw
  obtain ⟨⟨ty, ht, hs, _⟩, _⟩ := hw
  show (nodeInfo H e b (Cell.infoList H rs)).hash 3 = _
  unfold Cell.pre
  dsimp only
  by_cases hp : ty = .prunedBranch
  · subst hp
    rw [if_pos ht]
    unfold nodeInfo
    rw [ht]
    dsimp only
    rw [if_pos rfl]
    rfl
  · rw [if_neg (by rw [ht]; simp [hp]), nodeInfo_plain ht hp]
    exact levelHash_sha _ _ _ _ _ _ _

/-! ### Decoding a representation -/

theorem flatten_inj : ∀ {a b : List Hash}, a.length = b.length → (∀ x ∈ a, x.length = 32) → (∀ x ∈ b, x.length = 32) →
    a.flatten = b.flatten → a = b := by
  intro a
  induction a with
  | nil => intro b h _ _ _; cases b with
    | nil => rfl
    | cons _ _ => simp at h
  | cons x a ih =>
    intro b h hx hy he
    cases b with
    | nil => simp at h
    | cons y b =>
      simp only [List.flatten_cons] at he
      have hl : x.length = y.length := by rw [hx x (by simp), hy y (by simp)]
      obtain ⟨h1, h2⟩ := List.append_inj he hl
      rw [h1, ih (by simpa using h) (fun z hz => hx z (by simp [hz])) (fun z hz => hy z (by simp [hz])) h2]

theorem flatMap_u16_length (l : List Nat) : (l.flatMap u16be).length = 2 * l.length := by
  induction l with
  | nil => rfl
  | cons x l ih => rw [List.flatMap_cons, List.length_append, ih]; simp [u16be]; omega

theorem computeD1_inj {m m' : LevelMask} (hm : m.toNat < 8) (hm' : m'.toNat < 8) {e e' : Bool} {r r' : Nat}
    (hr : r ≤ 4) (hr' : r' ≤ 4) (h : CellDescriptor.computeD1 m e r = CellDescriptor.computeD1 m' e' r') :
    m = m' ∧ e = e' ∧ r = r' := by
  obtain ⟨a1, a2, a3, _⟩ := C07_d1 m hm e r (by omega) 0
  obtain ⟨b1, b2, b3, _⟩ := C07_d1 m' hm' e' r' (by omega) 0
  rw [h] at a1 a2 a3
  exact ⟨a1.symm.trans b1, a2.symm.trans b2, a3.symm.trans b3⟩

theorem reprBytes_inj {m m' : LevelMask} {e e' : Bool} {n n' : Nat} {p p' : List Byte} {ds ds' : List Nat} {hs hs' : List Hash}
    (hm : m.toNat < 8) (hm' : m'.toNat < 8) (hl : ds.length = hs.length) (hl' : ds'.length = hs'.length)
    (hr : ds.length ≤ 4) (hr' : ds'.length ≤ 4) (h32 : ∀ x ∈ hs, x.length = 32) (h32' : ∀ x ∈ hs', x.length = 32)
    (h : reprBytes m e n p ds hs = reprBytes m' e' n' p' ds' hs') :
    m = m' ∧ e = e' ∧ ds.length = ds'.length ∧ CellDescriptor.computeD2 n = CellDescriptor.computeD2 n' ∧
    p = p' ∧ hs = hs' := by
  unfold reprBytes at h
  simp only [List.cons_append, List.nil_append, List.cons.injEq] at h
  obtain ⟨h1, h2, h3⟩ := h
  obtain ⟨e1, e2, e3⟩ := computeD1_inj hm hm' hr hr' h1
  have f : ∀ (l : List Hash), (∀ x ∈ l, x.length = 32) → l.flatten.length = 32 * l.length := by
    intro l
    induction l with
    | nil => intro _; rfl
    | cons x l ih =>
      intro hx
      rw [List.flatten_cons, List.length_append, hx x (by simp), ih fun z hz => hx z (by simp [hz])]
      simp; omega
  have hlen := congrArg List.length h3
  simp only [List.length_append, flatMap_u16_length, f hs h32, f hs' h32'] at hlen
  have hp : p.length = p'.length := by omega
  rw [List.append_assoc, List.append_assoc] at h3
  obtain ⟨g1, g2⟩ := List.append_inj h3 hp
  obtain ⟨g3, g4⟩ := List.append_inj g2 (by rw [flatMap_u16_length, flatMap_u16_length, e3])
  exact ⟨e1, e2, e3, h2, g1, flatten_inj (by omega) h32 h32' g4⟩

/-- Padded bytes and the second descriptor byte determine the bits. -/
theorem tagged_inj {a b : Bits} (ha : a.length ≤ 1023) (hb : b.length ≤ 1023)
    (h2 : CellDescriptor.computeD2 a.length = CellDescriptor.computeD2 b.length)
    (h : bytesOfBits (tagged a) = bytesOfBits (tagged b)) : a = b := by
  obtain ⟨wa, ea⟩ := builderOf_wf false a [] ha (by simp)
  obtain ⟨wb, eb⟩ := builderOf_wf false b [] hb (by simp)
  have fa := (DataBuilder.finish_spec wa.inner).2
  have fb := (DataBuilder.finish_spec wb.inner).2
  rw [ea] at fa
  rw [eb] at fb
  have := C09_unique wa.inner wb.inner h2 (by
    rw [← bytesOfBits_bytesToBits (DataBuilder.finish _), fa, h, ← fb, bytesOfBits_bytesToBits])
  rw [ea, eb] at this
  exact this

/-! ### The top significant level -/

theorem top_level {m : LevelMask} (hm : m.toNat < 8) (H : Hasher) (e : Bool) (b : Bits) (off : Nat) (ch : List Info) :
    ∃ k, k ≤ 3 ∧ (∀ i, k ≤ i → m.getLsbD i = false) ∧
      levelPre H m e b off ch 3 = reprBytes (LevelMask.fromLevel k) e b.length
        (if k = 0 then bytesOfBits (tagged b) else levelHash H m e b off ch (k - 1))
        (ch.map (·.depth (k + off))) (ch.map (·.hash (k + off))) := by
  by_cases h2 : m.getLsbD 2 = true
  · refine ⟨3, by omega, fun i hi => LevelMask.getLsbD_ge hm hi, ?_⟩
    rw [levelPre, if_pos h2]; rfl
  · have h2 : m.getLsbD 2 = false := by simpa using h2
    by_cases h1 : m.getLsbD 1 = true
    · refine ⟨2, by omega, fun i hi => ?_, ?_⟩
      · by_cases e : i = 2
        · rw [e]; exact h2
        · exact LevelMask.getLsbD_ge hm (by omega)
      · rw [levelPre, h2, if_neg (by simp), levelPre, if_pos h1]; rfl
    · have h1 : m.getLsbD 1 = false := by simpa using h1
      by_cases h0 : m.getLsbD 0 = true
      · refine ⟨1, by omega, fun i hi => ?_, ?_⟩
        · by_cases e : i = 2
          · rw [e]; exact h2
          · by_cases e : i = 1
            · rw [e]; exact h1
            · exact LevelMask.getLsbD_ge hm (by omega)
        · rw [levelPre, h2, if_neg (by simp), levelPre, h1, if_neg (by simp), levelPre, if_pos h0]; rfl
      · have h0 : m.getLsbD 0 = false := by simpa using h0
        refine ⟨0, by omega, fun i hi => ?_, ?_⟩
        · by_cases e : i = 2
          · rw [e]; exact h2
          · by_cases e : i = 1
            · rw [e]; exact h1
            · by_cases e : i = 0
              · rw [e]; exact h0
              · exact LevelMask.getLsbD_ge hm (by omega)
        · rw [levelPre, h2, if_neg (by simp), levelPre, h1, if_neg (by simp), levelPre, h0, if_neg (by simp), levelPre]
          simp [LevelMask.fromLevel]

theorem fromLevel_inj {a b : Nat} (ha : a ≤ 3) (hb : b ≤ 3) (h : LevelMask.fromLevel a = LevelMask.fromLevel b) : a = b := by
  have key : ∀ a b : Fin 4, LevelMask.fromLevel a = LevelMask.fromLevel b → a = b := by decide +kernel
  exact congrArg Fin.val (key ⟨a, by omega⟩ ⟨b, by omega⟩ h)

theorem orMasks_bit {l : List LevelMask} {i : Nat} (h : (orMasks l).getLsbD i = false) : ∀ m ∈ l, m.getLsbD i = false := by
  induction l with
  | nil => intro m hm; cases hm
  | cons a l ih =>
    rw [orMasks, BitVec.getLsbD_or, Bool.or_eq_false_iff] at h
    intro m hm
    rcases List.mem_cons.mp hm with rfl | hm
    · exact h.1
    · exact ih h.2 m hm

/-- Everything known about a well-formed node that is not a pruned branch. -/
theorem plain_node {H : Hasher} {e : Bool} {b : Bits} {rs : List Cell} (hw : (Cell.mk e b rs).WF H)
    (hp : typeOf e b ≠ some .prunedBranch) :
    offOf e b = (if e = true ∧ rs ≠ [] then 1 else 0) ∧ rs.length ≤ 4 ∧ b.length ≤ 1023 ∧ (∀ r ∈ rs, r.WF H) ∧
    (e = true → rs = [] → (nodeInfo H e b (Cell.infoList H rs)).mask = 0) ∧
    (∀ k, (∀ i, k ≤ i → (nodeInfo H e b (Cell.infoList H rs)).mask.getLsbD i = false) →
      ∀ r ∈ rs, (r.info H).hash (k + offOf e b) = r.reprHash H) := by
  have hw0 := hw
  unfold Cell.WF at hw
  obtain ⟨⟨ty, ht, hs, _⟩, hw⟩ := hw
  rw [Cell.WFList_iff] at hw
  obtain ⟨m, hm⟩ := Option.ne_none_iff_exists'.mp hs
  have hp' : ty ≠ .prunedBranch := fun h => hp (by rw [ht, h])
  have hmask := nodeInfo_mask (H := H) ht hm
  have hil : (Cell.infoList H rs).length = rs.length := by rw [Cell.infoList_eq]; simp
  have hstab : ∀ l, (∀ i, l ≤ i → (orMasks ((Cell.infoList H rs).map (·.mask))).getLsbD i = false) →
      ∀ r ∈ rs, (r.info H).hash l = r.reprHash H := by
    intro l hl r hr
    have hmem : (r.info H).mask ∈ (Cell.infoList H rs).map (·.mask) := by
      rw [Cell.infoList_eq, List.map_map]
      exact List.mem_map.mpr ⟨r, hr, rfl⟩
    have hb : ∀ i, l ≤ i → (r.info H).mask.getLsbD i = false := fun i hi => orMasks_bit (hl i hi) _ hmem
    unfold Cell.reprHash
    by_cases h3 : l ≤ 3
    · exact ((Cell.info_stable H r (hw r hr) hb 3 h3).1).symm
    · exact (Cell.info_stable H r (hw r hr) (l := 3)
        (fun i hi => LevelMask.getLsbD_ge (Cell.info_mask_lt H r (hw r hr)) hi) l (by omega)).1
  have hoff : offOf e b = if ty.isMerkle then 1 else 0 := by unfold offOf; rw [ht]
  rw [hmask]
  unfold shape at hm
  unfold typeOf at ht
  cases ty with
  | prunedBranch => exact absurd rfl hp'
  | ordinary =>
    dsimp only at hm
    split at hm
    · rename_i g
      rw [List.length_map, hil] at g
      simp only [Option.some.injEq] at hm
      have he : e = false := by
        cases e with
        | false => rfl
        | true =>
          simp only [if_true] at ht
          split at ht
          · cases ht
          · exact absurd ht (exoticTypeOf_ne _)
      subst he
      refine ⟨by rw [hoff]; simp [CellType.isMerkle], g.2, g.1, hw, fun h => by simp at h, ?_⟩
      intro k hk r hr
      rw [hoff]
      simp only [CellType.isMerkle, Bool.false_eq_true, if_false, Nat.add_zero]
      exact hstab k (by rw [hm]; exact hk) r hr
    · cases hm
  | libraryReference =>
    dsimp only at hm
    split at hm
    · rename_i g
      have hnil : rs = [] := by
        have h1 := g.2
        rw [List.map_eq_nil_iff] at h1
        rw [h1] at hil
        exact List.eq_nil_of_length_eq_zero hil.symm
      simp only [Option.some.injEq] at hm
      refine ⟨by rw [hoff, hnil]; simp [CellType.isMerkle], by rw [hnil]; simp, by omega, hw, fun _ _ => hm.symm, ?_⟩
      intro k _ r hr
      rw [hnil] at hr; cases hr
    · cases hm
  | merkleProof =>
    dsimp only at hm
    split at hm
    · rename_i g
      rw [List.length_map, hil] at g
      simp only [Option.some.injEq] at hm
      have hne : rs ≠ [] := by intro h; rw [h] at g; simp at g
      have he : e = true := by cases e with
        | true => rfl
        | false => simp at ht
      refine ⟨by rw [hoff]; simp [CellType.isMerkle, he, hne], by omega, by omega, hw, fun _ h => absurd h hne, ?_⟩
      intro k hk r hr
      rw [hoff]
      simp only [CellType.isMerkle, if_true]
      refine hstab (k + 1) (fun i hi => ?_) r hr
      have := hk (i - 1) (by omega)
      rw [← hm, BitVec.getLsbD_ushiftRight, show 1 + (i - 1) = i by omega] at this
      exact this
    · cases hm
  | merkleUpdate =>
    dsimp only at hm
    split at hm
    · rename_i g
      rw [List.length_map, hil] at g
      simp only [Option.some.injEq] at hm
      have hne : rs ≠ [] := by intro h; rw [h] at g; simp at g
      have he : e = true := by cases e with
        | true => rfl
        | false => simp at ht
      refine ⟨by rw [hoff]; simp [CellType.isMerkle, he, hne], by omega, by omega, hw, fun _ h => absurd h hne, ?_⟩
      intro k hk r hr
      rw [hoff]
      simp only [CellType.isMerkle, if_true]
      refine hstab (k + 1) (fun i hi => ?_) r hr
      have := hk (i - 1) (by omega)
      rw [← hm, BitVec.getLsbD_ushiftRight, show 1 + (i - 1) = i by omega] at this
      exact this
    · cases hm

/-- Facts about a well-formed pruned branch. -/
theorem pruned_node {H : Hasher} {e : Bool} {b : Bits} {rs : List Cell} (hw : (Cell.mk e b rs).WF H)
    (hp : typeOf e b = some .prunedBranch) :
    e = true ∧ rs = [] ∧ b.length ≤ 1023 ∧ (nodeInfo H e b (Cell.infoList H rs)).mask ≠ 0 := by
  have hlt := Cell.info_mask_lt H _ hw
  unfold Cell.WF at hw
  obtain ⟨⟨ty, ht, hs, _⟩, hw⟩ := hw
  rw [hp] at ht
  simp only [Option.some.injEq] at ht
  subst ht
  obtain ⟨m, hm⟩ := Option.ne_none_iff_exists'.mp hs
  have hmask := nodeInfo_mask (H := H) hp hm
  have hil : (Cell.infoList H rs).length = rs.length := by rw [Cell.infoList_eq]; simp
  have hlt : m.toNat < 8 := by rw [← hmask]; exact hlt
  unfold shape at hm
  dsimp only at hm
  split at hm
  · rename_i g
    simp only [Option.some.injEq] at hm
    refine ⟨?_, ?_, ?_, ?_⟩
    · unfold typeOf at hp
      cases e with
      | true => rfl
      | false => simp at hp
    · have h1 := g.2.2.2
      rw [List.map_eq_nil_iff] at h1
      rw [h1] at hil
      exact List.eq_nil_of_length_eq_zero hil.symm
    · rw [g.2.2.1, hm]
      have : m.countUpTo 3 ≤ 3 := LevelMask.all_lt (P := fun m => m.countUpTo 3 ≤ 3) (by decide +kernel) hlt
      omega
    · rw [hmask, ← hm]
      intro e0
      have := congrArg BitVec.toNat e0
      simp at this
      omega
  · cases hm

theorem descend {H : Hasher} {m : LevelMask} {e : Bool} {b b' : Bits} {off : Nat} {ch : List Info} (hb : b.length ≤ 1023)
    (hb' : b'.length ≤ 1023) (hc : ch.length ≤ 4) (h32 : ∀ i ∈ ch, ∀ l, (i.hash l).length = 32)
    (h2 : CellDescriptor.computeD2 b.length = CellDescriptor.computeD2 b'.length) : ∀ j,
    levelHash H m e b off ch j = levelHash H m e b' off ch j →
    b = b' ∨ ∃ i, levelPre H m e b off ch i ≠ levelPre H m e b' off ch i ∧
      H.sha (levelPre H m e b off ch i) = H.sha (levelPre H m e b' off ch i) := by
  have h32' : ∀ l, ∀ x ∈ ch.map (·.hash l), x.length = 32 := by
    intro l x hx
    obtain ⟨i, hi, rfl⟩ := List.mem_map.mp hx
    exact h32 i hi l
  intro j
  induction j with
  | zero =>
    intro h
    by_cases hp : levelPre H m e b off ch 0 = levelPre H m e b' off ch 0
    · left
      rw [levelPre, levelPre] at hp
      obtain ⟨_, _, _, _, g, _⟩ := reprBytes_inj (by decide) (by decide) (by simp) (by simp) (by simpa) (by simpa)
        (h32' _) (h32' _) hp
      exact tagged_inj hb hb' h2 g
    · right
      exact ⟨0, hp, by rw [← levelHash_sha, ← levelHash_sha, h]⟩
  | succ j ih =>
    intro h
    by_cases hp : levelPre H m e b off ch (j + 1) = levelPre H m e b' off ch (j + 1)
    · by_cases hs : m.getLsbD j = true
      · rw [levelPre, levelPre, if_pos hs, if_pos hs] at hp
        obtain ⟨_, _, _, _, g, _⟩ := reprBytes_inj (LevelMask.fromLevel_lt _) (LevelMask.fromLevel_lt _) (by simp) (by simp)
          (by simpa) (by simpa) (h32' _) (h32' _) hp
        exact ih g
      · rw [levelHash, levelHash, if_neg hs, if_neg hs] at h
        exact ih h
    · right
      exact ⟨j + 1, hp, by rw [← levelHash_sha, ← levelHash_sha, h]⟩

/-! ### C12 -/

/-- C12: two well-formed trees with equal representation hashes are the same tree, or the hash function collides on
two representations of cells inside them. -/
theorem C12_repr_hash (H : Hasher) : ∀ s t : Cell, s.WF H → t.WF H → s.reprHash H = t.reprHash H → s = t ∨ Collision H s t := by
  intro s
  induction s using Cell.ind with
  | h e b rs ih =>
    intro t hs ht heq
    obtain ⟨e', b', rs'⟩ := t
    unfold Cell.reprHash at heq
    rw [Cell.hash_pre H _ hs, Cell.hash_pre H _ ht] at heq
    by_cases hpre : (Cell.mk e b rs).pre H 3 = (Cell.mk e' b' rs').pre H 3
    case neg => exact Or.inr ⟨_, _, 3, 3, .refl _, .refl _, hpre, heq⟩
    have hml := Cell.info_mask_lt H _ hs
    have hml' := Cell.info_mask_lt H _ ht
    have hch : ∀ rs : List Cell, (Cell.infoList H rs).length = rs.length := by intro rs; rw [Cell.infoList_eq]; simp
    have h32 : ∀ rs : List Cell, (∀ r ∈ rs, r.WF H) → ∀ l, ∀ x ∈ (Cell.infoList H rs).map (·.hash l), x.length = 32 := by
      intro rs hw l x hx
      rw [Cell.infoList_eq, List.map_map] at hx
      obtain ⟨r, hr, rfl⟩ := List.mem_map.mp hx
      exact Cell.info_hash_len H r (hw r hr) l
    unfold Cell.pre at hpre
    dsimp only at hpre
    by_cases hp : typeOf e b = some .prunedBranch
    · obtain ⟨he, hn, hl, hm0⟩ := pruned_node hs hp
      rw [if_pos hp] at hpre
      by_cases hp' : typeOf e' b' = some .prunedBranch
      · obtain ⟨he', hn', hl', _⟩ := pruned_node ht hp'
        rw [if_pos hp'] at hpre
        obtain ⟨_, _, _, g4, g5, _⟩ := reprBytes_inj hml hml' (by simp) (by simp) (by simp) (by simp) (by simp) (by simp) hpre
        left
        rw [he, he', hn, hn', tagged_inj hl hl' g4 g5]
      · exfalso
        obtain ⟨p1, p2, p3, p4, p5, _⟩ := plain_node ht hp'
        rw [if_neg hp'] at hpre
        obtain ⟨k, hk, _, hk2⟩ := top_level hml' H e' b' (offOf e' b') (Cell.infoList H rs')
        replace hk2 : levelPre H (nodeInfo H e' b' (Cell.infoList H rs')).mask e' b' (offOf e' b') (Cell.infoList H rs') 3 = _ := hk2
        rw [hk2] at hpre
        obtain ⟨g1, g2, g3, _, _, _⟩ := reprBytes_inj hml (LevelMask.fromLevel_lt _) (by simp) (by simp) (by simp)
          (by rw [List.length_map, hch]; exact p2) (by simp) (h32 rs' p4 _) hpre
        rw [List.length_map, hch] at g3
        have hnil : rs' = [] := List.eq_nil_of_length_eq_zero (by simpa using g3.symm)
        have hm0' := p5 (by rw [← g2, he]) hnil
        have hk0 : k = 0 := by
          have hk2' := hk2
          rw [hm0'] at hk2'
          rw [levelPre, if_neg (by simp), levelPre, if_neg (by simp), levelPre, if_neg (by simp), levelPre] at hk2'
          have := (reprBytes_inj (by decide) (LevelMask.fromLevel_lt _) (by simp) (by simp)
            (by rw [List.length_map, hch]; exact p2) (by rw [List.length_map, hch]; exact p2) (h32 rs' p4 _) (h32 rs' p4 _) hk2').1
          exact (fromLevel_inj (by omega) hk (a := 0) (b := k) this).symm
        rw [hk0] at g1
        exact hm0 g1
    · obtain ⟨p1, p2, p3, p4, p5, p6⟩ := plain_node hs hp
      rw [if_neg hp] at hpre
      obtain ⟨k, hk, hk1, hk2⟩ := top_level hml H e b (offOf e b) (Cell.infoList H rs)
      replace hk2 : levelPre H (nodeInfo H e b (Cell.infoList H rs)).mask e b (offOf e b) (Cell.infoList H rs) 3 = _ := hk2
      by_cases hp' : typeOf e' b' = some .prunedBranch
      · exfalso
        obtain ⟨he', hn', hl', hm0⟩ := pruned_node ht hp'
        rw [if_pos hp'] at hpre
        rw [hk2] at hpre
        obtain ⟨g1, g2, g3, _, _, _⟩ := reprBytes_inj (LevelMask.fromLevel_lt _) hml' (by simp) (by simp)
          (by rw [List.length_map, hch]; exact p2) (by simp) (h32 rs p4 _) (by simp) hpre
        rw [List.length_map, hch] at g3
        have hnil : rs = [] := List.eq_nil_of_length_eq_zero (by simpa using g3)
        have hm0' := p5 (by rw [g2, he']) hnil
        have hk0 : k = 0 := by
          have hk2' := hk2
          rw [hm0'] at hk2'
          rw [levelPre, if_neg (by simp), levelPre, if_neg (by simp), levelPre, if_neg (by simp), levelPre] at hk2'
          have := (reprBytes_inj (by decide) (LevelMask.fromLevel_lt _) (by simp) (by simp)
            (by rw [List.length_map, hch]; exact p2) (by rw [List.length_map, hch]; exact p2) (h32 rs p4 _) (h32 rs p4 _) hk2').1
          exact (fromLevel_inj (by omega) hk (a := 0) (b := k) this).symm
        rw [hk0] at g1
        exact hm0 g1.symm
      · obtain ⟨q1, q2, q3, q4, q5, q6⟩ := plain_node ht hp'
        rw [if_neg hp'] at hpre
        obtain ⟨k', hk', hk1', hk2'⟩ := top_level hml' H e' b' (offOf e' b') (Cell.infoList H rs')
        replace hk2' : levelPre H (nodeInfo H e' b' (Cell.infoList H rs')).mask e' b' (offOf e' b') (Cell.infoList H rs') 3 = _ := hk2'
        rw [hk2, hk2'] at hpre
        obtain ⟨g1, g2, g3, g4, g5, g6⟩ := reprBytes_inj (LevelMask.fromLevel_lt _) (LevelMask.fromLevel_lt _) (by simp) (by simp)
          (by rw [List.length_map, hch]; exact p2) (by rw [List.length_map, hch]; exact q2) (h32 rs p4 _) (h32 rs' q4 _) hpre
        have hkk : k = k' := fromLevel_inj hk hk' g1
        subst hkk
        subst g2
        rw [List.length_map, List.length_map, hch, hch] at g3
        -- children
        have hchild : ∀ i (h1 : i < rs.length) (h2 : i < rs'.length), rs[i].reprHash H = rs'[i].reprHash H := by
          intro i h1 h2
          have a1 := p6 k hk1 rs[i] (List.getElem_mem h1)
          have a2 := q6 k hk1' rs'[i] (List.getElem_mem h2)
          have a3 : ((Cell.infoList H rs).map (·.hash (k + offOf e b)))[i]? = ((Cell.infoList H rs').map (·.hash (k + offOf e b')))[i]? := by
            rw [g6]
          rw [Cell.infoList_eq, Cell.infoList_eq, List.map_map, List.map_map, List.getElem?_map, List.getElem?_map,
            List.getElem?_eq_getElem h1, List.getElem?_eq_getElem h2] at a3
          simp only [Option.map_some, Option.some.injEq, Function.comp_apply] at a3
          rw [← a1, ← a2, a3]
        by_cases hall : ∀ i (h1 : i < rs.length) (h2 : i < rs'.length), rs[i] = rs'[i]
        · have hrs : rs = rs' := List.ext_getElem g3 hall
          subst hrs
          have hoff : offOf e b = offOf e b' := by rw [p1, q1]
          by_cases hk0 : k = 0
          · rw [if_pos hk0, if_pos hk0] at g5
            left
            rw [tagged_inj p3 q3 g4 g5]
          · rw [if_neg hk0, if_neg hk0] at g5
            -- the masks agree because the children do
            have hmm : (nodeInfo H e b (Cell.infoList H rs)).mask = (nodeInfo H e b' (Cell.infoList H rs)).mask := by
              have hmk : ∀ b : Bits, (Cell.mk e b rs).WF H → typeOf e b ≠ some .prunedBranch → (nodeInfo H e b (Cell.infoList H rs)).mask =
                  if rs = [] then (0 : LevelMask) else if e then orMasks ((Cell.infoList H rs).map (·.mask)) >>> 1
                  else orMasks ((Cell.infoList H rs).map (·.mask)) := by
                intro b hw hp
                unfold Cell.WF at hw
                obtain ⟨⟨ty, ht, hs, _⟩, _⟩ := hw
                obtain ⟨m, hm⟩ := Option.ne_none_iff_exists'.mp hs
                rw [nodeInfo_mask ht hm]
                have hp' : ty ≠ .prunedBranch := fun h => hp (by rw [ht, h])
                have hty : typeOf e b = some ty := ht
                unfold shape at hm
                unfold typeOf at ht
                have hex : e = true → ty ≠ .ordinary := by
                  intro he h
                  rw [he] at ht
                  simp only [if_true] at ht
                  split at ht
                  · cases ht
                  · exact absurd (h ▸ ht) (exoticTypeOf_ne _)
                have hne : e = false → ty = .ordinary := by
                  intro he
                  rw [he] at ht
                  simpa using ht.symm
                cases ty with
                | prunedBranch => exact absurd rfl hp'
                | ordinary =>
                  have he : e = false := by cases e with
                    | false => rfl
                    | true => exact absurd rfl (hex rfl)
                  dsimp only at hm
                  split at hm
                  · simp only [Option.some.injEq] at hm
                    rw [he, ← hm]
                    by_cases hn : rs = []
                    · rw [if_pos hn, hn]; rfl
                    · rw [if_neg hn]; rfl
                  · cases hm
                | libraryReference =>
                  dsimp only at hm
                  split at hm
                  · rename_i g
                    have hnil : rs = [] := by
                      have h1 := g.2
                      rw [List.map_eq_nil_iff] at h1
                      have := hch rs
                      rw [h1] at this
                      exact List.eq_nil_of_length_eq_zero this.symm
                    simp only [Option.some.injEq] at hm
                    rw [if_pos hnil, hm]
                  · cases hm
                | merkleProof =>
                  have he : e = true := by cases e with
                    | true => rfl
                    | false => cases hne rfl
                  dsimp only at hm
                  split at hm
                  · rename_i g
                    rw [List.length_map, hch] at g
                    simp only [Option.some.injEq] at hm
                    rw [if_neg (by intro h; rw [h] at g; simp at g), if_pos he, hm]
                  · cases hm
                | merkleUpdate =>
                  have he : e = true := by cases e with
                    | true => rfl
                    | false => cases hne rfl
                  dsimp only at hm
                  split at hm
                  · rename_i g
                    rw [List.length_map, hch] at g
                    simp only [Option.some.injEq] at hm
                    rw [if_neg (by intro h; rw [h] at g; simp at g), if_pos he, hm]
                  · cases hm
              rw [hmk b hs hp, hmk b' ht hp']
            have hmm' : (Cell.info H (.mk e b rs)).mask = (Cell.info H (.mk e b' rs)).mask := hmm
            rw [← hoff, ← hmm'] at g5
            rcases descend p3 q3 (by rw [hch]; exact p2) (fun i hi l => h32 rs p4 l _ (List.mem_map.mpr ⟨i, hi, rfl⟩)) g4 _ g5 with h | ⟨j, h1, h2⟩
            · left; rw [h]
            · right
              refine ⟨_, _, j, j, .refl _, .refl _, ?_, ?_⟩
              · unfold Cell.pre
                dsimp only
                rw [if_neg hp, if_neg hp', ← hoff, ← hmm]
                exact h1
              · unfold Cell.pre
                dsimp only
                rw [if_neg hp, if_neg hp', ← hoff, ← hmm]
                exact h2
        · right
          have : ∃ i, ∃ h1 : i < rs.length, ∃ h2 : i < rs'.length, rs[i] ≠ rs'[i] := by
            refine Classical.byContradiction fun hn => hall fun i h1 h2 => Classical.byContradiction fun h => hn ⟨i, h1, h2, h⟩
          obtain ⟨i, h1, h2, hne⟩ := this
          have m1 := List.getElem_mem h1
          have m2 := List.getElem_mem h2
          rcases ih _ m1 _ (p4 _ m1) (q4 _ m2) (hchild i h1 h2) with h | ⟨a, b, x, y, s1, s2, s3, s4⟩
          · exact absurd h hne
          · exact ⟨a, b, x, y, .child (t := .mk _ _ rs) m1 s1, .child (t := .mk _ _ rs') m2 s2, s3, s4⟩

/-- C12 for built cells: `DynCell` equality (`cell/mod.rs` compares representation hashes) is structural equality unless
SHA-256 collides on two cell representations inside the two trees. -/
theorem C12_cells {H : Hasher} {a b : CCell} (ha : Built H a) (hb : Built H b) (h : a.reprHash = b.reprHash) :
    a.tree = b.tree ∨ Collision H a.tree b.tree := by
  refine C12_repr_hash H _ _ ha.facts.wf hb.facts.wf ?_
  unfold Cell.reprHash
  rw [← ha.facts.agrees.hash, ← hb.facts.agrees.hash]
  exact h

/-- Non-vacuity: two cells that differ in one bit only are both well formed, so C12 applies to them; with the toy hasher
they get different hashes. -/
example : ∃ a b : CCell, Built toyHasher a ∧ Built toyHasher b ∧ a.tree ≠ b.tree ∧ a.reprHash ≠ b.reprHash := by
  obtain ⟨a, ha⟩ := Except.exists_of_isOk (r := (builderOf false [true] []).build toyHasher) (by decide +kernel)
  obtain ⟨b, hb⟩ := Except.exists_of_isOk (r := (builderOf false [false] []).build toyHasher) (by decide +kernel)
  have ha' : Built toyHasher a := .mk (CellB.parts_ok (builderOf_wf _ _ _ (by simp) (by simp)).1) (by intro r h; cases h) ha
  have hb' : Built toyHasher b := .mk (CellB.parts_ok (builderOf_wf _ _ _ (by simp) (by simp)).1) (by intro r h; cases h) hb
  have hne : ∀ x y, (builderOf false [true] []).build toyHasher = .ok x → (builderOf false [false] []).build toyHasher = .ok y →
      x.reprHash ≠ y.reprHash := by
    have hd : (match (builderOf false [true] []).build toyHasher, (builderOf false [false] []).build toyHasher with
      | .ok x, .ok y => decide (x.reprHash ≠ y.reprHash)
      | _, _ => false) = true := by decide +kernel
    intro x y hx hy
    rw [hx, hy] at hd
    exact of_decide_eq_true hd
  have hh := hne a b ha hb
  refine ⟨a, b, ha', hb', fun ht => hh ?_, hh⟩
  have e1 := ha'.facts.agrees.hash 3
  have e2 := hb'.facts.agrees.hash 3
  show a.hash 3 = b.hash 3
  rw [e1, e2, ht]

end Verif
