import Verif.CellLemmas2
import Verif.SliceProps
/-
C10, C11: which cells can be built, and what their hashes and depths are.
-/
set_option linter.unusedVariables false
set_option linter.unusedSimpArgs false
namespace Verif

/-! ### Support -/

theorem DataBuilder.bits_eq_take {b : DataBuilder} (hb : b.WF) : b.bits = (bytesToBits b.data).take b.bitLen := by
  have hm : maxBitLen = 1023 := rfl
  have := hb.len; have := hb.le
  unfold bits bytesToBits
  rw [← List.map_take, List.take_range, Nat.min_eq_left (by omega)]

theorem CellB.parts_bits {b : CellB CCell} (hb : b.WF) : b.parts.bits = b.inner.bits := by
  have hm : maxBitLen = 1023 := rfl
  obtain ⟨f1, f2⟩ := DataBuilder.finish_spec hb.inner
  unfold CellParts.bits parts
  dsimp only
  rw [f2]
  unfold tagged
  rw [DataBuilder.bits_length]
  split
  · rw [List.take_of_length_le]; rw [DataBuilder.bits_length]; exact Nat.le_refl _
  · rw [List.take_left' (DataBuilder.bits_length _)]

theorem LevelMask.new_lt (m : Byte) : (LevelMask.new m).toNat < 8 := by
  unfold LevelMask.new
  rw [BitVec.toNat_and]
  exact Nat.lt_succ_of_le Nat.and_le_right

theorem orChildren_lt (refs : List CCell) : (orChildren refs).toNat < 8 := by
  rw [orChildren_eq]
  refine orMasks_lt fun m hm => ?_
  obtain ⟨c, _, rfl⟩ := List.mem_map.mp hm
  exact CellDescriptor.levelMask_lt _

theorem CellB.levelMask_lt (b : CellB CCell) : b.levelMask.toNat < 8 := by
  have h := orChildren_lt b.refs
  unfold CellB.levelMask
  dsimp only
  split
  · split
    · exact LevelMask.new_lt _
    · exact LevelMask.shift_lt h 1
    · exact LevelMask.shift_lt h 1
    · decide
    · exact h
  · exact h

/-- `build_ext` hands over consistent parts. -/
theorem CellB.parts_ok {b : CellB CCell} (hb : b.WF) : b.parts.Ok := by
  have hm : maxBitLen = 1023 := rfl
  have hr := hb.refs
  have hle := hb.inner.le
  obtain ⟨f1, f2⟩ := DataBuilder.finish_spec hb.inner
  obtain ⟨d1, d2, d3, _⟩ := C07_d1 b.levelMask b.levelMask_lt b.exotic b.refs.length (by omega) (CellDescriptor.computeD2 b.inner.bitLen)
  refine ⟨d3, hr, rfl, by show b.inner.bitLen ≤ 1023; omega, rfl, f1, ?_⟩
  have := CellB.parts_bits hb
  unfold CellParts.bits at this
  rw [this]
  exact f2

theorem CellB.parts_desc {b : CellB CCell} (hb : b.WF) : b.parts.desc.levelMask = b.levelMask ∧ b.parts.desc.isExotic = b.exotic := by
  have hr := hb.refs
  obtain ⟨d1, d2, d3, _⟩ := C07_d1 b.levelMask b.levelMask_lt b.exotic b.refs.length (by omega) (CellDescriptor.computeD2 b.inner.bitLen)
  exact ⟨d1, d2⟩

/-- The mask chosen by `build_ext` is the one the shape demands. -/
theorem CellB.levelMask_shape {b : CellB CCell} (hb : b.WF) {ty : CellType} {m : LevelMask}
    (ht : typeOf b.exotic b.inner.bits = some ty)
    (hs : shape ty b.inner.bits (b.refs.map fun c => c.desc.levelMask) = some m) : b.levelMask = m := by
  have hm : maxBitLen = 1023 := rfl
  have hlen := DataBuilder.bits_length b.inner
  have hby : ∀ i, 8 * (i + 1) ≤ b.inner.bitLen → byteAt b.inner.bits i = (b.inner.data.getD i 0).toNat := by
    intro i hi
    rw [DataBuilder.bits_eq_take hb.inner, byteAt_take _ _ _ hi, byteAt_bytes]
  unfold CellB.levelMask
  dsimp only
  unfold typeOf at ht
  cases he : b.exotic with
  | false =>
    rw [he] at ht
    simp at ht
    subst ht
    unfold shape at hs
    dsimp only at hs
    split at hs
    · simp only [Option.some.injEq] at hs
      simp [← hs, orChildren_eq]
    · cases hs
  | true =>
    rw [he] at ht
    simp only [if_true] at ht
    by_cases h8 : b.inner.bitLen < 8
    · rw [if_pos (by omega)] at ht; cases ht
    · rw [if_neg (by omega), hby 0 (by omega)] at ht
      simp only [Bool.true_and, decide_eq_true_eq]
      rw [if_pos (by omega), fromByteExotic_eq, ht]
      unfold shape at hs
      cases ty with
      | ordinary => exact absurd ht (exoticTypeOf_ne _)
      | prunedBranch =>
        dsimp only at hs ⊢
        split at hs
        · rename_i g
          simp only [Option.some.injEq] at hs
          have h16 : 16 ≤ b.inner.bitLen := by omega
          rw [hby 1 (by omega)] at g hs
          rw [BitVec.ofNat_toNat, BitVec.setWidth_eq] at hs
          rw [← hs]
          unfold LevelMask.new
          apply BitVec.eq_of_toNat_eq
          rw [BitVec.toNat_and]
          show _ &&& (2 ^ 3 - 1) = _
          rw [Nat.and_two_pow_sub_one_eq_mod]
          exact Nat.mod_eq_of_lt (by omega)
        · cases hs
      | libraryReference =>
        dsimp only at hs ⊢
        split at hs
        · simpa using hs
        · cases hs
      | merkleProof =>
        dsimp only at hs ⊢
        split at hs
        · simp only [Option.some.injEq] at hs
          rw [orChildren_eq, ← hs]; rfl
        · cases hs
      | merkleUpdate =>
        dsimp only at hs ⊢
        split at hs
        · simp only [Option.some.injEq] at hs
          rw [orChildren_eq, ← hs]; rfl
        · cases hs

/-- All that is known about a built cell. -/
structure BuiltFacts (H : Hasher) (c : CCell) : Prop where
  agrees : c.Agrees H
  wf : c.tree.WF H
  slots : c.hashes.length = CellParts.slots c.desc.cellType c.desc.levelMask
  type : typeOf c.desc.isExotic c.tree.bits = some c.desc.cellType
  refs : c.desc.referenceCount = c.refs.length
  refs_le : c.refs.length ≤ 4
  bitLen : c.bitLen ≤ 1023
  d2 : c.desc.d2 = CellDescriptor.computeD2 c.bitLen
  data : c.data.length = (c.bitLen + 7) / 8
  tagged : bytesToBits c.data = tagged c.tree.bits
  len : c.tree.bits.length = c.bitLen

theorem finalize_fields {H : Hasher} {p : CellParts} {c : CCell} (h : p.finalize H = .ok c) :
    ∃ hs, c = .mk p.desc p.bitLen p.data p.refs hs := by
  unfold CellParts.finalize at h
  cases hc : p.computeHashes H with
  | error e => rw [hc] at h; cases h
  | ok hs =>
    rw [hc] at h
    simp only [DataBuilder.bind_ok, Except.ok.injEq] at h
    exact ⟨hs, h.symm⟩

theorem facts_of_finalize {H : Hasher} {p : CellParts} {c : CCell} (hp : p.Ok)
    (hr : ∀ r ∈ p.refs, BuiltFacts H r) (h : p.finalize H = .ok c) : BuiltFacts H c := by
  have hspec := CellParts.finalize_spec (H := H) hp (fun r h => (hr r h).agrees)
  dsimp only at hspec
  obtain ⟨s1, s2, s3⟩ := hspec
  have hex : ∃ ty, CellParts.NodeOk p (Cell.infoList H (CCell.treeList p.refs)) ty := by
    by_cases e : ∃ ty, typeOf p.desc.isExotic p.bits = some ty ∧
        shape ty p.bits ((Cell.infoList H (CCell.treeList p.refs)).map (·.mask)) = some p.desc.levelMask
    · obtain ⟨ty, h1, h2⟩ := e
      by_cases hd : ∀ l, l ≤ 3 → DepthOk p.desc.levelMask (if ty.isMerkle then 1 else 0) (Cell.infoList H (CCell.treeList p.refs)) l
      · exact ⟨ty, h1, h2, hd⟩
      · rw [s3 ty h1 h2 hd] at h; cases h
    · rw [s2 e] at h; cases h
  obtain ⟨ty, hn⟩ := hex
  obtain ⟨hs, e1, e2, e3⟩ := s1 ty hn
  rw [e1] at h
  simp only [Except.ok.injEq] at h
  subst h
  have hct := hn.cellType hp (by rw [Cell.infoList_eq, CCell.treeList_eq]; simp)
  refine ⟨e3, ?_, ?_, ?_, hp.refs, hp.refs_le, hp.bitLen, hp.d2, hp.data, hp.tagged, hp.bits_length⟩
  · show Cell.WF H (.mk p.desc.isExotic p.bits (CCell.treeList p.refs))
    unfold Cell.WF
    refine ⟨⟨ty, hn.type, by rw [hn.shape]; simp, ?_⟩, ?_⟩
    · intro l hl hsig
      have hm : (Cell.info H (.mk p.desc.isExotic p.bits (CCell.treeList p.refs))).mask = p.desc.levelMask :=
        nodeInfo_mask hn.type hn.shape
      rw [hm] at hsig
      exact hn.depth l hl hsig
    · rw [Cell.WFList_iff, CCell.treeList_eq]
      intro t ht
      obtain ⟨r, hr', rfl⟩ := List.mem_map.mp ht
      exact (hr r hr').wf
  · show hs.length = CellParts.slots p.desc.cellType p.desc.levelMask
    rw [hct, e2]
  · show typeOf p.desc.isExotic p.bits = some p.desc.cellType
    rw [hct, hn.type]

theorem Built.facts {H : Hasher} {c : CCell} (h : Built H c) : BuiltFacts H c := by
  induction h with
  | mk hp hr h ih => exact facts_of_finalize hp ih h

/-! ### C10 -/

/-- C10: for a builder over built cells, `build` succeeds exactly when the tree it describes is well-formed; the result is
that tree, with the mask, flag and counts of the specification. Otherwise it fails with `InvalidCell` or
`DepthOverflow`. -/
theorem C10_build (H : Hasher) {b : CellB CCell} (hb : b.WF) (hr : ∀ r ∈ b.refs, Built H r) :
    let t := Cell.mk b.exotic b.inner.bits (b.refs.map CCell.tree)
    (t.WF H → ∃ c, b.build H = .ok c ∧ Built H c ∧ c.tree = t ∧ c.refs = b.refs) ∧
    (¬ t.WF H → b.build H = .error .invalidCell ∨ b.build H = .error .depthOverflow) := by
  intro t
  have hp := CellB.parts_ok hb
  have hbits := CellB.parts_bits hb
  obtain ⟨hmask, hexo⟩ := CellB.parts_desc hb
  have hagree : ∀ r ∈ b.parts.refs, r.Agrees H := fun r h => (Built.facts (hr r h)).agrees
  have hspec := CellParts.finalize_spec (H := H) hp hagree
  dsimp only at hspec
  rw [hbits, hexo] at hspec
  obtain ⟨s1, s2, s3⟩ := hspec
  have hrefs : b.parts.refs = b.refs := rfl
  rw [hrefs] at s1 s2 s3
  have htl : CCell.treeList b.refs = b.refs.map CCell.tree := CCell.treeList_eq _
  rw [htl] at s1 s2 s3
  have hmasks : (Cell.infoList H (b.refs.map CCell.tree)).map (·.mask) = b.refs.map fun c => c.desc.levelMask := by
    rw [Cell.infoList_eq, List.map_map, List.map_map]
    exact List.map_congr_left fun r h => (hagree r h).mask.symm
  have hwf : t.WF H ↔ ∃ ty, typeOf b.exotic b.inner.bits = some ty ∧
      shape ty b.inner.bits ((Cell.infoList H (b.refs.map CCell.tree)).map (·.mask)) = some b.parts.desc.levelMask ∧
      ∀ l, l ≤ 3 → DepthOk b.parts.desc.levelMask (if ty.isMerkle then 1 else 0) (Cell.infoList H (b.refs.map CCell.tree)) l := by
    show Cell.WF H (.mk b.exotic b.inner.bits (b.refs.map CCell.tree)) ↔ _
    unfold Cell.WF
    constructor
    · rintro ⟨⟨ty, h1, h2, h3⟩, _⟩
      obtain ⟨m, hm⟩ := Option.ne_none_iff_exists'.mp h2
      have hlm := CellB.levelMask_shape hb h1 (by rw [← hmasks]; exact hm)
      have hi : (Cell.info H (.mk b.exotic b.inner.bits (b.refs.map CCell.tree))).mask = m := nodeInfo_mask h1 hm
      rw [hi] at h3
      rw [hmask, hlm]
      exact ⟨ty, h1, hm, h3⟩
    · rintro ⟨ty, h1, h2, h3⟩
      have hi : (Cell.info H (.mk b.exotic b.inner.bits (b.refs.map CCell.tree))).mask = _ := nodeInfo_mask h1 h2
      refine ⟨⟨ty, h1, by rw [h2]; simp, ?_⟩, ?_⟩
      · rw [hi]; exact h3
      · rw [Cell.WFList_iff]
        intro x hx
        obtain ⟨r, hr', rfl⟩ := List.mem_map.mp hx
        exact (Built.facts (hr r hr')).wf
  constructor
  · intro h
    obtain ⟨ty, h1, h2, h3⟩ := hwf.mp h
    obtain ⟨hs, e1, _, _⟩ := s1 ty ⟨by rw [hbits, hexo]; exact h1, by rw [hbits]; exact h2, h3⟩
    refine ⟨_, e1, .mk hp hr e1, ?_, rfl⟩
    show Cell.mk b.parts.desc.isExotic b.parts.bits (CCell.treeList b.refs) = t
    rw [hexo, hbits, htl]
  · intro h
    by_cases e : ∃ ty, typeOf b.exotic b.inner.bits = some ty ∧
        shape ty b.inner.bits ((Cell.infoList H (b.refs.map CCell.tree)).map (·.mask)) = some b.parts.desc.levelMask
    · obtain ⟨ty, h1, h2⟩ := e
      exact Or.inr (s3 ty h1 h2 fun h3 => h (hwf.mpr ⟨ty, h1, h2, h3⟩))
    · exact Or.inl (s2 e)

/-- C10: every cell that was ever built is a well-formed tree, and its descriptor tells the truth about it. -/
theorem C10_invariant {H : Hasher} {c : CCell} (h : Built H c) :
    c.tree.WF H ∧ c.desc.levelMask = (c.tree.info H).mask ∧ c.desc.isExotic = c.tree.exotic ∧
    c.desc.referenceCount = c.tree.refs.length ∧ c.desc.byteLen = (c.tree.bits.length + 7) / 8 ∧
    typeOf c.tree.exotic c.tree.bits = some c.desc.cellType := by
  have f := h.facts
  obtain ⟨d, n, bs, rs, hs⟩ := c
  refine ⟨f.wf, f.agrees.mask, rfl, ?_, ?_, f.type⟩
  · rw [f.refs]
    show rs.length = (CCell.treeList rs).length
    rw [CCell.treeList_eq]; simp
  · have := (C07_d2 n f.bitLen d.d1).1
    have h2 := f.d2
    have hl := f.len
    simp only [CCell.desc, CCell.bitLen] at h2 hl
    rw [hl, ← this]
    show (CellDescriptor.mk d.d1 d.d2).byteLen = _
    rw [h2]

/-- C10: the stored hash table always has the slot that a hash or depth query reads. -/
theorem C10_hash_slots {H : Hasher} {c : CCell} (h : Built H c) (l : Nat) :
    0 < c.hashes.length ∧ (c.desc.cellType ≠ .prunedBranch → c.desc.levelMask.hashIndex l < c.hashes.length) ∧
    (c.desc.cellType = .prunedBranch → c.desc.levelMask.hashIndex l ≠ c.desc.levelMask.level →
      2 + c.desc.levelMask.hashIndex l * 32 + 32 ≤ c.data.length ∧
      2 + c.desc.levelMask.level * 32 + c.desc.levelMask.hashIndex l * 2 + 2 ≤ c.data.length) := by
  have f := h.facts
  have hlt := CellDescriptor.levelMask_lt c.desc
  have hle : c.desc.levelMask.hashIndex l ≤ c.desc.levelMask.level := by
    rw [LevelMask.hashIndex_eq hlt, (C08_mask _ hlt).1]
    by_cases h : l ≤ 3
    · exact CellParts.countUpTo_mono _ h
    · rw [show l = 3 + (l - 3) by omega, LevelMask.countUpTo_ge hlt]; exact Nat.le_refl _
  have hsl := f.slots
  refine ⟨?_, ?_, ?_⟩
  · rw [hsl]; unfold CellParts.slots; split <;> omega
  · intro hp
    rw [hsl, CellParts.slots, if_neg hp]; omega
  · intro hp hne
    have hm := f.agrees.mask
    have hw := f.wf
    have ht := f.type
    have hd := f.data
    obtain ⟨d, n, bs, rs, hs⟩ := c
    simp only [CCell.desc, CCell.data, CCell.bitLen] at *
    unfold CCell.tree Cell.WF at hw
    obtain ⟨⟨ty, h1, h2, _⟩, _⟩ := hw
    unfold CCell.tree Cell.bits at ht
    dsimp only at ht
    rw [ht] at h1
    simp only [Option.some.injEq] at h1
    subst h1
    rw [hp] at h2 ht
    unfold shape at h2
    dsimp only at h2
    split at h2
    · rename_i g
      have hlen := f.len
      simp only [CCell.bitLen, CCell.tree, Cell.bits] at hlen
      unfold CCell.tree Cell.info nodeInfo at hm
      rw [ht] at hm
      dsimp only at hm
      have hn : n = 16 + 272 * d.levelMask.level := by
        rw [← hlen, g.2.2.1, ← hm, (C08_mask _ hlt).1]
      omega
    · exact absurd rfl h2

/-- A toy hash function for the examples (a few polynomial checksums). -/
def toyHasher : Hasher where
  sha m := (List.range 32).map fun i => BitVec.ofNat 8 (m.foldl (fun a b => (a * (31 + i) + b.toNat + 1) % 65521) 7)
  len m := by simp

theorem Except.exists_of_isOk {α : Type} {r : Except Err α} (h : r.isOk = true) : ∃ c, r = .ok c := by
  cases r with
  | ok c => exact ⟨c, rfl⟩
  | error e => cases h

/-- A builder holding given bits and references (what the stores of C01 lead to). -/
def builderOf (exotic : Bool) (bits : Bits) (refs : List CCell) : CellB CCell :=
  { inner := { data := bytesOfBits (bits ++ List.replicate (1024 - bits.length) false), bitLen := bits.length },
    refs := refs, exotic := exotic }

theorem builderOf_wf (exotic : Bool) (bits : Bits) (refs : List CCell) (h1 : bits.length ≤ 1023) (h2 : refs.length ≤ 4) :
    (builderOf exotic bits refs).WF ∧ (builderOf exotic bits refs).inner.bits = bits := by
  have hlen : (bits ++ List.replicate (1024 - bits.length) false).length = 1024 := by simp; omega
  have hb : ∀ i, bitAt (bytesOfBits (bits ++ List.replicate (1024 - bits.length) false)) i =
      (bits ++ List.replicate (1024 - bits.length) false).getD i false := by
    intro i
    rw [← bytesToBits_getD, bytesToBits_bytesOfBits _ (by omega)]
  refine ⟨⟨⟨?_, h1, ?_⟩, h2⟩, ?_⟩
  · show (bytesOfBits _).length = 128
    rw [bytesOfBits_length, hlen]
  · intro i hi
    show bitAt (bytesOfBits _) i = false
    rw [hb, getD_append_bits, if_neg (show ¬ i < bits.length from Nat.not_lt.mpr hi), getD_replicate_false]
  · apply list_ext_getD
    · rw [DataBuilder.bits_length]; rfl
    · intro i hi
      rw [DataBuilder.bits_length] at hi
      rw [DataBuilder.bits_getD i hi]
      show bitAt (bytesOfBits _) i = _
      rw [hb, getD_append_bits, if_pos (show i < bits.length from hi)]

/-- A leaf with 12 data bits, a pruned branch with mask 1 (one hash, one depth), and a cell over both. -/
def exLeaf : CellB CCell := builderOf false (natBits 12 0xabc) []
def exPruned : CellB CCell :=
  builderOf true (bytesToBits ([1, 1] ++ (List.replicate 32 0x5a) ++ [0, 7])) []
def exParent (a b : CCell) : CellB CCell := builderOf false (natBits 3 5) [a, b]

/-- Non-vacuity: such a tree can be built; its root has mask 1, three stored slots are consistent, depth 8 at level 0 and
1 at level 1. -/
def exTree : Except Err CCell := do
  let a ← exLeaf.build toyHasher
  let b ← exPruned.build toyHasher
  (exParent a b).build toyHasher

example : ∃ c, exTree = .ok c ∧ Built toyHasher c ∧ c.desc.levelMask = 1 ∧ c.depth 0 = 8 ∧ c.depth 1 = 1 ∧
    c.hash 0 ≠ c.hash 1 := by
  obtain ⟨a, ha⟩ := Except.exists_of_isOk (r := exLeaf.build toyHasher) (by decide +kernel)
  obtain ⟨b, hb⟩ := Except.exists_of_isOk (r := exPruned.build toyHasher) (by decide +kernel)
  have ha' : Built toyHasher a := .mk (CellB.parts_ok (builderOf_wf _ _ _ (by simp) (by simp)).1) (by intro r h; cases h) ha
  have hb' : Built toyHasher b := .mk (CellB.parts_ok (builderOf_wf _ _ _ (by simp) (by simp)).1) (by intro r h; cases h) hb
  have hall : (match exTree with
    | .ok c => decide (c.desc.levelMask = 1 ∧ c.depth 0 = 8 ∧ c.depth 1 = 1 ∧ c.hash 0 ≠ c.hash 1)
    | .error _ => false) = true := by decide +kernel
  cases h : exTree with
  | error e => rw [h] at hall; cases hall
  | ok c =>
    rw [h] at hall
    refine ⟨c, rfl, ?_, of_decide_eq_true hall⟩
    unfold exTree at h
    rw [ha, hb] at h
    exact .mk (p := (exParent a b).parts) (CellB.parts_ok (builderOf_wf _ _ _ (by simp) (by simp)).1)
      (by
        intro r hr
        have hr : r ∈ [a, b] := hr
        simp only [List.mem_cons, List.not_mem_nil, or_false] at hr
        rcases hr with rfl | rfl <;> assumption) h

/-- A pruned branch with a wrong size, and an exotic cell of an unknown type, are rejected. -/
example : (builderOf true (bytesToBits ([1, 3] ++ (List.replicate 32 0x5a) ++ [0, 7])) []).build toyHasher matches .error .invalidCell := by
  decide +kernel
example : (builderOf true (bytesToBits [9]) []).build toyHasher matches .error .invalidCell := by decide +kernel

/-! ### C11 -/

/-- C11: hashes and depths at every level are those of the recursive definition on the plain tree. -/
theorem C11_hash_depth {H : Hasher} {c : CCell} (h : Built H c) (l : Nat) :
    c.hash l = (c.tree.info H).hash l ∧ c.depth l = (c.tree.info H).depth l :=
  ⟨h.facts.agrees.hash l, h.facts.agrees.depth l⟩

/-- C11: hashes are a function of the content alone: how a cell was built does not matter. -/
theorem C11_content_only {H : Hasher} {a b : CCell} (ha : Built H a) (hb : Built H b) (h : a.tree = b.tree) (l : Nat) :
    a.hash l = b.hash l ∧ a.depth l = b.depth l := by
  rw [(C11_hash_depth ha l).1, (C11_hash_depth ha l).2, (C11_hash_depth hb l).1, (C11_hash_depth hb l).2, h]
  exact ⟨rfl, rfl⟩

end Verif
