import Verif.BocRound
/-
More lemmas about bags of cells: bytes after the bag, cells that are equal in all parts, sizes, and the checksum in pieces.
-/
set_option linter.unusedVariables false
set_option linter.unusedSimpArgs false
namespace Verif
namespace Boc

/-! ### Bytes after the bag -/

theorem next_mono {n : Nat} {x a b : List Byte} (h : next n x = .ok (a, b)) (y : List Byte) : next n (x ++ y) = .ok (a, b ++ y) := by
  obtain ⟨h1, h2, h3⟩ := next_inv h
  rw [next_ok (by rw [List.length_append]; omega), h2, h3, List.take_append_of_le_length h1, List.drop_append_of_le_length h1]

theorem nextNat_mono {n v : Nat} {x b : List Byte} (h : nextNat n x = .ok (v, b)) (y : List Byte) : nextNat n (x ++ y) = .ok (v, b ++ y) := by
  unfold nextNat at h
  obtain ⟨⟨p, q⟩, h1, h2⟩ := bind_inv h
  injection h2 with h2; injection h2 with h2 h3
  unfold nextNat
  rw [next_mono h1 y, ← h2, ← h3]
  rfl

theorem readFlags_mono {x b : List Byte} {f : Flags} {os : Nat} (h : readFlags x = .ok (f, os, b)) (y : List Byte) : readFlags (x ++ y) = .ok (f, os, b ++ y) := by
  unfold readFlags at h
  obtain ⟨_, h0, h⟩ := bind_inv h
  obtain ⟨⟨tag, r1⟩, h1, h⟩ := bind_inv h
  obtain ⟨⟨fl, r2⟩, h2, h⟩ := bind_inv h
  obtain ⟨⟨o, r3⟩, h3, h⟩ := bind_inv h
  have h0 := ensure_inv h0
  simp only [decide_eq_true_eq] at h0
  unfold readFlags
  rw [ensure_ok (by simp only [decide_eq_true_eq, List.length_append]; omega)]
  simp only [bok]
  rw [next_mono h1 y]
  simp only [bok]
  rw [nextNat_mono h2 y]
  simp only [bok]
  rw [nextNat_mono h3 y]
  simp only [bok]
  dsimp only at h
  cases ht : Tag.fromBytes tag with
  | none => rw [ht] at h; cases h
  | some t =>
    rw [ht] at h
    dsimp only at h ⊢
    obtain ⟨_, e1, h⟩ := bind_inv h
    obtain ⟨_, e2, h⟩ := bind_inv h
    obtain ⟨_, e3, h⟩ := bind_inv h
    rw [e1, e2, e3]
    injection h with h
    injection h with a1 h
    injection h with a2 a3
    rw [← a1, ← a2, ← a3]
    rfl

theorem readCounts_mono {f : Flags} {os : Nat} {opts : Options} {x b : List Byte} {c r t : Nat} (h : readCounts f os opts x = .ok (c, r, t, b)) (y : List Byte) :
    readCounts f os opts (x ++ y) = .ok (c, r, t, b ++ y) := by
  unfold readCounts at h
  obtain ⟨_, h0, h⟩ := bind_inv h
  obtain ⟨⟨v1, r1⟩, h1, h⟩ := bind_inv h
  obtain ⟨⟨v2, r2⟩, h2, h⟩ := bind_inv h
  obtain ⟨⟨v3, r3⟩, h3, h⟩ := bind_inv h
  obtain ⟨_, e1, h⟩ := bind_inv h
  obtain ⟨_, e2, h⟩ := bind_inv h
  obtain ⟨_, e3, h⟩ := bind_inv h
  obtain ⟨_, e4, h⟩ := bind_inv h
  obtain ⟨_, e5, h⟩ := bind_inv h
  obtain ⟨_, e6, h⟩ := bind_inv h
  obtain ⟨⟨v4, r4⟩, h4, h⟩ := bind_inv h
  obtain ⟨_, e7, h⟩ := bind_inv h
  obtain ⟨_, e8, h⟩ := bind_inv h
  obtain ⟨_, e9, h⟩ := bind_inv h
  have h0 := ensure_inv h0
  simp only [decide_eq_true_eq] at h0
  unfold readCounts
  rw [ensure_ok (by simp only [decide_eq_true_eq, List.length_append]; omega)]
  simp only [bok]
  rw [nextNat_mono h1 y]
  simp only [bok]
  rw [nextNat_mono h2 y]
  simp only [bok]
  rw [nextNat_mono h3 y]
  simp only [bok]
  try dsimp only at e1 e2 e3 e4 e5 e6 e7 e8 e9
  rw [e1, e2, e3, e4, e5, e6]
  simp only [bok]
  rw [nextNat_mono h4 y]
  simp only [bok]
  rw [e7, e8, e9]
  injection h with h
  injection h with a1 h
  injection h with a2 h
  injection h with a3 a4
  rw [← a1, ← a2, ← a3, ← a4]
  rfl

theorem readRoots_mono {refSize cells : Nat} (y : List Byte) : ∀ (k : Nat) {x b : List Byte} {rs : List Nat}, readRoots refSize cells k x = .ok (rs, b) →
    readRoots refSize cells k (x ++ y) = .ok (rs, b ++ y)
  | 0, x, b, rs, h => by
    injection h with h; injection h with h1 h2
    rw [← h1, ← h2]; rfl
  | k + 1, x, b, rs, h => by
    rw [readRoots] at h
    obtain ⟨⟨v, r1⟩, h1, h⟩ := bind_inv h
    obtain ⟨_, h2, h⟩ := bind_inv h
    obtain ⟨⟨is, r2⟩, h3, h⟩ := bind_inv h
    injection h with h; injection h with a1 a2
    rw [readRoots, nextNat_mono h1 y]
    simp only [bok]
    try dsimp only at h2 h3
    rw [h2]
    simp only [bok]
    rw [readRoots_mono y k h3, ← a1, ← a2]
    rfl

theorem rootsOf_mono {f : Flags} {cells roots : Nat} {x b : List Byte} {rs : List Nat} (h : rootsOf f cells roots x = .ok (rs, b)) (y : List Byte) :
    rootsOf f cells roots (x ++ y) = .ok (rs, b ++ y) := by
  unfold rootsOf at h ⊢
  split at h
  · rename_i hm
    rw [if_pos hm]
    exact readRoots_mono y _ h
  · rename_i hm
    rw [if_neg hm]
    injection h with h; injection h with a1 a2
    rw [← a1, ← a2]

theorem rawLen_mono {refSize n : Nat} {x : List Byte} (h : rawLen x refSize = .ok n) (y : List Byte) : rawLen (x ++ y) refSize = .ok n := by
  obtain ⟨d, hs, data, refs, hsh, hn, hle⟩ : ∃ d hs data refs, RawShape refSize (x.take n) d hs data refs ∧ (x.take n).length = n ∧ n ≤ x.length := by
    obtain ⟨a, d, hs, data, refs, b⟩ := rawLen_shape h
    exact ⟨d, hs, data, refs, b, by rw [List.length_take]; omega, a⟩
  have := hsh.rawLen (x.drop n ++ y)
  rw [← List.append_assoc, List.take_append_drop, hn] at this
  exact this

theorem readCells_mono {refSize : Nat} (y : List Byte) : ∀ (k : Nat) {x b : List Byte} {cs : List (List Byte)}, readCells refSize k x = .ok (cs, b) →
    readCells refSize k (x ++ y) = .ok (cs, b ++ y)
  | 0, x, b, rs, h => by
    injection h with h; injection h with h1 h2
    rw [← h1, ← h2]; rfl
  | k + 1, x, b, rs, h => by
    rw [readCells] at h
    obtain ⟨n, h0, h⟩ := bind_inv h
    obtain ⟨⟨v, r1⟩, h1, h⟩ := bind_inv h
    obtain ⟨⟨is, r2⟩, h3, h⟩ := bind_inv h
    injection h with h; injection h with a1 a2
    rw [readCells, rawLen_mono h0 y]
    simp only [bok]
    rw [next_mono h1 y]
    simp only [bok]
    try dsimp only at h3
    rw [readCells_mono y k h3, ← a1, ← a2]
    rfl

theorem checkEnd_mono {f : Flags} {total : Nat} {data start rest b : List Byte} (h : checkEnd f total data start rest = .ok b)
    (hl : rest.length ≤ data.length) (y : List Byte) : checkEnd f total (data ++ y) (start ++ y) (rest ++ y) = .ok (b ++ y) := by
  unfold checkEnd at h
  obtain ⟨_, h0, h⟩ := bind_inv h
  have h0 := ensure_inv h0
  simp only [decide_eq_true_eq] at h0
  unfold checkEnd
  rw [ensure_ok (by simp only [decide_eq_true_eq, List.length_append]; omega)]
  simp only [bok]
  cases hc : f.hasCrc with
  | false =>
    rw [hc] at h
    injection h with h
    rw [h]; rfl
  | true =>
    rw [hc] at h
    simp only [if_true] at h ⊢
    obtain ⟨_, h1, h⟩ := bind_inv h
    obtain ⟨⟨c, r⟩, h2, h⟩ := bind_inv h
    obtain ⟨_, h3, h⟩ := bind_inv h
    have h1 := ensure_inv h1
    simp only [decide_eq_true_eq] at h1
    rw [ensure_ok (by simp only [decide_eq_true_eq, List.length_append]; omega)]
    simp only [bok]
    rw [next_mono h2 y]
    simp only [bok]
    have : (data ++ y).take ((data ++ y).length - (rest ++ y).length) = data.take (data.length - rest.length) := by
      rw [List.length_append, List.length_append, show data.length + y.length - (rest.length + y.length) = data.length - rest.length by omega,
        List.take_append_of_le_length (by omega)]
    rw [this]
    try dsimp only at h3
    rw [h3]
    injection h with h
    rw [← h]; rfl

/-- The reader does not look at bytes after the bag. -/
theorem decodeRest_mono {data b : List Byte} {opts : Options} {h : Header} (hd : decodeRest data opts = .ok (h, b)) (y : List Byte) :
    decodeRest (data ++ y) opts = .ok (h, b ++ y) := by
  unfold decodeRest at hd
  obtain ⟨⟨f, os, r1⟩, h1, hd⟩ := bind_inv hd
  obtain ⟨⟨cells, roots, total, r2⟩, h2, hd⟩ := bind_inv hd
  obtain ⟨_, h3, hd⟩ := bind_inv hd
  obtain ⟨⟨rs, r3⟩, h4, hd⟩ := bind_inv hd
  obtain ⟨_, h5, hd⟩ := bind_inv hd
  obtain ⟨⟨x, start⟩, h6, hd⟩ := bind_inv hd
  obtain ⟨⟨cs, r4⟩, h7, hd⟩ := bind_inv hd
  obtain ⟨r5, h8, hd⟩ := bind_inv hd
  injection hd with hd; injection hd with a1 a2
  have h3 := ensure_inv h3
  have h5 := ensure_inv h5
  try dsimp only at h3 h4 h5 h6 h7 h8 a1
  simp only [decide_eq_true_eq] at h3 h5
  have hlen : r4.length ≤ data.length := by
    have g1 : r1.length ≤ data.length := by
      unfold readFlags at h1
      obtain ⟨_, _, h1⟩ := bind_inv h1
      obtain ⟨⟨_, q1⟩, k1, h1⟩ := bind_inv h1
      obtain ⟨⟨_, q2⟩, k2, h1⟩ := bind_inv h1
      obtain ⟨⟨_, q3⟩, k3, h1⟩ := bind_inv h1
      try dsimp only at k2 k3 h1
      have l1 := (next_inv k1).2.2
      have l2 := (nextNat_inv k2).2.2
      have l3 := (nextNat_inv k3).2.2
      split at h1
      · cases h1
      · obtain ⟨_, _, h1⟩ := bind_inv h1
        obtain ⟨_, _, h1⟩ := bind_inv h1
        obtain ⟨_, _, h1⟩ := bind_inv h1
        injection h1 with h1
        injection h1 with _ h1
        injection h1 with _ h1
        rw [← h1, l3, l2, l1]
        simp only [List.length_drop]
        omega
    have g2 : r2.length ≤ r1.length := by
      unfold readCounts at h2
      obtain ⟨_, _, h⟩ := bind_inv h2
      obtain ⟨⟨v1, q1⟩, k1, h⟩ := bind_inv h
      obtain ⟨⟨v2, q2⟩, k2, h⟩ := bind_inv h
      obtain ⟨⟨v3, q3⟩, k3, h⟩ := bind_inv h
      obtain ⟨_, _, h⟩ := bind_inv h
      obtain ⟨_, _, h⟩ := bind_inv h
      obtain ⟨_, _, h⟩ := bind_inv h
      obtain ⟨_, _, h⟩ := bind_inv h
      obtain ⟨_, _, h⟩ := bind_inv h
      obtain ⟨_, _, h⟩ := bind_inv h
      obtain ⟨⟨v4, q4⟩, k4, h⟩ := bind_inv h
      obtain ⟨_, _, h⟩ := bind_inv h
      obtain ⟨_, _, h⟩ := bind_inv h
      obtain ⟨_, _, h⟩ := bind_inv h
      injection h with h
      injection h with _ h
      injection h with _ h
      injection h with _ h
      try dsimp only at k2 k3 k4
      have l1 := (nextNat_inv k1).2.2
      have l2 := (nextNat_inv k2).2.2
      have l3 := (nextNat_inv k3).2.2
      have l4 := (nextNat_inv k4).2.2
      rw [← h, l4, l3, l2, l1]
      simp only [List.length_drop]
      omega
    have g3 : r3.length ≤ r2.length := by
      have aux : ∀ (k : Nat) (x b : List Byte) (l : List Nat), readRoots f.refSize cells k x = .ok (l, b) → b.length ≤ x.length := by
        intro k
        induction k with
        | zero => intro x b l h; injection h with h; injection h with _ h; rw [h]; exact Nat.le_refl _
        | succ k ih =>
          intro x b l h
          rw [readRoots] at h
          obtain ⟨⟨v, q⟩, k1, h⟩ := bind_inv h
          obtain ⟨_, _, h⟩ := bind_inv h
          obtain ⟨⟨is, q'⟩, k2, h⟩ := bind_inv h
          injection h with h; injection h with _ h
          have l1 := (nextNat_inv k1).2.2
          have l2 := ih _ _ _ k2
          try dsimp only at l2
          rw [l1, List.length_drop] at l2
          rw [← h]; omega
      unfold rootsOf at h4
      split at h4
      · exact aux _ _ _ _ h4
      · injection h4 with h4; injection h4 with _ h4; rw [h4]; exact Nat.le_refl _
    have g4 : start.length ≤ r3.length := by
      have := (next_inv h6).2.2
      rw [this, List.length_drop]; omega
    have g5 : r4.length ≤ start.length := by
      unfold checkEnd at h8
      obtain ⟨_, k, _⟩ := bind_inv h8
      have := ensure_inv k
      simp only [decide_eq_true_eq] at this
      omega
    omega
  unfold decodeRest
  rw [readFlags_mono h1 y]
  simp only [bok]
  rw [readCounts_mono h2 y]
  simp only [bok]
  rw [ensure_ok (by simp only [decide_eq_true_eq, List.length_append]; omega)]
  simp only [bok]
  rw [rootsOf_mono h4 y]
  simp only [bok]
  rw [ensure_ok (by simp only [decide_eq_true_eq, List.length_append]; exact Nat.le_trans h5 (Nat.le_add_right _ _))]
  simp only [bok]
  rw [next_mono h6 y]
  simp only [bok]
  rw [readCells_mono y _ h7]
  simp only [bok]
  rw [checkEnd_mono h8 hlen y, ← a1, ← a2]
  rfl

/-! ### Equal cells -/

theorem d1_fields : ∀ x : Byte, x = (if (x &&& 0x10) != 0 then 0x10#8 else 0) ||| (if (x &&& 8) != 0 then 8 else 0) ||| BitVec.ofNat 8 (x &&& 7).toNat ||| ((x >>> 5) <<< 5) := by
  have : ∀ k : Fin 256, BitVec.ofNat 8 k = (if (BitVec.ofNat 8 k &&& 0x10#8) != 0 then 0x10#8 else 0) ||| (if (BitVec.ofNat 8 k &&& 8#8) != 0 then 8 else 0) |||
      BitVec.ofNat 8 (BitVec.ofNat 8 k &&& 7#8).toNat ||| ((BitVec.ofNat 8 k >>> 5) <<< 5) := by decide +kernel
  intro x
  have := this ⟨x.toNat, x.isLt⟩
  simp only [BitVec.ofNat_toNat, BitVec.setWidth_eq] at this ⊢
  exact this

theorem desc_ext {a b : CellDescriptor} (h1 : a.referenceCount = b.referenceCount) (h2 : a.isExotic = b.isExotic) (h3 : a.levelMask = b.levelMask)
    (h4 : a.storeHashes = b.storeHashes) (h5 : a.d2 = b.d2) : a = b := by
  have e : a.d1 = b.d1 := by
    rw [d1_fields a.d1, d1_fields b.d1]
    unfold CellDescriptor.referenceCount at h1
    unfold CellDescriptor.isExotic at h2
    unfold CellDescriptor.levelMask at h3
    unfold CellDescriptor.storeHashes at h4
    rw [h1, h2, h3, h4]
  cases a; cases b
  simp only at e h5
  rw [e, h5]

/-- No cell has the flag for stored hashes. Builders make such cells. -/
def Plain (c : CCell) : Prop := ∀ a, CCell.Sub a c → a.desc.storeHashes = false

theorem Plain.sub {a c : CCell} (h : Plain c) (s : CCell.Sub a c) : Plain a := fun x hx => h x (hx.trans s)

theorem built_ext {H : Hasher} : ∀ (t : Cell) {a b : CCell}, Built H a → Built H b → a.tree = t → b.tree = t → Plain a → Plain b → a = b := by
  refine Cell.ind ?_
  intro e bits rs ih a b ha hb ea eb pa pb
  have fa := ha.facts
  have fb := hb.facts
  have hab : a.tree = b.tree := by rw [ea, eb]
  have hrefs : a.refs = b.refs := by
    have h1 := CCell.tree_refs a
    have h2 := CCell.tree_refs b
    rw [ea] at h1
    rw [eb] at h2
    simp only [Cell.refs] at h1 h2
    apply List.ext_getElem?
    intro i
    have g1 := congrArg (fun l => l[i]?) h1
    have g2 := congrArg (fun l => l[i]?) h2
    simp only [List.getElem?_map] at g1 g2
    cases hx : a.refs[i]? with
    | none =>
      rw [hx] at g1
      rw [g1] at g2
      cases hy : b.refs[i]? with
      | none => rfl
      | some y => rw [hy] at g2; cases g2
    | some x =>
      rw [hx] at g1
      rw [g1] at g2
      cases hy : b.refs[i]? with
      | none => rw [hy] at g2; cases g2
      | some y =>
        rw [hy] at g2
        injection g2 with g2
        have mx := List.mem_of_getElem? hx
        have my := List.mem_of_getElem? hy
        have mt : x.tree ∈ rs := by
          apply List.mem_of_getElem? (i := i)
          rw [g1]; rfl
        rw [ih x.tree mt (ha.child mx) (hb.child my) rfl g2.symm (pa.sub (.child mx (.refl _))) (pb.sub (.child my (.refl _)))]
  have hbits : a.tree.bits = b.tree.bits := by rw [hab]
  have hlen : a.bitLen = b.bitLen := by rw [← fa.len, ← fb.len, hbits]
  have hdata : a.data = b.data := bytesToBits_inj (by rw [fa.tagged, fb.tagged, hbits])
  have hexo : a.desc.isExotic = b.desc.isExotic := by
    have h1 : a.tree.exotic = a.desc.isExotic := by cases a; rfl
    have h2 : b.tree.exotic = b.desc.isExotic := by cases b; rfl
    rw [← h1, ← h2, hab]
  have hdesc : a.desc = b.desc :=
    desc_ext (by rw [fa.refs, fb.refs, hrefs]) hexo (by rw [fa.agrees.mask, fb.agrees.mask, hab])
      (by rw [pa a (.refl _), pb b (.refl _)]) (by rw [fa.d2, fb.d2, hlen])
  cases ha with
  | @mk pa' _ oka _ hfa =>
    cases hb with
    | @mk pb' _ okb _ hfb =>
      have : pa' = pb' := by
        have h1 := oka.cm
        have h2 := okb.cm
        obtain ⟨_, e1⟩ := finalize_fields hfa
        obtain ⟨_, e2⟩ := finalize_fields hfb
        rw [e1, e2] at hrefs hlen hdata hdesc
        simp only [CCell.refs, CCell.bitLen, CCell.data, CCell.desc] at hrefs hlen hdata hdesc
        cases pa'; cases pb'
        simp only at h1 h2 hrefs hlen hdata hdesc
        rw [h1, h2, hrefs, hlen, hdata, hdesc]
      rw [this, hfb] at hfa
      injection hfa with hfa
      exact hfa.symm

theorem Plain.normal {H : Hasher} {c : CCell} (hb : Built H c) (h : Plain c) : Normal c := by
  refine ⟨by rw [h c (.refl _)]; rfl, not_absent ?_⟩
  rw [hb.facts.refs]; exact hb.facts.refs_le

/-! ### The checksum in pieces -/

theorem crcAppend_append (c : BitVec 32) (x y : List Byte) : crcAppend (crcAppend c x) y = crcAppend c (x ++ y) := by
  unfold crcAppend
  rw [List.foldl_append]
  simp

theorem crcAppend_nil (c : BitVec 32) : crcAppend c [] = c := by
  unfold crcAppend; simp

theorem crc_chunks : ∀ (l : List (List Byte)) (c : BitVec 32), l.foldl crcAppend c = crcAppend c l.flatten
  | [], c => (crcAppend_nil c).symm
  | x :: l, c => by
    rw [List.foldl_cons, crc_chunks l, crcAppend_append]; rfl

theorem rchunks_flatten (w : Writer) (refSize k : Nat) (hk : 0 < k) : ∀ (fuel : Nat) (l : List CCell), l.length ≤ fuel →
    ((rchunks k fuel l).map (w.cellsBytes refSize)).flatten = w.cellsBytes refSize l
  | 0, l, h => by
    have : l = [] := List.eq_nil_of_length_eq_zero (by omega)
    rw [this]; rfl
  | fuel + 1, l, h => by
    rw [rchunks]
    cases hl : l.isEmpty with
    | true =>
      rw [List.isEmpty_iff.mp hl]; rfl
    | false =>
      have hpos : 0 < l.length := by
        cases l with
        | nil => cases hl
        | cons _ _ => simp
      simp only [Bool.false_eq_true, if_false, List.map_cons, List.flatten_cons]
      rw [rchunks_flatten w refSize k hk fuel _ (by rw [List.length_take]; omega)]
      unfold Writer.cellsBytes
      rw [← List.flatMap_append, ← List.reverse_append, List.take_append_drop]

end Boc
end Verif
