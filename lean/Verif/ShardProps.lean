import Verif.Shard
/-
C46: shard identifiers form a binary tree.
Specification: a shard is a workchain together with a path of at most 60 bits (`ShardIdent.Is`); its accounts are those
whose bits begin with the path.
-/
set_option linter.unusedVariables false
set_option linter.unusedSimpArgs false
namespace Verif
namespace ShardIdent

theorem tag_of {x : BitVec 64} {p : Bits} (h : Denotes x p) : tag x = BitVec.twoPow 64 (63 - p.length) := tag_eq h.low

theorem bitOf_snoc (p : Bits) (b : Bool) (j : Nat) (h : p.length < 63) (hj : j < 64) : bitOf (p ++ [b]) j =
    if j + p.length = 63 then b else if j + p.length = 62 then true else bitOf p j := by
  by_cases h1 : j + p.length = 63
  · rw [if_pos h1, bitOf_above (by simp; omega), List.getD_eq_getElem?_getD, List.getElem?_append_right (by omega),
      show 63 - j - p.length = 0 by omega]
    rfl
  · rw [if_neg h1]
    by_cases h2 : j + p.length = 62
    · rw [if_pos h2, bitOf_tag (by simp; omega)]
    · rw [if_neg h2]
      by_cases h3 : 63 < j + p.length
      · rw [bitOf_above (by simp; omega), bitOf_above h3, List.getD_eq_getElem?_getD, List.getD_eq_getElem?_getD]
        by_cases h4 : 63 - j < p.length
        · rw [List.getElem?_append_left h4]
        · exfalso; omega
      · rw [bitOf_below (by simp; omega), bitOf_below (by omega)]

theorem full_iff {s : ShardIdent} {p : Bits} (h : Denotes s.pfx p) : s.isFull = true ↔ p = [] := by
  have hf : Denotes prefixFull [] := ⟨by decide, by decide⟩
  unfold isFull
  constructor
  · intro e
    have e : s.pfx = prefixFull := by simpa using e
    rw [e] at h
    exact h.unique hf
  · rintro rfl
    rw [h.inj hf]; simp

theorem prefixLen_eq {s : ShardIdent} {p : Bits} (h : Denotes s.pfx p) : s.prefixLen = p.length := by
  have hl := h.low
  have hp := h.1
  have h0 : s.pfx ≠ 0 := by
    intro e
    rw [e] at hl
    have := hl.2.1
    simp at this
  unfold prefixLen
  rw [if_neg h0]
  have ht := trailingZeros_spec s.pfx
  have hlt := trailingZeros_lt h0
  have : trailingZeros s.pfx = 63 - p.length := by
    rcases Nat.lt_trichotomy (trailingZeros s.pfx) (63 - p.length) with h' | h' | h'
    · have := ht.2.2 hlt; rw [hl.2.2 _ h'] at this; cases this
    · exact h'
    · have := hl.2.1; rw [ht.2.1 _ h'] at this; cases this
  omega

/-- C46: the checked constructor accepts exactly the prefixes of paths of at most 60 bits, and for the masterchain only
the empty path. -/
theorem C46_new (w : Int) (x : BitVec 64) :
    ((new w x).isSome ↔ ∃ p, Denotes x p ∧ (w = -1 → p = [])) ∧ ∀ s, new w x = some s → s = ⟨w, x⟩ := by
  have hmask : unusedBitsMask = 7#64 := by decide
  have h7 : ∀ j : Fin 64, (7#64).getLsbD j = decide (j.val < 3) := by decide
  have hand : x &&& unusedBitsMask = 0 ↔ ∀ j, j < 3 → x.getLsbD j = false := by
    rw [hmask]
    constructor
    · intro h j hj
      have := congrArg (BitVec.getLsbD · j) h
      simp only [BitVec.getLsbD_and] at this
      rw [h7 ⟨j, by omega⟩] at this
      simpa [hj] using this
    · intro h
      apply BitVec.eq_of_getLsbD_eq
      intro j hj
      rw [BitVec.getLsbD_and, h7 ⟨j, hj⟩]
      by_cases h3 : j < 3
      · rw [h j h3]; simp
      · simp [h3]
  have hf : Denotes prefixFull [] := ⟨by decide, by decide⟩
  unfold new
  constructor
  · constructor
    · intro h
      by_cases hc : x = 0 ∨ x &&& unusedBitsMask ≠ 0 ∨ w = -1 ∧ x ≠ prefixFull
      · rw [if_pos hc] at h; cases h
      · have h0 : x ≠ 0 := fun e => hc (Or.inl e)
        have h1 : x &&& unusedBitsMask = 0 := Classical.byContradiction fun e => hc (Or.inr (Or.inl e))
        have h2 : w = -1 → x = prefixFull := fun e => Classical.byContradiction fun e' => hc (Or.inr (Or.inr ⟨e, e'⟩))
        have ht := trailingZeros_spec x
        have hlt := trailingZeros_lt h0
        have hlow : LowBit x (trailingZeros x) := ⟨hlt, ht.2.2 hlt, ht.2.1⟩
        obtain ⟨p, hp, _⟩ := Denotes.of_low hlow (by
          rcases Nat.lt_or_ge (trailingZeros x) 3 with h' | h'
          · have := hlow.2.1; rw [hand.1 h1 _ h'] at this; cases this
          · exact h')
        refine ⟨p, hp, fun e => ?_⟩
        rw [h2 e] at hp
        exact hp.unique hf
    · rintro ⟨p, hp, hw⟩
      have hl := hp.low
      rw [if_neg]
      · rfl
      · rintro (h | h | ⟨h, h'⟩)
        · rw [h] at hl; have := hl.2.1; simp at this
        · exact h (hand.2 fun j hj => hl.2.2 j (by have := hp.1; omega))
        · rw [hw h] at hp; exact h' (hp.inj hf)
  · intro s h
    by_cases hc : x = 0 ∨ x &&& unusedBitsMask ≠ 0 ∨ w = -1 ∧ x ≠ prefixFull
    · rw [if_pos hc] at h; cases h
    · rw [if_neg hc] at h; injection h with h; exact h.symm

/-- C46: the length, and the full shard. -/
theorem C46_length {s : ShardIdent} {w : Int} {p : Bits} (h : s.Is w p) :
    s.prefixLen = p.length ∧ (s.isFull = true ↔ p = []) ∧ (s.canSplit = true ↔ p.length < 60) ∧
    (newFull w).Is w [] := by
  refine ⟨prefixLen_eq h.2, full_iff h.2, ?_, rfl, by decide, show wordBits prefixFull = _ by decide⟩
  unfold canSplit maxSplitDepth
  rw [prefixLen_eq h.2]; simp

/-- C46: splitting gives the two children, exactly for paths of less than 60 bits. -/
theorem C46_split {s : ShardIdent} {w : Int} {p : Bits} (h : s.Is w p) :
    (p.length = 60 → s.split = none) ∧
    (p.length < 60 → ∃ l r, s.split = some (l, r) ∧ l.Is w (p ++ [false]) ∧ r.Is w (p ++ [true])) := by
  obtain ⟨hw, hd⟩ := h
  have hp := hd.1
  have hl := hd.low
  have hm : (unusedBitsMask <<< 1) + 1 = 15#64 := by decide
  have h15 : ∀ j : Fin 64, (15#64).getLsbD j = decide (j.val < 4) := by decide
  unfold split
  rw [hm]
  constructor
  · intro h60
    rw [if_pos]
    intro e
    have := congrArg (BitVec.getLsbD · 3) e
    simp only [BitVec.getLsbD_and] at this
    have hb := hl.2.1
    rw [h60] at hb
    rw [hb, h15 ⟨3, by decide⟩] at this
    simp at this
  · intro h60
    rw [if_neg (by
      intro e
      apply e
      apply BitVec.eq_of_getLsbD_eq
      intro j hj
      rw [BitVec.getLsbD_and, h15 ⟨j, hj⟩]
      by_cases h4 : j < 4
      · rw [hl.2.2 j (by omega)]; simp
      · simp [h4])]
    refine ⟨_, _, rfl, ⟨hw, ?_⟩, ⟨hw, ?_⟩⟩
    · show Denotes (s.pfx - tag s.pfx >>> 1) _
      have hsub := sub_tag hl
      rw [tag_of hd] at hsub ⊢
      have e1 := shr1_twoPow (t := 63 - p.length) (by omega) (by omega)
      have e2 := mul2_twoPow (t := 63 - p.length - 1)
      rw [show 63 - p.length - 1 + 1 = 63 - p.length by omega] at e2
      have e : s.pfx - BitVec.twoPow 64 (63 - p.length) >>> 1 =
          (s.pfx &&& ~~~ BitVec.twoPow 64 (63 - p.length)) ||| BitVec.twoPow 64 (63 - p.length - 1) := by
        rw [e1, ← BitVec.add_eq_or_of_and_eq_zero]
        · rw [← hsub]
          generalize BitVec.twoPow 64 (63 - p.length - 1) = y at *
          rw [← e2]
          generalize s.pfx = x
          rw [BitVec.sub_eq_add_neg, BitVec.sub_eq_add_neg, BitVec.neg_add, BitVec.sub_eq_add_neg, BitVec.add_assoc, BitVec.add_assoc]
          congr 1
          rw [BitVec.add_comm (-y) y, BitVec.add_right_neg, BitVec.add_zero]
        · apply BitVec.eq_of_getLsbD_eq
          intro j hj
          rw [BitVec.getLsbD_and, BitVec.getLsbD_and, BitVec.getLsbD_twoPow]
          by_cases hj' : j < 63 - p.length
          · rw [hl.2.2 j hj']; simp
          · have : ¬ 63 - p.length - 1 = j := by omega
            simp [this]
      rw [e]
      refine Denotes.of_bit (by simp; omega) fun j hj => ?_
      rw [bitOf_snoc _ _ _ (by omega) hj, BitVec.getLsbD_or, BitVec.getLsbD_and, BitVec.getLsbD_not, BitVec.getLsbD_twoPow,
        BitVec.getLsbD_twoPow, hd.bit hj]
      by_cases h1 : j + p.length = 63
      · have a1 : 63 - p.length = j := by omega
        have a2 : ¬ 63 - p.length - 1 = j := by omega
        rw [if_pos h1]; simp [a1, hj]; omega
      · have a1 : ¬ 63 - p.length = j := by omega
        rw [if_neg h1]
        by_cases h2 : j + p.length = 62
        · have a2 : 63 - p.length - 1 = j := by omega
          rw [if_pos h2]; simp [a2, hj]
        · have a2 : ¬ 63 - p.length - 1 = j := by omega
          rw [if_neg h2]; simp [a1, a2, hj]
    · show Denotes (s.pfx + tag s.pfx >>> 1) _
      rw [tag_of hd, shr1_twoPow (by omega) (by omega), BitVec.add_eq_or_of_and_eq_zero]
      · refine Denotes.of_bit (by simp; omega) fun j hj => ?_
        rw [bitOf_snoc _ _ _ (by omega) hj, BitVec.getLsbD_or, BitVec.getLsbD_twoPow, hd.bit hj]
        by_cases h1 : j + p.length = 63
        · rw [if_pos h1, bitOf_tag h1]; simp
        · rw [if_neg h1]
          by_cases h2 : j + p.length = 62
          · have a2 : 63 - p.length - 1 = j := by omega
            rw [if_pos h2]; simp [a2, hj]
          · have a2 : ¬ 63 - p.length - 1 = j := by omega
            rw [if_neg h2]; simp [a2]
      · apply BitVec.eq_of_getLsbD_eq
        intro j hj
        rw [BitVec.getLsbD_and, BitVec.getLsbD_twoPow]
        by_cases hj' : j < 63 - p.length
        · rw [hl.2.2 j hj']; simp
        · have : ¬ 63 - p.length - 1 = j := by omega
          simp [this]

/-- The word that `merge` and `is_parent_of` compute for a child. -/
theorem parent_word {x : BitVec 64} {q : Bits} {b : Bool} (h : Denotes x (q ++ [b])) :
    Denotes ((x - tag x) ||| (tag x <<< 1)) q := by
  have hp := h.1
  simp only [List.length_append, List.length_cons, List.length_nil] at hp
  rw [sub_tag h.low, tag_of h, shl1_twoPow]
  have hlen : (q ++ [b]).length = q.length + 1 := by simp
  rw [hlen, show 63 - (q.length + 1) + 1 = 63 - q.length by omega, show 63 - (q.length + 1) = 62 - q.length by omega]
  refine Denotes.of_bit (by omega) fun j hj => ?_
  rw [BitVec.getLsbD_or, BitVec.getLsbD_and, BitVec.getLsbD_not, BitVec.getLsbD_twoPow, BitVec.getLsbD_twoPow, h.bit hj,
    bitOf_snoc _ _ _ (by omega) hj]
  by_cases h1 : j + q.length = 63
  · have a1 : 63 - q.length = j := by omega
    rw [bitOf_tag h1]; simp [a1, hj]
  · have a1 : ¬ 63 - q.length = j := by omega
    rw [if_neg h1]
    by_cases h2 : j + q.length = 62
    · have a2 : 62 - q.length = j := by omega
      rw [if_pos h2, bitOf_below (by omega)]; simp [a1, a2, hj]
    · have a2 : ¬ 62 - q.length = j := by omega
      rw [if_neg h2]; simp [a1, a2, hj]

/-- C46: merging gives the parent and is refused exactly for the full shard; `opposite` gives the sibling; a
shard is a right child exactly if its path ends with a one. -/
theorem C46_merge {s : ShardIdent} {w : Int} :
    (s.Is w [] → s.merge = none ∧ s.opposite = none ∧ s.isRightChild = false ∧ s.isLeftChild = true) ∧
    ∀ q b, s.Is w (q ++ [b]) → (∃ m, s.merge = some m ∧ m.Is w q) ∧ (∃ o, s.opposite = some o ∧ o.Is w (q ++ [!b])) ∧
      s.isRightChild = b ∧ s.isLeftChild = !b := by
  constructor
  · rintro ⟨hw, hd⟩
    have hf := (full_iff hd).2 rfl
    have hr : s.isRightChild = false := by
      unfold isRightChild
      rw [tag_of hd, shl1_twoPow]
      have : BitVec.twoPow 64 (63 - ([] : Bits).length + 1) = 0 := by decide
      rw [this]; simp
    unfold merge opposite isLeftChild
    rw [hf, hr]; simp
  · rintro q b ⟨hw, hd⟩
    have hf : s.isFull = false := by
      cases hc : s.isFull with
      | false => rfl
      | true => exact absurd ((full_iff hd).1 hc) (by simp)
    have hp := hd.1
    simp only [List.length_append, List.length_cons, List.length_nil] at hp
    have hr : s.isRightChild = b := by
      unfold isRightChild
      have hlen : (q ++ [b]).length = q.length + 1 := by simp
      rw [tag_of hd, shl1_twoPow, hlen, show 63 - (q.length + 1) + 1 = 63 - q.length by omega, BitVec.and_twoPow]
      have hb : s.pfx.getLsbD (63 - q.length) = b := by
        rw [hd.bit (by omega), bitOf_snoc _ _ _ (by omega) (by omega), if_pos (by omega)]
      rw [hb]
      cases b
      · rfl
      · have : BitVec.twoPow 64 (63 - q.length) ≠ 0 := by
          intro e
          have e := congrArg (BitVec.getLsbD · (63 - q.length)) e
          simp only [BitVec.getLsbD_twoPow] at e
          simp at e; omega
        simpa using this
    refine ⟨⟨⟨s.workchain, (s.pfx - tag s.pfx) ||| (tag s.pfx <<< 1)⟩, ?_, hw, parent_word hd⟩,
      ⟨⟨s.workchain, s.pfx ^^^ (tag s.pfx <<< 1)⟩, ?_, hw, ?_⟩, hr, ?_⟩
    · unfold merge; rw [hf]; rfl
    · unfold opposite; rw [hf]; rfl
    · show Denotes (s.pfx ^^^ (tag s.pfx <<< 1)) _
      rw [tag_of hd, shl1_twoPow]
      refine Denotes.of_bit (by simp; omega) fun j hj => ?_
      rw [BitVec.getLsbD_xor, BitVec.getLsbD_twoPow, hd.bit hj, bitOf_snoc _ _ _ (by omega) hj, bitOf_snoc _ _ _ (by omega) hj]
      rw [show 63 - (q ++ [b]).length + 1 = 63 - q.length by simp; omega]
      by_cases h1 : j + q.length = 63
      · have a1 : 63 - q.length = j := by omega
        rw [if_pos h1, if_pos h1]; simp [a1, hj]
      · have a1 : ¬ 63 - q.length = j := by omega
        rw [if_neg h1, if_neg h1]; simp [a1]
    · unfold isLeftChild; rw [hr]

/-- C46: merging either child of a split gives the shard back, and the children are opposite to each other. -/
theorem C46_split_merge {s l r : ShardIdent} {w : Int} {p : Bits} (h : s.Is w p) (hs : s.split = some (l, r)) :
    l.merge = some s ∧ r.merge = some s ∧ l.opposite = some r ∧ r.opposite = some l ∧ s.isParentOf l = true ∧
    s.isParentOf r = true ∧ l.isLeftChild = true ∧ r.isRightChild = true := by
  have ext : ∀ {a b : ShardIdent} {w p}, a.Is w p → b.Is w p → a = b := by
    intro a b w p ha hb
    have := ha.2.inj hb.2
    have := ha.1.trans hb.1.symm
    cases a; cases b; simp_all
  rcases Nat.lt_or_ge p.length 60 with h60 | h60
  · obtain ⟨l', r', e, hl, hr⟩ := (C46_split h).2 h60
    rw [e] at hs
    injection hs with hs
    injection hs with h1 h2
    subst h1 h2
    obtain ⟨⟨ml, eml, hml⟩, ⟨ol, eol, hol⟩, r1, l1⟩ := C46_merge.2 _ _ hl
    obtain ⟨⟨mr, emr, hmr⟩, ⟨or', eor, hor⟩, r2, l2⟩ := C46_merge.2 _ _ hr
    have par : ∀ {c : ShardIdent} {b}, c.Is w (p ++ [b]) → s.isParentOf c = true := by
      intro c b hc
      unfold isParentOf
      have hf : c.isFull = false := by
        cases hcf : c.isFull with
        | false => rfl
        | true => exact absurd ((full_iff hc.2).1 hcf) (by simp)
      rw [if_neg (by rw [hf, hc.1, h.1]; simp), (parent_word hc.2).inj h.2]; simp
    refine ⟨?_, ?_, ?_, ?_, par hl, par hr, l1, r2⟩
    · rw [eml, ext hml h]
    · rw [emr, ext hmr h]
    · rw [eol, ext hol hr]
    · rw [eor, ext hor hl]
  · rw [(C46_split h).1 (by have := h.2.1; omega)] at hs; cases hs

/-- C46: `is_parent_of` is the parent relation of paths. -/
theorem C46_parent {s c : ShardIdent} {w w' : Int} {p q : Bits} (h : s.Is w p) (hc : c.Is w' q) :
    (s.isParentOf c = true ↔ w = w' ∧ ∃ b, q = p ++ [b]) ∧ (c.isChildOf s = s.isParentOf c) := by
  refine ⟨?_, rfl⟩
  unfold isParentOf
  rw [h.1, hc.1]
  by_cases hq : q = []
  · rw [if_pos (Or.inr ((full_iff hc.2).2 hq))]
    subst hq
    simp
  · have hf : ¬ c.isFull = true := fun e => hq ((full_iff hc.2).1 e)
    by_cases hw : w = w'
    · rw [if_neg (by rintro (e | e); exact e hw; exact hf e)]
      obtain ⟨q', b, rfl⟩ : ∃ q' b, q = q' ++ [b] := ⟨q.dropLast, q.getLast hq, (List.dropLast_concat_getLast hq).symm⟩
      have hpw := parent_word hc.2
      constructor
      · intro e
        have e := eq_of_beq e
        rw [e] at hpw
        exact ⟨hw, b, by rw [h.2.unique hpw]⟩
      · rintro ⟨_, b', e⟩
        have e := (List.append_inj' e rfl).1
        subst e
        rw [hpw.inj h.2]; simp
    · rw [if_pos (Or.inl hw)]; simp [hw]

/-- Two prefixes agree above bit `63 - n` exactly if the first `n` bits of the paths agree. -/
theorem xor_above {x y m : BitVec 64} {p q : Bits} (hx : Denotes x p) (hy : Denotes y q) {n : Nat} (hn : n ≤ p.length) (hn' : n ≤ q.length)
    (hm : ∀ j, j < 64 → m.getLsbD j = decide (63 - n < j)) : ((x ^^^ y) &&& m == 0) = true ↔ p.take n = q.take n := by
  have hp := hx.1
  have hq := hy.1
  have hb : ((x ^^^ y) &&& m == 0) = true ↔ (x ^^^ y) &&& m = 0 := by simp
  rw [hb]
  constructor
  · intro e
    refine list_ext_getD (by simp; omega) fun i hi => ?_
    have hi : i < n := by simp at hi; omega
    have := congrArg (BitVec.getLsbD · (63 - i)) e
    simp only [BitVec.getLsbD_and, BitVec.getLsbD_xor] at this
    rw [hx.bit (by omega), hy.bit (by omega), hm _ (by omega), bitOf_above (by omega), bitOf_above (by omega),
      show 63 - (63 - i) = i by omega] at this
    have hlt : 63 - n < 63 - i := by omega
    rw [List.getD_eq_getElem?_getD, List.getD_eq_getElem?_getD, List.getElem?_take, List.getElem?_take, if_pos hi, if_pos hi,
      ← List.getD_eq_getElem?_getD, ← List.getD_eq_getElem?_getD]
    simpa [hlt] using this
  · intro e
    apply BitVec.eq_of_getLsbD_eq
    intro j hj
    rw [BitVec.getLsbD_and, BitVec.getLsbD_xor, hm j hj, hx.bit hj, hy.bit hj]
    by_cases h1 : 63 - n < j
    · rw [bitOf_above (by omega), bitOf_above (by omega)]
      have := congrArg (fun l : Bits => l.getD (63 - j) false) e
      simp only [List.getD_eq_getElem?_getD, List.getElem?_take, if_pos (show 63 - j < n by omega)] at this
      rw [List.getD_eq_getElem?_getD, List.getD_eq_getElem?_getD, this]; simp
    · simp [h1]

theorem prefix_iff_take {p q : Bits} (h : p.length ≤ q.length) : p <+: q ↔ p = q.take p.length := List.prefix_iff_eq_take

/-- C46: two shards intersect exactly if they are in the same workchain and one path begins with the other. -/
theorem C46_intersects {s o : ShardIdent} {w w' : Int} {p q : Bits} (h : s.Is w p) (ho : o.Is w' q) :
    s.intersects o = true ↔ w = w' ∧ (p <+: q ∨ q <+: p) := by
  unfold intersects
  rw [h.1, ho.1]
  by_cases hw : w = w'
  · rw [if_neg (fun e => e hw)]
    dsimp only
    have hp := h.2.1
    have hq := ho.2.1
    rw [tag_toNat h.2.low, tag_toNat ho.2.low]
    have hlt : 2 ^ (63 - q.length) > 2 ^ (63 - p.length) ↔ q.length < p.length := by
      constructor
      · intro e
        have := (Nat.pow_lt_pow_iff_right (a := 2) (by decide)).1 e
        omega
      · intro e
        exact (Nat.pow_lt_pow_iff_right (a := 2) (by decide)).2 (by omega)
    by_cases hl : q.length < p.length
    · rw [if_pos (hlt.2 hl), tag_of ho.2,
        xor_above h.2 ho.2 (n := q.length) (by omega) (by omega) (fun j hj => by rw [above_bit (by omega)]; simp [hj])]
      constructor
      · intro e
        rw [List.take_length] at e
        exact ⟨hw, Or.inr (by rw [List.prefix_iff_eq_take]; exact e.symm)⟩
      · rintro ⟨_, e | e⟩
        · have := e.length_le; omega
        · rw [List.prefix_iff_eq_take] at e
          rw [List.take_length]; exact e.symm
    · rw [if_neg (fun e => hl (hlt.1 e)), tag_of h.2,
        xor_above h.2 ho.2 (n := p.length) (by omega) (by omega) (fun j hj => by rw [above_bit (by omega)]; simp [hj])]
      constructor
      · intro e
        rw [List.take_length] at e
        exact ⟨hw, Or.inl (by rw [List.prefix_iff_eq_take]; exact e)⟩
      · rintro ⟨_, e | e⟩
        · rw [List.prefix_iff_eq_take] at e
          rw [List.take_length]; exact e
        · have hle := e.length_le
          have := e.eq_of_length (by omega)
          rw [this]
  · rw [if_pos hw]; simp [hw]

/-! ### Accounts -/

theorem byte_mask (a b : Byte) {n : Nat} (h0 : n ≠ 0) (h : n < 8) :
    (((a ^^^ b) &&& ((0xff#8) <<< (8 - n)) == 0) = true) ↔ (wordBits a).take n = (wordBits b).take n := by
  have hb : ((a ^^^ b) &&& ((0xff#8) <<< (8 - n)) == 0) = true ↔ (a ^^^ b) &&& ((0xff#8) <<< (8 - n)) = 0 := by simp
  rw [hb]
  have hff : ∀ j, j < 8 → ((0xff#8) <<< (8 - n)).getMsbD j = decide (j < n) := by
    have : ∀ n j : Fin 8, n.val ≠ 0 → ((0xff#8) <<< (8 - n.val)).getMsbD j.val = decide (j.val < n.val) := by decide
    intro j hj
    exact this ⟨n, h⟩ ⟨j, hj⟩ h0
  have hw : ∀ (x : Byte) i, i < 8 → (wordBits x).getD i false = x.getMsbD i := by
    intro x i hi
    unfold wordBits
    rw [List.getD_eq_getElem?_getD, List.getElem?_map, List.getElem?_range hi]; rfl
  constructor
  · intro e
    refine list_ext_getD (by simp) fun i hi => ?_
    have hi : i < n := by simp at hi; omega
    have := congrArg (BitVec.getMsbD · i) e
    simp only [BitVec.getMsbD_and, BitVec.getMsbD_xor] at this
    rw [hff i (by omega)] at this
    rw [List.getD_eq_getElem?_getD, List.getD_eq_getElem?_getD, List.getElem?_take, List.getElem?_take, if_pos hi, if_pos hi,
      ← List.getD_eq_getElem?_getD, ← List.getD_eq_getElem?_getD, hw _ _ (by omega), hw _ _ (by omega)]
    simpa [hi] using this
  · intro e
    apply BitVec.eq_of_getMsbD_eq
    intro i hi
    rw [BitVec.getMsbD_and, BitVec.getMsbD_xor, hff i hi]
    by_cases h1 : i < n
    · have := congrArg (fun l : Bits => l.getD i false) e
      simp only [List.getD_eq_getElem?_getD, List.getElem?_take, if_pos h1] at this
      rw [← List.getD_eq_getElem?_getD, ← List.getD_eq_getElem?_getD, hw _ _ (by omega), hw _ _ (by omega)] at this
      rw [this]; simp
    · simp [h1]

theorem containsGo_spec : ∀ (ps as : List Byte) (n : Nat), ps.length = as.length → n ≤ 8 * ps.length →
    (containsGo n ps as = true ↔ (bytesToBits ps).take n = (bytesToBits as).take n)
  | [], [], n, _, hn => by
    have : n = 0 := by simpa using hn
    subst this
    simp [containsGo]
  | [], _ :: _, _, h, _ => by simp at h
  | _ :: _, [], _, h, _ => by simp at h
  | p :: ps, a :: as, n, hl, hn => by
    have hl : ps.length = as.length := by simpa using hl
    unfold containsGo
    rw [bytesToBits_cons, bytesToBits_cons]
    by_cases h0 : n = 0
    · rw [if_pos h0, h0]; simp
    · rw [if_neg h0]
      by_cases h8 : 8 ≤ n
      · rw [if_pos h8, List.take_append, List.take_append, wordBits_length, wordBits_length]
        have ih := containsGo_spec ps as (n - 8) hl (by simp at hn; omega)
        rw [List.take_of_length_le (l := wordBits p) (by simp; omega), List.take_of_length_le (l := wordBits a) (by simp; omega)]
        by_cases hpa : p = a
        · rw [if_neg (fun e => e hpa), ih, hpa]
          constructor
          · intro e; rw [e]
          · intro e; exact (List.append_inj e rfl).2
        · rw [if_pos hpa]
          constructor
          · intro e; cases e
          · intro e
            exact absurd (wordBits_inj (List.append_inj e (by simp)).1) hpa
      · rw [if_neg h8, byte_mask p a h0 (by omega), List.take_append_of_le_length (by simp; omega),
          List.take_append_of_le_length (by simp; omega)]

theorem bytesToBits_toBE8 (x : BitVec 64) : bytesToBits (toBE 8 x) = wordBits x := by
  have hl : (bytesToBits (toBE 8 x)).length = (wordBits x).length := by simp
  refine list_ext_getD hl fun i hi => ?_
  have hi : i < 64 := by rw [hl] at hi; simpa using hi
  rw [bytesToBits_getD, bitAt_toBE]
  unfold wordBits
  rw [List.getD_eq_getElem?_getD, List.getElem?_map, List.getElem?_range hi]; rfl

/-- C46: a shard contains exactly the accounts whose bits begin with its path; for an address, given by its workchain and
its first 64 bits, also the workchain must agree. -/
theorem C46_contains {s : ShardIdent} {w : Int} {p : Bits} (h : s.Is w p) :
    (∀ account : List Byte, 8 ≤ account.length → (s.containsAccount account = true ↔ p <+: bytesToBits account)) ∧
    ∀ (w' : Int) (x : BitVec 64), s.containsAddress w' x = true ↔ w = w' ∧ p <+: wordBits x := by
  have hp := h.2.1
  have base : ∀ as : List Byte, as.length = 8 → (containsGo s.prefixLen (toBE 8 s.pfx) as = true ↔ p <+: bytesToBits as) := by
    intro as hl
    rw [containsGo_spec _ _ _ (by rw [hl]; simp) (by rw [prefixLen_eq h.2]; simp; omega), prefixLen_eq h.2, bytesToBits_toBE8, h.2.2,
      List.take_left, List.prefix_iff_eq_take]
  constructor
  · intro account hl
    unfold containsAccount
    rw [base _ (by simp; omega)]
    have e : bytesToBits account = bytesToBits (account.take 8) ++ bytesToBits (account.drop 8) := by
      rw [← bytesToBits_append, List.take_append_drop]
    rw [e]
    constructor
    · intro hpre; exact hpre.trans (List.prefix_append _ _)
    · intro hpre
      exact List.prefix_of_prefix_length_le hpre (List.prefix_append _ _) (by simp; omega)
  · intro w' x
    unfold containsAddress
    rw [Bool.and_eq_true, base _ (by simp), bytesToBits_toBE8, h.1]
    simp

/-- C46: the accounts of a shard are split between its two children: every account is in exactly one. -/
theorem C46_cover {s l r : ShardIdent} {w : Int} {p : Bits} (h : s.Is w p) (hs : s.split = some (l, r)) {account : List Byte}
    (ha : 8 ≤ account.length) :
    (s.containsAccount account = true ↔ (l.containsAccount account = true ∨ r.containsAccount account = true)) ∧
    ¬ (l.containsAccount account = true ∧ r.containsAccount account = true) := by
  rcases Nat.lt_or_ge p.length 60 with h60 | h60
  · obtain ⟨l', r', e, hl, hr⟩ := (C46_split h).2 h60
    rw [e] at hs
    injection hs with hs
    injection hs with h1 h2
    subst h1 h2
    rw [(C46_contains h).1 _ ha, (C46_contains hl).1 _ ha, (C46_contains hr).1 _ ha]
    have hlen : (bytesToBits account).length = 8 * account.length := by simp
    constructor
    · constructor
      · rintro ⟨t, e⟩
        cases t with
        | nil => rw [← e] at hlen; simp at hlen; omega
        | cons b t =>
          cases b
          · exact Or.inl ⟨t, by rw [← e]; simp⟩
          · exact Or.inr ⟨t, by rw [← e]; simp⟩
      · rintro (⟨t, e⟩ | ⟨t, e⟩)
        · exact ⟨_, by rw [← e, List.append_assoc]⟩
        · exact ⟨_, by rw [← e, List.append_assoc]⟩
    · rintro ⟨⟨t, e⟩, ⟨t', e'⟩⟩
      rw [← e', List.append_assoc, List.append_assoc] at e
      have := List.append_cancel_left e
      simp at this
  · rw [(C46_split h).1 (by have := h.2.1; omega)] at hs; cases hs

/-- C46: shards of one workchain intersect exactly if they have an account in common. -/
theorem C46_disjoint {s o : ShardIdent} {w : Int} {p q : Bits} (h : s.Is w p) (ho : o.Is w q) :
    s.intersects o = true ↔ ∃ account : List Byte, account.length = 32 ∧ s.containsAccount account = true ∧ o.containsAccount account = true := by
  rw [C46_intersects h ho]
  constructor
  · rintro ⟨_, hpq⟩
    have mk : ∀ l : Bits, l.length ≤ 60 → ∃ account : List Byte, account.length = 32 ∧ l <+: bytesToBits account := by
      intro l hl
      refine ⟨Rd.bytesOf 32 (l ++ List.replicate (256 - l.length) false), ?_, ?_⟩
      · unfold Rd.bytesOf; simp
      · rw [Rd.bytesToBits_bytesOf (by simp; omega)]
        exact List.prefix_append _ _
    rcases hpq with e | e
    · obtain ⟨a, ha, hpre⟩ := mk q ho.2.1
      exact ⟨a, ha, ((C46_contains h).1 _ (by omega)).2 (e.trans hpre), ((C46_contains ho).1 _ (by omega)).2 hpre⟩
    · obtain ⟨a, ha, hpre⟩ := mk p h.2.1
      exact ⟨a, ha, ((C46_contains h).1 _ (by omega)).2 hpre, ((C46_contains ho).1 _ (by omega)).2 (e.trans hpre)⟩
  · rintro ⟨a, ha, h1, h2⟩
    rw [(C46_contains h).1 _ (by omega)] at h1
    rw [(C46_contains ho).1 _ (by omega)] at h2
    refine ⟨rfl, ?_⟩
    rcases Nat.le_total p.length q.length with hle | hle
    · exact Or.inl (List.prefix_of_prefix_length_le h1 h2 hle)
    · exact Or.inr (List.prefix_of_prefix_length_le h2 h1 hle)

/-! ### Ancestors -/

/-- C46, violated: `is_ancestor_of` compares the wrong bits. The shard with path `11` is reported to be an ancestor
of the disjoint shard with path `01`. -/
theorem C46_ancestor_wrong :
    let s : ShardIdent := ⟨0, 0xE000000000000000⟩
    let o : ShardIdent := ⟨0, 0x6000000000000000⟩
    new 0 s.pfx = some s ∧ new 0 o.pfx = some o ∧ s.Is 0 [true, true] ∧ o.Is 0 [false, true] ∧
    s.isAncestorOf o = true ∧ s.intersects o = false := by
  refine ⟨by decide, by decide, ⟨rfl, by decide, by decide⟩, ⟨rfl, by decide, by decide⟩, by decide, by decide⟩

/-- C46 (partial: `is_ancestor_of` should be true exactly for the same workchain and a path that begins with the path of
the ancestor). It is true exactly if the workchains agree, the path is not shorter, and the two paths agree at those
positions that are last in the ancestor's path or followed there by a zero. Hence it is never false for
a true descendant, and right for ancestors whose path has no ones after its first bit. -/
theorem C46_ancestor_partial {s o : ShardIdent} {w w' : Int} {p q : Bits} (h : s.Is w p) (ho : o.Is w' q) :
    (s.isAncestorOf o = true ↔ w = w' ∧ p.length ≤ q.length ∧
      ∀ i, i < p.length → (i + 1 = p.length ∨ p.getD (i + 1) false = false) → p.getD i false = q.getD i false) ∧
    (w = w' → p <+: q → s.isAncestorOf o = true) ∧
    ((∀ b ∈ p.tail, b = false) → (s.isAncestorOf o = true ↔ w = w' ∧ p <+: q)) := by
  have hp := h.2.1
  have hq := ho.2.1
  have main : s.isAncestorOf o = true ↔ w = w' ∧ p.length ≤ q.length ∧
      ∀ i, i < p.length → (i + 1 = p.length ∨ p.getD (i + 1) false = false) → p.getD i false = q.getD i false := by
    unfold isAncestorOf
    rw [h.1, ho.1]
    by_cases hw : w = w'
    · rw [if_neg (fun e => e hw), Bool.and_eq_true, decide_eq_true_iff, tag_toNat h.2.low, tag_toNat ho.2.low,
        Nat.pow_le_pow_iff_right (by decide)]
      have e1 : 63 - q.length ≤ 63 - p.length ↔ p.length ≤ q.length := by omega
      rw [e1]
      have hm : ∀ j, j < 64 → (tagMask s.pfx <<< 1).getLsbD j =
          (decide (j + p.length = 64) || (decide (64 < j + p.length) && !bitOf p (j - 1))) := by
        intro j hj
        rw [BitVec.getLsbD_shiftLeft, tagMask_bit h.2.low, h.2.bit (by omega)]
        by_cases h1 : j < 1
        · have : ¬ j + p.length = 64 := by omega
          have : ¬ 64 < j + p.length := by omega
          simp [*]
        · by_cases h2 : j + p.length = 64
          · have : j - 1 = 63 - p.length := by omega
            simp [h1, h2, this, hj]
          · have : ¬ j - 1 = 63 - p.length := by omega
            by_cases h3 : 64 < j + p.length
            · have h4 : 63 - p.length < j - 1 := by omega
              have h5 : j - 1 < 64 := by omega
              simp [h1, h2, h3, h4, h5, this, hj]
            · have h4 : ¬ 63 - p.length < j - 1 := by omega
              simp [h1, h2, h3, h4, this, hj]
      constructor
      · rintro ⟨hle, e⟩
        refine ⟨hw, hle, fun i hi hc => ?_⟩
        have e : (s.pfx ^^^ o.pfx) &&& (tagMask s.pfx <<< 1) = 0 := by simpa using e
        have := congrArg (BitVec.getLsbD · (63 - i)) e
        simp only [BitVec.getLsbD_and, BitVec.getLsbD_xor] at this
        rw [h.2.bit (by omega), ho.2.bit (by omega), hm _ (by omega), bitOf_above (by omega), bitOf_above (by omega),
          show 63 - (63 - i) = i by omega] at this
        have hbit : (decide (63 - i + p.length = 64) || (decide (64 < 63 - i + p.length) && !bitOf p (63 - i - 1))) = true := by
          rcases hc with hc | hc
          · have : 63 - i + p.length = 64 := by omega
            simp [this]
          · by_cases h2 : 63 - i + p.length = 64
            · simp [h2]
            · rw [bitOf_above (by omega), show 63 - (63 - i - 1) = i + 1 by omega, hc]
              have : 64 < 63 - i + p.length := by omega
              simp [this]
        rw [hbit] at this
        simpa using this
      · rintro ⟨_, hle, hall⟩
        refine ⟨hle, ?_⟩
        have : (s.pfx ^^^ o.pfx) &&& (tagMask s.pfx <<< 1) = 0 := by
          apply BitVec.eq_of_getLsbD_eq
          intro j hj
          rw [BitVec.getLsbD_and, BitVec.getLsbD_xor, hm j hj, h.2.bit hj, ho.2.bit hj]
          by_cases h1 : 63 < j + p.length
          · have := hall (63 - j) (by omega)
            rw [bitOf_above h1, bitOf_above (by omega)]
            by_cases h2 : j + p.length = 64
            · rw [this (Or.inl (by omega))]; simp
            · cases hb : p.getD (63 - j + 1) false with
              | false => rw [this (Or.inr hb)]; simp
              | true =>
                rw [bitOf_above (by omega), show 63 - (j - 1) = 63 - j + 1 by omega, hb]
                simp [h2]
          · have a : ¬ j + p.length = 64 := by omega
            have b : ¬ 64 < j + p.length := by omega
            simp [a, b]
        simp [this]
    · rw [if_pos hw]; simp [hw]
  refine ⟨main, fun hw hpre => ?_, fun htail => ?_⟩
  · rw [main]
    refine ⟨hw, hpre.length_le, fun i hi _ => ?_⟩
    obtain ⟨t, rfl⟩ := hpre
    rw [List.getD_eq_getElem?_getD, List.getD_eq_getElem?_getD, List.getElem?_append_left hi]
  · rw [main]
    constructor
    · rintro ⟨hw, hle, hall⟩
      refine ⟨hw, ?_⟩
      rw [List.prefix_iff_eq_take]
      refine list_ext_getD (by simp; omega) fun i hi => ?_
      rw [hall i hi (by
        rcases Nat.lt_or_ge (i + 1) p.length with h1 | h1
        · right
          rw [List.getD_eq_getElem?_getD, List.getElem?_eq_getElem h1]
          apply htail
          rw [List.mem_iff_getElem]
          exact ⟨i, by simp; omega, by simp⟩
        · left; omega)]
      rw [List.getD_eq_getElem?_getD, List.getD_eq_getElem?_getD, List.getElem?_take, if_pos hi]
    · rintro ⟨hw, hpre⟩
      refine ⟨hw, hpre.length_le, fun i hi _ => ?_⟩
      obtain ⟨t, rfl⟩ := hpre
      rw [List.getD_eq_getElem?_getD, List.getD_eq_getElem?_getD, List.getElem?_append_left hi]

/-! ### Cells -/

variable {ρ : Type}

/-- The cell contents of a shard: the length of the path, the workchain, and the path filled with zeros to 64 bits. -/
def enc (w : Int) (p : Bits) : Enc ρ :=
  Enc.bits (natBits 8 p.length) ++ Enc.bits (natBits 32 (i32ToU32 w)) ++ Enc.bits (p ++ List.replicate (64 - p.length) false)

theorem i32_lt (w : Int) : i32ToU32 w < 2 ^ 32 := by
  unfold i32ToU32
  have : w % 2 ^ 32 < 2 ^ 32 := Int.emod_lt_of_pos _ (by decide)
  omega

theorem i32_round {w : Int} (h : IsI32 w) : u32ToI32 (i32ToU32 w) = w := by
  unfold IsI32 at h
  unfold u32ToI32 i32ToU32
  split <;> omega

theorem u32_round {v : Nat} (h : v < 2 ^ 32) : i32ToU32 (u32ToI32 v) = v ∧ IsI32 (u32ToI32 v) := by
  unfold u32ToI32 i32ToU32 IsI32
  split <;> omega

theorem noTag_bits {x : BitVec 64} {p : Bits} (h : Denotes x p) :
    natBits 64 (x - tag x).toNat = p ++ List.replicate (64 - p.length) false := by
  have hp := h.1
  rw [← wordBits_eq_natBits]
  refine list_ext_getD (by simp; omega) fun i hi => ?_
  have hi : i < 64 := by simpa using hi
  have e := getLsbD_wordBits (x - tag x) (j := 63 - i) (by omega)
  rw [show 63 - (63 - i) = i by omega] at e
  rw [← e, sub_tag h.low, BitVec.getLsbD_and, BitVec.getLsbD_not, BitVec.getLsbD_twoPow, h.bit (by omega)]
  by_cases h1 : i < p.length
  · have a : ¬ 63 - p.length = 63 - i := by omega
    rw [bitOf_above (by omega), show 63 - (63 - i) = i by omega, List.getD_eq_getElem?_getD, List.getD_eq_getElem?_getD,
      List.getElem?_append_left h1]
    have b : 63 - i < 64 := by omega
    simp [a, b]
  · rw [List.getD_eq_getElem?_getD, List.getElem?_append_right (by omega), List.getElem?_replicate]
    by_cases h2 : i = p.length
    · have b : 63 - p.length < 64 := by omega
      have c : 0 < 64 - p.length := by omega
      subst h2; simp [b, c]
    · rw [bitOf_below (by omega)]
      split <;> simp

theorem load_word {l : Bits} (hl : l.length = 64) {n : Nat} (hn : n ≤ 60) :
    Denotes ((BitVec.ofNat 64 (natOfBits l) &&& (~~~ ((1#64 : BitVec 64) <<< (63 - n)) + 1)) ||| ((1#64 : BitVec 64) <<< (63 - n))) (l.take n) := by
  have hlt := natOfBits_lt l
  rw [hl] at hlt
  have hw : wordBits (BitVec.ofNat 64 (natOfBits l)) = l := by
    rw [wordBits_eq_natBits, BitVec.toNat_ofNat, Nat.mod_eq_of_lt hlt]
    have := natBits_natOfBits l
    rwa [hl] at this
  have e : (1#64 : BitVec 64) <<< (63 - n) = BitVec.twoPow 64 (63 - n) := by rw [BitVec.twoPow]
  have hlen : (l.take n).length = n := by simp; omega
  rw [e]
  refine Denotes.of_bit (by omega) fun j hj => ?_
  have hm := tagMask_bit (lowBit_twoPow (t := 63 - n) (by omega)) j
  unfold tagMask at hm
  rw [BitVec.getLsbD_or, BitVec.getLsbD_and, hm, getLsbD_wordBits _ hj, hw, BitVec.getLsbD_twoPow]
  by_cases h1 : 63 < j + n
  · have a : ¬ 63 - n = j := by omega
    have a' : ¬ j = 63 - n := by omega
    have b : 63 - n < j := by omega
    rw [bitOf_above (by omega), List.getD_eq_getElem?_getD, List.getD_eq_getElem?_getD, List.getElem?_take, if_pos (by omega)]
    simp [a, a', b, hj]
  · by_cases h2 : j + n = 63
    · have a : 63 - n = j := by omega
      rw [bitOf_tag (by omega)]
      simp [a, hj]
    · have a : ¬ 63 - n = j := by omega
      have a' : ¬ j = 63 - n := by omega
      have b : ¬ 63 - n < j := by omega
      rw [bitOf_below (by omega)]
      simp [a, a', b]

/-- C46: a shard is written as its length, workchain and path, and read back; reading accepts exactly cells with a length
of at most 60, ignores the bits behind the path, and always gives a shard with a path of that length. -/
theorem C46_cell {s : ShardIdent} {w : Int} {p : Bits} (h : s.Is w p) (hw : IsI32 w) :
    Writes (s.store : Wr ρ Unit) (enc w p) ∧ Reads (load : Rd ρ ShardIdent) (enc w p) s ∧
    Exact (load : Rd ρ ShardIdent) (fun s e => ∃ w p l, IsI32 w ∧ s.Is w p ∧ l.length = 64 ∧ p <+: l ∧
      e = Enc.bits (natBits 8 p.length) ++ Enc.bits (natBits 32 (i32ToU32 w)) ++ Enc.bits l) ∧
    Safe (load : Rd ρ ShardIdent) := by
  have hp := h.2.1
  refine ⟨?_, ?_, ?_, ?_⟩
  · unfold store
    rw [prefixLen_eq h.2, h.1]
    have a := (Wr.writes_u8 (ρ := ρ) (v := p.length) (by omega)).writes
    have b := (Wr.writes_u32 (ρ := ρ) (i32_lt w)).writes
    have c := (Wr.writes_u64 (ρ := ρ) (v := (s.pfx - tag s.pfx).toNat) (BitVec.isLt _)).writes
    rw [noTag_bits h.2] at c
    refine (a.bind (b.bind c)).cast ?_
    unfold enc
    rw [Enc.append_assoc]
  · unfold load enc
    rw [Enc.append_assoc]
    refine (Rd.takes_u8.reads_nat (v := p.length) (by omega)).bind ?_
    refine Reads.cast (Reads.bind (Reads.check (decide_eq_true hp)) (Reads.bind (Rd.takes_u32.reads_nat (i32_lt w)) ?_)) (Enc.nil_append _)
    have hl : (p ++ List.replicate (64 - p.length) false).length = 64 := by simp; omega
    refine Reads.cast (Reads.bind (Rd.takes_u64.reads hl) (w := s) (e2 := Enc.nil) ?_) (Enc.append_nil _)
    have hd := load_word hl hp
    rw [List.take_left] at hd
    rw [i32_round hw]
    have hx := hd.inj h.2
    have hs : s = ⟨w, s.pfx⟩ := by rw [← h.1]
    dsimp only
    rw [hx, ← hs]
    exact Reads.pure s
  · unfold load
    refine Exact.bind Rd.takes_u8.exact_nat (R3 := fun n s e => n ≤ 60 ∧ ∃ w l, IsI32 w ∧ s.Is w (l.take n) ∧ l.length = 64 ∧
      e = Enc.bits (natBits 32 (i32ToU32 w)) ++ Enc.bits l) (fun n => ?_) ?_
    · refine Exact.bind (Exact.check _ _) (R3 := fun _ s e => n ≤ 60 → ∃ w l, IsI32 w ∧ s.Is w (l.take n) ∧ l.length = 64 ∧
        e = Enc.bits (natBits 32 (i32ToU32 w)) ++ Enc.bits l) (fun _ => ?_) ?_
      · refine Exact.bind Rd.takes_u32.exact_nat (R3 := fun wc s e => n ≤ 60 → ∃ l, s.Is (u32ToI32 wc) (l.take n) ∧
          l.length = 64 ∧ e = Enc.bits l) (fun wc => ?_) ?_
        · refine Exact.bind Rd.takes_u64.exact (R3 := fun x s e => s = ⟨u32ToI32 wc, (BitVec.ofNat 64 x &&&
            (~~~ ((1#64 : BitVec 64) <<< (63 - n)) + 1)) ||| ((1#64 : BitVec 64) <<< (63 - n))⟩ ∧ e = Enc.nil) (fun x => Exact.pure _ ⟨rfl, rfl⟩) ?_
          rintro x s e1 e2 ⟨l, hl, rfl, rfl⟩ ⟨rfl, rfl⟩ hn
          exact ⟨l, ⟨rfl, load_word hl hn⟩, hl, Enc.append_nil _⟩
        · rintro wc s e1 e2 ⟨hv, rfl⟩ h2 hn
          obtain ⟨l, h3, h4, rfl⟩ := h2 hn
          exact ⟨_, l, (u32_round hv).2, h3, h4, by rw [(u32_round hv).1]⟩
      · rintro _ s e1 e2 ⟨hn, rfl⟩ h2
        have hn : n ≤ 60 := of_decide_eq_true hn
        obtain ⟨w, l, h3⟩ := h2 hn
        exact ⟨hn, w, l, by simpa using h3⟩
    · rintro n s e1 e2 ⟨hv, rfl⟩ ⟨hn, w, l, h1, h2, h3, rfl⟩
      have : (l.take n).length = n := by simp; omega
      exact ⟨w, l.take n, l, h1, h2, h3, List.take_prefix _ _, by rw [this, Enc.append_assoc]⟩
  · unfold load
    refine Rd.takes_u8.safe.bind fun n => (Safe.check _ (by simp) (by simp)).bind fun _ => Rd.takes_u32.safe.bind fun _ =>
      Rd.takes_u64.safe.bind fun _ => Safe.pure _

/-- C46, violated for the masterchain: it cannot be split, but `split` does not check, and returns shards that the
constructor refuses. -/
theorem C46_masterchain_split : ∃ l r : ShardIdent, new (-1) prefixFull = some (newFull (-1)) ∧
    (newFull (-1)).split = some (l, r) ∧ new (-1) l.pfx = none ∧ new (-1) r.pfx = none :=
  ⟨⟨-1, 0x4000000000000000⟩, ⟨-1, 0xC000000000000000⟩, by decide, by decide, by decide, by decide⟩

/-! ### Concrete cases -/

example : (⟨0, 0x6800000000000000⟩ : ShardIdent).Is 0 [false, true, true, false] := ⟨rfl, by decide, by decide⟩
example : ∃ l r, (⟨0, 0x6800000000000000⟩ : ShardIdent).split = some (l, r) ∧ l.pfx = 0x6400000000000000#64 ∧
    r.pfx = 0x6C00000000000000#64 := ⟨_, _, rfl, by decide, by decide⟩
example : IsI32 (-1) ∧ IsI32 0 := by unfold IsI32; decide
example : (newFull 0).containsAccount (List.replicate 32 0x55#8) = true := by decide
example : (⟨0, 0x6800000000000000⟩ : ShardIdent).isAncestorOf ⟨0, 0x6C00000000000000⟩ = true := by decide

/-- `block_id.rs:12-23`: a block id; `Store` and `Load` are derived (`proc/src/derive_store.rs`, `derive_load.rs`): the
fields in order. -/
structure BlockId where
  shard : ShardIdent
  seqno : Nat
  rootHash : List Byte
  fileHash : List Byte

def BlockId.store (b : BlockId) : Wr ρ Unit := do
  b.shard.store
  Wr.u32 b.seqno
  Wr.u256 b.rootHash
  Wr.u256 b.fileHash

def BlockId.load : Rd ρ BlockId := do
  let shard ← ShardIdent.load
  let seqno ← Rd.u32
  let rootHash ← Rd.u256
  let fileHash ← Rd.u256
  pure ⟨shard, seqno, rootHash, fileHash⟩

/-- C46: block ids survive their cell form. -/
theorem C46_block_id {b : BlockId} {w : Int} {p : Bits} (h : b.shard.Is w p) (hw : IsI32 w) (hs : b.seqno < 2 ^ 32)
    (hr : b.rootHash.length = 32) (hf : b.fileHash.length = 32) :
    let e : Enc ρ := enc w p ++ (Enc.bits (natBits 32 b.seqno) ++ (Enc.bits (bytesToBits b.rootHash) ++ Enc.bits (bytesToBits b.fileHash)))
    Writes (b.store : Wr ρ Unit) e ∧ Reads (BlockId.load : Rd ρ BlockId) e b ∧ Safe (BlockId.load : Rd ρ BlockId) := by
  refine ⟨?_, ?_, ?_⟩
  · unfold BlockId.store
    exact (C46_cell h hw).1.bind ((Wr.writes_u32 hs).writes.bind ((Wr.writes_u256 hr).writes.bind (Wr.writes_u256 hf).writes))
  · unfold BlockId.load
    refine (C46_cell h hw).2.1.bind ((Rd.takes_u32.reads_nat hs).bind ((Rd.reads_u256 hr).bind
      (((Rd.reads_u256 hf).bind (Reads.pure b)).cast (Enc.append_nil _))))
  · unfold BlockId.load
    exact (C46_cell h hw).2.2.2.bind fun _ => Rd.takes_u32.safe.bind fun _ => Rd.takes_u256.safe.bind fun _ =>
      Rd.takes_u256.safe.bind fun _ => Safe.pure _

end ShardIdent
end Verif
