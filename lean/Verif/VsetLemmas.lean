import Verif.VsetSubset
/-
Lemmas about the generator, the shuffle and the weighted choice of `VsetSubset.lean`.
-/
set_option linter.unusedVariables false
set_option linter.unusedSimpArgs false
namespace Verif
namespace Vset
open Boc

/-! ### Numbers and bytes -/

theorem beNat_nil : beNat [] = 0 := rfl

theorem beNat_lt (l : List Byte) : beNat l < 256 ^ l.length := by
  rcases List.eq_nil_or_concat l with rfl | ⟨t, b, rfl⟩
  · decide
  · have ih := beNat_lt t
    rw [List.concat_eq_append, beNat_append, List.length_append, Nat.pow_add]
    have := b.isLt
    simp only [List.length_singleton, Nat.pow_one]
    omega
termination_by l.length
decreasing_by subst_vars; simp [List.concat_eq_append]

theorem beBytes_beNat (l : List Byte) : beBytes l.length (beNat l) = l := by
  rcases List.eq_nil_or_concat l with rfl | ⟨t, b, rfl⟩
  · rfl
  · have ih := beBytes_beNat t
    rw [List.concat_eq_append, List.length_append, beNat_append]
    show beBytes t.length ((beNat t * 256 + b.toNat) / 256) ++ [BitVec.ofNat 8 (beNat t * 256 + b.toNat)] = _
    have := b.isLt
    rw [show (beNat t * 256 + b.toNat) / 256 = beNat t by omega, ih]
    congr 2
    apply BitVec.eq_of_toNat_eq
    rw [BitVec.toNat_ofNat]
    omega
termination_by l.length
decreasing_by subst_vars; simp [List.concat_eq_append]

/-- The loop adds one, modulo the number of values. -/
theorem incRev_spec : ∀ l : List Byte, (incRev l).length = l.length ∧ beNat (incRev l).reverse = (beNat l.reverse + 1) % 256 ^ l.length
  | [] => ⟨rfl, by decide⟩
  | b :: t => by
    have ih := incRev_spec t
    have hb := b.isLt
    have hlt := beNat_lt t.reverse
    rw [List.length_reverse] at hlt
    unfold incRev
    by_cases h : b + 1 ≠ 0
    · rw [if_pos h]
      refine ⟨rfl, ?_⟩
      rw [List.reverse_cons, List.reverse_cons, beNat_append, beNat_append, List.length_cons, Nat.pow_succ]
      have h1 : (b + 1).toNat = b.toNat + 1 := by
        rw [BitVec.toNat_add]
        have : b.toNat + 1 ≠ 256 := by
          intro h2
          apply h
          apply BitVec.eq_of_toNat_eq
          rw [BitVec.toNat_add]
          show (b.toNat + 1) % 256 = 0
          omega
        show (b.toNat + 1) % 256 = _
        omega
      rw [h1, Nat.mod_eq_of_lt (by have := (b + 1).isLt; rw [h1] at this; omega)]
      omega
    · rw [if_neg h]
      have h' : b + 1 = 0 := Classical.byContradiction h
      have h1 : b.toNat = 255 := by
        have := congrArg BitVec.toNat h'
        rw [BitVec.toNat_add] at this
        have h2 : (b.toNat + 1) % 256 = 0 := this
        omega
      refine ⟨by rw [List.length_cons, ih.1, List.length_cons], ?_⟩
      rw [h', List.reverse_cons, List.reverse_cons, beNat_append, beNat_append, ih.2, List.length_cons, Nat.pow_succ, h1]
      show _ * 256 + 0 = _
      rw [Nat.add_zero, show beNat t.reverse * 256 + 255 + 1 = (beNat t.reverse + 1) * 256 by omega, Nat.mul_mod_mul_right]

/-- `next_ranged` stays below the range. -/
theorem ranged_lt (H : List Byte → List Byte) (p : Prng) {r : Nat} (hr : 0 < r) (hr2 : r < 2 ^ 64) (h : (p.nextU64 H).1 < 2 ^ 64) :
    (p.nextRanged H r).1 < r ∧ (p.nextRanged H r).1 = r * (p.nextU64 H).1 / 2 ^ 64 := by
  have e : (p.nextRanged H r).1 = (r * (p.nextU64 H).1 / 2 ^ 64) % 2 ^ 64 := by
    show ((r * _) >>> 64) % 2 ^ 64 = _
    rw [Nat.shiftRight_eq_div_pow]
  have hlt : r * (p.nextU64 H).1 / 2 ^ 64 < r := by
    refine Nat.div_lt_of_lt_mul ?_
    rw [Nat.mul_comm (2 ^ 64) r]
    exact Nat.mul_lt_mul_of_pos_left h hr
  rw [e, Nat.mod_eq_of_lt (Nat.lt_trans hlt hr2)]
  exact ⟨hlt, rfl⟩

/-! ### The generator -/

/-- The words of a bag are numbers of 64 bits; the cursor is small. -/
def Prng.Ok (p : Prng) : Prop := p.bag.length = 8 ∧ ∀ w ∈ p.bag, w < 2 ^ 64

theorem words_ok (hash : List Byte) : ∀ w ∈ (List.range 8).map (fun k => beNat ((hash.drop (8 * k)).take 8)), w < 2 ^ 64 := by
  intro w hw
  obtain ⟨k, _, rfl⟩ := List.mem_map.1 hw
  refine Nat.lt_of_lt_of_le (beNat_lt _) ?_
  have : ((hash.drop (8 * k)).take 8).length ≤ 8 := by rw [List.length_take]; omega
  exact Nat.pow_le_pow_right (by decide) this (n := 256)

theorem withSeed_ok (s : ShardIdent) (cc : Nat) (seed : List Byte) : (Prng.withSeed s cc seed).Ok := by
  refine ⟨rfl, ?_⟩
  show ∀ w ∈ [8, 0, 0, 0, 0, 0, 0, 0], w < 2 ^ 64
  decide

theorem nextU64_ok (H : List Byte → List Byte) {p : Prng} (hp : p.Ok) : (p.nextU64 H).2.Ok ∧ (p.nextU64 H).1 < 2 ^ 64 := by
  have set_ok : ∀ (l : List Nat) (x : Nat), l.length = 8 → (∀ w ∈ l, w < 2 ^ 64) → x < 2 ^ 64 →
      (l.set 0 x).length = 8 ∧ ∀ w ∈ l.set 0 x, w < 2 ^ 64 := by
    intro l x hl hw hx
    refine ⟨by rw [List.length_set, hl], fun w h => ?_⟩
    rcases List.mem_or_eq_of_mem_set h with h | rfl
    · exact hw w h
    · exact hx
  have getD_ok : ∀ (l : List Nat) (i : Nat), (∀ w ∈ l, w < 2 ^ 64) → l.getD i 0 < 2 ^ 64 := by
    intro l i hw
    rw [List.getD_eq_getElem?_getD]
    rcases h : l[i]? with _ | x
    · decide
    · exact hw x (List.mem_of_getElem? h)
  unfold Prng.nextU64
  by_cases h : p.bag.headD 0 < 7
  · rw [if_pos h]
    exact ⟨set_ok _ _ hp.1 hp.2 (by omega), getD_ok _ _ hp.2⟩
  · rw [if_neg h]
    refine ⟨set_ok _ _ (by simp) (words_ok _) (by decide), ?_⟩
    show beNat _ < 2 ^ 64
    exact words_ok (H p.context) _ (List.mem_map.2 ⟨0, by simp, rfl⟩)

theorem nextRanged_ok (H : List Byte → List Byte) {p : Prng} (hp : p.Ok) {r : Nat} (hr : 0 < r) (hr2 : r < 2 ^ 64) :
    (p.nextRanged H r).2.Ok ∧ (p.nextRanged H r).1 < r ∧ (p.nextRanged H r).1 = r * (p.nextU64 H).1 / 2 ^ 64 :=
  ⟨(nextU64_ok H hp).1, ranged_lt H p hr hr2 (nextU64_ok H hp).2⟩

/-! ### The shuffle -/

/-- Exchanges two positions. -/
def swapAt (l : List Nat) (i j : Nat) : List Nat := (l.set i (l.getD j 0)).set j (l.getD i 0)

/-- The order after the draws `js`: every index is appended and exchanged with the position drawn for it. -/
def arrange (js : List Nat) : List Nat :=
  js.foldl (fun l j => swapAt (l ++ [l.length]) l.length j) []

theorem arrange_concat (js : List Nat) (j : Nat) :
    arrange (js ++ [j]) = swapAt (arrange js ++ [(arrange js).length]) (arrange js).length j := by
  unfold arrange
  rw [List.foldl_append]; rfl

theorem swapAt_length (l : List Nat) (i j : Nat) : (swapAt l i j).length = l.length := by
  unfold swapAt
  rw [List.length_set, List.length_set]

theorem arrange_length (js : List Nat) : (arrange js).length = js.length := by
  rcases List.eq_nil_or_concat js with rfl | ⟨t, b, rfl⟩
  · rfl
  · have ih := arrange_length t
    rw [List.concat_eq_append, arrange_concat, swapAt_length, List.length_append, List.length_append, ih]
    rfl
termination_by js.length
decreasing_by subst_vars; simp [List.concat_eq_append]

/-- The draws are possible: the `i`-th is at most `i`. -/
def Draws (js : List Nat) : Prop := ∀ i j : Nat, js[i]? = some j → j ≤ i

theorem Draws.concat {js : List Nat} {j : Nat} : Draws (js ++ [j]) ↔ Draws js ∧ j ≤ js.length := by
  constructor
  · intro h
    refine ⟨fun i k hk => h i k ?_, h js.length j (by simp)⟩
    have hi : i < js.length := (List.getElem?_eq_some_iff.1 hk).1
    rw [List.getElem?_append_left hi]; exact hk
  · rintro ⟨h1, h2⟩ i k hk
    by_cases hi : i < js.length
    · rw [List.getElem?_append_left hi] at hk
      exact h1 i k hk
    · rw [List.getElem?_append_right (by omega)] at hk
      have : i - js.length = 0 := by
        have := (List.getElem?_eq_some_iff.1 hk).1
        simp at this; omega
      rw [this] at hk
      simp at hk
      omega

/-- Exchanging the last element with an earlier one or with itself. -/
theorem swap_last_perm (l : List Nat) (x : Nat) {j : Nat} (hj : j ≤ l.length) :
    (swapAt (l ++ [x]) l.length j).Perm (x :: l) := by
  have hx : (l ++ [x]).getD l.length 0 = x := by simp
  rcases Nat.lt_or_ge j l.length with h | h
  · have hy : (l ++ [x]).getD j 0 = l[j] := by
      rw [List.getD_eq_getElem?_getD, List.getElem?_append_left h, List.getElem?_eq_getElem h]; rfl
    unfold swapAt
    rw [hx, hy]
    have e : (l ++ [x]).set l.length l[j] = l ++ [l[j]] := by
      rw [List.set_append_right _ _ (Nat.le_refl _)]; simp
    rw [e, List.set_append_left _ _ h]
    have hl : l = l.take j ++ l[j] :: l.drop (j + 1) := by
      rw [List.getElem_cons_drop, List.take_append_drop]
    rw [List.set_eq_take_append_cons_drop, if_pos h]
    generalize l[j] = y at *
    have p1 : (l.take j ++ x :: l.drop (j + 1) ++ [y]).Perm (y :: (l.take j ++ x :: l.drop (j + 1))) := List.perm_append_singleton _ _
    refine p1.trans ?_
    have p2 : (y :: (l.take j ++ x :: l.drop (j + 1))).Perm (y :: (x :: (l.take j ++ l.drop (j + 1)))) := List.Perm.cons _ List.perm_middle
    refine p2.trans ?_
    refine (List.Perm.swap _ _ _).trans ?_
    refine List.Perm.cons _ ?_
    refine List.perm_middle.symm.trans ?_
    rw [← hl]
  · have : j = l.length := by omega
    subst this
    unfold swapAt
    rw [hx]
    have e : (l ++ [x]).set l.length x = l ++ [x] := by
      rw [List.set_append_right _ _ (Nat.le_refl _)]; simp
    rw [e, e]
    exact List.perm_append_singleton _ _

theorem arrange_perm (js : List Nat) (h : Draws js) : (arrange js).Perm (List.range js.length) := by
  rcases List.eq_nil_or_concat js with rfl | ⟨t, b, rfl⟩
  · exact List.Perm.refl _
  · rw [List.concat_eq_append] at h ⊢
    have ih := arrange_perm t (Draws.concat.1 h).1
    have hb := (Draws.concat.1 h).2
    rw [arrange_concat]
    have p := swap_last_perm (arrange t) (arrange t).length (j := b) (by rw [arrange_length]; exact hb)
    refine p.trans ?_
    rw [arrange_length, List.length_append]
    rw [show t.length + [b].length = t.length + 1 from rfl, List.range_succ]
    exact (List.Perm.cons _ ih).trans (List.perm_append_singleton _ _).symm
termination_by js.length
decreasing_by subst_vars; simp [List.concat_eq_append]

theorem swap_getD (l : List Nat) (x : Nat) {j : Nat} (hj : j ≤ l.length) :
    (swapAt (l ++ [x]) l.length j)[j]? = some x := by
  have hx : (l ++ [x]).getD l.length 0 = x := by simp
  unfold swapAt
  rw [hx, List.getElem?_set_self]
  rw [List.length_set, List.length_append]
  simp; omega

theorem swap_back (l : List Nat) {j : Nat} (hj : j ≤ l.length) (x : Nat) :
    swapAt (swapAt (l ++ [x]) l.length j) l.length j = l ++ [x] := by
  apply List.ext_getElem?
  intro k
  unfold swapAt
  simp only [List.getD_eq_getElem?_getD, List.getElem?_set, List.length_set, List.length_append, List.length_singleton]
  have hn : l.length < l.length + 1 := by omega
  have hj' : j < l.length + 1 := by omega
  by_cases h1 : j = k
  · subst h1
    by_cases h2 : l.length = j
    · simp [h2, hj']
    · simp [h2, hj', hn, Ne.symm h2]
  · by_cases h2 : l.length = k
    · subst h2
      simp [h1, hj', hn]
    · simp [h1, h2]

theorem arrange_inj (js ks : List Nat) (hj : Draws js) (hk : Draws ks) (h : arrange js = arrange ks) : js = ks := by
  have hl : js.length = ks.length := by rw [← arrange_length, h, arrange_length]
  rcases List.eq_nil_or_concat js with rfl | ⟨t, b, rfl⟩
  · rcases List.eq_nil_or_concat ks with rfl | ⟨u, c, rfl⟩
    · rfl
    · simp [List.concat_eq_append] at hl
  · rcases List.eq_nil_or_concat ks with rfl | ⟨u, c, rfl⟩
    · simp [List.concat_eq_append] at hl
    · rw [List.concat_eq_append] at hj h hl ⊢
      rw [List.concat_eq_append] at hk h hl ⊢
      have hl' : t.length = u.length := by simpa using hl
      have hj' := Draws.concat.1 hj
      have hk' := Draws.concat.1 hk
      rw [arrange_concat, arrange_concat] at h
      have ht : (arrange t).length = t.length := arrange_length t
      have hu : (arrange u).length = u.length := arrange_length u
      have g1 := swap_getD (arrange t) (arrange t).length (j := b) (by omega)
      have g2 := swap_getD (arrange u) (arrange u).length (j := c) (by omega)
      -- the position of the largest index
      have hnd : (swapAt (arrange t ++ [(arrange t).length]) (arrange t).length b).Nodup := by
        rw [← arrange_concat]
        exact (List.Perm.nodup_iff (arrange_perm _ hj)).2 List.nodup_range
      have hbc : b = c := by
        rw [← h] at g2
        rw [hu, ← hl', ← ht] at g2
        have i1 := List.getElem?_eq_some_iff.1 g1
        have i2 := List.getElem?_eq_some_iff.1 g2
        exact (List.getElem_inj hnd).1 (i1.2.trans i2.2.symm)
      subst hbc
      have s1 := swap_back (arrange t) (j := b) (by omega) (arrange t).length
      have s2 := swap_back (arrange u) (j := b) (by omega) (arrange u).length
      rw [h, ht, hl', ← hu, s2] at s1
      have : arrange t = arrange u := by
        have := List.append_inj_left' s1 rfl
        exact this.symm
      have htu := arrange_inj t u hj'.1 hk'.1 this
      rw [htu]
termination_by js.length
decreasing_by subst_vars; simp [List.concat_eq_append]

/-- One round on a prefix that is already arranged. -/
theorem shuffleStep_spec (H : List Byte → List Byte) {p : Prng} {l : List Nat} {k : Nat}
    (hi : l.length < 2 ^ 63) {j : Nat} {p' : Prng} (e : p.nextRanged H (l.length + 1) = (j, p')) (hj : j ≤ l.length) :
    shuffleStep H (p, l ++ List.replicate (k + 1) 0) l.length =
      .ok (p', swapAt (l ++ [l.length]) l.length j ++ List.replicate k 0) := by
  have hlt : l.length < (l ++ List.replicate (k + 1) 0).length := by simp
  have hjlt : j < (l ++ List.replicate (k + 1) 0).length := by simp; omega
  unfold shuffleStep
  dsimp only
  rw [e, if_pos hlt]
  dsimp only
  rw [List.getElem?_eq_getElem hjlt]
  dsimp only
  congr 2
  have eg : (l ++ [l.length]).getD l.length 0 = l.length := by simp
  unfold swapAt
  rw [eg]
  have e1 : ∀ y, (l ++ List.replicate (k + 1) 0).set l.length y = l ++ [y] ++ List.replicate k 0 := by
    intro y
    rw [List.set_append_right _ _ (Nat.le_refl _), Nat.sub_self, List.replicate_succ, List.set_cons_zero, List.append_assoc]; rfl
  have e2 : ∀ y, (l ++ [l.length]).set l.length y = l ++ [y] := by
    intro y
    rw [List.set_append_right _ _ (Nat.le_refl _)]; simp
  rw [e1, e2, List.set_append_left _ _ (by simp; omega)]
  rcases Nat.lt_or_ge j l.length with h | h
  · have : (l ++ [l.length]).getD j 0 = (l ++ List.replicate (k + 1) 0)[j] := by
      rw [List.getD_eq_getElem?_getD, List.getElem?_append_left h, List.getElem_append_left h, List.getElem?_eq_getElem h]; rfl
    rw [this]
  · have : j = l.length := by omega
    subst this
    rw [List.set_append_right _ _ (Nat.le_refl _), List.set_append_right _ _ (Nat.le_refl _)]
    simp

/-- The draws of the shuffle when the generator's numbers are `u`. -/
def drawsOf (u : Nat → Nat) (a k : Nat) : List Nat := (List.range' a k).map fun i => (i + 1) * u i / 2 ^ 64

/-- The generator will return the numbers `u n`, `u (n + 1)`, … -/
structure Stream (H : List Byte → List Byte) (u : Nat → Nat) (R : Nat → Prng → Prop) : Prop where
  ok : ∀ n p, R n p → p.Ok
  val : ∀ n p, R n p → (p.nextU64 H).1 = u n
  step : ∀ n p, R n p → R (n + 1) (p.nextU64 H).2

theorem shuffle_loop {H : List Byte → List Byte} {u : Nat → Nat} {R : Nat → Prng → Prop} (hR : Stream H u R) :
    ∀ (k : Nat) (p : Prng) (js : List Nat), R js.length p → Draws js → js.length + k < 2 ^ 63 →
    ∃ p', loop (shuffleStep H) (p, arrange js ++ List.replicate k 0) (List.range' js.length k) = .ok (p', arrange (js ++ drawsOf u js.length k)) ∧
      Draws (js ++ drawsOf u js.length k)
  | 0, p, js, hp, hj, _ => ⟨p, by simp [loop, drawsOf], by simpa [drawsOf] using hj⟩
  | k + 1, p, js, hp, hj, hlen => by
    have hn := nextRanged_ok H (hR.ok _ _ hp) (r := js.length + 1) (by omega) (by omega)
    rw [hR.val _ _ hp] at hn
    have hal := arrange_length js
    have hj' : Draws (js ++ [(js.length + 1) * u js.length / 2 ^ 64]) := Draws.concat.2 ⟨hj, by rw [← hn.2.2]; omega⟩
    have hs := shuffleStep_spec H (p := p) (l := arrange js) (k := k) (by omega)
      (j := (js.length + 1) * u js.length / 2 ^ 64) (p' := (p.nextU64 H).2) (by rw [hal, ← hn.2.2]; rfl) (by rw [← hn.2.2, hal]; omega)
    obtain ⟨p2, h2, hd⟩ := shuffle_loop hR k (p.nextU64 H).2 (js ++ [(js.length + 1) * u js.length / 2 ^ 64])
      (by rw [List.length_append]; exact hR.step _ _ hp) hj' (by simp; omega)
    have hsplit : js ++ drawsOf u js.length (k + 1) =
        js ++ [(js.length + 1) * u js.length / 2 ^ 64] ++ drawsOf u (js ++ [(js.length + 1) * u js.length / 2 ^ 64]).length k := by
      rw [List.append_assoc, List.length_append]
      rfl
    refine ⟨p2, ?_, by rw [hsplit]; exact hd⟩
    show loop _ _ (js.length :: List.range' (js.length + 1) k) = _
    unfold loop
    rw [← arrange_concat, hal] at hs
    rw [hs]
    dsimp only
    rw [hsplit, ← h2, List.length_append]
    rfl

theorem lookAll_spec (l : List Validator) : ∀ is : List Nat, (∀ i ∈ is, i < l.length) →
    lookAll l is = .ok (is.filterMap (l[·]?))
  | [], _ => rfl
  | i :: t, h => by
    have hi := h i (by simp)
    unfold lookAll
    rw [List.getElem?_eq_getElem hi, lookAll_spec l t (fun j hj => h j (by simp [hj]))]
    rw [List.filterMap_cons, List.getElem?_eq_getElem hi]

theorem range_lookup (l : List Validator) : ∀ n, n ≤ l.length → (List.range n).filterMap (l[·]?) = l.take n
  | 0, _ => by simp
  | n + 1, h => by
    rw [List.range_succ, List.filterMap_append, range_lookup l n (by omega)]
    rw [List.take_succ]
    congr 1

/-! ### The weighted choice -/

theorem takeWhile_mem {α : Type} {f : α → Bool} : ∀ {l : List α} {x : α}, x ∈ l.takeWhile f → f x = true
  | [], _, h => by cases h
  | a :: t, x, h => by
    rcases hf : f a with _ | _
    · rw [List.takeWhile_cons, hf] at h; cases h
    · rw [List.takeWhile_cons, hf] at h
      rcases List.mem_cons.1 h with rfl | h
      · exact hf
      · exact takeWhile_mem h

theorem takeWhile_split {α : Type} (f : α → Bool) : ∀ l : List α,
    l.take (l.takeWhile f).length = l.takeWhile f ∧ l.drop (l.takeWhile f).length = l.dropWhile f
  | [] => ⟨rfl, rfl⟩
  | a :: t => by
    have ih := takeWhile_split f t
    rcases hf : f a with _ | _
    · rw [List.takeWhile_cons, List.dropWhile_cons, hf]; exact ⟨rfl, rfl⟩
    · rw [List.takeWhile_cons, List.dropWhile_cons, hf]
      simp only [if_true, List.length_cons, List.take_succ_cons, List.drop_succ_cons, ih.1, ih.2, and_self]

theorem takeWhile_stop {α : Type} {f : α → Bool} : ∀ {l : List α} (h : (l.takeWhile f).length < l.length),
    f l[(l.takeWhile f).length] = false
  | a :: t, h => by
    rcases hf : f a with _ | _
    · simp [List.takeWhile_cons, hf]
    · have h' : (t.takeWhile f).length < t.length := by
        rw [List.takeWhile_cons, hf] at h
        simpa using h
      have := takeWhile_stop h'
      simp [List.takeWhile_cons, hf, this]

/-- The total weight of the first `i` validators. -/
def before (l : List Validator) (i : Nat) : Nat := ((l.take i).map (·.weight)).sum

theorem before_succ (l : List Validator) {i : Nat} (h : i < l.length) : before l (i + 1) = before l i + l[i].weight := by
  unfold before
  rw [List.take_succ, List.getElem?_eq_getElem h, List.map_append, List.sum_append]
  rfl

theorem before_mono (l : List Validator) {i j : Nat} (h : i ≤ j) (hj : j ≤ l.length) : before l i ≤ before l j := by
  induction j with
  | zero => have : i = 0 := by omega
            subst this; exact Nat.le_refl _
  | succ j ih =>
    rcases Nat.lt_or_ge i (j + 1) with h1 | h1
    · rw [before_succ l (by omega)]
      have := ih (by omega) (by omega)
      omega
    · have : i = j + 1 := by omega
      subst this; exact Nat.le_refl _

/-- A list whose accumulated weights are right and whose weights are positive. -/
structure Weighed (l : List Validator) (total : Nat) : Prop where
  prev : ∀ i (h : i < l.length), l[i].prevWeight = before l i
  total_eq : total = before l l.length
  small : total < 2 ^ 64
  pos : ∀ v ∈ l, 0 < v.weight

theorem Weighed.lt {l : List Validator} {total : Nat} (h : Weighed l total) {i j : Nat} (hij : i < j) (hj : j < l.length) :
    before l i + (l[i]'(by omega)).weight ≤ before l j := by
  rw [← before_succ l (by omega)]
  exact before_mono l hij (by omega)

theorem atWeight_spec {l : List Validator} {total : Nat} (h : Weighed l total) {pos : Nat} (hp : pos < total) :
    ∃ i, ∃ hi : i < l.length, atWeight total l pos = .ok l[i] ∧ before l i ≤ pos ∧ pos < before l i + l[i].weight := by
  have hle : (l.takeWhile fun v => decide (v.prevWeight ≤ pos)).length ≤ l.length := (List.takeWhile_prefix _).length_le
  have h0 : 0 < l.length := by
    rcases Nat.eq_zero_or_pos l.length with z | z
    · have := h.total_eq
      rw [z] at this
      have e : before l 0 = 0 := rfl
      omega
    · exact z
  have pre : ∀ i, i < (l.takeWhile fun v => decide (v.prevWeight ≤ pos)).length → ∀ hl : i < l.length, l[i].prevWeight ≤ pos := by
    intro i hi hl
    have h1 : (l.takeWhile fun v => decide (v.prevWeight ≤ pos))[i] = l[i]'(by omega) := by
      have := List.takeWhile_prefix (fun v : Validator => decide (v.prevWeight ≤ pos)) (l := l)
      exact this.getElem hi
    have h2 := takeWhile_mem (f := fun v : Validator => decide (v.prevWeight ≤ pos)) (List.getElem_mem hi)
    rw [h1] at h2
    exact of_decide_eq_true h2
  have stop : ∀ i, i = (l.takeWhile fun v => decide (v.prevWeight ≤ pos)).length → ∀ hl : i < l.length, ¬ l[i].prevWeight ≤ pos := by
    intro i hi hk hc
    subst hi
    have h3 := takeWhile_stop hk
    exact absurd hc (of_decide_eq_false h3)
  unfold atWeight
  rw [if_pos hp]
  generalize (l.takeWhile fun v => decide (v.prevWeight ≤ pos)).length = k at *
  cases k with
  | zero =>
    exfalso
    have := stop 0 rfl h0
    rw [h.prev 0 h0] at this
    exact this (Nat.zero_le _)
  | succ i =>
    refine ⟨i, by omega, ?_, ?_, ?_⟩
    · dsimp only
      rw [List.getElem?_eq_getElem (by omega)]
    · rw [← h.prev i (by omega)]
      exact pre i (by omega) (by omega)
    · rw [← before_succ l (by omega)]
      rcases Nat.lt_or_ge (i + 1) l.length with h1 | h1
      · have := stop _ rfl h1
        rw [h.prev _ h1] at this
        omega
      · rw [show i + 1 = l.length by omega, ← h.total_eq]; exact hp

/-- The shifted number: every hole that starts at or before it is stepped over. -/
def shift : List (Nat × Nat) → Nat → Nat
  | [], p => p
  | (a, w) :: t, p => if p < a then p else shift t (p + w)

/-- The holes in order, without overlap. -/
def Apart (l : List (Nat × Nat)) : Prop := l.Pairwise fun x y => x.1 + x.2 ≤ y.1

theorem Apart.tail {h : Nat × Nat} {t : List (Nat × Nat)} (a : Apart (h :: t)) : Apart t := (List.pairwise_cons.1 a).2

theorem shift_le (l : List (Nat × Nat)) (p : Nat) : p ≤ shift l p ∧ shift l p ≤ p + (l.map (·.2)).sum := by
  induction l generalizing p with
  | nil => exact ⟨Nat.le_refl _, Nat.le_refl _⟩
  | cons h t ih =>
    obtain ⟨a, w⟩ := h
    have := ih (p + w)
    unfold shift
    simp only [List.map_cons, List.sum_cons]
    split <;> omega

/-- The shifted number is in none of the holes. -/
theorem shift_avoids : ∀ {l : List (Nat × Nat)} (h : Apart l) (p : Nat), ∀ x ∈ l, ¬ (x.1 ≤ shift l p ∧ shift l p < x.1 + x.2)
  | [], _, _, _, hx => by cases hx
  | (a, w) :: t, h, p, x, hx => by
    have hc := List.pairwise_cons.1 h
    unfold shift
    by_cases hp : p < a
    · rw [if_pos hp]
      rcases List.mem_cons.1 hx with rfl | hx
      · dsimp only; omega
      · have := hc.1 x hx
        dsimp only at this; omega
    · rw [if_neg hp]
      rcases List.mem_cons.1 hx with rfl | hx
      · have := (shift_le t (p + w)).1
        dsimp only; omega
      · exact shift_avoids hc.2 (p + w) x hx

theorem shift_strict (l : List (Nat × Nat)) {p q : Nat} (h : p < q) : shift l p < shift l q := by
  induction l generalizing p q with
  | nil => exact h
  | cons x t ih =>
    obtain ⟨a, w⟩ := x
    have h1 := ih (p := p + w) (q := q + w) (by omega)
    have h2 := (shift_le t (q + w)).1
    unfold shift
    split <;> split <;> omega

/-- Every number outside the holes is a shifted number. -/
theorem shift_onto : ∀ {l : List (Nat × Nat)} (h : Apart l) {r : Nat}, (∀ x ∈ l, ¬ (x.1 ≤ r ∧ r < x.1 + x.2)) →
    ∃ p, shift l p = r
  | [], _, r, _ => ⟨r, rfl⟩
  | (a, w) :: t, h, r, hr => by
    have hc := List.pairwise_cons.1 h
    by_cases hlt : r < a
    · exact ⟨r, if_pos hlt⟩
    · have h1 := hr (a, w) (by simp)
      dsimp only at h1
      obtain ⟨p, hp⟩ := shift_onto hc.2 (fun x hx => hr x (by simp [hx]))
      have hge : a + w ≤ p := by
        rcases Nat.lt_or_ge p (a + w) with h2 | h2
        · exfalso
          have : shift t p = p := by
            cases t with
            | nil => rfl
            | cons y t' =>
              obtain ⟨b, v⟩ := y
              have := hc.1 (b, v) (by simp)
              dsimp only at this
              exact if_pos (by omega)
          omega
        · exact h2
      refine ⟨p - w, ?_⟩
      unfold shift
      rw [if_neg (by omega), show p - w + w = p by omega, hp]

theorem overHoles_shift : ∀ (l : List (Nat × Nat)) (p : Nat), p + (l.map (·.2)).sum < 2 ^ 64 → overHoles l p = .ok (shift l p)
  | [], _, _ => rfl
  | (a, w) :: t, p, h => by
    simp only [List.map_cons, List.sum_cons] at h
    unfold overHoles shift
    by_cases hp : p < a
    · rw [if_pos hp, if_pos hp]
    · rw [if_neg hp, if_neg hp, show add64 p w = .ok (p + w) from if_pos (by omega)]
      exact overHoles_shift t (p + w) (by omega)

/-- Putting a hole among holes that start elsewhere keeps the order. -/
theorem putHole_spec {holes : List (Nat × Nat)} {new : Nat × Nat} (h : Apart holes)
    (hsep : ∀ x ∈ holes, x.1 + x.2 ≤ new.1 ∨ new.1 + new.2 ≤ x.1) (hw : 0 < new.2) (hws : ∀ x ∈ holes, 0 < x.2) :
    ∃ holes', putHole holes new = .ok holes' ∧ Apart holes' ∧ holes'.Perm (new :: holes) := by
  have hlt : ∀ x ∈ holes, pairLe x new = true ↔ x.1 + x.2 ≤ new.1 := by
    intro x hx
    have h1 := hsep x hx
    have h2 := hws x hx
    unfold pairLe
    simp only [Bool.or_eq_true, Bool.and_eq_true, decide_eq_true_eq]
    omega
  have hgt : ∀ x ∈ holes, pairLe new x = true ↔ new.1 + new.2 ≤ x.1 := by
    intro x hx
    have h1 := hsep x hx
    have h2 := hws x hx
    unfold pairLe
    simp only [Bool.or_eq_true, Bool.and_eq_true, decide_eq_true_eq]
    omega
  have hsplit := takeWhile_split (fun x => pairLe x new) holes
  have e := List.takeWhile_append_dropWhile (p := fun x => pairLe x new) (l := holes)
  have hin : ∀ x ∈ (holes.takeWhile fun x => pairLe x new), x.1 + x.2 ≤ new.1 := fun x hx =>
    (hlt x ((List.takeWhile_prefix _).subset hx)).1 (takeWhile_mem (f := fun x => pairLe x new) hx)
  have hout : ∀ x ∈ (holes.dropWhile fun x => pairLe x new), new.1 + new.2 ≤ x.1 := by
    intro x hx
    have hsub : ∀ y ∈ (holes.dropWhile fun x => pairLe x new), y ∈ holes := fun y hy => (List.dropWhile_suffix _).subset hy
    have hhd := List.head?_dropWhile_not (fun x => pairLe x new) holes
    have hap : Apart (holes.dropWhile fun x => pairLe x new) := List.Pairwise.sublist (List.dropWhile_sublist _) h
    generalize (holes.dropWhile fun x => pairLe x new) = b at *
    cases b with
    | nil => cases hx
    | cons y t =>
      simp only [List.head?_cons] at hhd
      have hy : pairLe y new = false := by simpa using hhd
      have h1 : new.1 + new.2 ≤ y.1 := by
        rcases hsep y (hsub y (by simp)) with h1 | h1
        · rw [(hlt y (hsub y (by simp))).2 h1] at hy; cases hy
        · exact h1
      rcases List.mem_cons.1 hx with rfl | hx
      · exact h1
      · have := (List.pairwise_cons.1 hap).1 x hx
        omega
  refine ⟨(holes.takeWhile fun x => pairLe x new) ++ new :: (holes.dropWhile fun x => pairLe x new), ?_, ?_, ?_⟩
  · unfold putHole
    dsimp only
    rw [hsplit.1, hsplit.2]
    refine if_pos ?_
    rcases Nat.eq_zero_or_pos (holes.takeWhile fun x => pairLe x new).length with z | z
    · exact .inl z
    · right
      have hk : (holes.takeWhile fun x => pairLe x new).length ≤ holes.length := (List.takeWhile_prefix _).length_le
      have hm : (holes.takeWhile fun x => pairLe x new)[(holes.takeWhile fun x => pairLe x new).length - 1]'(by omega) =
          holes[(holes.takeWhile fun x => pairLe x new).length - 1]'(by omega) :=
        (List.takeWhile_prefix (fun x => pairLe x new) (l := holes)).getElem (by omega)
      have h1 := hin _ (List.getElem_mem (l := holes.takeWhile fun x => pairLe x new) (n := (holes.takeWhile fun x => pairLe x new).length - 1) (by omega))
      rw [hm] at h1
      rw [List.getD_eq_getElem?_getD, List.getElem?_eq_getElem (by omega)]
      show pairLe new (holes[_]) = false
      have hmem : holes[(holes.takeWhile fun x => pairLe x new).length - 1]'(by omega) ∈ holes := List.getElem_mem _
      generalize holes[(holes.takeWhile fun x => pairLe x new).length - 1]'(by omega) = y at *
      have := hws y hmem
      rcases hc : pairLe new y with _ | _
      · rfl
      · have := (hgt y hmem).1 hc
        omega
  · have hap := h
    rw [← e] at hap
    have hp := List.pairwise_append.1 hap
    refine List.pairwise_append.2 ⟨hp.1, List.pairwise_cons.2 ⟨hout, hp.2.1⟩, ?_⟩
    intro x hx y hy
    rcases List.mem_cons.1 hy with rfl | hy
    · exact hin x hx
    · exact hp.2.2 x hx y hy
  · refine List.perm_middle.trans ?_
    rw [e]

/-! ### Sums over chosen indices -/

theorem sum_le_range (f : Nat → Nat) : ∀ (n : Nat) (l : List Nat), l.Nodup → (∀ i ∈ l, i < n) → (l.map f).sum ≤ ((List.range n).map f).sum
  | 0, l, _, h => by
    cases l with
    | nil => exact Nat.le_refl _
    | cons a t => exact absurd (h a (by simp)) (by omega)
  | n + 1, l, hn, h => by
    rw [List.range_succ, List.map_append, List.sum_append]
    by_cases hm : n ∈ l
    · have hp : l.Perm (n :: l.erase n) := List.perm_cons_erase hm
      have h1 := List.Perm.sum_nat (hp.map f)
      rw [List.map_cons, List.sum_cons] at h1
      have hn2 := (List.nodup_cons.1 ((List.Perm.nodup_iff hp).1 hn))
      have ih := sum_le_range f n (l.erase n) hn2.2 (fun i hi => by
        have h2 := h i (List.mem_of_mem_erase hi)
        have h3 : i ≠ n := fun e => hn2.1 (e ▸ hi)
        omega)
      simp only [List.map_cons, List.map_nil, List.sum_cons, List.sum_nil]
      omega
    · have ih := sum_le_range f n l hn (fun i hi => by
        have h2 := h i hi
        have h3 : i ≠ n := fun e => hm (e ▸ hi)
        omega)
      omega

theorem exists_unchosen {n : Nat} {c : List Nat} (h : c.length < n) : ∃ i, i < n ∧ i ∉ c := by
  apply Classical.byContradiction
  intro hno
  have hsub : ∀ i ∈ List.range n, i ∈ c := fun i hi => Classical.byContradiction fun hc => hno ⟨i, List.mem_range.1 hi, hc⟩
  have := List.Nodup.length_le_of_subset List.nodup_range hsub
  rw [List.length_range] at this
  omega

/-- The weight of the `i`-th validator. -/
def wt (l : List Validator) (i : Nat) : Nat := (l[i]?.map (·.weight)).getD 0

theorem wt_eq (l : List Validator) {i : Nat} (h : i < l.length) : wt l i = l[i].weight := by
  unfold wt
  rw [List.getElem?_eq_getElem h]; rfl

theorem before_range (l : List Validator) : ∀ n, n ≤ l.length → before l n = ((List.range n).map (wt l)).sum
  | 0, _ => rfl
  | n + 1, h => by
    rw [before_succ l (by omega), before_range l n (by omega), List.range_succ, List.map_append, List.sum_append]
    simp [wt_eq l (show n < l.length by omega)]

/-- The hole that a chosen validator leaves. -/
def holeOf (l : List Validator) (i : Nat) : Nat × Nat := (before l i, wt l i)

/-- The entry a chosen validator gets in the subset. -/
def entryOf (l : List Validator) (i : Nat) : Option Validator := l[i]?.map Validator.short

/-- The state of the loop after the validators with the indices `c` have been chosen. -/
structure Chosen (l : List Validator) (total : Nat) (st : Pick) (c : List Nat) : Prop where
  rng : st.prng.Ok
  nodup : c.Nodup
  bound : ∀ i ∈ c, i < l.length
  nodes : st.nodes = c.filterMap (entryOf l)
  holes : st.holes.Perm (c.map (holeOf l))
  apart : Apart st.holes
  weight : st.totalWt + (c.map (wt l)).sum = total

theorem Chosen.sum_holes {l : List Validator} {total : Nat} {st : Pick} {c : List Nat} (h : Chosen l total st c) :
    (st.holes.map (·.2)).sum = (c.map (wt l)).sum := by
  rw [List.Perm.sum_nat (h.holes.map _), List.map_map]
  rfl

/-- One choice: for every number below the remaining weight the body of the loop succeeds and takes a validator
that was not taken before, namely the one whose weight range the shifted number is in. -/
theorem pickAt_spec {l : List Validator} {total : Nat} (hw : Weighed l total) {st : Pick} {c : List Nat} (h : Chosen l total st c)
    {p : Nat} (hp : p < st.totalWt) {rng : Prng} (hr : rng.Ok) :
    ∃ i st', i < l.length ∧ i ∉ c ∧ before l i ≤ shift st.holes p ∧ shift st.holes p < before l i + wt l i ∧
      pickAt total l st rng p = .ok st' ∧ st'.prng = rng ∧ Chosen l total st' (c ++ [i]) := by
  have hsum := h.sum_holes
  have hwt := h.weight
  have hsm := hw.small
  have e1 := overHoles_shift st.holes p (by omega)
  have hsh : shift st.holes p < total := by have := (shift_le st.holes p).2; omega
  obtain ⟨i, hi, e2, hlo, hhi⟩ := atWeight_spec hw hsh
  have hwi := wt_eq l hi
  have hnc : i ∉ c := by
    intro hc
    have hm : holeOf l i ∈ st.holes := h.holes.symm.subset (List.mem_map.2 ⟨i, hc, rfl⟩)
    have := shift_avoids h.apart p _ hm
    apply this
    show before l i ≤ _ ∧ _ < before l i + wt l i
    rw [hwi]
    exact ⟨hlo, hhi⟩
  have hposi : 0 < wt l i := by rw [hwi]; exact hw.pos _ (List.getElem_mem hi)
  have hnd : (c ++ [i]).Nodup := by
    have : (i :: c).Nodup := List.nodup_cons.2 ⟨hnc, h.nodup⟩
    exact (List.Perm.nodup_iff (List.perm_append_singleton i c)).2 this
  have hbd : ∀ j ∈ c ++ [i], j < l.length := by
    intro j hj
    rcases List.mem_append.1 hj with hj | hj
    · exact h.bound j hj
    · rw [List.mem_singleton.1 hj]; exact hi
  have hsum2 := sum_le_range (wt l) l.length (c ++ [i]) hnd hbd
  rw [List.map_append, List.sum_append] at hsum2
  simp only [List.map_cons, List.map_nil, List.sum_cons, List.sum_nil] at hsum2
  have htot := hw.total_eq
  rw [before_range l _ (Nat.le_refl _)] at htot
  have hge : l[i].weight ≤ st.totalWt := by omega
  have hsep : ∀ x ∈ st.holes, x.1 + x.2 ≤ (before l i, l[i].weight).1 ∨ (before l i, l[i].weight).1 + (before l i, l[i].weight).2 ≤ x.1 := by
    intro x hx
    obtain ⟨j, hj, rfl⟩ := List.mem_map.1 (h.holes.subset hx)
    have hjl := h.bound j hj
    have hne : j ≠ i := fun e => hnc (e ▸ hj)
    show before l j + wt l j ≤ before l i ∨ before l i + l[i].weight ≤ before l j
    rw [wt_eq l hjl]
    rcases Nat.lt_or_gt_of_ne hne with hlt | hgt
    · exact .inl (hw.lt hlt hi)
    · exact .inr (hw.lt hgt hjl)
  obtain ⟨holes', e3, hap, hperm⟩ := putHole_spec (new := (before l i, l[i].weight)) h.apart hsep (by rw [← hwi]; exact hposi)
    (by
      intro x hx
      obtain ⟨j, hj, rfl⟩ := List.mem_map.1 (h.holes.subset hx)
      show 0 < wt l j
      rw [wt_eq l (h.bound j hj)]
      exact hw.pos _ (List.getElem_mem _))
  refine ⟨i, ⟨rng, st.nodes ++ [l[i].short], holes', st.totalWt - l[i].weight⟩, hi, hnc, hlo, by rw [hwi]; exact hhi, ?_, rfl, ?_⟩
  · unfold pickAt
    rw [e1]; dsimp only
    rw [e2]; dsimp only
    rw [if_pos hge, hw.prev i hi, e3]
  · refine ⟨hr, hnd, hbd, ?_, ?_, hap, ?_⟩
    · show st.nodes ++ [l[i].short] = _
      rw [List.filterMap_append, h.nodes]
      congr 1
      have : entryOf l i = some l[i].short := by unfold entryOf; rw [List.getElem?_eq_getElem hi]; rfl
      rw [List.filterMap_cons, this]
      rfl
    · show holes'.Perm _
      refine hperm.trans ?_
      rw [List.map_append, ← hwi]
      exact (List.Perm.cons _ h.holes).trans (List.perm_append_singleton _ _).symm
    · show st.totalWt - l[i].weight + _ = total
      rw [List.map_append, List.sum_append]
      simp only [List.map_cons, List.map_nil, List.sum_cons, List.sum_nil]
      omega

theorem Chosen.remaining {l : List Validator} {total : Nat} (hw : Weighed l total) {st : Pick} {c : List Nat} (h : Chosen l total st c)
    (hlt : c.length < l.length) : 0 < st.totalWt := by
  obtain ⟨i, hi, hnc⟩ := exists_unchosen hlt
  have hnd : (i :: c).Nodup := List.nodup_cons.2 ⟨hnc, h.nodup⟩
  have hs := sum_le_range (wt l) l.length (i :: c) hnd (by
    intro j hj
    rcases List.mem_cons.1 hj with rfl | hj
    · exact hi
    · exact h.bound j hj)
  rw [List.map_cons, List.sum_cons, ← before_range l _ (Nat.le_refl _), ← hw.total_eq] at hs
  have hp : 0 < wt l i := by rw [wt_eq l hi]; exact hw.pos _ (List.getElem_mem hi)
  have := h.weight
  omega

/-! ### The line of the remaining validators -/

/-- The weight of the validators before `i` that are not in `c`. -/
def leftBefore (w : Nat → Nat) (c : List Nat) (i : Nat) : Nat := (((List.range i).filter fun j => decide (j ∉ c)).map w).sum

theorem leftBefore_eq (w : Nat → Nat) {c : List Nat} (hc : c.Nodup) (i : Nat) :
    leftBefore w c i + ((c.filter fun j => decide (j < i)).map w).sum = ((List.range i).map w).sum := by
  induction i with
  | zero =>
    have : (c.filter fun j => decide (j < 0)) = [] := by rw [List.filter_eq_nil_iff]; simp
    rw [this]; rfl
  | succ i ih =>
    unfold leftBefore at ih ⊢
    rw [List.range_succ, List.filter_append, List.map_append, List.sum_append, List.map_append, List.sum_append, ← ih]
    by_cases h : i ∈ c
    · have hp : (c.filter fun j => decide (j < i + 1)).Perm (i :: c.filter fun j => decide (j < i)) := by
        refine (List.perm_ext_iff_of_nodup (hc.filter _) (List.nodup_cons.2 ⟨by simp, hc.filter _⟩)).2 fun a => ?_
        simp only [List.mem_filter, List.mem_cons, decide_eq_true_eq]
        constructor
        · rintro ⟨h1, h2⟩
          rcases Nat.lt_or_ge a i with h3 | h3
          · exact .inr ⟨h1, h3⟩
          · exact .inl (by omega)
        · rintro (rfl | ⟨h1, h2⟩)
          · exact ⟨h, by omega⟩
          · exact ⟨h1, by omega⟩
      rw [List.Perm.sum_nat (hp.map w)]
      simp [h]
      omega
    · have hp : (c.filter fun j => decide (j < i + 1)) = c.filter fun j => decide (j < i) := by
        refine List.filter_congr fun a ha => ?_
        have : a ≠ i := fun e => h (e ▸ ha)
        simp only [decide_eq_decide]
        omega
      rw [hp]
      simp [h]
      omega

theorem shift_sum : ∀ {l : List (Nat × Nat)} (h : Apart l) (p : Nat),
    shift l p = p + ((l.filter fun x => decide (x.1 ≤ shift l p)).map (·.2)).sum
  | [], _, p => by simp [shift]
  | (a, w) :: t, h, p => by
    have hc := List.pairwise_cons.1 h
    by_cases hp : p < a
    · have e : shift ((a, w) :: t) p = p := if_pos hp
      rw [e]
      have : (((a, w) :: t).filter fun x => decide (x.1 ≤ p)) = [] := by
        rw [List.filter_eq_nil_iff]
        intro x hx
        simp only [decide_eq_true_eq]
        rcases List.mem_cons.1 hx with rfl | hx
        · dsimp only; omega
        · have := hc.1 x hx
          dsimp only at this
          omega
      rw [this]; simp
    · have e : shift ((a, w) :: t) p = shift t (p + w) := if_neg hp
      rw [e]
      have ih := shift_sum hc.2 (p + w)
      have hge := (shift_le t (p + w)).1
      rw [List.filter_cons_of_pos (by simp only [decide_eq_true_eq]; omega), List.map_cons, List.sum_cons]
      omega

/-- The choice seen from the line of the remaining validators: the one at the place `p`. -/
theorem Chosen.place {l : List Validator} {total : Nat} (hw : Weighed l total) {st : Pick} {c : List Nat} (h : Chosen l total st c)
    {p i : Nat} (hi : i < l.length) (hn : i ∉ c) (hlo : before l i ≤ shift st.holes p) (hhi : shift st.holes p < before l i + wt l i) :
    leftBefore (wt l) c i ≤ p ∧ p < leftBefore (wt l) c i + wt l i := by
  have h1 := shift_sum h.apart p
  have h2 : ((st.holes.filter fun x => decide (x.1 ≤ shift st.holes p)).map (·.2)).sum = ((c.filter fun j => decide (j < i)).map (wt l)).sum := by
    rw [List.Perm.sum_nat ((h.holes.filter _).map _), List.filter_map, List.map_map]
    congr 1
    have : (c.filter ((fun x : Nat × Nat => decide (x.1 ≤ shift st.holes p)) ∘ holeOf l)) = c.filter fun j => decide (j < i) := by
      refine List.filter_congr fun j hj => ?_
      have hjl := h.bound j hj
      have hne : j ≠ i := fun e => hn (e ▸ hj)
      show decide (before l j ≤ shift st.holes p) = decide (j < i)
      rw [decide_eq_decide]
      constructor
      · intro hle
        rcases Nat.lt_or_gt_of_ne hne with h3 | h3
        · exact h3
        · have := hw.lt h3 hjl
          rw [← wt_eq l hi] at this
          omega
      · intro hlt
        have := before_mono l (Nat.le_of_lt hlt) (Nat.le_of_lt hi)
        omega
    rw [this]
    rfl
  have h3 := leftBefore_eq (wt l) h.nodup i
  rw [← before_range l i (Nat.le_of_lt hi)] at h3
  omega

theorem Chosen.left {l : List Validator} {total : Nat} (hw : Weighed l total) {st : Pick} {c : List Nat} (h : Chosen l total st c) :
    st.totalWt = leftBefore (wt l) c l.length := by
  have h3 := leftBefore_eq (wt l) h.nodup l.length
  have : (c.filter fun j => decide (j < l.length)) = c := List.filter_eq_self.2 fun j hj => decide_eq_true (h.bound j hj)
  rw [this, ← before_range l _ (Nat.le_refl _), ← hw.total_eq] at h3
  have := h.weight
  omega

/-- The choices `d` after the choices `c`: each time the remaining validators stand in a line in which every one
takes up its weight, and the next one is the one at the place `⌊length of the line · u n / 2^64⌋`. -/
inductive Picks (w : Nat → Nat) (size : Nat) (u : Nat → Nat) : Nat → List Nat → List Nat → Prop
  | done {n c} : Picks w size u n c []
  | next {n c i d} : i < size → i ∉ c → leftBefore w c i ≤ leftBefore w c size * u n / 2 ^ 64 →
      leftBefore w c size * u n / 2 ^ 64 < leftBefore w c i + w i → Picks w size u (n + 1) (c ++ [i]) d → Picks w size u n c (i :: d)

theorem pick_loop {H : List Byte → List Byte} {u : Nat → Nat} {R : Nat → Prng → Prop} (hR : Stream H u R)
    {l : List Validator} {total : Nat} (hw : Weighed l total) :
    ∀ (is : List Nat) (st : Pick) (c : List Nat) (n : Nat), R n st.prng → Chosen l total st c → c.length + is.length ≤ l.length →
      ∃ st' d, loop (pickStep H total l) st is = .ok st' ∧ Chosen l total st' (c ++ d) ∧ d.length = is.length ∧ Picks (wt l) l.length u n c d
  | [], st, c, n, hn, h, _ => ⟨st, [], rfl, by simpa using h, rfl, .done⟩
  | i :: is, st, c, n, hn, h, hl => by
    rw [List.length_cons] at hl
    have hpos := h.remaining hw (by omega)
    have hlt : st.totalWt < 2 ^ 64 := by have := h.weight; have := hw.small; omega
    have hr := nextRanged_ok H h.rng hpos hlt
    obtain ⟨k, st', hk, hnc, hlo, hhi, e, hrng, hch⟩ := pickAt_spec hw h hr.2.1 hr.1
    have hplace := h.place hw hk hnc hlo hhi
    rw [hr.2.2, hR.val _ _ hn, h.left hw] at hplace
    obtain ⟨st2, d, e2, hch2, hd, hp⟩ := pick_loop hR hw is st' (c ++ [k]) (n + 1) (by rw [hrng]; exact hR.step _ _ hn) hch (by simp; omega)
    refine ⟨st2, k :: d, ?_, ?_, by simp [hd], .next hk hnc hplace.1 hplace.2 hp⟩
    · unfold loop
      have : pickStep H total l st i = .ok st' := by
        unfold pickStep
        rw [if_pos hpos, e]
      rw [this]; exact e2
    · rw [show c ++ k :: d = c ++ [k] ++ d by simp]; exact hch2

/-! ### New weights after the masterchain validators are left out -/

theorem reweigh_spec : ∀ (l : List Validator) (w : Nat), w + (l.map (·.weight)).sum < 2 ^ 64 →
    ∃ l', reweigh l w = .ok (l', w + (l.map (·.weight)).sum) ∧
      ∀ i : Nat, l'[i]? = l[i]?.map fun v => v.after (w + before l i)
  | [], w, _ => ⟨[], rfl, fun i => by simp⟩
  | v :: t, w, h => by
    simp only [List.map_cons, List.sum_cons] at h
    obtain ⟨l', e, hi⟩ := reweigh_spec t (w + v.weight) (by omega)
    refine ⟨v.after w :: l', ?_, ?_⟩
    · unfold reweigh
      rw [show add64 w v.weight = .ok (w + v.weight) from if_pos (by omega)]
      dsimp only
      rw [e]
      simp only [List.map_cons, List.sum_cons, Nat.add_assoc]
    · intro i
      cases i with
      | zero => rfl
      | succ i =>
        rw [List.getElem?_cons_succ, List.getElem?_cons_succ, hi i]
        have : before (v :: t) (i + 1) = v.weight + before t i := by
          unfold before
          rw [List.take_succ_cons, List.map_cons, List.sum_cons]
        rw [this, Nat.add_assoc]

end Vset
end Verif
