import Verif.ExactSizeLemmas
set_option linter.unusedVariables false
set_option linter.unusedSimpArgs false
namespace Verif
namespace SzTy

/-! ### C94: announced sizes -/

/-- C94: whenever a value is stored, it was announced: `exact_size` gives a size (without an overflow, in both builds), and the builder has
grown by just that many references and bits, plus one bit for each header of an internal message in the value. -/
theorem C94_exact (dbg : Bool) (t : SzTy) (v : t.Val) (h : t.Good v) {b b' : CellB Cell} (hb : b.WF) (hs : t.store v b = (.ok (), b')) :
    ∃ s, t.size dbg v = .ok s ∧ b'.contents.1.length = b.contents.1.length + s.bits + t.internals v ∧ b'.contents.2.length = b.contents.2.length + s.refs := by
  rcases (t.puts v h).1 b hb with ⟨b1, r, w, c⟩ | ⟨b1, r, w⟩
  · rw [hs] at r
    obtain ⟨_, rfl⟩ := Prod.mk.inj r
    have l := t.internals_le v h
    have f := w.contents_fits
    rw [c, Enc.Fits, Enc.append_fst, Enc.append_snd, List.length_append, List.length_append] at f
    rw [t.size_eq dbg v h, bounded_small dbg (by omega) (by omega)]
    refine ⟨_, rfl, ?_, ?_⟩
    · rw [c, Enc.append_fst, List.length_append]; dsimp only; omega
    · rw [c, Enc.append_snd, List.length_append]
  · rw [hs] at r; cases r

/-- C94: for types without headers of messages the announcement decides whether the value can be stored: it is stored exactly if
`exact_size` gives a size and there is room for it; otherwise the error is `CellOverflow`. In a debug build, where sums do not wrap. -/
theorem C94_fits (t : SzTy) (v : t.Val) (hp : t.Plain) (h : t.Good v) {b : CellB Cell} (hb : b.WF) :
    match t.size true v with
    | .ok s => if b.contents.1.length + s.bits ≤ 1023 ∧ b.contents.2.length + s.refs ≤ 4 then ∃ b', t.store v b = (.ok (), b')
      else ∃ b', t.store v b = (.error .cellOverflow, b')
    | .error e => e = .panic ∧ ∃ b', t.store v b = (.error .cellOverflow, b') := by
  have w := (t.puts v h).2 hp b hb
  rw [t.size_eq true v h, t.internals_plain v hp, Nat.sub_zero]
  have hf : (b.contents ++ t.enc v : Enc Cell).Fits ↔ b.contents.1.length + (t.enc v).1.length ≤ 1023 ∧ b.contents.2.length + (t.enc v).2.length ≤ 4 :=
    fits_append _ _
  by_cases hs : (t.enc v).1.length < 2 ^ 16 ∧ (t.enc v).2.length < 2 ^ 8
  · rw [bounded_small true hs.1 hs.2]
    dsimp only
    split
    · next k =>
      obtain ⟨b', r, _⟩ := w.1 (hf.2 k)
      exact ⟨b', r⟩
    · next k =>
      obtain ⟨b', r, _⟩ := w.2 (fun x => k (hf.1 x))
      exact ⟨b', r⟩
  · have e : bounded true (t.enc v).1.length (t.enc v).2.length = .error .panic := by unfold bounded; rw [if_neg hs]; rfl
    rw [e]
    obtain ⟨b', r, _⟩ := w.2 (fun x => by have := hf.1 x; omega)
    exact ⟨rfl, b', r⟩

/-- C94: the two builds differ only in sums that do not fit: then a debug build panics and a release build announces the sum
modulo 2^16 and 2^8. -/
theorem C94_builds (t : SzTy) (v : t.Val) (h : t.Good v) :
    (∀ s, t.size true v = .ok s → t.size false v = .ok s) ∧ (∃ s, t.size false v = .ok s) ∧
    (∀ e, t.size true v = .error e → e = .panic ∧ (2 ^ 16 ≤ (t.enc v).1.length ∨ 2 ^ 8 ≤ (t.enc v).2.length)) := by
  rw [t.size_eq true v h, t.size_eq false v h, bounded_false]
  refine ⟨fun s hs => ?_, ⟨_, rfl⟩, fun e he => ?_⟩
  · unfold bounded at hs
    split at hs
    · next k => injection hs with hs; subst hs; rw [Nat.mod_eq_of_lt k.1, Nat.mod_eq_of_lt k.2]
    · cases hs
  · unfold bounded at he
    split at he
    · cases he
    · next k =>
      injection he with he
      refine ⟨he.symm, ?_⟩
      omega

/-- C94: a variable-length integer beyond its range is announced as nothing at all, but can not be stored. -/
theorem C94_too_large (dbg : Bool) (k : VarKind) {v : Nat} (hs : v < 2 ^ (8 * k.size)) (hv : k.max < v) (b : CellB Cell) :
    (var k).size dbg v = .ok .zero ∧ (var k).store v b = (.error .cellOverflow, b) := by
  obtain ⟨h1, h2, _⟩ := C41_invalid (ρ := Cell) k hs hv b
  refine ⟨?_, h1⟩
  show Except.ok (CSize.mk ((k.bitLen v).getD 0) 0) = _
  rw [h2]; rfl

/-- C94: the header of an internal message is one bit longer than announced (both kinds of headers); all others are announced exactly. -/
theorem C94_headers (dbg : Bool) :
    (∀ i, Verif.msgInfo.ok i → ∃ s, msgInfo.size dbg i = .ok s ∧ (Verif.msgInfo.enc i).2.length = s.refs ∧
      (Verif.msgInfo.enc i).1.length = s.bits + (match i with | .int _ => 1 | _ => 0)) ∧
    ∀ i, Verif.relaxedInfo.ok i → ∃ s, relaxedInfo.size dbg i = .ok s ∧ (Verif.relaxedInfo.enc i).2.length = s.refs ∧
      (Verif.relaxedInfo.enc i).1.length = s.bits + (match i with | .int _ => 1 | _ => 0) := by
  refine ⟨fun i h => ⟨_, rfl, fullKind_sound.refs i h, ?_⟩, fun i h => ⟨_, rfl, relaxedKind_sound.refs i h, ?_⟩⟩
  · have := fullKind_sound.bits i h
    cases i <;> exact this
  · have := relaxedKind_sound.bits i h
    cases i <;> exact this

end SzTy

/-- C94: sizes decide over sequences: the sizes of any values (without headers of messages), added up with `saturating_add`, fit into a cell
exactly if storing the values one after another into a new builder succeeds; otherwise the error is `CellOverflow`. -/
theorem C94_sequence (l : List AnySized) (sizes : List CSize) (h : ∀ v ∈ l, v.1.Plain ∧ v.1.Good v.2)
    (hs : l.map (fun v => v.1.size true v.2) = sizes.map .ok) :
    (if (sizes.foldl CSize.saturatingAdd .zero).fitsIntoCell then ∃ b, storeAll l .new = (.ok (), b)
      else ∃ b, storeAll l .new = (.error .cellOverflow, b)) := by
  obtain ⟨e, w, h1, h2⟩ := storeAll_writes l h
  have key : e.1.length = (sizes.map CSize.bits).sum ∧ e.2.length = (sizes.map CSize.refs).sum := by
    rw [h1, h2]
    clear h1 h2 w
    induction l generalizing sizes with
    | nil =>
      cases sizes with
      | nil => exact ⟨rfl, rfl⟩
      | cons => cases hs
    | cons v l ih =>
      cases sizes with
      | nil => cases hs
      | cons s sizes =>
        rw [List.map_cons, List.map_cons] at hs
        injection hs with hs1 hs2
        have hv := h v List.mem_cons_self
        rw [v.1.size_eq true v.2 hv.2, v.1.internals_plain v.2 hv.1, Nat.sub_zero] at hs1
        unfold SzTy.bounded at hs1
        split at hs1
        · injection hs1 with hs1
          subst hs1
          obtain ⟨i1, i2⟩ := ih sizes (fun v hv => h v (List.mem_cons_of_mem _ hv)) hs2
          exact ⟨by simp only [List.map_cons, List.sum_cons, i1], by simp only [List.map_cons, List.sum_cons, i2]⟩
        · cases hs1
  rw [CSize.fold_sat sizes .zero ⟨by decide, by decide⟩]
  have hw := w .new CellB.wf_new
  have hn : (CellB.new : CellB Cell).contents = Enc.nil := rfl
  rw [hn, Enc.nil_append] at hw
  have hf : e.Fits ↔ (sizes.map CSize.bits).sum ≤ 1023 ∧ (sizes.map CSize.refs).sum ≤ 4 := by unfold Enc.Fits; rw [key.1, key.2]
  by_cases k : e.Fits
  · obtain ⟨b, r, _⟩ := hw.1 k
    have k := hf.1 k
    rw [if_pos]
    · exact ⟨b, r⟩
    · simp only [CSize.fitsIntoCell, CSize.zero, Nat.zero_add, Bool.and_eq_true, decide_eq_true_eq]
      exact ⟨Nat.le_trans (Nat.min_le_left _ _) k.1, Nat.le_trans (Nat.min_le_left _ _) k.2⟩
  · obtain ⟨b, r, _⟩ := hw.2 k
    rw [if_neg]
    · exact ⟨b, r⟩
    · simp only [CSize.fitsIntoCell, CSize.zero, Nat.zero_add, Bool.and_eq_true, decide_eq_true_eq]
      intro x
      apply k
      rw [hf]
      have x1 : min (sizes.map CSize.bits).sum (2 ^ 16 - 1) ≤ 1023 := x.1
      have x2 : min (sizes.map CSize.refs).sum (2 ^ 8 - 1) ≤ 4 := x.2
      omega

/-- C94: the arithmetic of sizes. A sum can be taken apart again; both kinds of sums agree on whether a cell can hold them, as long as the
plain one does not overflow; differences that go below zero panic in a debug build and are cut off at zero by the saturating kind. -/
theorem C94_arithmetic (dbg : Bool) (a b : CSize) (ha : a.Valid) (hb : b.Valid) :
    (∀ s, CSize.add true a b = .ok s → CSize.add dbg a b = .ok s ∧ CSize.saturatingAdd a b = s ∧ s.Valid ∧ CSize.sub dbg s b = .ok a ∧ CSize.sub dbg s a = .ok b ∧
      s.saturatingSub b = a) ∧
    ((CSize.saturatingAdd a b).fitsIntoCell = true ↔ a.bits + b.bits ≤ 1023 ∧ a.refs + b.refs ≤ 4) ∧
    (CSize.add true a b = .error .panic ↔ 2 ^ 16 ≤ a.bits + b.bits ∨ 2 ^ 8 ≤ a.refs + b.refs) ∧
    (CSize.sub true a b = .error .panic ↔ a.bits < b.bits ∨ a.refs < b.refs) ∧
    ((a.saturatingSub b).isZero = true ↔ a.bits ≤ b.bits ∧ a.refs ≤ b.refs) := by
  obtain ⟨a1, a2⟩ := a
  obtain ⟨b1, b2⟩ := b
  obtain ⟨ha1, ha2⟩ := ha
  obtain ⟨hb1, hb2⟩ := hb
  dsimp only at ha1 ha2 hb1 hb2
  refine ⟨fun s hs => ?_, ?_, ?_, ?_, ?_⟩
  · unfold CSize.add at hs
    split at hs
    · next k =>
      injection hs with hs
      subst hs
      dsimp only at k
      refine ⟨if_pos k, ?_, k, ?_, ?_, ?_⟩
      · show CSize.mk (min _ _) (min _ _) = _
        rw [Nat.min_eq_left (by dsimp only; omega), Nat.min_eq_left (by dsimp only; omega)]
      · unfold CSize.sub
        dsimp only
        rw [if_pos ⟨Nat.le_add_left _ _, Nat.le_add_left _ _⟩, Nat.add_sub_cancel, Nat.add_sub_cancel]
      · unfold CSize.sub
        dsimp only
        rw [if_pos ⟨Nat.le_add_right _ _, Nat.le_add_right _ _⟩, Nat.add_sub_cancel_left, Nat.add_sub_cancel_left]
      · unfold CSize.saturatingSub
        dsimp only
        rw [Nat.add_sub_cancel, Nat.add_sub_cancel]
    · cases hs
  · unfold CSize.fitsIntoCell
    rw [Bool.and_eq_true, decide_eq_true_iff, decide_eq_true_iff]
    show (min (a1 + b1) (2 ^ 16 - 1) ≤ 1023 ∧ min (a2 + b2) (2 ^ 8 - 1) ≤ 4) ↔ a1 + b1 ≤ 1023 ∧ a2 + b2 ≤ 4
    omega
  · unfold CSize.add
    dsimp only
    split
    · next k => exact ⟨fun h => (nomatch h), fun h => by omega⟩
    · next k => exact ⟨fun _ => by omega, fun _ => rfl⟩
  · unfold CSize.sub
    dsimp only
    split
    · next k => exact ⟨fun h => (nomatch h), fun h => by omega⟩
    · next k => exact ⟨fun _ => by omega, fun _ => rfl⟩
  · simp only [CSize.isZero, CSize.saturatingSub, Bool.and_eq_true, beq_iff_eq]
    omega

/-- C94: counters of trees never overflow: a sum of any number of counters is the true sum, or 2^64 - 1 if that is less; so the order of the
summands does not matter, and one summand can be taken out again if nothing was cut off. -/
theorem C94_stats (l : List TreeStats) (hl : ∀ s ∈ l, s.Valid) :
    (TreeStats.sum l).bitCount = Nat.min (l.map TreeStats.bitCount).sum (2 ^ 64 - 1) ∧
    (TreeStats.sum l).cellCount = Nat.min (l.map TreeStats.cellCount).sum (2 ^ 64 - 1) ∧
    (∀ l', l.Perm l' → TreeStats.sum l' = TreeStats.sum l) ∧
    ∀ s, s.Valid → (TreeStats.sum (s :: l)).bitCount < 2 ^ 64 - 1 → (TreeStats.sum (s :: l)).cellCount < 2 ^ 64 - 1 →
      (TreeStats.sum (s :: l)).sub s = TreeStats.sum l ∧ (TreeStats.sum (s :: l)).sub (TreeStats.sum l) = s := by
  have e : ∀ l, TreeStats.sum l = ⟨Nat.min (l.map TreeStats.bitCount).sum (2 ^ 64 - 1), Nat.min (l.map TreeStats.cellCount).sum (2 ^ 64 - 1)⟩ := by
    intro l
    unfold TreeStats.sum
    rw [TreeStats.fold_add l .zero ⟨by decide, by decide⟩]
    simp only [TreeStats.zero, Nat.zero_add]
  refine ⟨by rw [e], by rw [e], fun l' p => ?_, fun s hs h1 h2 => ?_⟩
  · rw [e, e, (p.map TreeStats.bitCount).sum_nat, (p.map TreeStats.cellCount).sum_nat]
  · rw [e] at h1 h2
    rw [e, e]
    simp only [List.map_cons, List.sum_cons] at h1 h2 ⊢
    generalize (l.map TreeStats.bitCount).sum = x at *
    generalize (l.map TreeStats.cellCount).sum = y at *
    obtain ⟨s1, s2⟩ := s
    have h1 : min (s1 + x) (2 ^ 64 - 1) < 2 ^ 64 - 1 := h1
    have h2 : min (s2 + y) (2 ^ 64 - 1) < 2 ^ 64 - 1 := h2
    have e1 : Nat.min (s1 + x) (2 ^ 64 - 1) = s1 + x := Nat.min_eq_left (by omega)
    have e2 : Nat.min (s2 + y) (2 ^ 64 - 1) = s2 + y := Nat.min_eq_left (by omega)
    have e3 : Nat.min x (2 ^ 64 - 1) = x := Nat.min_eq_left (by omega)
    have e4 : Nat.min y (2 ^ 64 - 1) = y := Nat.min_eq_left (by omega)
    dsimp only
    rw [e1, e2, e3, e4]
    unfold TreeStats.sub
    dsimp only
    rw [Nat.add_sub_cancel_left, Nat.add_sub_cancel_left, Nat.add_sub_cancel, Nat.add_sub_cancel]
    exact ⟨rfl, rfl⟩

/-- C94: sizes can be counted and taken off again, in any order, if the counters do not run over. -/
theorem C94_stats_sizes (a : TreeStats) (l l' : List CSize) (hp : l.Perm l') (h1 : a.bitCount + (l.map CSize.bits).sum < 2 ^ 64)
    (h2 : a.cellCount + (l.map CSize.refs).sum < 2 ^ 64) :
    l.foldl TreeStats.addSize a = ⟨a.bitCount + (l.map CSize.bits).sum, a.cellCount + (l.map CSize.refs).sum⟩ ∧
    l'.foldl TreeStats.subSize (l.foldl TreeStats.addSize a) = a := by
  have e : ∀ (l : List CSize) (a : TreeStats), a.bitCount + (l.map CSize.bits).sum < 2 ^ 64 → a.cellCount + (l.map CSize.refs).sum < 2 ^ 64 →
      l.foldl TreeStats.addSize a = ⟨a.bitCount + (l.map CSize.bits).sum, a.cellCount + (l.map CSize.refs).sum⟩ := by
    intro l
    induction l with
    | nil => intro a _ _; rfl
    | cons s l ih =>
      intro a h1 h2
      simp only [List.map_cons, List.sum_cons] at h1 h2 ⊢
      have e1 : Nat.min (a.bitCount + s.bits) (2 ^ 64 - 1) = a.bitCount + s.bits := Nat.min_eq_left (by omega)
      have e2 : Nat.min (a.cellCount + s.refs) (2 ^ 64 - 1) = a.cellCount + s.refs := Nat.min_eq_left (by omega)
      rw [List.foldl_cons]
      have e3 : a.addSize s = ⟨a.bitCount + s.bits, a.cellCount + s.refs⟩ := by unfold TreeStats.addSize; rw [e1, e2]
      rw [e3, ih _ (by dsimp only; omega) (by dsimp only; omega)]
      dsimp only
      rw [Nat.add_assoc, Nat.add_assoc]
  have d : ∀ (l : List CSize) (x y : Nat), l.foldl TreeStats.subSize ⟨x + (l.map CSize.bits).sum, y + (l.map CSize.refs).sum⟩ = ⟨x, y⟩ := by
    intro l
    induction l with
    | nil => intro x y; rfl
    | cons s l ih =>
      intro x y
      simp only [List.map_cons, List.sum_cons, List.foldl_cons]
      have e3 : TreeStats.subSize ⟨x + (s.bits + (l.map CSize.bits).sum), y + (s.refs + (l.map CSize.refs).sum)⟩ s =
          ⟨x + (l.map CSize.bits).sum, y + (l.map CSize.refs).sum⟩ := by
        unfold TreeStats.subSize
        dsimp only
        congr 1 <;> omega
      rw [e3, ih]
  refine ⟨e l a h1 h2, ?_⟩
  rw [e l a h1 h2, (hp.map CSize.bits).sum_nat, (hp.map CSize.refs).sum_nat, d]

/-- C94: a range and a cell are announced as the range; this is what is stored if the range lies within the cell. -/
theorem C94_parts (acc acc0 : Cell → Bool) (p : SliceRange × Cell) (hx : p.2.exotic = false) (hf : p.2.bits.length ≤ 1023 ∧ p.2.refs.length ≤ 4)
    (h : (p.1.bitsStart ≤ p.1.bitsEnd ∧ p.1.bitsEnd ≤ p.2.bits.length) ∧ p.1.refsStart ≤ p.1.refsEnd ∧ p.1.refsEnd ≤ p.2.refs.length)
    {b b' : CellB Cell} (wf : b.WF) (hs : (partsBody acc acc0).store false p b = (.ok (), b')) :
    b'.contents.1.length = b.contents.1.length + ((partsBody acc acc0).size p).1 ∧ b'.contents.2.length = b.contents.2.length + ((partsBody acc acc0).size p).2 := by
  obtain ⟨s, e, w, ct⟩ := applyRange_spec (b := p) ⟨h.1.1, h.1.2, h.2.1, h.2.2⟩ hx hf
  have he : (partsBody acc acc0).store false p = Wr.slice s := by
    show (match applyRange p.1 p.2 with | .error e => Prog.fail e | .ok s => sliceOrCell acc false (Wr.slice s)) = _
    rw [e]; rfl
  rw [he] at hs
  have hz := contents_size w
  have hr : s.range = p.1 := by
    unfold applyRange at e
    rw [hx] at e
    injection e with e
    rw [← e]
    obtain ⟨⟨r1, r2, r3, r4⟩, c⟩ := p
    dsimp only at h ⊢
    congr 1 <;> omega
  rw [hr] at hz
  have h1 : s.contents.1.length = p.1.sizeBits := congrArg Prod.fst hz
  have h2 : s.contents.2.length = p.1.sizeRefs := congrArg Prod.snd hz
  rcases Puts.ofWrites (Wr.writes_slice w).writes b wf with ⟨b1, r, _, c⟩ | ⟨b1, r, _⟩
  · rw [hs] at r
    obtain ⟨_, rfl⟩ := Prod.mk.inj r
    rw [c, Enc.append_fst, Enc.append_snd, List.length_append, List.length_append, h1, h2]
    exact ⟨rfl, rfl⟩
  · rw [hs] at r; cases r

/-! ### Where the code breaks the property -/

/-- C94, violated: a range that goes beyond the cell is announced in full, but only what there is in the cell is stored. -/
theorem C94_parts_wrong :
    (partsBody (fun _ => true) (fun _ => true)).size (⟨0, 100, 0, 2⟩, .mk false [true, false] []) = (100, 2) ∧
    (match (partsBody (fun _ => true) (fun _ => true)).store false (⟨0, 100, 0, 2⟩, .mk false [true, false] []) .new with
      | (.ok _, b) => b.contents.1.length == 2 && b.contents.2.length == 0
      | _ => false) = true := by
  exact ⟨rfl, by decide +kernel⟩

/-- A slice of `n` bits and no references. -/
def zeroSlice (n : Nat) : CSlice Cell := ⟨List.replicate 128 0, [], ⟨0, n, 0, 0⟩⟩

theorem zeroSlice_wf {n : Nat} (h : n ≤ 1024) : (zeroSlice n).WF := by
  refine ⟨Nat.zero_le _, ?_, ?_, Nat.le_refl _, Nat.le_refl _, Nat.zero_le _⟩
  · show n ≤ 8 * (List.replicate 128 (0 : Byte)).length
    rw [List.length_replicate]; exact h
  · show (List.replicate 128 (0 : Byte)).length ≤ 128
    rw [List.length_replicate]

/-- Nested pairs of slices: `n` of 1023 bits behind the one given. -/
def manySlices (first : CSlice Cell) : Nat → AnySized
  | 0 => ⟨.slice, first⟩
  | n + 1 => ⟨.pair (manySlices first n).1 .slice, ((manySlices first n).2, zeroSlice 1023)⟩

theorem manySlices_good (first : CSlice Cell) (h : first.WF) : ∀ n, (manySlices first n).1.Plain ∧ (manySlices first n).1.Good (manySlices first n).2
  | 0 => ⟨trivial, h⟩
  | n + 1 => ⟨⟨(manySlices_good first h n).1, trivial⟩, (manySlices_good first h n).2, zeroSlice_wf (by decide)⟩

/-- C94, violated: in a release build the sum wraps. 64 slices of 1023 bits and one of 64 bits are announced as nothing, so that they seem
to fit into a cell, but they can not be stored; a debug build panics. -/
theorem C94_wraps :
    (manySlices (zeroSlice 64) 64).1.Good (manySlices (zeroSlice 64) 64).2 ∧
    (manySlices (zeroSlice 64) 64).1.size false (manySlices (zeroSlice 64) 64).2 = .ok .zero ∧
    (manySlices (zeroSlice 64) 64).1.size true (manySlices (zeroSlice 64) 64).2 = .error .panic ∧
    ∃ b, (manySlices (zeroSlice 64) 64).1.store (manySlices (zeroSlice 64) 64).2 .new = (.error .cellOverflow, b) := by
  have g := manySlices_good (zeroSlice 64) (zeroSlice_wf (by decide)) 64
  have e : (manySlices (zeroSlice 64) 64).1.size true (manySlices (zeroSlice 64) 64).2 = .error .panic := by decide +kernel
  refine ⟨g.2, by decide +kernel, e, ?_⟩
  have := SzTy.C94_fits _ _ g.1 g.2 (b := .new) CellB.wf_new
  rw [e] at this
  exact this.2

/-! ### The hypotheses are met -/

/-- A sequence of three values that fills a cell. -/
def exSized : List AnySized := [⟨.slice, zeroSlice 1014⟩, ⟨.pair .dict (.option (.var .vu24)), (some (.mk false [] []), some (5 : Nat))⟩, ⟨.lazy true, .mk true [] []⟩]

/-- A concrete sequence: sizes, their sum does not fit (1014 + 1 + 1 + 2 + 8 bits); without the integer it does. -/
example : (∀ v ∈ exSized, v.1.Plain ∧ v.1.Good v.2) ∧
    exSized.map (fun v => v.1.size true v.2) = [⟨1014, 0⟩, ⟨12, 1⟩, ⟨0, 1⟩].map .ok ∧
    (([⟨1014, 0⟩, ⟨12, 1⟩, ⟨0, 1⟩] : List CSize).foldl CSize.saturatingAdd .zero).fitsIntoCell = false ∧
    (([⟨1014, 0⟩, ⟨0, 1⟩] : List CSize).foldl CSize.saturatingAdd .zero).fitsIntoCell = true := by
  refine ⟨?_, by decide +kernel, by decide, by decide⟩
  intro v hv
  simp only [exSized, List.mem_cons, List.not_mem_nil, or_false] at hv
  rcases hv with rfl | rfl | rfl
  · exact ⟨trivial, zeroSlice_wf (by decide)⟩
  · exact ⟨⟨trivial, trivial⟩, trivial, by show (5 : Nat) ≤ VarKind.vu24.max; decide⟩
  · exact ⟨trivial, trivial⟩

example : (SzTy.pair .dict (.option (.var .vu24))).size true (some (.mk false [] []), some (5 : Nat)) = .ok ⟨12, 1⟩ := by decide +kernel

example : (TreeStats.sum [⟨2 ^ 63, 3⟩, ⟨2 ^ 63, 4⟩]) = ⟨2 ^ 64 - 1, 7⟩ := by decide +kernel

end Verif
