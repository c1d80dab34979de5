import Verif.DictAug
import Verif.DictSplitProps
/-
Model of insertion into and removal from augmented dictionaries (`dict/ops/insert.rs`, `dict/ops/remove.rs`,
`dict/mod.rs`). The conventions are those of `Dict.lean`; extra and value of a leaf are one slice; the comparator yields
what it writes behind the references of a fork.
-/
set_option linter.unusedVariables false
set_option linter.unusedSimpArgs false
namespace Verif

/-- An extra comparator (`AugDictFn`, `dict/mod.rs:268-269`). -/
abbrev AugFn := Sl → Sl → Except Err Sl

/-- `dict/mod.rs:517-525` `skip_label_full` -/
def skipLabelFull (s : Sl) (n : Nat) : Except Err Sl :=
  readLabel s n >>= fun r => if r.1.length < n then r.2.skip 0 2 else .ok r.2

/-- The fork part of `split_aug_edge` (`dict/mod.rs:368-380`) and of `rebuild_aug_dict_from_stack` (`dict/mod.rs:500-511`);
`m` is the key length of the branches. -/
def makeForkX (f : AugFn) (acc : Cell → Bool) (key : Bits) (n m : Nat) (left right : Cell) : Except Err Cell := do
  let ls ← asSlice left
  let rs ← asSlice right
  let ls ← skipLabelFull ls m
  let rs ← skipLabelFull rs m
  let b ← writeLabel key n .empty
  let b ← b.storeRef left
  let b ← b.storeRef right
  let x ← f ls rs
  let b ← b.storeSlice x
  buildSl acc b

/-- `dict/mod.rs:335-380` `split_aug_edge`; `v` is the extra and the value of the new leaf. -/
def splitEdgeX (f : AugFn) (acc : Cell → Bool) (data : Sl) (pfx : Bits) (lcp : Nat) (key : Bits) (v : Sl) : Except Err Cell :=
  if key.length < lcp + 1 then .error .cellUnderflow
  else
    let key' := key.drop (lcp + 1)
    match pfx.drop lcp with
    | [] => .error .cellUnderflow
    | oldToRight :: pfx' => do
      let left ← makeLeaf acc pfx' key'.length data
      let right ← makeLeaf acc key' key'.length v
      if oldToRight then makeForkX f acc (key.take lcp) key.length key'.length right left
      else makeForkX f acc (key.take lcp) key.length key'.length left right

/-- One iteration of `rebuild_aug_dict_from_stack` (`dict/mod.rs:483-512`); a label as long as the key makes the subtraction
of lengths underflow. -/
def rebuildOneX (f : AugFn) (acc : Cell → Bool) (s : Seg) (leaf : Cell) : Except Err Cell :=
  match s.data.refs[if s.right then 0 else 1]? with
  | none => .error .cellUnderflow
  | some opp => do
    let data ← asSlice s.data
    let (label, _) ← readLabel data s.keyLen
    if s.keyLen < label.length + 1 then .error .panic
    else makeForkX f acc label s.keyLen (s.keyLen - label.length - 1) (if s.right then opp else leaf) (if s.right then leaf else opp)

/-- `dict/mod.rs:476-515` `rebuild_aug_dict_from_stack`. -/
def rebuildX (f : AugFn) (acc : Cell → Bool) : List Seg → Cell → Except Err Cell
  | [], leaf => .ok leaf
  | s :: stack, leaf => do
    let leaf ← rebuildOneX f acc s leaf
    rebuildX f acc stack leaf

/-- The loop of `aug_dict_insert` (`dict/ops/insert.rs:149-225`); `none` if the mode refuses. -/
def augInsertGo (f : AugFn) (acc : Cell → Bool) (mode : SetMode) (v : Sl) : Nat → Bits → Cell → List Seg → Except Err (Option (Cell × List Seg))
  | 0, _, _, _ => .error .fault
  | fuel + 1, key, data, stack => do
    let rem ← asSlice data
    let (pfx, rem) ← readLabel rem key.length
    let lcp := commonPrefixLen key pfx
    if lcp = key.length then
      if mode.canReplace = false then .ok none
      else do
        let leaf ← makeLeaf acc pfx key.length v
        .ok (some (leaf, stack))
    else if lcp < pfx.length then
      if mode.canAdd = false then .ok none
      else do
        let leaf ← splitEdgeX f acc rem pfx lcp key v
        .ok (some (leaf, stack))
    else if data.refs.length < 2 then .error .cellUnderflow
    else match key.drop lcp with
      | [] => .error .cellUnderflow
      | bit :: key' => match data.refs[bit.toNat]? with
        | none => .error .cellUnderflow
        | some child => augInsertGo f acc mode v fuel key' child (⟨data, bit, key.length⟩ :: stack)

/-- `dict/ops/insert.rs:115-232` `aug_dict_insert`; `v` is the extra followed by the value. -/
def augInsert (f : AugFn) (acc : Cell → Bool) (dict : Option Cell) (key : Bits) (n : Nat) (v : Sl) (mode : SetMode) : DictRes Bool :=
  if key.length ≠ n then (.error .cellUnderflow, dict)
  else match dict with
    | none =>
      if mode.canAdd then
        match makeLeaf acc key n v with
        | .error e => (.error e, none)
        | .ok c => (.ok true, some c)
      else (.ok false, none)
    | some root =>
      match augInsertGo f acc mode v (n + 1) key root [] with
      | .error e => (.error e, dict)
      | .ok none => (.ok false, dict)
      | .ok (some (leaf, stack)) => match rebuildX f acc stack leaf with
        | .error e => (.error e, dict)
        | .ok c => (.ok true, some c)

/-- `dict/ops/remove.rs:47-83` `aug_dict_remove_owned`. -/
def augRemove (f : AugFn) (acc : Cell → Bool) (dict : Option Cell) (key : Bits) (n : Nat) (allowSubtree : Bool) : DictRes (Option Sl) :=
  if allowSubtree = false ∧ key.length ≠ n then (.error .cellUnderflow, dict)
  else match dict with
    | none => (.ok none, none)
    | some root => match dictFindRemove (key.length + 1) key root [] key.length with
      | .error e => (.error e, dict)
      | .ok none => (.ok none, dict)
      | .ok (some r) => match r.stack with
        | [] => (.ok (some r.value), none)
        | s :: stack => match rebuildRemoved acc s r.key.length r.prev with
          | .error e => (.error e, dict)
          | .ok leaf => match rebuildX f acc stack leaf with
            | .error e => (.error e, dict)
            | .ok c => (.ok (some r.value), some c)

/-! ### The same on tries -/

namespace Trie

/-- A fork with the branch `new` on the side of `bit`. -/
def forkX (cmp : Comparator) (c : Bits) (n : Nat) (bit : Bool) (old new : Trie) : Trie :=
  joinX cmp c n (if bit then old else new) (if bit then new else old)

/-- Put a value under a key and recompute the extras on the way. -/
def setX (cmp : Comparator) : Trie → Bits → Sl → Trie
  | leaf l e v0, k, v => match diverge l k with
    | .full _ => mkLeaf l v
    | .split c bit l' k' => forkX cmp c k.length bit (relabel (leaf l e v0) l' k'.length) (mkLeaf k' v)
    | .short => leaf l e v0
  | fork l e x a b, k, v => match diverge l k with
    | .full (false :: r) => joinX cmp l k.length (a.setX cmp r v) b
    | .full (true :: r) => joinX cmp l k.length a (b.setX cmp r v)
    | .full [] => fork l e x a b
    | .split c bit l' k' => forkX cmp c k.length bit (relabel (fork l e x a b) l' k'.length) (mkLeaf k' v)
    | .short => fork l e x a b

/-- Remove a key that is present and recompute the extras on the way. -/
def removeX (cmp : Comparator) : Trie → Bits → Option Trie
  | leaf l e v, k => none
  | fork l e x a b, k => match stripPrefix l k with
    | some (false :: r) => match a.removeX cmp r with
      | none => some (relabel b (l ++ true :: b.label) k.length)
      | some a' => some (joinX cmp l k.length a' b)
    | some (true :: r) => match b.removeX cmp r with
      | none => some (relabel a (l ++ false :: a.label) k.length)
      | some b' => some (joinX cmp l k.length a b')
    | _ => some (fork l e x a b)

theorem setX_leaf (cmp : Comparator) (l e : Bits) (w v : Sl) : (leaf l e w).setX cmp l v = mkLeaf l v := by
  rw [setX, diverge_full.mpr (List.append_nil l).symm]

theorem setX_fork (cmp : Comparator) (l e : Bits) (x : Sl) (a b : Trie) (bit : Bool) (r : Bits) (v : Sl) :
    (fork l e x a b).setX cmp (l ++ bit :: r) v =
      joinX cmp l (l ++ bit :: r).length (if bit then a else a.setX cmp r v) (if bit then b.setX cmp r v else b) := by
  rw [setX, diverge_full.mpr rfl]
  cases bit <;> rfl

theorem setX_split (cmp : Comparator) {t : Trie} {k c l' k' : Bits} {bit : Bool} (v : Sl) (h1 : t.label = c ++ (!bit) :: l') (h2 : k = c ++ bit :: k') :
    t.setX cmp k v = forkX cmp c k.length bit (t.relabel l' k'.length) (mkLeaf k' v) := by
  cases t with
  | leaf l e w => rw [setX, (diverge_split (l := l)).mpr ⟨h1, h2⟩]
  | fork l e x a b => rw [setX, (diverge_split (l := l)).mpr ⟨h1, h2⟩]

theorem removeX_fork (cmp : Comparator) (l e : Bits) (x : Sl) (a b : Trie) (bit : Bool) (r : Bits) :
    (fork l e x a b).removeX cmp (l ++ bit :: r) = some (match (if bit then b else a).removeX cmp r with
      | none => relabel (if bit then a else b) (l ++ (!bit) :: (if bit then a else b).label) (l ++ bit :: r).length
      | some t' => joinX cmp l (l ++ bit :: r).length (if bit then a else t') (if bit then t' else b)) := by
  rw [removeX, stripPrefix_append]
  cases bit
  · simp only [Bool.false_eq_true, if_false, Bool.not_false]
    cases a.removeX cmp r <;> rfl
  · simp only [if_true, Bool.not_true]
    cases b.removeX cmp r <;> rfl

theorem plain_relabel (t : Trie) (l : Bits) (n : Nat) : (t.relabel l n).plain = t.plain.relabel l n := by cases t <;> rfl

theorem plain_label (t : Trie) : t.plain.label = t.label := by cases t <;> rfl

theorem plain_joinX (cmp : Comparator) (l : Bits) (n : Nat) (a b : Trie) : (joinX cmp l n a b).plain = fork l (labelBits l n) .empty a.plain b.plain := rfl

theorem sized_of_plain : ∀ {n : Nat} {t : Trie}, t.plain.Sized n → t.Sized n
  | n, leaf l e v, h => h
  | n, fork l e x a b, h => ⟨h.1, h.2.1, sized_of_plain h.2.2.1, sized_of_plain h.2.2.2⟩

theorem plain_setX (cmp : Comparator) : ∀ {n : Nat} {t : Trie} {k : Bits} (v : Sl), t.Sized n → t.CanonX cmp n → k.length = n →
    (t.setX cmp k v).plain = t.plain.set k v
  | n, t, k, v, hs, hc, hk => by
    rcases key_cases hs hk with ⟨e, w, rfl⟩ | ⟨l, e, x, a, b, bit, r, rfl, h, hr⟩ | ⟨c, bit, l', k', h1, h2⟩
    · rw [setX_leaf]
      exact (set_leaf k e w v).symm
    · subst h
      rw [setX_fork]
      show (joinX cmp l _ _ _).plain = (fork l e .empty a.plain b.plain).set _ v
      rw [set_fork, plain_joinX, hc.1, hk]
      cases bit
      · have := plain_setX cmp v hs.2.2.1 hc.2.2.1 hr
        simp only [Bool.false_eq_true, if_false]
        rw [this]; rfl
      · have := plain_setX cmp v hs.2.2.2 hc.2.2.2 hr
        simp only [if_true]
        rw [this]; rfl
    · rw [setX_split cmp v h1 h2, set_split v (by rw [plain_label]; exact h1) h2, ← plain_relabel]
      cases bit <;> rfl
  termination_by n t => t
  decreasing_by all_goals (subst_vars; simp_wf; try omega)

theorem canonX_joinX {cmp : Comparator} {l : Bits} {n : Nat} {a b : Trie} (ha : a.CanonX cmp (n - l.length - 1)) (hb : b.CanonX cmp (n - l.length - 1)) :
    (joinX cmp l n a b).CanonX cmp n := ⟨rfl, rfl, ha, hb⟩

theorem canonX_setX (cmp : Comparator) : ∀ {n : Nat} {t : Trie} {k : Bits} (v : Sl), t.Sized n → t.CanonX cmp n → k.length = n →
    (t.setX cmp k v).CanonX cmp n
  | n, t, k, v, hs, hc, hk => by
    rcases key_cases hs hk with ⟨e, w, rfl⟩ | ⟨l, e, x, a, b, bit, r, rfl, h, hr⟩ | ⟨c, bit, l', k', h1, h2⟩
    · rw [setX_leaf]
      show labelBits k k.length = _
      rw [hk]
    · subst h
      rw [setX_fork, hk]
      cases bit
      · exact canonX_joinX (canonX_setX cmp v hs.2.2.1 hc.2.2.1 hr) hc.2.2.2
      · exact canonX_joinX hc.2.2.1 (canonX_setX cmp v hs.2.2.2 hc.2.2.2 hr)
    · rw [setX_split cmp v h1 h2, hk]
      have hlen := hs.length_le
      have hkl : k.length = c.length + 1 + k'.length := by rw [h2]; simp; omega
      have hll : t.label.length = c.length + 1 + l'.length := by rw [h1]; simp; omega
      have e1 : n - c.length - 1 = k'.length := by omega
      have g1 : (t.relabel l' k'.length).CanonX cmp (n - c.length - 1) := by
        rw [e1]; exact canonX_relabel hc (by omega)
      have g2 : (mkLeaf k' v).CanonX cmp (n - c.length - 1) := by
        rw [e1]; exact rfl
      cases bit
      · exact canonX_joinX g2 g1
      · exact canonX_joinX g1 g2
  termination_by n t => t
  decreasing_by all_goals (subst_vars; simp_wf; try omega)

theorem sized_setX (cmp : Comparator) {n : Nat} {t : Trie} {k : Bits} (v : Sl) (hs : t.Sized n) (hc : t.CanonX cmp n) (hk : k.length = n) :
    (t.setX cmp k v).Sized n := by
  refine sized_of_plain ?_
  rw [plain_setX cmp v hs hc hk]
  exact sized_set v (plain_sized hs) hk

theorem lookup_setX (cmp : Comparator) {n : Nat} {t : Trie} {k : Bits} (v : Sl) (hs : t.Sized n) (hc : t.CanonX cmp n) (hk : k.length = n) (k' : Bits)
    (hk' : k'.length = n) : (t.setX cmp k v).lookup k' = if k' = k then some v else t.lookup k' := by
  rw [← plain_lookup, plain_setX cmp v hs hc hk, lookup_set v (plain_sized hs) hk k' hk', plain_lookup]

theorem plain_removeX (cmp : Comparator) : ∀ {n : Nat} {t : Trie} {k : Bits} {w : Sl}, t.Sized n → t.CanonX cmp n → t.lookup k = some w →
    (t.removeX cmp k).map plain = t.plain.remove k
  | n, leaf l e v, k, w, hs, hc, hl => rfl
  | n, fork l e x a b, k, w, hs, hc, hl => by
    have hkn := lookup_some_length hs hl
    by_cases hpre : ∃ bit' r', k = l ++ bit' :: r'
    · obtain ⟨bit, r, rfl⟩ := hpre
      rw [lookup_fork] at hl
      rw [removeX_fork]
      show _ = (fork l e .empty a.plain b.plain).remove _
      rw [remove_fork, hc.1, hkn]
      cases bit
      · simp only [Bool.false_eq_true, if_false] at hl ⊢
        have := plain_removeX cmp hs.2.2.1 hc.2.2.1 hl
        rw [← this]
        cases a.removeX cmp r with
        | none => simp only [Option.map_none, Option.map_some, plain_relabel, plain_label]
        | some u => rfl
      · simp only [if_true] at hl ⊢
        have := plain_removeX cmp hs.2.2.2 hc.2.2.2 hl
        rw [← this]
        cases b.removeX cmp r with
        | none => simp only [Option.map_none, Option.map_some, plain_relabel, plain_label]
        | some u => rfl
    · rw [lookup_fork_none (fun b' r' hh => hpre ⟨b', r', hh⟩)] at hl; cases hl

theorem canonX_removeX (cmp : Comparator) : ∀ {n : Nat} {t t' : Trie} {k : Bits} {w : Sl}, t.Sized n → t.CanonX cmp n → t.lookup k = some w →
    t.removeX cmp k = some t' → t'.CanonX cmp n
  | n, leaf l e v, t', k, w, hs, hc, hl, h => by cases h
  | n, fork l e x a b, t', k, w, hs, hc, hl, h => by
    have hkn := lookup_some_length hs hl
    by_cases hpre : ∃ bit' r', k = l ++ bit' :: r'
    · obtain ⟨bit, r, rfl⟩ := hpre
      rw [lookup_fork] at hl
      rw [removeX_fork] at h
      injection h with h
      have h1 := hs.1
      have hj : ∀ (u : Trie) (bb : Bool), u.Sized (n - l.length - 1) → u.CanonX cmp (n - l.length - 1) →
          (u.relabel (l ++ bb :: u.label) (l ++ bit :: r).length).CanonX cmp n := by
        intro u bb hu hcu
        rw [hkn]
        have := hu.length_le
        exact canonX_relabel hcu (by simp; omega)
      rw [hkn] at h hj
      cases bit
      · simp only [Bool.false_eq_true, if_false] at hl h
        cases hr : a.removeX cmp r with
        | none => rw [hr] at h; dsimp only at h; rw [← h]; exact hj b _ hs.2.2.2 hc.2.2.2
        | some u => rw [hr] at h; dsimp only at h; rw [← h]; exact canonX_joinX (canonX_removeX cmp hs.2.2.1 hc.2.2.1 hl hr) hc.2.2.2
      · simp only [if_true] at hl h
        cases hr : b.removeX cmp r with
        | none => rw [hr] at h; dsimp only at h; rw [← h]; exact hj a _ hs.2.2.1 hc.2.2.1
        | some u => rw [hr] at h; dsimp only at h; rw [← h]; exact canonX_joinX hc.2.2.1 (canonX_removeX cmp hs.2.2.2 hc.2.2.2 hl hr)
    · rw [lookup_fork_none (fun b' r' hh => hpre ⟨b', r', hh⟩)] at hl; cases hl

theorem sized_removeX (cmp : Comparator) {n : Nat} {t t' : Trie} {k : Bits} {w : Sl} (hs : t.Sized n) (hc : t.CanonX cmp n) (hl : t.lookup k = some w)
    (h : t.removeX cmp k = some t') : t'.Sized n := by
  refine sized_of_plain (sized_remove (plain_sized hs) (by rw [plain_lookup]; exact hl) ?_)
  rw [← plain_removeX cmp hs hc hl, h]; rfl

theorem lookup_removeX (cmp : Comparator) {n : Nat} {t : Trie} {k : Bits} {w : Sl} (hs : t.Sized n) (hc : t.CanonX cmp n) (hl : t.lookup k = some w) (k' : Bits)
    (hk' : k'.length = n) : (match t.removeX cmp k with | none => none | some t' => t'.lookup k') = if k' = k then none else t.lookup k' := by
  have := lookup_remove (plain_sized hs) (by rw [plain_lookup]; exact hl) k' hk'
  rw [← plain_removeX cmp hs hc hl, plain_lookup] at this
  rw [← this]
  cases t.removeX cmp k with
  | none => rfl
  | some u => exact (plain_lookup u k').symm

end Trie

/-! ### Building -/

theorem skipLabelFull_cell {m : Nat} {t : Trie} (hs : t.Sized m) (hm : m ≤ 1023) : skipLabelFull ⟨t.cell.bits, t.cell.refs⟩ m = .ok t.ext := by
  unfold skipLabelFull
  rw [readLabel_cell hs hm]
  cases t with
  | leaf l e v =>
    show (if l.length < m then _ else _) = _
    rw [if_neg (by have := hs.1; omega)]
    rfl
  | fork l e x a b =>
    show (if l.length < m then _ else _) = _
    rw [if_pos hs.1]
    unfold Sl.skip
    rw [if_neg (by simp [Trie.body])]
    rfl

/-- A computation that yields the fork of `a` and `b` if the comparator accepts them and the cell can be built, and fails otherwise. -/
def ForksX (f : AugFn) (acc : Cell → Bool) (x : Except Err Cell) (l : Bits) (n : Nat) (a b : Trie) : Prop :=
  (okCell acc (Trie.joinX (some f) l n a b).cell ∧ (∃ y, f a.ext b.ext = .ok y) → x = .ok (Trie.joinX (some f) l n a b).cell) ∧
  (¬ (okCell acc (Trie.joinX (some f) l n a b).cell ∧ (∃ y, f a.ext b.ext = .ok y)) → ∃ e, x = .error e)

theorem makeForkX_forks (f : AugFn) (acc : Cell → Bool) (l : Bits) {n m : Nat} {a b : Trie} (ha : a.Sized m) (hb : b.Sized m) (hm : m ≤ 1023)
    (hn : n ≤ 65535) : ForksX f acc (makeForkX f acc l n m a.cell b.cell) l n a b := by
  obtain ⟨w1, w2⟩ := writeLabel_empty (l := l) hn
  have key : makeForkX f acc l n m a.cell b.cell = (writeLabel l n .empty >>= fun s => s.storeRef a.cell >>= fun s => s.storeRef b.cell >>= fun s =>
      f a.ext b.ext >>= fun x => s.storeSlice x >>= buildSl acc) := by
    unfold makeForkX
    rw [asSlice_cell, asSlice_cell]
    show (skipLabelFull ⟨a.cell.bits, a.cell.refs⟩ m >>= _) = _
    rw [skipLabelFull_cell ha hm]
    show (skipLabelFull ⟨b.cell.bits, b.cell.refs⟩ m >>= _) = _
    rw [skipLabelFull_cell hb hm]
    rfl
  unfold ForksX
  rw [key]
  by_cases h : (labelBits l n).length ≤ 1023
  · rw [w1 h]
    have key2 : ((Except.ok (⟨labelBits l n, []⟩ : Sl) : Except Err Sl) >>= fun s => s.storeRef a.cell >>= fun s => s.storeRef b.cell >>= fun s =>
      f a.ext b.ext >>= fun x => s.storeSlice x >>= buildSl acc) = (f a.ext b.ext >>= fun x => (⟨labelBits l n, [a.cell, b.cell]⟩ : Sl).storeSlice x >>= buildSl acc) := rfl
    rw [key2]
    cases hf : f a.ext b.ext with
    | error e =>
      refine ⟨fun h => ?_, fun _ => ⟨e, rfl⟩⟩
      obtain ⟨_, y, hy⟩ := h
      cases hy
    | ok x =>
      have hx : (Trie.joinX (some f) l n a b).cell = .mk false (labelBits l n ++ x.bits) ([a.cell, b.cell] ++ x.refs) := by
        unfold Trie.joinX Comparator.get
        simp only [hf]
        rfl
      have := store_build acc ⟨labelBits l n, [a.cell, b.cell]⟩ x
      rw [← hx] at this
      exact ⟨fun h => this.1 h.1, fun h => this.2 (fun h' => h ⟨h', x, rfl⟩)⟩
  · refine ⟨fun hok => absurd ?_ h, fun _ => ?_⟩
    · have := hok.1.1
      simp only [Trie.joinX, Trie.cell, Cell.bits, List.length_append] at this
      omega
    · obtain ⟨e, he⟩ := w2 h
      rw [he]; exact ⟨e, rfl⟩

theorem good_joinX {f : AugFn} {acc : Cell → Bool} {l : Bits} {n : Nat} {a b : Trie} :
    (Trie.joinX (some f) l n a b).Good (some f) acc ↔
      (okCell acc (Trie.joinX (some f) l n a b).cell ∧ ∃ y, f a.ext b.ext = .ok y) ∧ a.Good (some f) acc ∧ b.Good (some f) acc := by
  constructor
  · rintro ⟨h1, h2, h3, h4⟩
    exact ⟨⟨h1, h2 f rfl⟩, h3, h4⟩
  · rintro ⟨⟨h1, h2⟩, h3, h4⟩
    exact ⟨h1, fun g hg => by injection hg with hg; rw [← hg]; exact h2, h3, h4⟩

theorem rebuildOneX_forks (f : AugFn) (acc : Cell → Bool) {n : Nat} {l e : Bits} {x : Sl} {a b : Trie} (hs : (Trie.fork l e x a b).Sized n) (hn : n ≤ 1023)
    (bit : Bool) {t' : Trie} (ht : t'.Sized (n - l.length - 1)) :
    ForksX f acc (rebuildOneX f acc ⟨(Trie.fork l e x a b).cell, bit, n⟩ t'.cell) l n (if bit then a else t') (if bit then t' else b) := by
  have h1 := hs.1
  have key : rebuildOneX f acc ⟨(Trie.fork l e x a b).cell, bit, n⟩ t'.cell =
      makeForkX f acc l n (n - l.length - 1) (if bit then a else t').cell (if bit then t' else b).cell := by
    have hread := readLabel_cell hs hn
    unfold rebuildOneX
    have hopp : (Trie.fork l e x a b).cell.refs[if bit then 0 else 1]? = some (if bit then a else b).cell := by cases bit <;> rfl
    dsimp only
    rw [hopp]
    dsimp only
    rw [asSlice_cell]
    show (readLabel _ n >>= _) = _
    rw [hread]
    show (if n < l.length + 1 then _ else _) = _
    rw [if_neg (by omega)]
    cases bit <;> rfl
  rw [key]
  cases bit
  · exact makeForkX_forks f acc l ht hs.2.2.2 (by omega) (by omega)
  · exact makeForkX_forks f acc l hs.2.2.1 ht (by omega) (by omega)

theorem splitEdgeX_builds (f : AugFn) (acc : Cell → Bool) {n : Nat} {t : Trie} (hs : t.Sized n) {c l' k' : Bits} {bit : Bool} (h1 : t.label = c ++ (!bit) :: l') (v : Sl)
    (hk : (c ++ bit :: k').length = n) (hn : n ≤ 1023) (hf : t.Good (some f) acc) :
    ((t.setX (some f) (c ++ bit :: k') v).Good (some f) acc →
      splitEdgeX f acc t.body t.label c.length (c ++ bit :: k') v = .ok (t.setX (some f) (c ++ bit :: k') v).cell) ∧
    (¬ (t.setX (some f) (c ++ bit :: k') v).Good (some f) acc → ∃ e, splitEdgeX f acc t.body t.label c.length (c ++ bit :: k') v = .error e) := by
  have hk' : (c ++ bit :: k').drop (c.length + 1) = k' := by
    rw [show c ++ bit :: k' = (c ++ [bit]) ++ k' from by simp, List.drop_left' (by simp)]
  have hkl : k'.length ≤ 1023 := by simp at hk; omega
  have hl' : t.label.drop c.length = (!bit) :: l' := by rw [h1, List.drop_left]
  have ht : (c ++ bit :: k').take c.length = c := by rw [List.take_left]
  have hlen := hs.length_le
  have hll : t.label.length = c.length + 1 + l'.length := by rw [h1]; simp; omega
  have hkk : c.length + 1 + k'.length = n := by rw [← hk]; simp; omega
  have so : (t.relabel l' k'.length).Sized k'.length := Trie.sized_relabel hs (by omega) (by omega)
  have sn : (Trie.mkLeaf k' v).Sized k'.length := Trie.sized_mkLeaf k' v
  rw [Trie.setX_split (some f) v h1 rfl]
  unfold Trie.forkX
  rw [good_joinX]
  have go := Trie.good_relabel (l := l') (n := k'.length) hf
  have gn : (Trie.mkLeaf k' v).Good (some f) acc ↔ okCell acc (Trie.mkLeaf k' v).cell := Iff.rfl
  have key : splitEdgeX f acc t.body t.label c.length (c ++ bit :: k') v =
      (makeLeaf acc l' k'.length t.body >>= fun left => makeLeaf acc k' k'.length v >>= fun right =>
        if !bit then makeForkX f acc c (c ++ bit :: k').length k'.length right left else makeForkX f acc c (c ++ bit :: k').length k'.length left right) := by
    unfold splitEdgeX
    rw [if_neg (by simp)]
    dsimp only
    rw [hk', hl', ht]
  have b1 := makeLeaf_builds acc l' t.body (n := k'.length) (by omega)
  have b2 := makeLeaf_builds acc k' v (n := k'.length) (by omega)
  rw [← relabel_cell] at b1
  have e2 : (Trie.mkLeaf k' v).cell = .mk false (labelBits k' k'.length ++ v.bits) v.refs := rfl
  rw [← e2] at b2
  have b3 : ForksX f acc (if !bit then makeForkX f acc c (c ++ bit :: k').length k'.length (Trie.mkLeaf k' v).cell (t.relabel l' k'.length).cell
      else makeForkX f acc c (c ++ bit :: k').length k'.length (t.relabel l' k'.length).cell (Trie.mkLeaf k' v).cell) c (c ++ bit :: k').length
      (if bit then t.relabel l' k'.length else Trie.mkLeaf k' v) (if bit then Trie.mkLeaf k' v else t.relabel l' k'.length) := by
    cases bit
    · exact makeForkX_forks f acc c sn so hkl (by omega)
    · exact makeForkX_forks f acc c so sn hkl (by omega)
  have hboth : ((if bit then t.relabel l' k'.length else Trie.mkLeaf k' v).Good (some f) acc ∧ (if bit then Trie.mkLeaf k' v else t.relabel l' k'.length).Good (some f) acc) ↔
      okCell acc (t.relabel l' k'.length).cell ∧ okCell acc (Trie.mkLeaf k' v).cell := by
    cases bit
    · exact ⟨fun h => ⟨go.mp h.2, gn.mp h.1⟩, fun h => ⟨gn.mpr h.2, go.mpr h.1⟩⟩
    · exact ⟨fun h => ⟨go.mp h.1, gn.mp h.2⟩, fun h => ⟨go.mpr h.1, gn.mpr h.2⟩⟩
  rw [key, hboth]
  by_cases g1 : okCell acc (t.relabel l' k'.length).cell
  · rw [b1.1 g1]
    by_cases g2 : okCell acc (Trie.mkLeaf k' v).cell
    · rw [b2.1 g2]
      exact ⟨fun h => b3.1 h.1, fun h => b3.2 fun h' => h ⟨h', g1, g2⟩⟩
    · refine ⟨fun h => absurd h.2.2 g2, fun _ => ?_⟩
      obtain ⟨e, he⟩ := b2.2 g2
      rw [he]; exact ⟨e, rfl⟩
  · refine ⟨fun h => absurd h.2.1 g1, fun _ => ?_⟩
    obtain ⟨e, he⟩ := b1.2 g1
    rw [he]; exact ⟨e, rfl⟩

/-! ### Insertion -/

theorem augInsertGo_step (f : AugFn) (acc : Cell → Bool) (mode : SetMode) (v : Sl) {n : Nat} {t : Trie} (hs : t.Sized n) (hn : n ≤ 1023) {key : Bits}
    (hk : key.length = n) (fuel : Nat) (stack : List Seg) :
    augInsertGo f acc mode v (fuel + 1) key t.cell stack = (
      if commonPrefixLen key t.label = key.length then
        if mode.canReplace = false then .ok none
        else makeLeaf acc t.label key.length v >>= fun leaf => .ok (some (leaf, stack))
      else if commonPrefixLen key t.label < t.label.length then
        if mode.canAdd = false then .ok none
        else splitEdgeX f acc t.body t.label (commonPrefixLen key t.label) key v >>= fun leaf => .ok (some (leaf, stack))
      else if t.cell.refs.length < 2 then .error .cellUnderflow
      else match key.drop (commonPrefixLen key t.label) with
        | [] => .error .cellUnderflow
        | bit :: key' => match t.cell.refs[bit.toNat]? with
          | none => .error .cellUnderflow
          | some child => augInsertGo f acc mode v fuel key' child (⟨t.cell, bit, key.length⟩ :: stack)) := by
  rw [augInsertGo, asSlice_cell]
  show (readLabel _ key.length >>= _) = _
  rw [hk, readLabel_cell hs hn]
  rw [← hk]
  rfl

/-- The search and the rebuilding together. -/
def insFinishX (f : AugFn) (acc : Cell → Bool) (x : Except Err (Option (Cell × List Seg))) : Except Err (Option Cell) :=
  x >>= fun o => match o with
    | none => .ok none
    | some (leaf, stack) => rebuildX f acc stack leaf >>= fun c => .ok (some c)

theorem augInsertGo_spec (f : AugFn) (acc : Cell → Bool) (mode : SetMode) (v : Sl) : ∀ {n : Nat} {t : Trie}, t.Sized n → n ≤ 1023 → t.CanonX (some f) n → t.Good (some f) acc →
    ∀ {key : Bits}, key.length = n → ∀ fuel, n < fuel → ∀ stack : List Seg,
    (refused mode (t.lookup key) → augInsertGo f acc mode v fuel key t.cell stack = .ok none) ∧
    (¬ refused mode (t.lookup key) →
      ((t.setX (some f) key v).Good (some f) acc → insFinishX f acc (augInsertGo f acc mode v fuel key t.cell stack) =
        (rebuildX f acc stack (t.setX (some f) key v).cell >>= fun c => .ok (some c))) ∧
      (¬ (t.setX (some f) key v).Good (some f) acc → ∃ e, insFinishX f acc (augInsertGo f acc mode v fuel key t.cell stack) = .error e))
  | n, t, hs, hn, hc, hf, key, hk, 0, hfu, stack => absurd hfu (by omega)
  | n, t, hs, hn, hcn, hf, key, hk, fuel + 1, hfu, stack => by
    rw [augInsertGo_step f acc mode v hs hn hk]
    rcases Trie.key_cases hs hk with ⟨e, w, rfl⟩ | ⟨l, e, x, a, b, bit, r, rfl, h, hr⟩ | ⟨c, bit, l', k', h1, h2⟩
    · have hc : commonPrefixLen key (Trie.leaf key e w).label = key.length := by
        have := commonPrefixLen_full key []
        rwa [List.append_nil] at this
      rw [if_pos hc, Trie.lookup_leaf, if_pos rfl, refused_some, Trie.setX_leaf]
      have hb := makeLeaf_builds acc key v (n := key.length) (by omega)
      refine ⟨fun hm => ?_, fun hm => ⟨fun hfit => ?_, fun hfit => ?_⟩⟩
      · rw [if_pos hm]
      · rw [if_neg hm]
        have : makeLeaf acc (Trie.leaf key e w).label key.length v = .ok (Trie.mkLeaf key v).cell := hb.1 hfit
        rw [this]; rfl
      · rw [if_neg hm]
        obtain ⟨e', he⟩ := hb.2 hfit
        have : makeLeaf acc (Trie.leaf key e w).label key.length v = .error e' := he
        rw [this]; exact ⟨e', rfl⟩
    · have hc : commonPrefixLen key (Trie.fork l e x a b).label = l.length := by rw [h]; exact commonPrefixLen_full l _
      have h1 := hs.1
      rw [hc, if_neg (by omega), if_neg (by simp [Trie.label])]
      have hd : key.drop l.length = bit :: r := by rw [h, List.drop_left]
      rw [if_neg (by simp [Trie.cell, Cell.refs]), hd]
      dsimp only
      have hkl : (l ++ bit :: r).length = n := by rw [← h]; exact hk
      rw [h, Trie.lookup_fork, Trie.setX_fork, hkl]
      have hch : (Trie.fork l e x a b).cell.refs[bit.toNat]? = some (if bit then b else a).cell := by cases bit <;> rfl
      rw [hch]
      dsimp only
      have hsz : (if bit then b else a).Sized (n - l.length - 1) := by
        cases bit
        · exact hs.2.2.1
        · exact hs.2.2.2
      have hcx : (if bit then b else a).CanonX (some f) (n - l.length - 1) := by
        cases bit
        · exact hcn.2.2.1
        · exact hcn.2.2.2
      have hft : (if bit then b else a).Good (some f) acc := by
        cases bit
        · exact hf.2.2.1
        · exact hf.2.2.2
      obtain ⟨i1, i2⟩ := augInsertGo_spec f acc mode v hsz (by omega) hcx hft hr fuel (by omega) (⟨(Trie.fork l e x a b).cell, bit, n⟩ :: stack)
      refine ⟨i1, fun hm => ?_⟩
      obtain ⟨j1, j2⟩ := i2 hm
      have hb := rebuildOneX_forks f acc hs hn bit (Trie.sized_setX (some f) v hsz hcx hr)
      have hset : (Trie.joinX (some f) l n (if bit then a else a.setX (some f) r v) (if bit then b.setX (some f) r v else b))
          = Trie.joinX (some f) l n (if bit then a else (if bit then b else a).setX (some f) r v) (if bit then (if bit then b else a).setX (some f) r v else b) := by
        cases bit <;> rfl
      rw [hset, good_joinX]
      have hfits : ((if bit then a else (if bit then b else a).setX (some f) r v).Good (some f) acc ∧ (if bit then (if bit then b else a).setX (some f) r v else b).Good (some f) acc) ↔
          ((if bit then b else a).setX (some f) r v).Good (some f) acc := by
        cases bit
        · exact ⟨fun h => h.1, fun h => ⟨h, hf.2.2.2⟩⟩
        · exact ⟨fun h => h.2, fun h => ⟨hf.2.2.1, h⟩⟩
      rw [hfits]
      refine ⟨fun ⟨g1, g2⟩ => ?_, fun g => ?_⟩
      · rw [j1 g2, rebuildX, hb.1 g1]
        rfl
      · by_cases g2 : ((if bit then b else a).setX (some f) r v).Good (some f) acc
        · rw [j1 g2, rebuildX]
          obtain ⟨e', he⟩ := hb.2 (fun g1 => g ⟨g1, g2⟩)
          rw [he]; exact ⟨e', rfl⟩
        · exact j2 g2
    · have hc : commonPrefixLen key t.label = c.length := by rw [h1, h2]; exact commonPrefixLen_split c bit l' k'
      have hlk : t.lookup key = none := Trie.lookup_not_prefix fun r hh => Trie.label_not_prefix h1 r (h2 ▸ hh)
      have hcl : c.length < key.length := by rw [h2]; simp
      have hcl2 : c.length < t.label.length := by rw [h1]; simp
      rw [hc, if_neg (by omega), if_pos hcl2, hlk, refused_none]
      obtain ⟨s1, s2⟩ := splitEdgeX_builds f acc hs h1 v (k' := k') (by rw [← h2]; exact hk) hn hf
      rw [← h2] at s1 s2
      refine ⟨fun hm => ?_, fun hm => ⟨fun hfit => ?_, fun hfit => ?_⟩⟩
      · rw [if_pos hm]
      · rw [if_neg hm, s1 hfit]; rfl
      · rw [if_neg hm]
        obtain ⟨e', he⟩ := s2 hfit
        rw [he]; exact ⟨e', rfl⟩

/-! ### Removal -/

/-- The end of `aug_dict_remove_owned`. -/
def remFinishX (f : AugFn) (acc : Cell → Bool) (r : RemOut) : Except Err (Option Cell × Sl) :=
  match r.stack with
  | [] => .ok (none, r.value)
  | s :: stack => rebuildRemoved acc s r.key.length r.prev >>= fun leaf => rebuildX f acc stack leaf >>= fun c => .ok (some c, r.value)

theorem augFindRemove_spec (f : AugFn) (acc : Cell → Bool) : ∀ {n : Nat} {t : Trie}, t.Sized n → n ≤ 1023 → t.CanonX (some f) n → t.Good (some f) acc →
    ∀ {key : Bits}, key.length = n → ∀ fuel, n < fuel → ∀ (stack : List Seg) (prev : Nat),
    (t.lookup key = none → dictFindRemove fuel key t.cell stack prev = .ok none) ∧
    (∀ w, t.lookup key = some w → 
      (t.removeX (some f) key = none → dictFindRemove fuel key t.cell stack prev = .ok (some ⟨stack, w, key, prev⟩)) ∧
      (∀ t', t.removeX (some f) key = some t' → ∃ r, dictFindRemove fuel key t.cell stack prev = .ok (some r) ∧
        (t'.Good (some f) acc → remFinishX f acc r = (rebuildX f acc stack t'.cell >>= fun c => .ok (some c, w))) ∧
        (¬ t'.Good (some f) acc → ∃ e, remFinishX f acc r = .error e)))
  | n, t, hs, hn, hcn, hf, key, hk, 0, hfu, stack, prev => absurd hfu (by omega)
  | n, t, hs, hn, hcn, hf, key, hk, fuel + 1, hfu, stack, prev => by
    rw [dictFindRemove_step hs hn hk]
    rcases Trie.key_cases hs hk with ⟨e, w, rfl⟩ | ⟨l, e, x, a, b, bit, r, rfl, h, hr⟩ | ⟨c, bit, l', k', h1, h2⟩
    · have hc : commonPrefixLen key (Trie.leaf key e w).label = key.length := by
        have := commonPrefixLen_full key []
        rwa [List.append_nil] at this
      rw [if_pos hc, Trie.lookup_leaf, if_pos rfl]
      refine ⟨fun h => (by cases h), fun w' hw => ?_⟩
      cases hw
      exact ⟨fun _ => rfl, fun t' ht => by cases ht⟩
    · have hc : commonPrefixLen key (Trie.fork l e x a b).label = l.length := by rw [h]; exact commonPrefixLen_full l _
      have h1 := hs.1
      rw [hc, if_neg (by omega), if_neg (by simp [Trie.label])]
      have hd : key.drop l.length = bit :: r := by rw [h, List.drop_left]
      rw [if_neg (by simp [Trie.cell, Cell.refs]), hd]
      dsimp only
      have hkl : (l ++ bit :: r).length = n := by rw [← h]; exact hk
      rw [h, Trie.lookup_fork, Trie.removeX_fork, hkl]
      have hch : (Trie.fork l e x a b).cell.refs[bit.toNat]? = some (if bit then b else a).cell := by cases bit <;> rfl
      rw [hch]
      dsimp only
      have hsz : (if bit then b else a).Sized (n - l.length - 1) := by
        cases bit
        · exact hs.2.2.1
        · exact hs.2.2.2
      have hcx : (if bit then b else a).CanonX (some f) (n - l.length - 1) := by
        cases bit
        · exact hcn.2.2.1
        · exact hcn.2.2.2
      have hft : (if bit then b else a).Good (some f) acc := by
        cases bit
        · exact hf.2.2.1
        · exact hf.2.2.2
      have hfo : (if bit then a else b).Good (some f) acc := by
        cases bit
        · exact hf.2.2.2
        · exact hf.2.2.1
      obtain ⟨i1, i2⟩ := augFindRemove_spec f acc hsz (by omega) hcx hft hr fuel (by omega) (⟨(Trie.fork l e x a b).cell, bit, n⟩ :: stack) n
      refine ⟨i1, fun w hw => ?_⟩
      obtain ⟨j1, j2⟩ := i2 w hw
      refine ⟨fun hh => (by cases hh), fun t' ht => ?_⟩
      injection ht with ht
      cases hrem : (if bit then b else a).removeX (some f) r with
      | none =>
        rw [hrem] at ht
        dsimp only at ht
        refine ⟨_, j1 hrem, ?_⟩
        have hb := rebuildRemoved_builds acc hs hn bit n
        rw [ht] at hb
        have hft' : t'.Good (some f) acc ↔ okCell acc t'.cell := by rw [← ht]; exact Trie.good_relabel hfo
        rw [hft']
        unfold remFinishX
        dsimp only
        rw [hr]
        refine ⟨fun g => ?_, fun g => ?_⟩
        · rw [hb.1 g]; rfl
        · obtain ⟨e', he⟩ := hb.2 g
          rw [he]; exact ⟨e', rfl⟩
      | some u =>
        rw [hrem] at ht
        dsimp only at ht
        obtain ⟨ro, g1, g2, g3⟩ := j2 u hrem
        refine ⟨ro, g1, ?_⟩
        have hb := rebuildOneX_forks f acc hs hn bit (Trie.sized_removeX (some f) hsz hcx hw hrem)
        have hfits : t'.Good (some f) acc ↔ (okCell acc (Trie.joinX (some f) l n (if bit then a else u) (if bit then u else b)).cell ∧
            ∃ y, f (if bit then a else u).ext (if bit then u else b).ext = .ok y) ∧ u.Good (some f) acc := by
          rw [← ht, good_joinX]
          cases bit
          · exact ⟨fun h => ⟨h.1, h.2.1⟩, fun h => ⟨h.1, h.2, hf.2.2.2⟩⟩
          · exact ⟨fun h => ⟨h.1, h.2.2⟩, fun h => ⟨h.1, hf.2.2.1, h.2⟩⟩
        rw [hfits]
        refine ⟨fun ⟨f1, f2⟩ => ?_, fun g => ?_⟩
        · rw [g2 f2, rebuildX, hb.1 f1, ← ht]; rfl
        · by_cases f2 : u.Good (some f) acc
          · rw [g2 f2, rebuildX]
            obtain ⟨e', he⟩ := hb.2 (fun f1 => g ⟨f1, f2⟩)
            rw [he]; exact ⟨e', rfl⟩
          · exact g3 f2
    · have hc : commonPrefixLen key t.label = c.length := by rw [h1, h2]; exact commonPrefixLen_split c bit l' k'
      have hlk : t.lookup key = none := Trie.lookup_not_prefix fun r hh => Trie.label_not_prefix h1 r (h2 ▸ hh)
      have hcl : c.length < key.length := by rw [h2]; simp
      have hcl2 : c.length < t.label.length := by rw [h1]; simp
      rw [hc, if_neg (by omega), if_pos hcl2, hlk]
      exact ⟨fun _ => rfl, fun w hw => by cases hw⟩

end Verif
