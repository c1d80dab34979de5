import Verif.MerkleRemoved
/-
C83: the counters that `compute_removed_cells` gives for a store with counters.
-/
set_option linter.unusedVariables false
set_option linter.unusedSimpArgs false
namespace Verif
namespace Merkle
open Boc (Below Clash below_apart)

/-- The cells of the new tree that an update shows: its root and the references of the cells that are not taken from the old tree. The others are below pruned branches. -/
def ShownNew (H : Hasher) (f : Filter) (new : CCell) (h : Hash) : Prop := Shown H ⟨inverted f, false⟩ new.tree h

/-- A removed cell (one of the old tree only) does not refer to a cell that the new tree has but the update does not show; nor is the old root such a cell. -/
def NoHidden (H : Hasher) (f : Filter) (old new : CCell) : Prop :=
  (InTree new old.reprHash → ShownNew H f new old.reprHash) ∧ ∀ c r, Below [old] c → ¬ InTree new c.reprHash → r ∈ c.refs → InTree new r.reprHash → ShownNew H f new r.reprHash

theorem shown_inTree {H : Hasher} {f : Filter} {new : CCell} (hn : Plain H new) {h : Hash} (hs : ShownNew H f new h) : InTree new h := by
  rcases hs with rfl | ⟨d, s, o, he, ho, rfl⟩
  · exact ⟨new, below_self new, reprHash_tree hn.built⟩
  · have hsub : Cell.Sub o new.tree := by
      refine Boc.Cell_sub_trans ?_ (he.plain hn.noMerkle).2
      obtain ⟨e, b, rs⟩ := s
      exact .child ho (.refl _)
    obtain ⟨q, hq, rfl⟩ := sub_tree_inv hsub rfl
    have hb : Below [new] q := ⟨new, by simp, hq⟩
    exact ⟨q, hb, reprHash_tree (hn.below hb).built⟩

/-- The counters are those of the references of the cells above the shown ones. -/
theorem removed_run {H : Hasher} {f : Filter} {old new : CCell} (ho : Plain H old) (hn : Plain H new) (hA : Closed H f old.tree) (hne : old.reprHash ≠ new.reprHash) :
    Clash H [old, new] ∨ ∃ u, Update.build H f old new = .ok u ∧ (Clash H [old, new, u.old, u.new] ∨ Boc.Writer.Apart H (Below [old, new]) ∧
      ∃ m kept, u.removedCells old = .ok m ∧ (∀ h, h ∈ kept ↔ ShownNew H f new h) ∧
      ∃ V : List CCell, (V.map CCell.reprHash).Nodup ∧ (∀ x ∈ V, Gone kept old x) ∧ (∀ x, Gone kept old x → x.refs ≠ [] → x.reprHash ∈ V.map CCell.reprHash) ∧
        ∀ h, removedCount m h = (if h = old.reprHash then 1 else 0) + slotsOf V h) := by
  rcases C37_update (f := f) ho hn hA with hcl | ⟨u, e, h1, h2, h3, h4, h5, h6, h7, h8, _⟩
  · exact .inl hcl
  · by_cases hcl2 : Clash H [old, new]
    · exact .inl hcl2
    refine .inr ⟨u, e, ?_⟩
    by_cases hcl : Clash H [old, new, u.old, u.new]
    · exact .inl hcl
    right
    have hbuilt : ∀ r ∈ [old, new, u.old, u.new], Built H r := by
      intro r hr
      simp only [List.mem_cons, List.not_mem_nil, or_false] at hr
      rcases hr with rfl | rfl | rfl | rfl
      · exact ho.built
      · exact hn.built
      · exact h5
      · exact h6
    have ha4 := below_apart hbuilt hcl
    have ha2 : Boc.Writer.Apart H (Below [old, new]) := below_apart (fun r hr => hbuilt r (by
      simp only [List.mem_cons, List.not_mem_nil, or_false] at hr ⊢
      rcases hr with rfl | rfl <;> simp)) hcl2
    refine ⟨ha2, ?_⟩
    -- the new tree of the update is the one made by the builder
    obtain ⟨p, st, ep, hop, _⟩ := plain_opens (cfg := ⟨inverted f, false⟩) hn (not_clash_one hcl (by simp))
    have hun : u.new = p := by
      unfold Update.build at e
      rw [if_neg hne, ep] at e
      obtain ⟨o, _, e⟩ := ebind_inv (x := buildRaw H ⟨setFilter (changedCells f st.pruned old), false⟩ true old) (f := fun r => Except.ok (Update.mk old.reprHash new.reprHash old.reprDepth new.reprDepth r.1 p)) e
      injection e with e
      rw [← e]
    obtain ⟨kept, ek, hkept⟩ := collect_spec (noWhole_inverted f false) hop (apart_one ha4 (by rw [hun]; simp))
    have eguard : ¬ (old.reprHash ≠ u.oldHash ∨ u.old.hash 0 ≠ old.reprHash) := by
      rw [h1]
      intro h
      rcases h with h | h
      · exact h rfl
      · exact h (h7.1.trans h1)
    have ha1 : Boc.Writer.Apart H (Below [old]) := apart_one ha4 (by simp)
    by_cases hk : old.reprHash ∈ kept
    · refine ⟨[(old.reprHash, 1)], kept, ?_, hkept, [], List.nodup_nil, (by intro x hx; cases hx), fun x hx => ?_, fun h => ?_⟩
      · unfold Update.removedCells
        rw [if_neg eguard, if_neg (by rw [h1, h2]; exact hne), hun, ek]
        show (if old.reprHash ∈ kept then _ else _) = _
        rw [if_pos hk]
      · exfalso
        induction hx with
        | root h => exact h hk
        | child _ _ _ ih => exact ih
      · unfold removedCount find
        by_cases e : old.reprHash = h
        · rw [if_pos e, if_pos e.symm]; rfl
        · rw [if_neg e, if_neg (fun e' => e e'.symm)]; rfl
    · obtain ⟨V, v1, v2, v3, v4⟩ := removed_walk ha1 hk
      refine ⟨_, kept, ?_, hkept, V, v1, v2, v3, v4⟩
      unfold Update.removedCells
      rw [if_neg eguard, if_neg (by rw [h1, h2]; exact hne), hun, ek]
      show (if old.reprHash ∈ kept then _ else _) = _
      rw [if_neg hk]

theorem below_left {a b x : CCell} (h : Below [a] x) : Below [a, b] x := by
  obtain ⟨r, hr, hs⟩ := h
  exact ⟨r, by rw [List.mem_singleton.mp hr]; simp, hs⟩

theorem below_right {a b x : CCell} (h : Below [b] x) : Below [a, b] x := by
  obtain ⟨r, hr, hs⟩ := h
  exact ⟨r, by rw [List.mem_singleton.mp hr]; simp, hs⟩

theorem below_or {a b x : CCell} (h : Below [a, b] x) : Below [a] x ∨ Below [b] x := by
  obtain ⟨r, hr, hs⟩ := h
  simp only [List.mem_cons, List.not_mem_nil, or_false] at hr
  rcases hr with rfl | rfl
  · exact .inl ⟨r, by simp, hs⟩
  · exact .inr ⟨r, by simp, hs⟩

theorem roots_count (a b : CCell) (h : Hash) : ([a, b].map CCell.reprHash).count h = (if h = a.reprHash then 1 else 0) + ([b].map CCell.reprHash).count h := by
  rw [List.map_cons, count_cons_hash]
  omega

/-- A cell of the old tree that is not in the new one is above the shown cells. -/
theorem gone_of_not_new {H : Hasher} {f : Filter} {old new : CCell} (hn : Plain H new) (ha : Boc.Writer.Apart H (Below [old, new])) {kept : List Hash}
    (hkept : ∀ h, h ∈ kept ↔ ShownNew H f new h) {x : CCell} (hs : CCell.Sub x old) : ¬ InTree new x.reprHash → Gone kept old x := by
  have notKept : ∀ y : CCell, ¬ InTree new y.reprHash → y.reprHash ∉ kept := fun y hy hk => hy (shown_inTree hn ((hkept _).mp hk))
  have key : ∀ {x a : CCell}, CCell.Sub x a → Below [old, new] a → ¬ InTree new x.reprHash → (Gone kept old a ∨ (¬ InTree new a.reprHash → Gone kept old a)) → Gone kept old x := by
    intro x a hs
    induction hs with
    | refl => intro _ hx hg; exact hg.elim id (fun h => h hx)
    | child hr s ih =>
      rename_i r t
      intro ht hx hg
      -- a part of a cell of the new tree is in the new tree
      have up : ∀ {a b : CCell}, CCell.Sub a b → Below [old, new] b → InTree new b.reprHash → InTree new a.reprHash := by
        intro a b hab
        induction hab with
        | refl => intro _ h; exact h
        | child hr' s' ih' =>
          rename_i r' t'
          intro hb' h
          obtain ⟨y, hy, ey⟩ := h
          refine ih' (ha.child hb' hr') ?_
          have hm : r'.reprHash ∈ y.refs.map CCell.reprHash := by
            rw [same_refs ha (below_right hy) hb' ey]
            exact List.mem_map.mpr ⟨r', hr', rfl⟩
          obtain ⟨z, hz, ez⟩ := List.mem_map.mp hm
          obtain ⟨q, hq, hqs⟩ := hy
          exact ⟨z, ⟨q, hq, Boc.CCell_sub_last hqs hz⟩, ez⟩
      have hr0 : ¬ InTree new r.reprHash := fun h => hx (up s (ha.child ht hr) h)
      have ht0 : ¬ InTree new t.reprHash := fun h => hx (up (.child hr s) ht h)
      have hgt : Gone kept old t := hg.elim id (fun h => h ht0)
      exact ih (ha.child ht hr) hx (.inl (.child hgt hr (notKept r hr0)))
  intro hx
  exact key hs (below_left (below_self old)) hx (.inr (fun h => .root (notKept old h)))

/-! ### C83

The full statement: for every update between two trees, taking the counters of `compute_removed_cells` away from a store of both trees leaves the store of the new tree. It is false when a removed
cell shares a cell with a part of the new tree that the update does not show (`C83_lost`). -/

/-- C83: creating an update and computing the removed cells succeeds. The counters are never too small: what is left in a store of both trees is at most what a store of the new tree has, so
nothing of the old tree stays behind. Up to hash collisions. -/
theorem C83_enough {H : Hasher} {f : Filter} {old new : CCell} (ho : Plain H old) (hn : Plain H new) (hA : Closed H f old.tree) (hne : old.reprHash ≠ new.reprHash) :
    Clash H [old, new] ∨ ∃ u, Update.build H f old new = .ok u ∧ (Clash H [old, new, u.old, u.new] ∨
      ∃ m, u.removedCells old = .ok m ∧ ∀ both onlyNew, Lists both [old, new] → Lists onlyNew [new] →
        ∀ h, refCount [old, new] both h ≤ removedCount m h + refCount [new] onlyNew h) := by
  rcases removed_run (f := f) ho hn hA hne with hcl | ⟨u, e, hcl | ⟨ha, m, kept, em, hkept, V, v1, v2, v3, v4⟩⟩
  · exact .inl hcl
  · exact .inr ⟨u, e, .inl hcl⟩
  · refine .inr ⟨u, e, .inr ⟨m, em, fun B N hB hN h => ?_⟩⟩
    unfold refCount
    rw [v4 h, roots_count]
    have := slotsOf_le ha h B (N ++ V) hB.once hB.sub (fun x hx => by
      rcases List.mem_append.mp hx with hx | hx
      · exact below_right (hN.sub x hx)
      · exact below_left (v2 x hx).isBelow.1) (fun x hx hx0 => by
        rw [List.map_append]
        by_cases hin : InTree new x.reprHash
        · obtain ⟨y, hy, ey⟩ := hin
          rw [← ey]
          exact List.mem_append_left _ (hN.all y hy)
        · refine List.mem_append_right _ (v3 x ?_ hx0)
          rcases below_or (hB.sub x hx) with hb | hb
          · obtain ⟨r, hr, hs⟩ := hb
            rw [List.mem_singleton.mp hr] at hs
            exact gone_of_not_new hn ha hkept hs hin
          · exact absurd ⟨x, hb, rfl⟩ hin)
    rw [slotsOf_append] at this
    omega

/-- C83: if no removed cell refers to a cell of the new tree that the update does not show, the counters are exact: a store of both trees, without them, is a store of the new tree. -/
theorem C83_exact_partial {H : Hasher} {f : Filter} {old new : CCell} (ho : Plain H old) (hn : Plain H new) (hA : Closed H f old.tree) (hne : old.reprHash ≠ new.reprHash) (hh : NoHidden H f old new) :
    Clash H [old, new] ∨ ∃ u, Update.build H f old new = .ok u ∧ (Clash H [old, new, u.old, u.new] ∨
      ∃ m, u.removedCells old = .ok m ∧ ∀ both onlyNew, Lists both [old, new] → Lists onlyNew [new] →
        ∀ h, refCount [old, new] both h = removedCount m h + refCount [new] onlyNew h) := by
  rcases C83_enough (f := f) ho hn hA hne with hcl | ⟨u, e, hcl | ⟨m, em, hle⟩⟩
  · exact .inl hcl
  · exact .inr ⟨u, e, .inl hcl⟩
  rcases removed_run (f := f) ho hn hA hne with hcl | ⟨u', e', hcl | ⟨ha, m', kept, em', hkept, V, v1, v2, v3, v4⟩⟩
  · exact .inl hcl
  · rw [e] at e'
    injection e' with e'
    subst e'
    exact .inr ⟨u, e, .inl hcl⟩
  · rw [e] at e'
    injection e' with e'
    subst e'
    rw [em] at em'
    injection em' with em'
    subst em'
    refine .inr ⟨u, e, .inr ⟨m, em, fun B N hB hN h => Nat.le_antisymm (hle B N hB hN h) ?_⟩⟩
    -- cells above the shown ones are not in the new tree
    have hout : ∀ x, Gone kept old x → ¬ InTree new x.reprHash := by
      intro x hx
      induction hx with
      | root hk => exact fun hin => hk ((hkept _).mpr (hh.1 hin))
      | child hc hr hk ih => exact fun hin => hk ((hkept _).mpr (hh.2 _ _ hc.isBelow.1 ih hr hin))
    unfold refCount
    rw [v4 h, roots_count]
    have := slotsOf_le ha h (N ++ V) B (by
      rw [List.map_append, List.nodup_append]
      refine ⟨hN.once, v1, fun a h1 b h2 e => ?_⟩
      obtain ⟨x, hx, rfl⟩ := List.mem_map.mp h1
      obtain ⟨y, hy, rfl⟩ := List.mem_map.mp h2
      exact hout y (v2 y hy) ⟨x, hN.sub x hx, e⟩) (fun x hx => by
      rcases List.mem_append.mp hx with hx | hx
      · exact below_right (hN.sub x hx)
      · exact below_left (v2 x hx).isBelow.1) hB.sub (fun x hx _ => by
      refine hB.all x ?_
      rcases List.mem_append.mp hx with hx | hx
      · exact below_right (hN.sub x hx)
      · exact below_left (v2 x hx).isBelow.1)
    rw [slotsOf_append] at this
    omega

/-- C83: when both trees are the same nothing is removed; for another old tree, or an update that does not belong to it, the result is an error. -/
theorem C83_same {u : Update} {old : CCell} : (u.oldHash = u.newHash → old.reprHash = u.oldHash → u.old.hash 0 = u.oldHash → u.removedCells old = .ok []) ∧
    ((old.reprHash ≠ u.oldHash ∨ u.old.hash 0 ≠ u.oldHash) → u.removedCells old = .error .invalidData) := by
  constructor
  · intro h1 h2 h3
    unfold Update.removedCells
    rw [if_neg (by rw [h2, h3]; simp), if_pos h1]
  · intro h
    unfold Update.removedCells
    refine if_pos ?_
    by_cases e : old.reprHash = u.oldHash
    · rw [e]; rw [e] at h; exact h
    · exact .inl e

/-! ### Cases -/

mutual
/-- All cells of a tree, as often as they occur. -/
def cellsIn : CCell → List CCell
  | .mk desc bitLen data refs hashes => .mk desc bitLen data refs hashes :: cellsInList refs
def cellsInList : List CCell → List CCell
  | [] => []
  | c :: cs => cellsIn c ++ cellsInList cs
end

theorem mem_cellsInList {x r : CCell} : ∀ {cs : List CCell}, r ∈ cs → x ∈ cellsIn r → x ∈ cellsInList cs
  | [], h, _ => by cases h
  | c :: cs, h, hx => by
    rw [cellsInList]
    rcases List.mem_cons.mp h with rfl | h
    · exact List.mem_append_left _ hx
    · exact List.mem_append_right _ (mem_cellsInList h hx)

theorem sub_cellsIn {x c : CCell} (h : CCell.Sub x c) : x ∈ cellsIn c := by
  induction h with
  | refl => cases x; rw [cellsIn]; exact List.mem_cons_self
  | child hr s ih =>
    rename_i r t
    cases t
    rw [cellsIn]
    exact List.mem_cons_of_mem _ (mem_cellsInList hr ih)

mutual
theorem cellsIn_sub : ∀ (c x : CCell), x ∈ cellsIn c → CCell.Sub x c
  | .mk desc bitLen data refs hashes, x, h => by
    rw [cellsIn] at h
    rcases List.mem_cons.mp h with rfl | h
    · exact .refl _
    · obtain ⟨r, hr, hs⟩ := cellsInList_sub refs x h
      exact .child hr hs
theorem cellsInList_sub : ∀ (cs : List CCell) (x : CCell), x ∈ cellsInList cs → ∃ r ∈ cs, CCell.Sub x r
  | [], x, h => by rw [cellsInList] at h; cases h
  | c :: cs, x, h => by
    rw [cellsInList] at h
    rcases List.mem_append.mp h with h | h
    · exact ⟨c, List.mem_cons_self, cellsIn_sub c x h⟩
    · obtain ⟨r, hr, hs⟩ := cellsInList_sub cs x h
      exact ⟨r, List.mem_cons_of_mem _ hr, hs⟩
end

theorem inTree_iff {root : CCell} {h : Hash} : InTree root h ↔ h ∈ (cellsIn root).map CCell.reprHash := by
  constructor
  · rintro ⟨x, ⟨r, hr, hs⟩, rfl⟩
    rw [List.mem_singleton.mp hr] at hs
    exact List.mem_map.mpr ⟨x, sub_cellsIn hs, rfl⟩
  · intro h
    obtain ⟨x, hx, e⟩ := List.mem_map.mp h
    exact ⟨x, ⟨root, by simp, cellsIn_sub root x hx⟩, e⟩

mutual
/-- References of entered cells. -/
def shownKids (H : Hasher) (cfg : Config) : Cell → List Hash
  | .mk e b rs => rs.map (Cell.reprHash H) ++ shownBelow H cfg rs
def shownBelow (H : Hasher) (cfg : Config) : List Cell → List Hash
  | [] => []
  | r :: rs => (if kind H cfg r = .node then shownKids H cfg r else []) ++ shownBelow H cfg rs
end

mutual
theorem shownKids_spec (H : Hasher) (cfg : Config) : ∀ (t : Cell) (h : Hash) (d : Nat), h ∈ shownKids H cfg t → ∃ d' s o, Enters H cfg d t d' s ∧ o ∈ s.refs ∧ h = o.reprHash H
  | .mk e b rs, h, d, hm => by
    rw [shownKids] at hm
    rcases List.mem_append.mp hm with hm | hm
    · obtain ⟨o, ho, e⟩ := List.mem_map.mp hm
      exact ⟨d, _, o, .refl _ _, ho, e.symm⟩
    · obtain ⟨r, hr, hk, d', s, o, he, ho⟩ := shownBelow_spec H cfg rs h (d + (Cell.mk e b rs).off) hm
      exact ⟨d', s, o, .step hr hk he, ho⟩
theorem shownBelow_spec (H : Hasher) (cfg : Config) : ∀ (rs : List Cell) (h : Hash) (d : Nat), h ∈ shownBelow H cfg rs →
    ∃ r ∈ rs, kind H cfg r = .node ∧ ∃ d' s o, Enters H cfg d r d' s ∧ o ∈ s.refs ∧ h = o.reprHash H
  | [], h, d, hm => by rw [shownBelow] at hm; cases hm
  | r :: rs, h, d, hm => by
    rw [shownBelow] at hm
    rcases List.mem_append.mp hm with hm | hm
    · by_cases hk : kind H cfg r = .node
      · rw [if_pos hk] at hm
        exact ⟨r, List.mem_cons_self, hk, shownKids_spec H cfg r h d hm⟩
      · rw [if_neg hk] at hm; cases hm
    · obtain ⟨q, hq, h'⟩ := shownBelow_spec H cfg rs h d hm
      exact ⟨q, List.mem_cons_of_mem _ hq, h'⟩
end

/-- The hashes that the update shows, computed. -/
def shownList (H : Hasher) (f : Filter) (new : CCell) : List Hash := new.tree.reprHash H :: shownKids H ⟨inverted f, false⟩ new.tree

theorem shownList_spec {H : Hasher} {f : Filter} {new : CCell} {h : Hash} (hm : h ∈ shownList H f new) : ShownNew H f new h := by
  rcases List.mem_cons.mp hm with rfl | hm
  · exact .inl rfl
  · exact .inr (shownKids_spec H _ _ h 0 hm)

/-- The condition of `C83_exact_partial`, computed. -/
def noHidden (H : Hasher) (f : Filter) (old new : CCell) : Bool :=
  let ns := (cellsIn new).map CCell.reprHash
  let sh := shownList H f new
  decide (old.reprHash ∈ ns → old.reprHash ∈ sh) && (cellsIn old).all fun c => decide (c.reprHash ∈ ns) || c.refs.all fun r => decide (r.reprHash ∈ ns → r.reprHash ∈ sh)

theorem noHidden_spec {H : Hasher} {f : Filter} {old new : CCell} (h : noHidden H f old new = true) : NoHidden H f old new := by
  unfold noHidden at h
  dsimp only at h
  rw [Bool.and_eq_true, decide_eq_true_eq, List.all_eq_true] at h
  refine ⟨fun hin => shownList_spec (h.1 (inTree_iff.mp hin)), fun c r hc hn hr hin => ?_⟩
  obtain ⟨q, hq, hs⟩ := hc
  rw [List.mem_singleton.mp hq] at hs
  have h2 := h.2 c (sub_cellsIn hs)
  rw [Bool.or_eq_true, decide_eq_true_eq, List.all_eq_true] at h2
  rcases h2 with h2 | h2
  · exact absurd (inTree_iff.mpr h2) hn
  · exact shownList_spec (of_decide_eq_true (h2 r hr) (inTree_iff.mp hin))

/-- The cells of the trees, each once. -/
def distinct (cs : List CCell) : List CCell := cs.foldr (fun c l => if c.reprHash ∈ l.map CCell.reprHash then l else c :: l) []

/-- The counters of a store. -/
def storeOf (roots : List CCell) (h : Hash) : Nat := refCount roots (distinct (cellsInList roots)) h

theorem distinct_mem : ∀ (cs : List CCell), ((distinct cs).map CCell.reprHash).Nodup ∧ (∀ x ∈ distinct cs, x ∈ cs) ∧ ∀ x ∈ cs, x.reprHash ∈ (distinct cs).map CCell.reprHash
  | [] => ⟨List.nodup_nil, fun x hx => hx, fun x hx => by cases hx⟩
  | c :: cs => by
    obtain ⟨h1, h2, h3⟩ := distinct_mem cs
    have e : distinct (c :: cs) = if c.reprHash ∈ (distinct cs).map CCell.reprHash then distinct cs else c :: distinct cs := rfl
    rw [e]
    by_cases hc : c.reprHash ∈ (distinct cs).map CCell.reprHash
    · rw [if_pos hc]
      refine ⟨h1, fun x hx => List.mem_cons_of_mem _ (h2 x hx), fun x hx => ?_⟩
      rcases List.mem_cons.mp hx with rfl | hx
      · exact hc
      · exact h3 x hx
    · rw [if_neg hc]
      refine ⟨?_, fun x hx => ?_, fun x hx => ?_⟩
      · rw [List.map_cons, List.nodup_cons]; exact ⟨hc, h1⟩
      · rcases List.mem_cons.mp hx with rfl | hx
        · exact List.mem_cons_self
        · exact List.mem_cons_of_mem _ (h2 x hx)
      · rw [List.map_cons]
        rcases List.mem_cons.mp hx with rfl | hx
        · exact List.mem_cons_self
        · exact List.mem_cons_of_mem _ (h3 x hx)

/-- Every set of trees has such a list, so the statements about all lists are about something. -/
theorem lists_distinct (roots : List CCell) : Lists (distinct (cellsInList roots)) roots := by
  obtain ⟨h1, h2, h3⟩ := distinct_mem (cellsInList roots)
  refine ⟨h1, fun x hx => cellsInList_sub roots x (h2 x hx), fun x hx => ?_⟩
  obtain ⟨r, hr, hs⟩ := hx
  exact h3 x (mem_cellsInList hr (sub_cellsIn hs))

/-- The removed cells of an update, and the counters before and after. -/
def diffOf (f : Filter) (old new : CCell) (c : CCell) : Option (Nat × Nat × Nat) :=
  match Update.build toyHasher f old new with
  | .ok u => match u.removedCells old with
    | .ok m => some (storeOf [old, new] c.reprHash, removedCount m c.reprHash, storeOf [new] c.reprHash)
    | .error _ => none
  | .error _ => none

-- the trees of C37 meet the condition, and the counters are exact (some are 0 afterwards, some are not)
example : (match pair with
  | .ok (old, new, vis) => noHidden toyHasher (visited vis) old new && decide (old.reprHash ≠ new.reprHash) &&
      ((cellsIn old ++ cellsIn new).all fun c => match diffOf (visited vis) old new c with | some (b, d, n) => decide (b = d + n) | none => false) &&
      ((cellsIn old).any fun c => match diffOf (visited vis) old new c with | some (b, d, n) => decide (0 < d ∧ 0 < n) | none => false)
  | .error _ => false) = true := by decide +kernel

/-- An old tree with a cell that has two parents; the new tree keeps one of them, and the update shows it as a pruned branch. -/
def sharedPair : Except Err (CCell × CCell × CCell × List CCell) := do
  let w ← mkCell false [true, false] []
  let y ← mkCell false [true] [w]
  let x ← mkCell false [false] [y]
  let z ← mkCell false [false, false] [y]
  let old ← mkCell false [] [x, z]
  let new ← mkCell false [true, true, true] [z]
  .ok (old, new, w, [old, x, y, z, w])

/-- C83, the other side: a cell of the new tree is lost. The update is created and gives the new tree when applied; the cell `w` has one reference in a store of both trees, and one reference to it is counted as removed,
although the new tree needs it. -/
theorem C83_lost : (match sharedPair with
  | .ok (old, new, w, all) => decide (diffOf (visited all) old new w = some (1, 1, 1)) && !(noHidden toyHasher (visited all) old new) &&
      (match updated (visited all) old new with | .ok c => decide (c.reprHash = new.reprHash) | .error _ => false)
  | .error _ => false) = true := by decide +kernel

end Merkle
end Verif
