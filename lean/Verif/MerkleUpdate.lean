import Verif.MerkleApply
/-
Merkle updates: creating an update and applying it (C37), soundness of applying (C38).
-/
set_option linter.unusedVariables false
set_option linter.unusedSimpArgs false
namespace Verif
namespace Merkle
open Boc (Below Clash below_apart)

theorem apart_one {H : Hasher} {rs : List CCell} (h : Boc.Writer.Apart H (Below rs)) {r : CCell} (hr : r ∈ rs) : Boc.Writer.Apart H (Below [r]) where
  built := by
    rintro c ⟨x, hx, hs⟩
    rw [List.mem_singleton.mp hx] at hs
    exact h.built ⟨r, hr, hs⟩
  child := by
    rintro c q ⟨x, hx, hs⟩ hq
    exact ⟨x, hx, Boc.CCell_sub_last hs hq⟩
  inj := by
    rintro a b ⟨x, hx, hs⟩ ⟨y, hy, hs'⟩ he
    rw [List.mem_singleton.mp hx] at hs
    rw [List.mem_singleton.mp hy] at hs'
    exact h.inj ⟨r, hr, hs⟩ ⟨r, hr, hs'⟩ he

theorem sub_tree_inv {x t : Cell} (h : Cell.Sub x t) : ∀ {c : CCell}, c.tree = t → ∃ q, CCell.Sub q c ∧ q.tree = x := by
  induction h with
  | refl => intro c hc; exact ⟨c, .refl _, hc⟩
  | child hr s ih =>
    intro c hc
    rw [← hc, CCell.tree_refs] at hr
    obtain ⟨q, hq, rfl⟩ := List.mem_map.mp hr
    obtain ⟨z, hz, e⟩ := ih rfl
    exact ⟨z, .child hq hz, e⟩

/-! ### Specification -/

/-- A cell whose place in the old tree an update can name: the root, a reference of the root, or a cell to which cells not
skipped by the filter lead. -/
def Carried (H : Hasher) (f : Filter) (old x : Cell) : Prop := x = old ∨ x ∈ old.refs ∨ Reach H f old x

/-- The cells that the update does not repeat: going down the new tree from the root, the first cells known from the old
tree (not skipped by the filter) that have references. -/
def Reused (H : Hasher) (f : Filter) (new x : Cell) : Prop := ∃ d, PrunedFrom H ⟨inverted f, false⟩ 0 new d x

/-! ### The old tree of an update -/

theorem Reach.holds {H : Hasher} {f : Filter} {P : List Hash} {a b : Cell} (h : Reach H f a b) (hb : b.reprHash H ∈ P) : Holds H f P a := by
  induction h with
  | refl => exact .here hb
  | step hf hr h ih => exact .deep hf hr (ih hb)

theorem setFilter_incl {S : List Hash} {h : Hash} (hs : h ∈ S) : setFilter S h = .incl := by unfold setFilter; rw [if_pos hs]

theorem noWhole_set (S : List Hash) (b : Bool) : NoWhole ⟨setFilter S, b⟩ := by
  intro h
  show setFilter S h ≠ _
  unfold setFilter
  split <;> simp

theorem noWhole_inverted (f : Filter) (b : Bool) : NoWhole ⟨inverted f, b⟩ := by
  intro h
  show inverted f h ≠ _
  unfold inverted
  split <;> simp

theorem reach_entered {H : Hasher} {f : Filter} {P S : List Hash} {root : Cell} (hS : ∀ x, Reach H f root x → Changed H f P x → x.reprHash H ∈ S)
    {t x : Cell} (h : Reach H f t x) (hx : x.reprHash H ∈ P) : ∀ d, Enters H ⟨setFilter S, false⟩ 0 root d t → Reach H f root t →
      x = t ∨ ∃ d' s, Enters H ⟨setFilter S, false⟩ 0 root d' s ∧ x ∈ s.refs := by
  induction h with
  | refl => intro d _ _; exact Or.inl rfl
  | @step t r x hf hr h ih =>
    intro d he hrt
    right
    have hroot := hrt.snoc hf hr
    cases h with
    | refl => exact ⟨d, t, he, hr⟩
    | @step _ r' _ hf' hr' h' =>
      have hch : Changed H f P r := ⟨hf', r', hr', h'.holds hx⟩
      have hk : kind H ⟨setFilter S, false⟩ r = .node := by
        unfold kind
        dsimp only
        rw [setFilter_incl (hS r hroot hch)]
      rcases ih hx _ (he.snoc hr hk) hroot with rfl | h
      · exact ⟨d, t, he, hr⟩
      · exact h

theorem shown_of_carried {H : Hasher} {f : Filter} {P S : List Hash} {root : Cell} (hS : ∀ x, Reach H f root x → Changed H f P x → x.reprHash H ∈ S)
    {x : Cell} (h : Carried H f root x) (hx : x.reprHash H ∈ P) : Shown H ⟨setFilter S, false⟩ root (x.reprHash H) := by
  rcases h with rfl | h | h
  · exact Or.inl rfl
  · exact Or.inr ⟨0, root, x, .refl _ _, h, rfl⟩
  · rcases reach_entered hS h hx 0 (.refl _ _) (.refl _) with rfl | ⟨d, s, he, hs⟩
    · exact Or.inl rfl
    · exact Or.inr ⟨d, s, x, he, hs, rfl⟩

theorem kind_set {H : Hasher} {S : List Hash} {r : Cell} (h : kind H ⟨setFilter S, false⟩ r = .node) : r.reprHash H ∈ S ∨ r.refs = [] := by
  unfold kind at h
  dsimp only at h
  by_cases hs : r.reprHash H ∈ S
  · exact Or.inl hs
  · right
    unfold setFilter at h
    rw [if_neg hs] at h
    dsimp only at h
    split at h
    · cases h
    · rename_i hn
      exact Classical.byContradiction fun hne => hn (Or.inl hne)

theorem entered_reach {H : Hasher} {f : Filter} {S : List Hash} (hS : ∀ h ∈ S, f h ≠ .skip) {d : Nat} {t : Cell} {d' : Nat} {s o : Cell}
    (h : Enters H ⟨setFilter S, false⟩ d t d' s) (ho : o ∈ s.refs) (ht : f (t.reprHash H) ≠ .skip) : Reach H f t o := by
  induction h with
  | refl => exact .step ht ho (.refl _)
  | @step d t r d' x hr hk h ih =>
    rcases kind_set hk with hs | hs
    · exact .step ht hr (ih ho (hS _ hs))
    · have : x = r := by
        cases h with
        | refl => rfl
        | step hr' _ _ => rw [hs] at hr'; cases hr'
      rw [this, hs] at ho; cases ho

/-- When the filter skips the root there are no changed cells but the root. -/
theorem changed_skip {f : Filter} {P : List Hash} {root : CCell} (h : f root.reprHash = .skip) : ∀ x ∈ changedCells f P root, x = root.reprHash := by
  unfold changedCells fill fillWith
  cases root with
  | mk desc bitLen data refs hashes =>
    simp only [find, fillNew, enters, h, record, Bool.false_eq_true, if_false, Bool.false_and, Bool.false_or]
    intro x hx
    split at hx
    · simpa using hx
    · cases hx

theorem carried_of_shown {H : Hasher} {f : Filter} {P : List Hash} {root : CCell} (hr : Built H root) (ha : Boc.Writer.Apart H (Below [root])) (hA : Closed H f root.tree)
    {x : Cell} {d : Nat} {s : Cell} (h : Enters H ⟨setFilter (changedCells f P root), false⟩ 0 root.tree d s) (hx : x ∈ s.refs) : Carried H f root.tree x := by
  obtain ⟨_, hc⟩ := changedCells_spec (P := P) ha hA
  by_cases hf : f root.reprHash = .skip
  · have hS := changed_skip (P := P) hf
    cases h with
    | refl => exact Or.inr (Or.inl hx)
    | @step _ _ r _ _ hr' hk h =>
      exfalso
      rcases kind_set hk with hs | hs
      · have := hS _ hs
        rw [CCell.tree_refs] at hr'
        obtain ⟨q, hq, rfl⟩ := List.mem_map.mp hr'
        have hqb : Below [root] q := ha.child (below_self root) hq
        rw [← reprHash_tree (ha.built hqb)] at this
        have heq := ha.inj hqb (below_self root) this
        have h1 := mem_refs_tree hq
        have h2 : sizeOf q.tree < sizeOf root.tree := by
          revert h1
          generalize root.tree = t
          obtain ⟨e, b, rs⟩ := t
          intro h1
          have := List.sizeOf_lt_of_mem (show q.tree ∈ rs from h1)
          simp; omega
        rw [heq] at h2
        omega
      · have : s = r := by
          cases h with
          | refl => rfl
          | step hr'' _ _ => rw [hs] at hr''; cases hr''
        rw [this, hs] at hx; cases hx
  · have hS : ∀ h ∈ changedCells f P root, f h ≠ .skip := by
      intro h hh
      rcases hc h hh with rfl | ⟨y, _, rfl, hy⟩
      · exact hf
      · exact hy.1
    exact Or.inr (Or.inr (entered_reach hS h hx (by rw [← reprHash_tree hr]; exact hf)))

/-! ### C37 -/

/-- A cell that is `Plain` has a proof tree for every filter without whole subtrees. -/
theorem plain_opens {H : Hasher} {cfg : Config} {root : CCell} (hr : Plain H root) (ha : ¬ Clash H [root]) :
    ∃ p st, buildRaw H cfg true root = .ok (p, st) ∧ Opens H cfg root p ∧ p.hash 0 = root.reprHash ∧ p.depth 0 = root.reprDepth ∧
      ∀ h, h ∈ st.pruned ↔ ∃ d x, PrunedFrom H cfg 0 root.tree d x ∧ h = x.reprHash H := by
  rcases C36_build (cfg := cfg) (allow := true) hr.built (Or.inl rfl) hr.noMerkle.one with hcl | ⟨h, _⟩
  · exact absurd hcl ha
  · obtain ⟨p, st, e, h1, h2, h3, h4, h5, h6⟩ := h (hr.noMerkle.not_bad hr.built.facts.wf hr.mask)
    exact ⟨p, st, e, ⟨hr, h1, h2⟩, h4.trans (level0_repr hr.level 0).1.symm, h5.trans (level0_repr hr.level 0).2.symm, h6⟩

theorem not_clash_one {H : Hasher} {rs : List CCell} (h : ¬ Clash H rs) {r : CCell} (hr : r ∈ rs) : ¬ Clash H [r] := by
  rintro ⟨a, ha, b, hb, hc⟩
  rw [List.mem_singleton.mp ha, List.mem_singleton.mp hb] at hc
  exact h ⟨r, hr, r, hr, hc⟩

theorem noMerkle_refs {t r : Cell} (h : NoMerkle t) (hr : r ∈ t.refs) : NoMerkle r := by
  intro x hx
  refine h x ?_
  obtain ⟨e, b, rs⟩ := t
  exact .child hr hx

/-- An update made from two trees of level 0 without Merkle cells. Creating it always succeeds, it names the hashes and depths of
both trees and its partial trees have the same hashes. Applied to the old tree it gives the new tree when all cells that the update takes from
the old tree are `Carried` there, and otherwise applying reports invalid data. Up to hash collisions among the cells of the trees. -/
theorem C37_update {H : Hasher} {f : Filter} {old new : CCell} (ho : Plain H old) (hn : Plain H new) (hA : Closed H f old.tree) :
    Clash H [old, new] ∨ ∃ u, Update.build H f old new = .ok u ∧ u.oldHash = old.reprHash ∧ u.newHash = new.reprHash ∧
      u.oldDepth = old.reprDepth ∧ u.newDepth = new.reprDepth ∧ Built H u.old ∧ Built H u.new ∧
      (u.old.hash 0 = u.oldHash ∧ u.old.depth 0 = u.oldDepth) ∧ (u.new.hash 0 = u.newHash ∧ u.new.depth 0 = u.newDepth) ∧
      (Clash H [old, new, u.old, u.new] ∨
        ((old.reprHash = new.reprHash ∨ ∀ x, Reused H f new.tree x → Carried H f old.tree x) → ∃ c, u.apply H old = .ok c ∧ Built H c ∧ c.tree = new.tree) ∧
        ((old.reprHash ≠ new.reprHash ∧ ∃ x, Reused H f new.tree x ∧ ¬ Carried H f old.tree x) → u.apply H old = .error .invalidData)) := by
  by_cases hcl : Clash H [old, new]
  · exact Or.inl hcl
  · right
    have hbuilt : ∀ r ∈ [old, new], Built H r := by
      intro r hr
      simp only [List.mem_cons, List.not_mem_nil, or_false] at hr
      rcases hr with rfl | rfl
      · exact ho.built
      · exact hn.built
    have ha2 := below_apart hbuilt hcl
    have bo : Below [old, new] old := ⟨old, by simp, .refl _⟩
    have bn : Below [old, new] new := ⟨new, by simp, .refl _⟩
    by_cases heq : old.reprHash = new.reprHash
    · obtain ⟨p, e, h1, h2, h3, h4, h5, h6⟩ := pruned_plain ho
      have htree := ha2.inj bo bn heq
      have hdep : p.depth 0 = old.reprDepth := by
        obtain ⟨p', e', _, _, _, _, _, hd⟩ := (C13_make_pruned H ho.built.view_ok (by omega : 0 ≤ 2)).1 (by
          have : old.view.mask = 0 := ho.level
          rw [this]; decide)
        rw [e] at e'
        injection e' with e'
        subst e'
        have := (hd 0 (by omega)).2
        rw [this]
        exact (level0_repr ho.level 0).2.symm
      have hdn : old.reprDepth = new.reprDepth := (C11_content_only ho.built hn.built htree 3).2
      refine ⟨⟨old.reprHash, old.reprHash, old.reprDepth, old.reprDepth, p, p⟩, ?_, rfl, heq, rfl, hdn, h1, h1, ⟨h5, hdep⟩, ⟨h5, hdep⟩, Or.inr ⟨fun _ => ?_, fun h => absurd heq h.1⟩⟩
      · unfold Update.build
        rw [if_pos heq, e]; rfl
      · refine ⟨old, ?_, ho.built, htree⟩
        unfold Update.apply
        rw [if_neg (by simp), if_pos rfl]
    · obtain ⟨n, st, en, on, hnh, hnd, hnp⟩ := plain_opens (cfg := ⟨inverted f, false⟩) hn (not_clash_one hcl (by simp))
      obtain ⟨o, st', eo, oo, hoh, hod, _⟩ := plain_opens (cfg := ⟨setFilter (changedCells f st.pruned old), false⟩) ho (not_clash_one hcl (by simp))
      refine ⟨⟨old.reprHash, new.reprHash, old.reprDepth, new.reprDepth, o, n⟩, ?_, rfl, rfl, rfl, rfl, oo.built, on.built, ⟨hoh, hod⟩, ⟨hnh, hnd⟩, ?_⟩
      · unfold Update.build
        rw [if_neg heq, en]
        show (buildRaw H ⟨setFilter (changedCells f st.pruned old), false⟩ true old >>= fun r => Except.ok _) = _
        rw [eo]; rfl
      · dsimp only
        by_cases hcl4 : Clash H [old, new, o, n]
        · exact Or.inl hcl4
        · right
          have ha4 : Boc.Writer.Apart H (Below [old, new, o, n]) := below_apart (by
            intro r hr
            simp only [List.mem_cons, List.not_mem_nil, or_false] at hr
            rcases hr with rfl | rfl | rfl | rfl
            · exact ho.built
            · exact hn.built
            · exact oo.built
            · exact on.built) hcl4
          have aold := apart_one ha4 (r := old) (by simp)
          have anew := apart_one ha4 (r := new) (by simp)
          have ao := apart_one ha4 (r := o) (by simp)
          have an := apart_one ha4 (r := n) (by simp)
          obtain ⟨known, ek, hk⟩ := collect_spec (noWhole_set _ _) oo ao
          obtain ⟨chk, chke⟩ := check_spec (noWhole_inverted f false) on an known
          obtain ⟨olds, eolds, holds1, holds2⟩ := oldCells_spec ho aold hk
          have hrun : Update.apply H ⟨old.reprHash, new.reprHash, old.reprDepth, new.reprDepth, o, n⟩ old =
              ((collect o >>= fun known => pass (checkStep known) n [n.reprHash] >>= fun _ => Except.ok known) >>= fun known => oldCells known old >>= fun olds => bump 0 n >>= fun md =>
                applyNode H olds md n [] >>= fun r => if r.1.reprHash = new.reprHash then Except.ok r.1 else Except.error .invalidData) := by
            unfold Update.apply
            rw [if_neg (by simp), if_neg heq]
            rfl
          have hS := (changedCells_spec (P := st.pruned) aold hA).1
          refine ⟨?_, ?_⟩
          · intro hyp
            have hall : ∀ x, Reused H f new.tree x → Carried H f old.tree x := by
              rcases hyp with h | h
              · exact absurd h heq
              · exact h
            have hshown : ∀ d x, PrunedFrom H ⟨inverted f, false⟩ 0 new.tree d x → Shown H ⟨setFilter (changedCells f st.pruned old), false⟩ old.tree (x.reprHash H) :=
              fun d x hx => shown_of_carried hS (hall x ⟨d, hx⟩) ((hnp _).mpr ⟨d, x, hx, rfl⟩)
            obtain ⟨s, es⟩ := chk (fun d x hx => (hk _).mpr (hshown d x hx))
            have hfound : ∀ d x, PrunedFrom H ⟨inverted f, false⟩ 0 new.tree d x → ∃ y, find olds (x.reprHash H) = some y ∧ Built H y ∧ y.tree = x := by
              intro d x hx
              obtain ⟨y, hy, hyb, hyh⟩ := holds2 _ (hshown d x hx)
              refine ⟨y, hy, aold.built hyb, ?_⟩
              obtain ⟨d0, s0, he, hxs, _⟩ := hx
              have hsub : Cell.Sub x new.tree := by
                have h1 := (he.plain hn.noMerkle).2
                refine Boc.Cell_sub_trans ?_ h1
                obtain ⟨e, b, rs⟩ := s0
                exact .child hxs (.refl _)
              obtain ⟨q, hq, rfl⟩ := sub_tree_inv hsub rfl
              have hqb : Below [old, new, o, n] q := ⟨new, by simp, hq⟩
              refine ha4.inj ?_ hqb (by rw [hyh, reprHash_tree (ha4.built hqb)])
              obtain ⟨r, hr, hs⟩ := hyb
              rw [List.mem_singleton.mp hr] at hs
              exact ⟨old, by simp, hs⟩
            obtain ⟨k, m, ek2, _, hkb, hkt⟩ := applyNode_spec (noWhole_inverted f false) anew hfound n new [] 0 (below_self new) (.refl _ _) on (by intro h k hm; cases hm)
            refine ⟨k, ?_, hkb, hkt⟩
            rw [hrun, ek]
            show ((pass (checkStep known) n [n.reprHash] >>= fun _ => Except.ok known) >>= fun known => oldCells known old >>= fun olds => bump 0 n >>= fun md =>
                applyNode H olds md n [] >>= fun r => if r.1.reprHash = new.reprHash then Except.ok r.1 else Except.error .invalidData) = _
            rw [es]
            show (oldCells known old >>= fun olds => bump 0 n >>= fun md =>
                applyNode H olds md n [] >>= fun r => if r.1.reprHash = new.reprHash then Except.ok r.1 else Except.error .invalidData) = _
            rw [eolds]
            show (bump 0 n >>= fun md => applyNode H olds md n [] >>= fun r => if r.1.reprHash = new.reprHash then Except.ok r.1 else Except.error .invalidData) = _
            rw [bump_plain on.built on.off]
            show (applyNode H olds 0 n [] >>= fun r => if r.1.reprHash = new.reprHash then Except.ok r.1 else Except.error .invalidData) = _
            rw [ek2]
            exact if_pos (C11_content_only hkb hn.built hkt 3).1
          · rintro ⟨_, x, ⟨d, hx⟩, hnc⟩
            have hbad : ∃ d x, PrunedFrom H ⟨inverted f, false⟩ 0 new.tree d x ∧ x.reprHash H ∉ known := by
              refine ⟨d, x, hx, fun hmem => hnc ?_⟩
              obtain ⟨d0, s0, he, hxs, _⟩ := hx
              have hsub : Cell.Sub x new.tree := by
                have h1 := (he.plain hn.noMerkle).2
                refine Boc.Cell_sub_trans ?_ h1
                obtain ⟨e, b, rs⟩ := s0
                exact .child hxs (.refl _)
              obtain ⟨q, hq, rfl⟩ := sub_tree_inv hsub rfl
              have hqb : Below [old, new, o, n] q := ⟨new, by simp, hq⟩
              rcases (hk _).mp hmem with e | ⟨d1, s1, y, he1, hy, e⟩
              · left
                rw [← reprHash_tree (ha4.built hqb), ← reprHash_tree ho.built] at e
                exact ha4.inj hqb ⟨old, by simp, .refl _⟩ e
              · have hsub1 : Cell.Sub y old.tree := by
                  have h1 := (he1.plain ho.noMerkle).2
                  refine Boc.Cell_sub_trans ?_ h1
                  obtain ⟨e, b, rs⟩ := s1
                  exact .child hy (.refl _)
                obtain ⟨z, hz, rfl⟩ := sub_tree_inv hsub1 rfl
                have hzb : Below [old, new, o, n] z := ⟨old, by simp, hz⟩
                rw [← reprHash_tree (ha4.built hqb), ← reprHash_tree (ha4.built hzb)] at e
                rw [ha4.inj hqb hzb e]
                exact carried_of_shown ho.built aold hA he1 hy
            rw [hrun, ek]
            show ((pass (checkStep known) n [n.reprHash] >>= fun _ => Except.ok known) >>= fun known => oldCells known old >>= fun olds => bump 0 n >>= fun md =>
                applyNode H olds md n [] >>= fun r => if r.1.reprHash = new.reprHash then Except.ok r.1 else Except.error .invalidData) = _
            rw [chke hbad]; rfl

/-- When the filter never includes whole subtrees, as for a `UsageTree`, and the reused cells are reached in the old tree through cells that
the filter knows, updates reconstruct the new tree. -/
theorem C37_visited {H : Hasher} {f : Filter} {old new : CCell} (ho : Plain H old) (hn : Plain H new) (hf : ∀ h, f h ≠ .inclSubtree)
    (hall : ∀ x, Cell.Sub x new.tree → f (x.reprHash H) ≠ .skip → Reach H f old.tree x) :
    Clash H [old, new] ∨ ∃ u, Update.build H f old new = .ok u ∧
      (Clash H [old, new, u.old, u.new] ∨ ∃ c, u.apply H old = .ok c ∧ Built H c ∧ c.tree = new.tree) := by
  rcases C37_update (f := f) ho hn (fun t _ h => absurd h (hf _)) with hcl | ⟨u, e, _, _, _, _, _, _, _, _, hcl | ⟨h, _⟩⟩
  · exact Or.inl hcl
  · exact Or.inr ⟨u, e, Or.inl hcl⟩
  · refine Or.inr ⟨u, e, Or.inr (h (Or.inr ?_))⟩
    rintro x ⟨d, d0, s, he, hx, hk, _⟩
    refine Or.inr (Or.inr (hall x ?_ ?_))
    · refine Boc.Cell_sub_trans ?_ (he.plain hn.noMerkle).2
      obtain ⟨e, b, rs⟩ := s
      exact .child hx (.refl _)
    · intro hs
      unfold kind inverted at hk
      dsimp only at hk
      rw [if_pos hs] at hk
      cases hk

/-- The stored update is loaded back. -/
theorem C37_stored {H : Hasher} {f : Filter} {old new : CCell} (ho : Plain H old) (hn : Plain H new) (hA : Closed H f old.tree) :
    Clash H [old, new] ∨ ∃ u, Update.build H f old new = .ok u ∧ ((∀ l, u.old.depth l < 65535) → (∀ l, u.new.depth l < 65535) →
      ∃ b c, u.store CellB.new = (.ok (), b) ∧ b.build H = .ok c ∧ Built H c ∧ Update.loadFromCell c = .ok u) := by
  rcases C37_update (f := f) ho hn hA with hcl | ⟨u, e, h1, h2, h3, h4, h5, h6, h7, h8, _⟩
  · exact Or.inl hcl
  · refine Or.inr ⟨u, e, fun hd hd' => ?_⟩
    have hok : u.Ok := by
      refine ⟨⟨?_, ?_⟩, ?_, ?_⟩
      · rw [h1, reprHash_tree ho.built]; exact Cell.info_hash_len H _ ho.built.facts.wf _
      · rw [h2, reprHash_tree hn.built]; exact Cell.info_hash_len H _ hn.built.facts.wf _
      · rw [h3]; show old.depth 3 < _; rw [ho.built.facts.agrees.depth]; exact Cell.info_depth_lt H _ ho.built.facts.wf _
      · rw [h4]; show new.depth 3 < _; rw [hn.built.facts.agrees.depth]; exact Cell.info_depth_lt H _ hn.built.facts.wf _
    obtain ⟨b, c, e1, e2, e3, e4, e5⟩ := C38_store hok h5 h6 hd hd'
    refine ⟨b, c, e1, e2, e3, (C38_load e3 u).mpr ⟨?_, by rw [e4]; rfl, e5, hok, h7, h8⟩⟩
    have he := congrArg Cell.exotic e4
    rw [CCell.tree_eta c] at he
    exact he

/-! ### C38 -/

theorem pass_inv {σ : Type} {step : Nat → CCell → σ → Except Err (σ × Bool)} {I : σ → Prop} {root : CCell}
    (hstep : ∀ md c s s' go, Below [root] c → I s → step md c s = .ok (s', go) → I s') {s s' : σ} (h : pass step root s = .ok s') (hi : I s) : I s' := by
  have key : ∀ n, ∀ c : CCell, sizeOf c < n → Below [root] c → ∀ md s s', dfs step md c s = .ok s' → I s → I s' := by
    intro n
    induction n with
    | zero => intro c hc; omega
    | succ n ih =>
      intro c hc hb
      have hlist : ∀ l : List CCell, (∀ q ∈ l, sizeOf q < n ∧ Below [root] q) → ∀ md s s', dfsList step md l s = .ok s' → I s → I s' := by
        intro l
        induction l with
        | nil => intro _ md s s' h hi; injection h with h; exact h ▸ hi
        | cons q l ihl =>
          intro hl md s s' h hi
          have hrun : dfsList step md (q :: l) s = (step md q s >>= fun r =>
            (if r.2 then (bump md q >>= fun md' => dfs step md' q r.1) else .ok r.1) >>= fun s => dfsList step md l s) := rfl
          rw [hrun] at h
          obtain ⟨⟨s1, go⟩, e1, h⟩ := ebind_inv h
          obtain ⟨s2, e2, h⟩ := ebind_inv h
          have hi1 := hstep md q s s1 go (hl q (by simp)).2 hi e1
          refine ihl (fun x hx => hl x (by simp [hx])) md s2 s' h ?_
          cases go with
          | false => injection e2 with e2; exact e2 ▸ hi1
          | true =>
            obtain ⟨md', _, e2⟩ := ebind_inv e2
            exact ih q (hl q (by simp)).1 (hl q (by simp)).2 md' s1 s2 e2 hi1
      intro md s s' h hi
      cases c with
      | mk desc bitLen data refs hashes =>
        refine hlist refs (fun q hq => ⟨?_, ?_⟩) md s s' h hi
        · have := List.sizeOf_lt_of_mem hq
          simp at hc; omega
        · obtain ⟨r, hr, hs⟩ := hb
          exact ⟨r, hr, Boc.CCell_sub_last hs hq⟩
  obtain ⟨md, _, h⟩ := ebind_inv h
  exact key _ root (Nat.lt_succ_self _) (below_self root) md s s' h hi

theorem oldCells_below {known : List Hash} {old : CCell} {olds : List (Hash × CCell)} (h : oldCells known old = .ok olds) : ∀ k x, (k, x) ∈ olds → Below [old] x := by
  obtain ⟨s, e, h⟩ := ebind_inv h
  injection h with h
  subst h
  refine pass_inv (I := fun s : List Hash × List (Hash × CCell) => ∀ k x, (k, x) ∈ s.2 → Below [old] x) ?_ e ?_
  · intro md c s s' go hb hi hs
    unfold oldStep at hs
    split at hs
    · injection hs with hs; injection hs with h1 h2; exact h1 ▸ hi
    · split at hs
      · injection hs with hs; injection hs with h1 h2; rw [← h1]; exact hi
      · injection hs with hs; injection hs with h1 h2
        rw [← h1]
        intro k x hx
        rcases List.mem_cons.mp hx with e | hx
        · injection e with e1 e2; rw [e2]; exact hb
        · exact hi k x hx
  · intro k x hx
    rw [List.mem_singleton] at hx
    injection hx with e1 e2
    rw [e2]; exact below_self _

mutual
theorem applyNode_built {H : Hasher} {olds : List (Hash × CCell)} (ho : ∀ k x, (k, x) ∈ olds → Built H x) :
    ∀ (c : CCell) (md : Nat) (m : List (Hash × CCell)) (k : CCell) (m' : List (Hash × CCell)), Built H c → (∀ h x, (h, x) ∈ m → Built H x) →
      applyNode H olds md c m = .ok (k, m') → Built H k ∧ ∀ h x, (h, x) ∈ m' → Built H x
  | .mk desc bitLen data refs hashes, md, m, k, m', hc, hm, h => by
    have hkids := applyKids_built ho refs
    obtain ⟨⟨ks, m1⟩, e1, h⟩ := ebind_inv (show (applyKids H olds md refs m >>= fun r =>
      rebuild H (.mk desc bitLen data refs hashes) r.1 >>= fun k => Except.ok (k, r.2)) = .ok (k, m') from h)
    obtain ⟨c', e2, h⟩ := ebind_inv h
    injection h with h
    injection h with h3 h4
    subst h3 h4
    obtain ⟨g1, g2, g3⟩ := hkids md m ks m1 (fun r hr => hc.of_ref hr) hm e1
    exact ⟨(rebuild_ok hc g1 (by have h4 : refs.length ≤ 4 := hc.facts.refs_le; omega) e2).1, g2⟩
theorem applyKids_built {H : Hasher} {olds : List (Hash × CCell)} (ho : ∀ k x, (k, x) ∈ olds → Built H x) :
    ∀ (cs : List CCell) (md : Nat) (m : List (Hash × CCell)) (ks : List CCell) (m' : List (Hash × CCell)), (∀ c ∈ cs, Built H c) → (∀ h x, (h, x) ∈ m → Built H x) →
      applyKids H olds md cs m = .ok (ks, m') → (∀ k ∈ ks, Built H k) ∧ (∀ h x, (h, x) ∈ m' → Built H x) ∧ ks.length = cs.length
  | [], md, m, ks, m', hc, hm, h => by
    injection h with h
    injection h with h3 h4
    subst h3 h4
    exact ⟨by simp, hm, rfl⟩
  | c :: cs, md, m, ks, m', hc, hm, h => by
    have hnode := applyNode_built ho c
    have hrest := applyKids_built ho cs
    obtain ⟨⟨k, m1⟩, e1, h⟩ := ebind_inv (show (applyChild olds md c m (fun md' => applyNode H olds md' c m) >>= fun r =>
        applyKids H olds md cs r.2 >>= fun s => Except.ok (r.1 :: s.1, s.2)) = .ok (ks, m') from h)
    obtain ⟨⟨ks2, m2⟩, e2, h⟩ := ebind_inv h
    injection h with h
    injection h with h3 h4
    subst h3 h4
    have hcb := hc c (by simp)
    have hfirst : Built H k ∧ ∀ h x, (h, x) ∈ m1 → Built H x := by
      unfold applyChild at e1
      split at e1
      · split at e1
        · cases e1
        · split at e1
          · split at e1
            · rename_i o hf
              injection e1 with e1; injection e1 with h1 h2
              subst h1 h2
              exact ⟨ho _ _ (find_mem hf), hm⟩
            · cases e1
          · injection e1 with e1; injection e1 with h1 h2
            subst h1 h2
            exact ⟨hcb, hm⟩
      · split at e1
        · rename_i o hf
          injection e1 with e1; injection e1 with h1 h2
          subst h1 h2
          exact ⟨hm _ _ (find_mem hf), hm⟩
        · obtain ⟨md', _, e1⟩ := ebind_inv e1
          obtain ⟨⟨k', m3⟩, e3, e1⟩ := ebind_inv e1
          injection e1 with e1; injection e1 with h1 h2
          subst h1 h2
          obtain ⟨g1, g2⟩ := hnode md' m _ _ hcb hm e3
          refine ⟨g1, ?_⟩
          intro h x hx
          rcases List.mem_cons.mp hx with e | hx
          · injection e with _ e; rw [e]; exact g1
          · exact g2 h x hx
    obtain ⟨g1, g2, g3⟩ := hrest md m1 ks2 m2 (fun x hx => hc x (by simp [hx])) hfirst.2 e2
    refine ⟨?_, g2, by simp [g3]⟩
    intro x hx
    rcases List.mem_cons.mp hx with rfl | hx
    · exact hfirst.1
    · exact g1 x hx
end

/-- Whatever the update says (it may come from anywhere), a successful application was given the old tree the update names and returns a well-formed cell
with the hash the update names; every cell with that hash has the same contents, unless the hasher has a collision. -/
theorem C38_apply {H : Hasher} {u : Update} {old c : CCell} (ho : Built H old) (hn : Built H u.new) (h : u.apply H old = .ok c) :
    old.reprHash = u.oldHash ∧ c.reprHash = u.newHash ∧ Built H c ∧
    ∀ new, Built H new → new.reprHash = u.newHash → c.tree = new.tree ∨ Collision H c.tree new.tree := by
  have key : old.reprHash = u.oldHash ∧ c.reprHash = u.newHash ∧ Built H c := by
    unfold Update.apply at h
    split at h
    · cases h
    · rename_i h1
      have h1 : old.reprHash = u.oldHash := Classical.byContradiction h1
      refine ⟨h1, ?_⟩
      split at h
      · rename_i h2
        injection h with h
        subst h
        exact ⟨h1.trans h2, ho⟩
      · obtain ⟨known, _, h⟩ := ebind_inv h
        obtain ⟨olds, e2, h⟩ := ebind_inv h
        obtain ⟨md, _, h⟩ := ebind_inv h
        obtain ⟨⟨k, m⟩, e3, h⟩ := ebind_inv h
        dsimp only at h
        split at h
        · rename_i hk
          injection h with h
          subst h
          refine ⟨hk, (applyNode_built (fun k x hx => ?_) u.new md [] k m hn (by simp) e3).1⟩
          obtain ⟨r, hr, hs⟩ := oldCells_below e2 k x hx
          rw [List.mem_singleton.mp hr] at hs
          exact ho.sub hs
        · cases h
  exact ⟨key.1, key.2.1, key.2.2, fun new hb hh => C12_cells key.2.2 hb (key.2.1.trans hh.symm)⟩

/-- An update is refused for any other old tree. -/
theorem C38_other_old {H : Hasher} {u : Update} {old : CCell} (h : old.reprHash ≠ u.oldHash) : u.apply H old = .error .invalidData := by
  unfold Update.apply
  rw [if_pos h]

end Merkle
end Verif
