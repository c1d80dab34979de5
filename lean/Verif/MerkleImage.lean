import Verif.MerkleFill
/-
Cells of a proof tree and the cells they stand for, in trees of level 0 without Merkle cells.
-/
set_option linter.unusedVariables false
set_option linter.unusedSimpArgs false
namespace Verif
namespace Merkle
open Boc (Below Clash below_apart)

/-- A finished cell of level 0 with no Merkle cells in it. -/
structure Plain (H : Hasher) (c : CCell) : Prop where
  built : Built H c
  level : c.desc.levelMask = 0
  noMerkle : NoMerkle c.tree

theorem Plain.mask {H : Hasher} {c : CCell} (h : Plain H c) : (c.tree.info H).mask = 0 := by
  rw [← h.built.facts.agrees.mask]; exact h.level

theorem Plain.child {H : Hasher} {c r : CCell} (h : Plain H c) (hr : r ∈ c.refs) : Plain H r where
  built := h.built.of_ref hr
  level := by
    have hw := h.built.facts.wf
    have h0 := h.mask
    have hoff := h.noMerkle _ (.refl _)
    have hrt := mem_refs_tree hr
    rw [(h.built.of_ref hr).facts.agrees.mask]
    generalize c.tree = t at *
    obtain ⟨e, b, rs⟩ := t
    apply BitVec.eq_of_getLsbD_eq
    intro i hi
    have := child_bit hw (l := i) (by rw [h0]; simp) _ hrt
    have hoff : offOf e b = 0 := hoff
    rw [hoff, Nat.add_zero] at this
    rw [this]; simp
  noMerkle := fun x hx => h.noMerkle x (.child (mem_refs_tree hr) hx)

theorem Plain.sub {H : Hasher} {c r : CCell} (h : Plain H c) (hr : CCell.Sub r c) : Plain H r := by
  induction hr with
  | refl => exact h
  | child hr s ih => exact ih (h.child hr)

theorem Plain.below {H : Hasher} {c r : CCell} (h : Plain H c) (hr : Below [c] r) : Plain H r := by
  obtain ⟨x, hx, hs⟩ := hr
  rw [List.mem_singleton.mp hx] at hs
  exact h.sub hs

theorem Plain.hash {H : Hasher} {c : CCell} (h : Plain H c) (l : Nat) : c.hash l = c.reprHash := (level0_repr h.level l).1.symm

theorem bump_plain {H : Hasher} {c : CCell} (hb : Built H c) (h : c.tree.off = 0) : bump 0 c = .ok 0 := by
  rw [bump_eq hb 0 (by omega), h]; rfl

/-- The pruned branch of a plain cell. -/
theorem pruned_plain {H : Hasher} {c : CCell} (h : Plain H c) : ∃ p, makePruned H c.view 0 = .ok p ∧ Built H p ∧ p.tree = prunedTree H 0 c.tree ∧
    p.refs = [] ∧ p.desc.levelMask = 1 ∧ p.hash 0 = c.reprHash ∧ p.desc.cellType = .prunedBranch := by
  have hm : c.view.mask = 0 := h.level
  obtain ⟨p, e, h1, h2, h3, h4, h5, h6⟩ := (C13_make_pruned H h.built.view_ok (by omega : 0 ≤ 2)).1 (by rw [hm]; decide)
  refine ⟨p, e, h1, makePruned_tree h.built (by omega) e, h3, ?_, ?_, h2⟩
  · apply BitVec.eq_of_getLsbD_eq
    intro i hi
    rcases Nat.eq_zero_or_pos i with rfl | hi'
    · rw [h4]; rfl
    · rw [h5 i (by omega), hm]
      have : ∀ i : Fin 8, 0 < i.val → (0 : LevelMask).getLsbD i = (1 : LevelMask).getLsbD i := by decide
      exact this ⟨i, hi⟩ hi'
  · exact (h6 0 (by omega)).1.trans (h.hash 0)

/-- Type and level of a cell that has the contents of a pruned branch. -/
theorem same_desc {H : Hasher} {a b : CCell} (ha : Built H a) (hb : Built H b) (h : a.tree = b.tree) :
    a.desc.levelMask = b.desc.levelMask ∧ a.desc.isExotic = b.desc.isExotic ∧ a.desc.referenceCount = b.desc.referenceCount := by
  refine ⟨?_, ?_, ?_⟩
  · rw [ha.facts.agrees.mask, hb.facts.agrees.mask, h]
  · have h1 := CCell.tree_eta a
    have h2 := CCell.tree_eta b
    rw [h1, h2] at h
    injection h
  · rw [ha.facts.refs, hb.facts.refs]
    have := congrArg (fun t : Cell => t.refs.length) h
    simpa [CCell.tree_refs] using this

theorem same_pruned {H : Hasher} {a b : CCell} (ha : Built H a) (hb : Built H b) (h : a.tree = b.tree) : a.desc.isPrunedBranch = b.desc.isPrunedBranch := by
  obtain ⟨h1, h2, h3⟩ := same_desc ha hb h
  unfold CellDescriptor.isPrunedBranch
  rw [h1, h2, h3]

theorem isPruned_of_type {H : Hasher} {a : CCell} (ha : Built H a) (h : a.desc.cellType = .prunedBranch) (hr : a.refs = []) (hm : a.desc.levelMask ≠ 0) :
    a.desc.isPrunedBranch = true := by
  unfold CellDescriptor.isPrunedBranch
  have h3 : a.desc.referenceCount = 0 := by rw [ha.facts.refs, hr]; rfl
  have he : a.desc.isExotic = true := by
    cases hx : a.desc.isExotic with
    | true => rfl
    | false =>
      have := ha.facts.type
      rw [hx, h] at this
      cases this
  rw [he, h3]
  unfold LevelMask.isEmpty
  simpa using hm

/-- Without whole subtrees every cell is either replaced or included. -/
def NoWhole (cfg : Config) : Prop := ∀ h, cfg.filter h ≠ .inclSubtree

theorem kind_cases {H : Hasher} {cfg : Config} (hw : NoWhole cfg) (t : Cell) : kind H cfg t = .pruned ∨ kind H cfg t = .node := by
  unfold kind
  cases h : cfg.filter (t.reprHash H) with
  | inclSubtree => exact absurd h (hw _)
  | incl => exact Or.inr rfl
  | skip =>
    dsimp only
    split
    · exact Or.inl rfl
    · exact Or.inr rfl

mutual
/-- The specified proof tree of a plain cell is made by pruning. -/
theorem plain_prunes {H : Hasher} {cfg : Config} : ∀ (c : CCell), Plain H c → Prunes H 0 c.tree (specNode H cfg 0 c.tree)
  | .mk desc bitLen data refs hashes, hp => by
    have hkids := plain_prunes_kids (H := H) (cfg := cfg) refs
    have hrefs : (CCell.mk desc bitLen data refs hashes).refs = refs := rfl
    generalize CCell.mk desc bitLen data refs hashes = c at *
    have heta := CCell.tree_eta c
    have hoff : offOf c.desc.isExotic c.tree.bits = 0 := by
      have := hp.noMerkle _ (.refl _)
      rw [heta] at this; exact this
    have hspec : ∀ e b rs, specNode H cfg 0 (.mk e b rs) = .mk e b (specKids H cfg (0 + offOf e b) rs) := fun _ _ _ => rfl
    have h1 : Prunes H 0 (.mk c.desc.isExotic c.tree.bits (c.refs.map CCell.tree))
        (.mk c.desc.isExotic c.tree.bits (specKids H cfg 0 (c.refs.map CCell.tree))) := by
      rw [hrefs]
      refine .node (by rw [specKids_eq]; simp) fun i g1 g2 => ?_
      rw [hoff]
      exact hkids (fun r hr => hp.child (by rw [hrefs]; exact hr)) i g1 g2
    rw [heta, hspec, hoff]
    exact h1
theorem plain_prunes_kids {H : Hasher} {cfg : Config} : ∀ (cs : List CCell), (∀ c ∈ cs, Plain H c) →
    ∀ i (h1 : i < (cs.map CCell.tree).length) (h2 : i < (specKids H cfg 0 (cs.map CCell.tree)).length),
      Prunes H (0 + 0) (cs.map CCell.tree)[i] (specKids H cfg 0 (cs.map CCell.tree))[i]
  | [], hp, i, h1, h2 => by cases h1
  | c :: cs, hp, i, h1, h2 => by
    have hc := plain_prunes (cfg := cfg) c (hp c (by simp))
    have hcs := plain_prunes_kids (cfg := cfg) cs (fun x hx => hp x (by simp [hx]))
    cases i with
    | succ i => exact hcs i (by simpa using h1) (by simpa [specKids] using h2)
    | zero =>
      show Prunes H 0 c.tree (place H 0 c.tree (specNode H cfg 0 c.tree) (kind H cfg c.tree))
      cases kind H cfg c.tree with
      | whole => exact .same _ _
      | node => exact hc
      | pruned =>
        obtain ⟨p, e, _, ht, _⟩ := pruned_plain (hp c (by simp))
        show Prunes H 0 c.tree (prunedTree H 0 c.tree)
        rw [← ht]
        exact .prune (hp c (by simp)).built (by omega) e
end

/-- `c` stands for the plain cell `o` in a proof tree. -/
structure Stands (H : Hasher) (cfg : Config) (o c : CCell) : Prop where
  plain : Plain H o
  built : Built H c
  tree : c.tree = place H 0 o.tree (specNode H cfg 0 o.tree) (kind H cfg o.tree)

/-- `c` is the proof tree of `o`. -/
structure Opens (H : Hasher) (cfg : Config) (o c : CCell) : Prop where
  plain : Plain H o
  built : Built H c
  tree : c.tree = specNode H cfg 0 o.tree

theorem Opens.data {H : Hasher} {cfg : Config} {o c : CCell} (h : Opens H cfg o c) :
    c.desc.isExotic = o.desc.isExotic ∧ c.tree.bits = o.tree.bits ∧ c.refs.map CCell.tree = specKids H cfg 0 (o.refs.map CCell.tree) := by
  have h1 := CCell.tree_eta c
  have h2 := CCell.tree_eta o
  have hoff : offOf o.desc.isExotic o.tree.bits = 0 := by
    have := h.plain.noMerkle _ (.refl _)
    rw [h2] at this; exact this
  have ht := h.tree
  have hspec : ∀ e b rs, specNode H cfg 0 (.mk e b rs) = .mk e b (specKids H cfg (0 + offOf e b) rs) := fun _ _ _ => rfl
  rw [h2, hspec, hoff] at ht
  rw [ht]
  rw [h1] at ht
  injection ht with a1 a2 a3
  exact ⟨a1, rfl, a3⟩

theorem Opens.off {H : Hasher} {cfg : Config} {o c : CCell} (h : Opens H cfg o c) : c.tree.off = 0 := by
  obtain ⟨h1, h2, _⟩ := h.data
  have := h.plain.noMerkle _ (.refl _)
  rw [CCell.tree_eta] at this ⊢
  have this : offOf o.desc.isExotic o.tree.bits = 0 := this
  show offOf c.desc.isExotic c.tree.bits = 0
  rw [h1, h2]; exact this

theorem Opens.hash {H : Hasher} {cfg : Config} {o c : CCell} (h : Opens H cfg o c) : c.hash 0 = o.reprHash := by
  have := ((C13_ancestors (plain_prunes (cfg := cfg) o h.plain)).2 0 (by omega)).1
  rw [h.built.facts.agrees.hash, h.tree, this, ← h.plain.built.facts.agrees.hash, h.plain.hash]

theorem Opens.not_pruned {H : Hasher} {cfg : Config} {o c : CCell} (h : Opens H cfg o c) : c.desc.isPrunedBranch = false := by
  obtain ⟨h1, h2, h3⟩ := h.data
  have hl : c.desc.referenceCount = o.desc.referenceCount := by
    rw [h.built.facts.refs, h.plain.built.facts.refs]
    have := congrArg List.length h3
    rw [specKids_eq] at this
    simpa using this
  cases hc : c.desc.isPrunedBranch with
  | false => rfl
  | true =>
    exfalso
    unfold CellDescriptor.isPrunedBranch at hc
    simp only [Bool.and_eq_true, beq_iff_eq] at hc
    obtain ⟨⟨x1, x2⟩, x3⟩ := hc
    have hmask : c.desc.levelMask = 0 := by
      have hr : o.refs = [] := by
        have := h.plain.built.facts.refs
        rw [← hl, x2] at this
        exact List.eq_nil_of_length_eq_zero this.symm
      have hr' : c.refs = [] := by
        have := h.built.facts.refs
        rw [x2] at this
        exact List.eq_nil_of_length_eq_zero this.symm
      have ht : c.tree = o.tree := by
        rw [CCell.tree_eta c, CCell.tree_eta o, h1, h2, hr, hr']
      rw [(same_desc h.built h.plain.built ht).1, h.plain.level]
    rw [hmask] at x3
    revert x3; decide

theorem Opens.child {H : Hasher} {cfg : Config} {o c : CCell} (h : Opens H cfg o c) :
    (∀ r ∈ c.refs, ∃ q ∈ o.refs, Stands H cfg q r) ∧ ∀ q ∈ o.refs, ∃ r ∈ c.refs, Stands H cfg q r := by
  obtain ⟨h1, h2, h3⟩ := h.data
  rw [specKids_eq, List.map_map] at h3
  constructor
  · intro r hr
    have : r.tree ∈ c.refs.map CCell.tree := List.mem_map.mpr ⟨r, hr, rfl⟩
    rw [h3] at this
    obtain ⟨q, hq, e⟩ := List.mem_map.mp this
    exact ⟨q, hq, h.plain.child hq, h.built.of_ref hr, e.symm⟩
  · intro q hq
    have : ((fun t => place H 0 t (specNode H cfg 0 t) (kind H cfg t)) ∘ CCell.tree) q ∈
        o.refs.map ((fun t => place H 0 t (specNode H cfg 0 t) (kind H cfg t)) ∘ CCell.tree) := List.mem_map.mpr ⟨q, hq, rfl⟩
    rw [← h3] at this
    obtain ⟨r, hr, e⟩ := List.mem_map.mp this
    exact ⟨r, hr, h.plain.child hq, h.built.of_ref hr, e⟩

theorem Stands.pruned {H : Hasher} {cfg : Config} {o c : CCell} (h : Stands H cfg o c) (hk : kind H cfg o.tree = .pruned) :
    c.desc.isPrunedBranch = true ∧ c.desc.levelMask = 1 ∧ c.hash 0 = o.reprHash ∧ c.refs = [] ∧ c.tree.off = 0 := by
  obtain ⟨p, e, h1, h2, h3, h4, h5, h6⟩ := pruned_plain h.plain
  have ht : c.tree = p.tree := by rw [h.tree, hk, h2]; rfl
  have hr : c.refs = [] := by
    have := congrArg (fun t : Cell => t.refs.length) ht
    rw [CCell.tree_refs, CCell.tree_refs, h3] at this
    simpa using this
  refine ⟨?_, ?_, ?_, hr, ?_⟩
  · rw [same_pruned h.built h1 ht]
    exact isPruned_of_type h1 h6 h3 (by rw [h4]; decide)
  · rw [(same_desc h.built h1 ht).1]; exact h4
  · rw [(C11_content_only h.built h1 ht 0).1]; exact h5
  · have := isMerkle_off h.built
    have hm : c.desc.isMerkle = false := by
      unfold CellDescriptor.isMerkle
      rw [h.built.facts.refs, hr]; simp
    rw [hm] at this
    have h1 := this.1
    have := of_decide_eq_false h1.symm
    omega

theorem Stands.node {H : Hasher} {cfg : Config} {o c : CCell} (h : Stands H cfg o c) (hk : kind H cfg o.tree = .node) : Opens H cfg o c :=
  ⟨h.plain, h.built, by rw [h.tree, hk]; rfl⟩

theorem Stands.facts {H : Hasher} {cfg : Config} {o c : CCell} (hw : NoWhole cfg) (h : Stands H cfg o c) :
    c.hash 0 = o.reprHash ∧ c.desc.isPrunedBranch = decide (kind H cfg o.tree = .pruned) ∧ c.tree.off = 0 := by
  rcases kind_cases (H := H) hw o.tree with hk | hk
  · obtain ⟨h1, h2, h3, h4, h5⟩ := h.pruned hk
    exact ⟨h3, by rw [h1, hk]; rfl, h5⟩
  · have := h.node hk
    exact ⟨this.hash, by rw [this.not_pruned, hk]; rfl, this.off⟩

theorem Stands.sub {H : Hasher} {cfg : Config} {c x : CCell} (hw : NoWhole cfg) (hx : CCell.Sub x c) : ∀ o : CCell, (Stands H cfg o c ∨ Opens H cfg o c) → x = c ∨ ∃ q, Stands H cfg q x := by
  induction hx with
  | refl => intro o _; exact Or.inl rfl
  | @child r t hr s ih =>
    intro o h
    have hop : Opens H cfg o t := by
      rcases h with h | h
      · rcases kind_cases (H := H) hw o.tree with hk | hk
        · rw [(h.pruned hk).2.2.2.1] at hr; cases hr
        · exact h.node hk
      · exact h
    obtain ⟨q, hq, hst⟩ := hop.child.1 r hr
    rcases ih q (Or.inl hst) with rfl | h
    · exact Or.inr ⟨q, hst⟩
    · exact Or.inr h

/-- No Merkle cells in the proof tree either. -/
theorem Opens.below_off {H : Hasher} {cfg : Config} {o c : CCell} (hw : NoWhole cfg) (h : Opens H cfg o c) {x : CCell} (hx : Below [c] x) :
    bump 0 x = .ok 0 := by
  obtain ⟨r, hr, hs⟩ := hx
  rw [List.mem_singleton.mp hr] at hs
  rcases Stands.sub hw hs o (Or.inr h) with rfl | ⟨q, hq⟩
  · exact bump_plain h.built h.off
  · exact bump_plain hq.built (hq.facts hw).2.2

/-- The cells met in a proof tree are the images of the references of included cells, and nothing else. -/
theorem Opens.via {H : Hasher} {cfg : Config} {root p : CCell} (hw : NoWhole cfg) (h : Opens H cfg root p) :
    (∀ x, Via (fun c => !c.desc.isPrunedBranch) p x → ∃ d s o, Enters H cfg 0 root.tree d s ∧ o.tree ∈ s.refs ∧ Stands H cfg o x ∧ CCell.Sub o root) ∧
    ∀ d s o, Enters H cfg 0 root.tree d s → o ∈ s.refs → ∃ x q, Via (fun c => !c.desc.isPrunedBranch) p x ∧ Stands H cfg q x ∧ q.tree = o := by
  constructor
  · intro x hx
    induction hx with
    | child hr =>
      obtain ⟨q, hq, hs⟩ := h.child.1 _ hr
      exact ⟨0, root.tree, q, .refl _ _, mem_refs_tree hq, hs, .child hq (.refl _)⟩
    | @step c r hc hg hr ih =>
      obtain ⟨d, s, o, he, ho, hst, hsub⟩ := ih
      have hk : kind H cfg o.tree = .node := by
        rcases kind_cases (H := H) hw o.tree with hk | hk
        · rw [(hst.pruned hk).1] at hg; cases hg
        · exact hk
      obtain ⟨q, hq, hs⟩ := (hst.node hk).child.1 _ hr
      exact ⟨_, o.tree, q, he.snoc ho hk, mem_refs_tree hq, hs, Boc.CCell_sub_last hsub hq⟩
  · have key : ∀ d t d' s, Enters H cfg d t d' s → ∀ o c, o.tree = t → Opens H cfg o c → (c = p ∨ Via (fun c => !c.desc.isPrunedBranch) p c) →
        ∃ o' c', o'.tree = s ∧ Opens H cfg o' c' ∧ (c' = p ∨ Via (fun c => !c.desc.isPrunedBranch) p c') := by
      intro d t d' s he
      induction he with
      | refl => intro o c ho hop hv; exact ⟨o, c, ho, hop, hv⟩
      | @step d t r d' x hr hk _ ih =>
        intro o c ho hop hv
        rw [← ho, CCell.tree_refs] at hr
        obtain ⟨q, hq, rfl⟩ := List.mem_map.mp hr
        obtain ⟨y, hy, hst⟩ := hop.child.2 q hq
        refine ih q y rfl (hst.node hk) (Or.inr ?_)
        rcases hv with rfl | hv
        · exact .child hy
        · exact .step hv (by rw [hop.not_pruned]; rfl) hy
    intro d s o he ho
    obtain ⟨o', c', e, hop, hv⟩ := key _ _ _ _ he root p rfl h (Or.inl rfl)
    rw [← e, CCell.tree_refs] at ho
    obtain ⟨q, hq, rfl⟩ := List.mem_map.mp ho
    obtain ⟨y, hy, hst⟩ := hop.child.2 q hq
    refine ⟨y, q, ?_, hst, rfl⟩
    rcases hv with rfl | hv
    · exact .child hy
    · exact .step hv (by rw [hop.not_pruned]; rfl) hy

end Merkle
end Verif
