import Verif.MerkleParLemmas
import Verif.MerkleFill
/-
Every step of every task keeps the invariant of the multithreaded builder, and takes away from the work left.
-/
set_option linter.unusedVariables false
set_option linter.unusedSimpArgs false
namespace Verif
namespace Merkle
namespace Par
open Boc (Below Clash below_apart)

/-! ### The invariant -/

/-- Saved cells stand for the cells under whose hashes they are saved. -/
def CellsOk (H : Hasher) (cfg : Config) (T : Table) (S : List Hash) (root : CCell) (cells : List (Hash × Ext)) : Prop :=
  ∀ h e, (h, e) ∈ cells → ∃ c d, Below [root] c ∧ h = c.reprHash ∧ (kind H cfg c.tree = .node ∨ c.tree = root.tree) ∧
    Enters H cfg 0 root.tree d c.tree ∧ Stands H cfg T S d c.tree e

/-- A node on a stack: its children are made up to the ones in `pend` (which are being made) and the rest. -/
structure FrameOk (H : Hasher) (cfg : Config) (T : Table) (S : List Hash) (root : CCell) (pend : List CCell) (d : Nat) (f : Frame) : Prop where
  below : Below [root] f.cell
  ent : Enters H cfg 0 root.tree d f.cell.tree
  md : f.md = d + f.cell.tree.off
  le : f.md ≤ 255
  kids : ∃ dn, f.cell.refs = dn ++ pend ++ f.rest ∧ Slots H cfg T S f.md (dn.map CCell.tree) f.kids

/-- The stack of a task that builds `t0` at Merkle depth `d0`. -/
inductive StackOk (H : Hasher) (cfg : Config) (T : Table) (S : List Hash) (root : CCell) (t0 : Cell) (d0 : Nat) : List CCell → List Frame → Prop
  | base {pend : List CCell} {f : Frame} (h : FrameOk H cfg T S root pend d0 f) (ht : f.cell.tree = t0) : StackOk H cfg T S root t0 d0 pend [f]
  | push {pend : List CCell} {f g : Frame} {st : List Frame} (h : FrameOk H cfg T S root pend g.md f) (hk : kind H cfg f.cell.tree = .node)
      (hs : StackOk H cfg T S root t0 d0 [f.cell] (g :: st)) : StackOk H cfg T S root t0 d0 pend (f :: g :: st)

/-- The phases of a task that builds `t0` at Merkle depth `d0`. -/
def PhaseOk (H : Hasher) (cfg : Config) (T : Table) (S : List Hash) (root : CCell) (t0 : Cell) (d0 : Nat) : Phase → Prop
  | .walk st => StackOk H cfg T S root t0 d0 [] st
  | .missed c st => StackOk H cfg T S root t0 d0 [c] st
  | .done (.ok e) => Stands H cfg T S d0 t0 e ∧ ∀ j, e ≠ .deferred j
  | .done (.error _) => Bad H cfg root.tree

section mono
variable {H : Hasher} {cfg : Config} {T T' : Table} {S S' : List Hash} {root : CCell}

theorem CellsOk.mono (hT : ∀ i v, T i = some v → T' i = some v) (hS : ∀ x ∈ S, x ∈ S') {cells : List (Hash × Ext)} (h : CellsOk H cfg T S root cells) :
    CellsOk H cfg T' S' root cells := by
  intro k e hm
  obtain ⟨c, d, h1, h2, h3, h4, h5⟩ := h k e hm
  exact ⟨c, d, h1, h2, h3, h4, h5.mono hT hS⟩

theorem FrameOk.mono (hT : ∀ i v, T i = some v → T' i = some v) (hS : ∀ x ∈ S, x ∈ S') {pend : List CCell} {d : Nat} {f : Frame}
    (h : FrameOk H cfg T S root pend d f) : FrameOk H cfg T' S' root pend d f := by
  obtain ⟨h1, h2, h3, h4, dn, h5, h6⟩ := h
  exact ⟨h1, h2, h3, h4, dn, h5, h6.mono hT hS⟩

theorem StackOk.mono (hT : ∀ i v, T i = some v → T' i = some v) (hS : ∀ x ∈ S, x ∈ S') {t0 : Cell} {d0 : Nat} {pend : List CCell} {st : List Frame}
    (h : StackOk H cfg T S root t0 d0 pend st) : StackOk H cfg T' S' root t0 d0 pend st := by
  induction h with
  | base h ht => exact .base (h.mono hT hS) ht
  | push h hk _ ih => exact .push (h.mono hT hS) hk ih

theorem PhaseOk.mono (hT : ∀ i v, T i = some v → T' i = some v) (hS : ∀ x ∈ S, x ∈ S') {t0 : Cell} {d0 : Nat} {p : Phase}
    (h : PhaseOk H cfg T S root t0 d0 p) : PhaseOk H cfg T' S' root t0 d0 p := by
  match p, h with
  | .walk st, h => exact StackOk.mono (T := T) (S := S) hT hS h
  | .missed c st, h => exact StackOk.mono (T := T) (S := S) hT hS h
  | .done (.ok e), h => exact ⟨h.1.mono hT hS, h.2⟩
  | .done (.error _), h => exact h
end mono

section steps
variable {H : Hasher} {cfg : Config} {T : Table} {S : List Hash} {root : CCell} {t0 : Cell} {d0 : Nat}

/-- The next reference of the node on top. -/
theorem StackOk.take {cell c : CCell} {md : Nat} {cs : List CCell} {kids : List Ext} {st : List Frame}
    (h : StackOk H cfg T S root t0 d0 [] (⟨cell, md, c :: cs, kids⟩ :: st)) : StackOk H cfg T S root t0 d0 [c] (⟨cell, md, cs, kids⟩ :: st) := by
  have key : ∀ d, FrameOk H cfg T S root [] d ⟨cell, md, c :: cs, kids⟩ → FrameOk H cfg T S root [c] d ⟨cell, md, cs, kids⟩ := by
    rintro d ⟨h1, h2, h3, h4, dn, h5, h6⟩
    refine ⟨h1, h2, h3, h4, dn, ?_, h6⟩
    show cell.refs = dn ++ [c] ++ cs
    have : cell.refs = dn ++ [] ++ c :: cs := h5
    rw [this]; simp
  cases h with
  | base h ht => exact .base (key _ h) ht
  | push h hk hs => exact .push (key _ h) hk hs

/-- The node on top. -/
theorem StackOk.top {pend : List CCell} {f : Frame} {st : List Frame} (h : StackOk H cfg T S root t0 d0 pend (f :: st)) :
    ∃ d, FrameOk H cfg T S root pend d f := by
  cases h with
  | base h ht => exact ⟨_, h⟩
  | push h hk hs => exact ⟨_, h⟩

theorem StackOk.ne_nil {pend : List CCell} (h : StackOk H cfg T S root t0 d0 pend []) : False := by cases h

/-- A child is given to the node on top. -/
theorem give_ok {c : CCell} {f : Frame} {st : List Frame} {e : Ext} (ha : Boc.Writer.Apart H (Below [root])) (h : StackOk H cfg T S root t0 d0 [c] (f :: st))
    (hs : Slot H cfg T S f.md c.tree e) : PhaseOk H cfg T S root t0 d0 (giveChild e (f :: st)) := by
  have key : ∀ d, FrameOk H cfg T S root [c] d f → f.kids.length < 4 ∧ FrameOk H cfg T S root [] d { f with kids := f.kids ++ [e] } := by
    rintro d ⟨h1, h2, h3, h4, dn, h5, h6⟩
    constructor
    · have a := h6.len
      have b := congrArg List.length h5
      have c := (ha.built h1).facts.refs_le
      simp at a b
      omega
    · refine ⟨h1, h2, h3, h4, dn ++ [c], ?_, ?_⟩
      · show f.cell.refs = _
        rw [h5]; simp
      · show Slots H cfg T S f.md _ (f.kids ++ [e])
        rw [List.map_append]
        exact h6.snoc hs
  have hst : f.kids.length < 4 → storeExt f.kids e = .ok (f.kids ++ [e]) := by
    intro h
    unfold storeExt
    rw [if_neg]
    simp
    omega
  unfold giveChild
  cases h with
  | base h ht =>
    obtain ⟨k1, k2⟩ := key _ h
    dsimp only
    rw [hst k1]
    exact .base k2 ht
  | push h hk hs =>
    obtain ⟨k1, k2⟩ := key _ h
    dsimp only
    rw [hst k1]
    exact .push k2 hk hs

theorem FrameOk.child {pend : List CCell} {d : Nat} {f : Frame} {c : CCell} (h : FrameOk H cfg T S root (c :: pend) d f) : c ∈ f.cell.refs := by
  obtain ⟨_, _, _, _, dn, h5, _⟩ := h
  rw [h5]; simp

theorem not_root {n c : CCell} (hn : Below [root] n) (hc : c ∈ n.refs) : c.tree ≠ root.tree := by
  intro h
  have h1 := (below_sub hn).size
  have h2 : sizeOf c.tree < sizeOf n.tree.refs := List.sizeOf_lt_of_mem (mem_refs_tree hc)
  have h3 : sizeOf n.tree.refs < sizeOf n.tree := by
    conv => rhs; rw [cell_eta n.tree]
    simp
  rw [h] at h2
  omega

/-- A saved cell can take the place of a reference with its hash. -/
theorem hit_slot (ha : Boc.Writer.Apart H (Below [root])) (ho : OneDepth H cfg root.tree) {cells : List (Hash × Ext)}
    (hc : CellsOk H cfg T S root cells) {f : Frame} {c : CCell} {d : Nat} (hf : FrameOk H cfg T S root [c] d f) {e : Ext} (h : find cells c.reprHash = some e) :
    Slot H cfg T S f.md c.tree e := by
  obtain ⟨c0, e0, h1, h2, h3, h4, h5⟩ := hc _ _ (find_mem h)
  have heq := ha.inj (ha.child hf.below hf.child) h1 h2
  rw [← heq] at h3 h4 h5
  rcases h3 with hk | hr
  · have := ho _ _ _ h4 (hf.ent.snoc (mem_refs_tree hf.child) hk)
    rw [← hf.md] at this
    subst this
    exact ⟨by unfold Leaf; rw [hk]; trivial, fun _ => h5⟩
  · exact absurd hr (not_root hf.below hf.child)

/-- A node without further references. -/
theorem makeExt_ok (ha : Boc.Writer.Apart H (Below [root])) {cell : CCell} {md d : Nat} {kids : List Ext} (hf : FrameOk H cfg T S root [] d ⟨cell, md, [], kids⟩) :
    ∃ e, makeExt H ⟨cell, md, [], kids⟩ = .ok e ∧ Stands H cfg T S d cell.tree e ∧ ∀ j, e ≠ .deferred j := by
  obtain ⟨h1, h2, h3, h4, dn, h5, h6⟩ := hf
  replace h1 : Below [root] cell := h1
  replace h3 : md = d + cell.tree.off := h3
  replace h5 : cell.refs = dn ++ [] ++ [] := h5
  replace h6 : Slots H cfg T S md (dn.map CCell.tree) kids := h6
  replace h4 : md ≤ 255 := h4
  have hb := ha.built h1
  have h5' : dn.map CCell.tree = cell.tree.refs := by rw [CCell.tree_refs, h5]; simp
  rw [h5', h3] at h6
  obtain ⟨i1, i2⟩ := inner_copy hb
  have hexo : cell.tree.exotic = cell.desc.isExotic := by cases cell; rfl
  have hl4 : cell.tree.refs.length ≤ 4 := by rw [CCell.tree_refs, List.length_map]; exact hb.facts.refs_le
  unfold makeExt
  dsimp only
  by_cases hall : kids.all Ext.isWhole = true
  · rw [if_pos hall]
    obtain ⟨p, e1, e2⟩ := node_good hb.facts.wf hl4 (by omega) i1 i2 (h6.good hall)
    rw [hexo] at e1
    refine ⟨.whole p, ?_, .whole e2, by intro j e; cases e⟩
    show (rebuild H cell (wholes kids)).map Ext.whole = _
    unfold rebuild
    rw [e1]; rfl
  · rw [if_neg hall]
    have f := hb.facts
    obtain ⟨b', e, _, _⟩ := DataBuilder.storeRaw_spec DataBuilder.wf_new cell.data (by have := f.data; have := f.bitLen; omega) (n := cell.bitLen)
      (show 0 + cell.bitLen ≤ 1023 by have := f.bitLen; omega)
    rw [e] at i1 i2 ⊢
    refine ⟨_, rfl, ?_, by intro j e; cases e⟩
    rw [← hexo]
    exact .parts f.wf hl4 (by omega) i1 i2 h6.len (fun i g1 g2 => (h6.get i g1 g2).1) (fun i g1 g2 => (h6.get i g1 g2).2)

theorem insertNew_ok {cells : List (Hash × Ext)} (hc : CellsOk H cfg T S root cells) {c : CCell} {d : Nat} {e : Ext} (h1 : Below [root] c)
    (h3 : kind H cfg c.tree = .node ∨ c.tree = root.tree) (h4 : Enters H cfg 0 root.tree d c.tree) (h5 : Stands H cfg T S d c.tree e) :
    CellsOk H cfg T S root (insertNew cells c.reprHash e) := by
  unfold insertNew
  split
  · exact hc
  · intro k x hm
    rcases List.mem_cons.mp hm with hm | hm
    · injection hm with a b
      subst a b
      exact ⟨c, d, h1, rfl, h3, h4, h5⟩
    · exact hc k x hm

/-- The choice after a failed lookup, by the kind of the cell. -/
theorem advance_missed {split : List Hash} {main : Bool} {next : Nat} {cells : List (Hash × Ext)} {pruned : List Hash} {c : CCell} {f : Frame} {st : List Frame}
    (hc : Built H c) :
    advance H cfg split main next cells pruned (.missed c (f :: st)) = (match kind H cfg c.tree with
      | .whole => some ⟨giveChild (.whole c) (f :: st), cells, pruned, none⟩
      | .pruned => match pruneAt H c f.md with
        | .ok p => some ⟨giveChild (.whole p) (f :: st), cells, c.reprHash :: pruned, none⟩
        | .error x => some ⟨.done (.error x), cells, pruned, none⟩
      | .node => if main && decide (c.reprHash ∈ split) then some ⟨giveChild (.deferred next) (f :: st), cells, pruned, some (c, f.md)⟩
        else match bump f.md c with
          | .ok md' => some ⟨.walk (⟨c, md', c.refs, []⟩ :: f :: st), cells, pruned, none⟩
          | .error x => some ⟨.done (.error x), cells, pruned, none⟩) := by
  rw [advance]
  unfold kind
  rw [prunable_eq hc, ← reprHash_tree hc]
  cases cfg.filter c.reprHash with
  | inclSubtree => rfl
  | incl => rfl
  | skip =>
    dsimp only
    by_cases hp : c.tree.refs ≠ [] ∨ (cfg.pruneBig = true ∧ 288 < c.tree.bits.length)
    · rw [decide_eq_true hp, if_pos hp]; rfl
    · rw [decide_eq_false hp, if_neg hp]; rfl

/-- Pruning succeeds with the right cell, or the tree has no proof. -/
theorem pruneAt_ok {n c : CCell} {d : Nat} (hcb : Built H c) (hen : Enters H cfg 0 root.tree d n.tree) (hc : c ∈ n.refs) (hk : kind H cfg c.tree = .pruned) :
    (∃ p, pruneAt H c (d + n.tree.off) = .ok p ∧ Built H p ∧ p.tree = prunedTree H (d + n.tree.off) c.tree ∧ Prunes H (d + n.tree.off) c.tree p.tree ∧
      Prunable H (d + n.tree.off) c.tree) ∨ ∃ x, pruneAt H c (d + n.tree.off) = .error x ∧ Bad H cfg root.tree := by
  have hpf : PrunedFrom H cfg 0 root.tree (d + n.tree.off) c.tree := ⟨d, n.tree, hen, mem_refs_tree hc, hk, rfl⟩
  have hmask : c.view.mask = (c.tree.info H).mask := hcb.facts.agrees.mask
  unfold pruneAt
  by_cases h8 : d + n.tree.off < 8
  · rw [if_pos h8]
    by_cases h2 : d + n.tree.off ≤ 2
    · by_cases hm : c.view.mask.toNat < 2 ^ (d + n.tree.off + 1)
      · obtain ⟨p, e1, e2, _⟩ := (C13_make_pruned H hcb.view_ok h2).1 hm
        exact .inl ⟨p, e1, e2, makePruned_tree hcb h2 e1, .prune hcb h2 e1, h2, hmask ▸ hm⟩
      · exact .inr ⟨_, (C13_make_pruned H hcb.view_ok h2).2 hm, Or.inl ⟨_, _, hpf, fun h => hm (hmask ▸ h.2)⟩⟩
    · cases hmp : makePruned H c.view (d + n.tree.off) with
      | ok p => exact absurd hmp (makePruned_deep hcb.view_ok (by omega) h8)
      | error e => exact .inr ⟨_, rfl, Or.inl ⟨_, _, hpf, fun h => h2 h.1⟩⟩
  · rw [if_neg h8]
    exact .inr ⟨_, rfl, Or.inl ⟨_, _, hpf, fun h => absurd h.1 (by omega)⟩⟩

/-- What a step establishes; the table of tasks may have grown by the task that it spawns. -/
structure StepOk (H : Hasher) (cfg : Config) (T' : Table) (S : List Hash) (root : CCell) (t0 : Cell) (d0 : Nat) (o : Out) : Prop where
  cells : CellsOk H cfg T' o.pruned root o.cells
  phase : PhaseOk H cfg T' o.pruned root t0 d0 o.phase
  spawn : ∀ c d, o.spawn = some (c, d) → Below [root] c ∧ Enters H cfg 0 root.tree d c.tree ∧ kind H cfg c.tree = .node ∧ d ≤ 255
  more : ∀ h ∈ S, h ∈ o.pruned
  sound : ∀ h ∈ o.pruned, h ∈ S ∨ ∃ d x, PrunedFrom H cfg 0 root.tree d x ∧ h = x.reprHash H

theorem advance_ok (ha : Boc.Writer.Apart H (Below [root])) (ho : OneDepth H cfg root.tree) {split : List Hash} {main : Bool} {next : Nat}
    {cells : List (Hash × Ext)} (hc : CellsOk H cfg T S root cells) (h0 : kind H cfg t0 = .node ∨ t0 = root.tree) {p : Phase} (hp : PhaseOk H cfg T S root t0 d0 p)
    {o : Out} (h : advance H cfg split main next cells S p = some o) {T' : Table} (hT : ∀ i v, T i = some v → T' i = some v)
    (hn : ∀ c d, o.spawn = some (c, d) → T' next = some (c.tree, d)) : StepOk H cfg T' S root t0 d0 o := by
  have hS : ∀ x ∈ S, x ∈ S := fun _ h => h
  have quiet : ∀ ph, PhaseOk H cfg T S root t0 d0 ph → StepOk H cfg T' S root t0 d0 ⟨ph, cells, S, none⟩ := fun ph hph =>
    ⟨hc.mono hT hS, hph.mono hT hS, by rintro c d ⟨⟩, hS, fun _ h => .inl h⟩
  match p, hp, h with
  | .walk [], hp, _ => exact (StackOk.ne_nil (pend := []) hp).elim
  | .missed c [], hp, _ => exact (StackOk.ne_nil (pend := [c]) hp).elim
  | .walk (⟨cell, md, c :: cs, kids⟩ :: st), hp, h =>
    have hst : StackOk H cfg T S root t0 d0 [c] (⟨cell, md, cs, kids⟩ :: st) := StackOk.take (c := c) hp
    rw [advance] at h
    cases hf : find cells c.reprHash with
    | some e =>
      rw [hf] at h
      injection h with h
      subst h
      obtain ⟨d, hfr⟩ := hst.top
      exact quiet _ (give_ok ha hst (hit_slot ha ho hc hfr hf))
    | none =>
      rw [hf] at h
      injection h with h
      subst h
      exact quiet _ hst
  | .walk (⟨cell, md, [], kids⟩ :: st), hp, h =>
    replace hp : StackOk H cfg T S root t0 d0 [] (⟨cell, md, [], kids⟩ :: st) := hp
    rw [advance] at h
    cases hp with
    | base hfr ht =>
      obtain ⟨e, e1, e2, e3⟩ := makeExt_ok ha hfr
      rw [e1] at h
      injection h with h
      subst h
      replace ht : cell.tree = t0 := ht
      refine ⟨(insertNew_ok hc hfr.below (by rw [← ht] at h0; exact h0) hfr.ent e2).mono hT hS, ?_, by rintro c d ⟨⟩, hS, fun _ h => .inl h⟩
      rw [ht] at e2
      exact ⟨e2.mono hT hS, e3⟩
    | @push _ _ g st hfr hk hs =>
      obtain ⟨e, e1, e2, e3⟩ := makeExt_ok ha hfr
      rw [e1] at h
      injection h with h
      subst h
      refine ⟨(insertNew_ok hc hfr.below (.inl hk) hfr.ent e2).mono hT hS, ?_, by rintro c d ⟨⟩, hS, fun _ h => .inl h⟩
      exact PhaseOk.mono (T := T) (S := S) hT hS (give_ok ha hs ⟨by unfold Leaf; rw [hk]; trivial, fun _ => e2⟩)
  | .missed c (f :: st), hp, h =>
    replace hp : StackOk H cfg T S root t0 d0 [c] (f :: st) := hp
    obtain ⟨d, hfr⟩ := hp.top
    have hbc := ha.child hfr.below hfr.child
    have hcb := ha.built hbc
    rw [advance_missed hcb] at h
    cases hk : kind H cfg c.tree with
    | whole =>
      rw [hk] at h
      injection h with h
      subst h
      refine quiet _ (give_ok ha hp ⟨?_, fun h => by rw [hk] at h; cases h⟩)
      unfold Leaf
      rw [hk]
      exact ⟨c, rfl, hcb, rfl⟩
    | pruned =>
      rw [hk] at h
      dsimp only at h
      rcases pruneAt_ok hcb hfr.ent hfr.child hk with ⟨p, e1, e2, e3, e4, e5⟩ | ⟨x, e1, e2⟩
      · rw [hfr.md, e1] at h
        injection h with h
        subst h
        have hS' : ∀ x ∈ S, x ∈ c.reprHash :: S := fun _ h => List.mem_cons_of_mem _ h
        refine ⟨hc.mono hT hS', ?_, by rintro c d ⟨⟩, hS', ?_⟩
        · refine give_ok ha (hp.mono hT hS') ⟨?_, fun h => by rw [hk] at h; cases h⟩
          unfold Leaf
          rw [hk]
          rw [hfr.md]
          exact ⟨p, rfl, e2, e3, e4, by rw [← reprHash_tree hcb]; exact List.mem_cons_self, e5⟩
        · intro h hh
          rcases List.mem_cons.mp hh with rfl | hh
          · exact .inr ⟨_, _, ⟨d, f.cell.tree, hfr.ent, mem_refs_tree hfr.child, hk, rfl⟩, reprHash_tree hcb⟩
          · exact .inl hh
      · rw [hfr.md, e1] at h
        injection h with h
        subst h
        exact quiet _ e2
    | node =>
      rw [hk] at h
      dsimp only at h
      have hent := hfr.ent.snoc (mem_refs_tree hfr.child) hk
      rw [← hfr.md] at hent
      by_cases hsp : (main && decide (c.reprHash ∈ split)) = true
      · rw [if_pos hsp] at h
        injection h with h
        subst h
        refine ⟨hc.mono hT hS, ?_, ?_, hS, fun _ h => .inl h⟩
        · exact give_ok ha (hp.mono hT hS) ⟨by unfold Leaf; rw [hk]; trivial, fun _ => .deferred (hn c f.md rfl)⟩
        · rintro c' d' e
          injection e with e
          injection e with e e'
          subst e e'
          exact ⟨hbc, hent, hk, hfr.le⟩
      · rw [if_neg hsp] at h
        rw [bump_eq hcb _ hfr.le] at h
        by_cases h255 : f.md + c.tree.off ≤ 255
        · rw [if_pos h255] at h
          injection h with h
          subst h
          refine quiet _ (.push ⟨hbc, hent, rfl, h255, [], rfl, trivial⟩ hk hp)
        · rw [if_neg h255] at h
          injection h with h
          subst h
          exact quiet _ (Or.inr ⟨_, _, hent, by omega⟩)

end steps

/-! ### All tasks -/

def tableOf (tasks : List Task) : Table := fun i => (tasks[i]?).map fun t => (t.root.tree, t.md)

structure TaskOk (H : Hasher) (cfg : Config) (T : Table) (S : List Hash) (root : CCell) (t : Task) : Prop where
  below : Below [root] t.root
  ent : Enters H cfg 0 root.tree t.md t.root.tree
  kind : kind H cfg t.root.tree = .node ∨ t.root.tree = root.tree
  phase : PhaseOk H cfg T S root t.root.tree t.md t.phase

structure PoolOk (H : Hasher) (cfg : Config) (root : CCell) (s : Pool) : Prop where
  cells : CellsOk H cfg (tableOf s.tasks) s.pruned root s.cells
  tasks : ∀ t ∈ s.tasks, TaskOk H cfg (tableOf s.tasks) s.pruned root t
  first : tableOf s.tasks 0 = some (root.tree, 0)
  pruned : ∀ h ∈ s.pruned, ∃ d x, PrunedFrom H cfg 0 root.tree d x ∧ h = x.reprHash H

theorem start_ok {H : Hasher} {cfg : Config} {T : Table} {S : List Hash} {root c : CCell} {d : Nat} (hcb : Built H c) (hb : Below [root] c)
    (he : Enters H cfg 0 root.tree d c.tree) (hd : d ≤ 255) (hk : kind H cfg c.tree = .node ∨ c.tree = root.tree) : TaskOk H cfg T S root (Task.start c d) := by
  refine ⟨hb, he, hk, ?_⟩
  show PhaseOk H cfg T S root c.tree d (Task.start c d).phase
  unfold Task.start
  dsimp only
  rw [bump_eq hcb _ hd]
  by_cases h255 : d + c.tree.off ≤ 255
  · rw [if_pos h255]
    exact .base ⟨hb, he, rfl, h255, [], rfl, trivial⟩ rfl
  · rw [if_neg h255]
    exact Or.inr ⟨_, _, he, by omega⟩

theorem start_pool {H : Hasher} {cfg : Config} {root : CCell} (hr : Built H root) : PoolOk H cfg root (Pool.start root) where
  cells := by intro h e hm; cases hm
  tasks := by
    intro t ht
    rw [List.mem_singleton.mp ht]
    exact start_ok hr ⟨root, by simp, .refl _⟩ (.refl _ _) (by omega) (.inr rfl)
  first := rfl
  pruned := by intro h hh; cases hh

theorem step_ok {H : Hasher} {cfg : Config} {root : CCell} (ha : Boc.Writer.Apart H (Below [root])) (ho : OneDepth H cfg root.tree) {split : List Hash}
    {s s' : Pool} {i : Nat} (hs : PoolOk H cfg root s) (h : s.step H cfg split i = some s') : PoolOk H cfg root s' := by
  unfold Pool.step at h
  cases ht : s.tasks[i]? with
  | none => rw [ht] at h; cases h
  | some t =>
    rw [ht] at h
    dsimp only at h
    cases hadv : advance H cfg split (i == 0) s.tasks.length s.cells s.pruned t.phase with
    | none => rw [hadv] at h; cases h
    | some o =>
      rw [hadv] at h
      injection h with h
      subst h
      have hi : i < s.tasks.length := (List.getElem?_eq_some_iff.mp ht).1
      have hti : s.tasks[i] = t := (List.getElem?_eq_some_iff.mp ht).2
      have htm : t ∈ s.tasks := by rw [← hti]; exact List.getElem_mem hi
      have hto := hs.tasks t htm
      -- the new table of tasks
      have hget : ∀ j v, tableOf s.tasks j = some v → tableOf (s.tasks.set i { t with phase := o.phase } ++ (o.spawn.toList.map fun a => Task.start a.1 a.2)) j = some v := by
        intro j v hv
        unfold tableOf at hv ⊢
        obtain ⟨u, hu, huv⟩ := Option.map_eq_some_iff.mp hv
        have hj : j < s.tasks.length := (List.getElem?_eq_some_iff.mp hu).1
        rw [List.getElem?_append_left (by simpa using hj), List.getElem?_set]
        by_cases hij : i = j
        · subst hij
          rw [if_pos rfl, if_pos hj]
          rw [ht] at hu
          injection hu with hu
          subst hu
          exact congrArg some huv
        · rw [if_neg hij, hu]
          exact congrArg some huv
      have hnew : ∀ c d, o.spawn = some (c, d) → tableOf (s.tasks.set i { t with phase := o.phase } ++ (o.spawn.toList.map fun a => Task.start a.1 a.2)) s.tasks.length = some (c.tree, d) := by
        intro c d hsp
        unfold tableOf
        rw [List.getElem?_append_right (by simp), hsp]
        simp [Task.start]
      have hok := advance_ok ha ho hs.cells hto.kind hto.phase hadv hget hnew
      refine ⟨hok.cells, ?_, hget _ _ hs.first, ?_⟩
      · intro u hu
        rcases List.mem_append.mp hu with hu | hu
        · rcases List.mem_or_eq_of_mem_set hu with hu | rfl
          · have := hs.tasks u hu
            exact ⟨this.below, this.ent, this.kind, this.phase.mono hget hok.more⟩
          · exact ⟨hto.below, hto.ent, hto.kind, hok.phase⟩
        · obtain ⟨⟨c, d⟩, hcd, rfl⟩ := List.mem_map.mp hu
          obtain ⟨h1, h2, h3, h4⟩ := hok.spawn c d (Option.mem_toList.mp hcd)
          exact start_ok (ha.built h1) h1 h2 h4 (.inl h3)
      · intro h hh
        rcases hok.sound h hh with hh | hh
        · exact hs.pruned h hh
        · exact hh

end Par
end Merkle
end Verif
