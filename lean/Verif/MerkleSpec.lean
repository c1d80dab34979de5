import Verif.MerkleLemmas
/-
What a Merkle proof should contain, on plain trees without caches, and the proof that the builder makes exactly that.
-/
set_option linter.unusedVariables false
set_option linter.unusedSimpArgs false
namespace Verif
namespace Merkle
open Boc (Below Clash below_apart)

/-! ### Specification -/

/-- What happens to a cell below an included one. -/
inductive Kind where
  | whole
  | pruned
  | node
  deriving DecidableEq, Repr

/-- A cell of an included subtree stays as it is; a skipped cell is pruned when it has references (or is big, if asked for);
every other cell is included and its references are considered in turn. -/
def kind (H : Hasher) (cfg : Config) (t : Cell) : Kind :=
  match cfg.filter (t.reprHash H) with
  | .inclSubtree => .whole
  | .incl => .node
  | .skip => if t.refs ≠ [] ∨ (cfg.pruneBig = true ∧ 288 < t.bits.length) then .pruned else .node

/-- The cell that takes the place of `t`. -/
def place (H : Hasher) (d : Nat) (t : Cell) (node : Cell) : Kind → Cell
  | .whole => t
  | .pruned => prunedTree H d t
  | .node => node

mutual
/-- The proof tree of an included cell `t` at Merkle depth `d`. -/
def specNode (H : Hasher) (cfg : Config) (d : Nat) : Cell → Cell
  | .mk e b rs => .mk e b (specKids H cfg (d + offOf e b) rs)
def specKids (H : Hasher) (cfg : Config) (d : Nat) : List Cell → List Cell
  | [] => []
  | t :: ts => place H d t (specNode H cfg d t) (kind H cfg t) :: specKids H cfg d ts
end

/-- `x` at Merkle depth `d'` is included when going down from `t` at Merkle depth `d`. -/
inductive Enters (H : Hasher) (cfg : Config) : Nat → Cell → Nat → Cell → Prop
  | refl (d : Nat) (t : Cell) : Enters H cfg d t d t
  | step {d : Nat} {t r : Cell} {d' : Nat} {x : Cell} (hr : r ∈ t.refs) (hk : kind H cfg r = .node)
      (h : Enters H cfg (d + t.off) r d' x) : Enters H cfg d t d' x

/-- `x` is replaced by a pruned branch for Merkle depth `d'`. -/
def PrunedFrom (H : Hasher) (cfg : Config) (d : Nat) (t : Cell) (d' : Nat) (x : Cell) : Prop :=
  ∃ e s, Enters H cfg d t e s ∧ x ∈ s.refs ∧ kind H cfg x = .pruned ∧ d' = e + s.off

/-- No included cell occurs at two Merkle depths. -/
def OneDepth (H : Hasher) (cfg : Config) (root : Cell) : Prop :=
  ∀ d d' t, Enters H cfg 0 root d t → Enters H cfg 0 root d' t → d = d'

/-- There is a pruned branch of `x` for Merkle depth `d`. -/
def Prunable (H : Hasher) (d : Nat) (x : Cell) : Prop := d ≤ 2 ∧ (x.info H).mask.toNat < 2 ^ (d + 1)

/-- Some replaced cell has no pruned branch for its Merkle depth, or Merkle cells are nested more than 255 deep. -/
def BadFrom (H : Hasher) (cfg : Config) (d : Nat) (t : Cell) : Prop :=
  (∃ d' x, PrunedFrom H cfg d t d' x ∧ ¬ Prunable H d' x) ∨
  (∃ d' x, Enters H cfg d t d' x ∧ 255 < d' + x.off)

/-- The same, from the root. -/
abbrev Bad (H : Hasher) (cfg : Config) (root : Cell) : Prop := BadFrom H cfg 0 root

/-! ### Facts about the specification -/

theorem Enters.trans {H : Hasher} {cfg : Config} {d : Nat} {t : Cell} {e : Nat} {s : Cell} {d' : Nat} {x : Cell}
    (h : Enters H cfg d t e s) (h' : Enters H cfg e s d' x) : Enters H cfg d t d' x := by
  induction h with
  | refl => exact h'
  | step hr hk h ih => exact .step hr hk (ih h')

theorem Enters.snoc {H : Hasher} {cfg : Config} {d : Nat} {t : Cell} {e : Nat} {s : Cell} {r : Cell}
    (h : Enters H cfg d t e s) (hr : r ∈ s.refs) (hk : kind H cfg r = .node) : Enters H cfg d t (e + s.off) r :=
  h.trans (.step hr hk (.refl _ _))

theorem PrunedFrom.head {H : Hasher} {cfg : Config} {d : Nat} {t : Cell} {d' : Nat} {x : Cell} (h : PrunedFrom H cfg d t d' x) :
    (x ∈ t.refs ∧ kind H cfg x = .pruned ∧ d' = d + t.off) ∨
    ∃ r ∈ t.refs, kind H cfg r = .node ∧ PrunedFrom H cfg (d + t.off) r d' x := by
  obtain ⟨e, s, he, hx, hk, rfl⟩ := h
  cases he with
  | refl => exact Or.inl ⟨hx, hk, rfl⟩
  | step hr hk' he => exact Or.inr ⟨_, hr, hk', e, s, he, hx, hk, rfl⟩

theorem BadFrom.head {H : Hasher} {cfg : Config} {d : Nat} {t : Cell} (h : BadFrom H cfg d t) :
    255 < d + t.off ∨ (∃ x ∈ t.refs, kind H cfg x = .pruned ∧ ¬ Prunable H (d + t.off) x) ∨
    ∃ r ∈ t.refs, kind H cfg r = .node ∧ BadFrom H cfg (d + t.off) r := by
  rcases h with ⟨d', x, hx, hb⟩ | ⟨d', x, hx, hb⟩
  · rcases hx.head with ⟨h1, h2, rfl⟩ | ⟨r, h1, h2, h3⟩
    · exact Or.inr (Or.inl ⟨x, h1, h2, hb⟩)
    · exact Or.inr (Or.inr ⟨r, h1, h2, Or.inl ⟨d', x, h3, hb⟩⟩)
  · cases hx with
    | refl => exact Or.inl hb
    | step hr hk h => exact Or.inr (Or.inr ⟨_, hr, hk, Or.inr ⟨d', x, h, hb⟩⟩)

theorem specKids_eq (H : Hasher) (cfg : Config) (d : Nat) : ∀ l : List Cell,
    specKids H cfg d l = l.map fun t => place H d t (specNode H cfg d t) (kind H cfg t)
  | [] => rfl
  | t :: ts => by rw [specKids, specKids_eq H cfg d ts]; rfl

/-! ### The builder -/

theorem reprHash_tree {H : Hasher} {c : CCell} (h : Built H c) : c.reprHash = c.tree.reprHash H := h.facts.agrees.hash 3

theorem find_mem {α : Type} : ∀ {m : List (Hash × α)} {h : Hash} {v : α}, find m h = some v → (h, v) ∈ m
  | [], _, _, e => by cases e
  | (k, w) :: m, h, v, e => by
    rw [find] at e
    split at e
    · rename_i hk
      injection e with e
      rw [hk, e]; simp
    · exact List.mem_cons_of_mem _ (find_mem e)

theorem find_none {α : Type} : ∀ {m : List (Hash × α)} {h : Hash}, find m h = none → ∀ v, (h, v) ∉ m
  | [], _, _, v, hv => by cases hv
  | (k, w) :: m, h, e, v, hv => by
    rw [find] at e
    split at e
    · cases e
    · rename_i hk
      rcases List.mem_cons.mp hv with hv | hv
      · injection hv with h1 h2; exact hk h1.symm
      · exact find_none e v hv

theorem prunable_eq {H : Hasher} {cfg : Config} {c : CCell} (h : Built H c) :
    prunable cfg c = decide (c.tree.refs ≠ [] ∨ (cfg.pruneBig = true ∧ 288 < c.tree.bits.length)) := by
  have f := h.facts
  unfold prunable prunedBitsThreshold
  rw [f.refs, f.len]
  have : (c.refs.length > 0) ↔ c.tree.refs ≠ [] := by
    rw [CCell.tree_refs]
    cases c.refs <;> simp
  rw [show decide (c.refs.length > 0) = decide (c.tree.refs ≠ []) from decide_eq_decide.mpr this]
  cases cfg.pruneBig <;> simp

/-- What one step does with a cell that was not processed before. -/
theorem proofChild_new {H : Hasher} {cfg : Config} {md : Nat} {c : CCell} {st : State} {visit : Nat → Except Err (CCell × State)}
    (hc : Built H c) (hf : find st.cells c.reprHash = none) :
    proofChild H cfg md c st visit = (match kind H cfg c.tree with
      | .whole => .ok (c, st)
      | .pruned => pruneAt H c md >>= fun p => .ok (p, { st with pruned := c.reprHash :: st.pruned })
      | .node => bump md c >>= fun md' => visit md') := by
  unfold proofChild
  rw [hf]
  dsimp only
  unfold kind
  rw [prunable_eq hc, ← reprHash_tree hc]
  cases cfg.filter c.reprHash with
  | inclSubtree => rfl
  | incl => rfl
  | skip =>
    dsimp only
    by_cases hp : c.tree.refs ≠ [] ∨ (cfg.pruneBig = true ∧ 288 < c.tree.bits.length)
    · rw [decide_eq_true hp, if_pos hp]
    · rw [decide_eq_false hp, if_neg hp]

/-- The cached cells are right, and every recorded hash is that of a pruned cell. -/
structure Inv (H : Hasher) (cfg : Config) (root : CCell) (st : State) : Prop where
  cells : ∀ h p, (h, p) ∈ st.cells → ∃ c d, Below [root] c ∧ h = c.reprHash ∧ kind H cfg c.tree = .node ∧
    Enters H cfg 0 root.tree d c.tree ∧ Built H p ∧ p.tree = specNode H cfg d c.tree ∧ Prunes H d c.tree p.tree ∧
    (∀ d' x, PrunedFrom H cfg d c.tree d' x → x.reprHash H ∈ st.pruned) ∧ ¬ BadFrom H cfg d c.tree
  pruned : ∀ h ∈ st.pruned, ∃ d x, PrunedFrom H cfg 0 root.tree d x ∧ h = x.reprHash H

/-- A node was turned into its proof tree. -/
structure Done (H : Hasher) (cfg : Config) (d : Nat) (c p : CCell) (st st' : State) : Prop where
  built : Built H p
  tree : p.tree = specNode H cfg d c.tree
  prunes : Prunes H d c.tree p.tree
  mono : ∀ h ∈ st.pruned, h ∈ st'.pruned
  all : ∀ d' x, PrunedFrom H cfg d c.tree d' x → x.reprHash H ∈ st'.pruned
  good : ¬ BadFrom H cfg d c.tree

/-- The references were turned into their places. -/
structure KidsDone (H : Hasher) (cfg : Config) (d : Nat) (cs ps : List CCell) (st st' : State) : Prop where
  built : ∀ p ∈ ps, Built H p
  trees : ps.map CCell.tree = specKids H cfg d (cs.map CCell.tree)
  prunes : ∀ i (h1 : i < (cs.map CCell.tree).length) (h2 : i < (ps.map CCell.tree).length),
    Prunes H d (cs.map CCell.tree)[i] (ps.map CCell.tree)[i]
  mono : ∀ h ∈ st.pruned, h ∈ st'.pruned
  all : ∀ r ∈ cs, (kind H cfg r.tree = .pruned → r.reprHash ∈ st'.pruned ∧ Prunable H d r.tree) ∧
    (kind H cfg r.tree = .node → (∀ d' x, PrunedFrom H cfg d r.tree d' x → x.reprHash H ∈ st'.pruned) ∧ ¬ BadFrom H cfg d r.tree)

theorem Inv.node {H : Hasher} {cfg : Config} {root : CCell} {st : State} (h : Inv H cfg root st) {c p : CCell} {d : Nat}
    (hb : Below [root] c) (hk : kind H cfg c.tree = .node) (he : Enters H cfg 0 root.tree d c.tree) {st0 : State}
    (hd : Done H cfg d c p st0 st) : Inv H cfg root { st with cells := (c.reprHash, p) :: st.cells } where
  cells := by
    intro k q hm
    rcases List.mem_cons.mp hm with hm | hm
    · injection hm with h1 h2
      subst h1 h2
      exact ⟨c, d, hb, rfl, hk, he, hd.built, hd.tree, hd.prunes, hd.all, hd.good⟩
    · exact h.cells k q hm
  pruned := h.pruned

theorem mem_refs_tree {c r : CCell} (h : r ∈ c.refs) : r.tree ∈ c.tree.refs := by
  rw [CCell.tree_refs]; exact List.mem_map.mpr ⟨r, h, rfl⟩

/-- One reference. -/
theorem child_spec {H : Hasher} {cfg : Config} {root : CCell} (ha : Boc.Writer.Apart H (Below [root])) (ho : OneDepth H cfg root.tree)
    {n c : CCell} {d : Nat} (hn : Below [root] n) (hen : Enters H cfg 0 root.tree d n.tree) (hc : c ∈ n.refs) (hd : d + n.tree.off ≤ 255)
    {st : State} (hi : Inv H cfg root st)
    (ih : ∀ st, Inv H cfg root st → d + n.tree.off + c.tree.off ≤ 255 → Enters H cfg 0 root.tree (d + n.tree.off) c.tree →
      (∃ p st', proofNode H cfg (d + n.tree.off + c.tree.off) c st = .ok (p, { st' with cells := (c.reprHash, p) :: st'.cells }) ∧
        Inv H cfg root st' ∧ Done H cfg (d + n.tree.off) c p st st') ∨
      (∃ e, proofNode H cfg (d + n.tree.off + c.tree.off) c st = .error e ∧ Bad H cfg root.tree)) :
    (∃ p st', proofChild H cfg (d + n.tree.off) c st (fun md' => proofNode H cfg md' c st) = .ok (p, st') ∧
      Inv H cfg root st' ∧ KidsDone H cfg (d + n.tree.off) [c] [p] st st') ∨
    (∃ e, proofChild H cfg (d + n.tree.off) c st (fun md' => proofNode H cfg md' c st) = .error e ∧ Bad H cfg root.tree) := by
  have hsc := ha.child hn hc
  have hcb := ha.built hsc
  have hct := mem_refs_tree hc
  have single : ∀ (p : CCell) (st' : State), Built H p → p.tree = place H (d + n.tree.off) c.tree (specNode H cfg (d + n.tree.off) c.tree) (kind H cfg c.tree) →
      Prunes H (d + n.tree.off) c.tree p.tree → (∀ h ∈ st.pruned, h ∈ st'.pruned) → (kind H cfg c.tree = .pruned → c.reprHash ∈ st'.pruned ∧ Prunable H (d + n.tree.off) c.tree) →
      (kind H cfg c.tree = .node → (∀ d' x, PrunedFrom H cfg (d + n.tree.off) c.tree d' x → x.reprHash H ∈ st'.pruned) ∧ ¬ BadFrom H cfg (d + n.tree.off) c.tree) →
      KidsDone H cfg (d + n.tree.off) [c] [p] st st' := by
    intro p st' h1 h2 h3 h4 h5 h6
    refine ⟨?_, ?_, ?_, h4, ?_⟩
    · intro q hq; rw [List.mem_singleton.mp hq]; exact h1
    · simp only [List.map_cons, List.map_nil, specKids]; rw [h2]
    · intro i g1 g2
      have : i = 0 := by simp at g1; omega
      subst this
      exact h3
    · intro r hr; rw [List.mem_singleton.mp hr]; exact ⟨h5, h6⟩
  cases hf : find st.cells c.reprHash with
  | some p =>
    have hrun : proofChild H cfg (d + n.tree.off) c st (fun md' => proofNode H cfg md' c st) = .ok (p, st) := by
      unfold proofChild; rw [hf]
    obtain ⟨c0, d0, hb0, hh0, hk0, he0, hp0, ht0, hpr0, hall, hgd⟩ := hi.cells _ _ (find_mem hf)
    have heq := ha.inj hsc hb0 hh0
    rw [← heq] at hk0 he0 ht0 hpr0 hall hgd
    have := ho _ _ _ he0 (hen.snoc hct hk0)
    subst this
    refine Or.inl ⟨p, st, hrun, hi, single p st hp0 ?_ hpr0 (fun _ h => h) ?_ fun _ => ⟨hall, hgd⟩⟩
    · rw [hk0]; exact ht0
    · rw [hk0]; intro h; cases h
  | none =>
    have hrun := proofChild_new (cfg := cfg) (md := d + n.tree.off) (visit := fun md' => proofNode H cfg md' c st) hcb hf
    cases hk : kind H cfg c.tree with
    | whole =>
      rw [hk] at hrun single
      refine Or.inl ⟨c, st, hrun, hi, single c st hcb rfl (.same _ _) (fun _ h => h) ?_ ?_⟩
      · intro h; cases h
      · intro h; cases h
    | pruned =>
      rw [hk] at hrun single
      dsimp only at hrun
      unfold pruneAt at hrun
      have hpf : PrunedFrom H cfg 0 root.tree (d + n.tree.off) c.tree := ⟨d, n.tree, hen, hct, hk, rfl⟩
      have hmask : c.view.mask = (c.tree.info H).mask := hcb.facts.agrees.mask
      by_cases h8 : d + n.tree.off < 8
      · rw [if_pos h8] at hrun
        by_cases h2 : d + n.tree.off ≤ 2
        · by_cases hm : c.view.mask.toNat < 2 ^ (d + n.tree.off + 1)
          · obtain ⟨p, e1, e2, _⟩ := (C13_make_pruned H hcb.view_ok h2).1 hm
            rw [e1] at hrun
            refine Or.inl ⟨p, _, hrun, ⟨?_, ?_⟩, single p _ e2 (makePruned_tree hcb h2 e1) (.prune hcb h2 e1) ?_ ?_ ?_⟩
            · intro h q hq
              obtain ⟨c0, d0, g1, g2, g3, g4, g5, g6, g7, g8, g9⟩ := hi.cells h q hq
              exact ⟨c0, d0, g1, g2, g3, g4, g5, g6, g7, fun d' x hx => List.mem_cons_of_mem _ (g8 d' x hx), g9⟩
            · intro h hh
              rcases List.mem_cons.mp hh with rfl | hh
              · exact ⟨_, _, hpf, reprHash_tree hcb⟩
              · exact hi.pruned h hh
            · intro h hh; exact List.mem_cons_of_mem _ hh
            · intro _; exact ⟨List.mem_cons_self, h2, hmask ▸ hm⟩
            · intro h; cases h
          · rw [(C13_make_pruned H hcb.view_ok h2).2 hm] at hrun
            exact Or.inr ⟨_, hrun, Or.inl ⟨_, _, hpf, fun h => hm (hmask ▸ h.2)⟩⟩
        · cases hmp : makePruned H c.view (d + n.tree.off) with
          | ok p => exact absurd hmp (makePruned_deep hcb.view_ok (by omega) h8)
          | error e =>
            rw [hmp] at hrun
            exact Or.inr ⟨_, hrun, Or.inl ⟨_, _, hpf, fun h => h2 h.1⟩⟩
      · rw [if_neg h8] at hrun
        exact Or.inr ⟨_, hrun, Or.inl ⟨_, _, hpf, fun h => absurd h.1 (by omega)⟩⟩
    | node =>
      rw [hk] at hrun single
      dsimp only at hrun
      have henc := hen.snoc hct hk
      rw [bump_eq hcb _ hd] at hrun
      by_cases h255 : d + n.tree.off + c.tree.off ≤ 255
      · rw [if_pos h255] at hrun
        have hrun : _ = proofNode H cfg (d + n.tree.off + c.tree.off) c st := hrun
        rcases ih st hi h255 henc with ⟨p, st', e, hi', hdone⟩ | ⟨e, he, hbad⟩
        · rw [e] at hrun
          refine Or.inl ⟨p, _, hrun, hi'.node hsc hk henc hdone, single p _ hdone.built hdone.tree hdone.prunes hdone.mono ?_ fun _ => ⟨hdone.all, hdone.good⟩⟩
          intro h; cases h
        · rw [he] at hrun
          exact Or.inr ⟨_, hrun, hbad⟩
      · rw [if_neg h255] at hrun
        exact Or.inr ⟨_, hrun, Or.inr ⟨_, _, henc, by omega⟩⟩

theorem KidsDone.cons {H : Hasher} {cfg : Config} {d : Nat} {c p : CCell} {cs ps : List CCell} {st st1 st2 : State}
    (h1 : KidsDone H cfg d [c] [p] st st1) (h2 : KidsDone H cfg d cs ps st1 st2) : KidsDone H cfg d (c :: cs) (p :: ps) st st2 where
  built := by
    intro q hq
    rcases List.mem_cons.mp hq with rfl | hq
    · exact h1.built _ (by simp)
    · exact h2.built _ hq
  trees := by
    have h1 := h1.trees
    have h2 := h2.trees
    simp only [List.map_cons, List.map_nil, specKids, List.cons.injEq, and_true] at h1 ⊢
    exact ⟨h1, h2⟩
  prunes := by
    intro i g1 g2
    cases i with
    | zero => exact h1.prunes 0 (by simp) (by simp)
    | succ i => exact h2.prunes i (by simpa using g1) (by simpa using g2)
  mono := fun h hh => h2.mono h (h1.mono h hh)
  all := by
    intro r hr
    rcases List.mem_cons.mp hr with rfl | hr
    · obtain ⟨a, b⟩ := h1.all r (by simp)
      exact ⟨fun h => ⟨h2.mono _ (a h).1, (a h).2⟩, fun h => ⟨fun d' x hx => h2.mono _ ((b h).1 d' x hx), (b h).2⟩⟩
    · exact h2.all r hr

mutual
/-- The builder makes the specified tree, or some position has no pruned branch. -/
theorem proofNode_spec {H : Hasher} {cfg : Config} {root : CCell} (ha : Boc.Writer.Apart H (Below [root]))
    (ho : OneDepth H cfg root.tree) : ∀ (c : CCell) (d : Nat) (st : State), Below [root] c → Inv H cfg root st →
      d + c.tree.off ≤ 255 → Enters H cfg 0 root.tree d c.tree →
      (∃ p st', proofNode H cfg (d + c.tree.off) c st = .ok (p, { st' with cells := (c.reprHash, p) :: st'.cells }) ∧
        Inv H cfg root st' ∧ Done H cfg d c p st st') ∨
      (∃ e, proofNode H cfg (d + c.tree.off) c st = .error e ∧ Bad H cfg root.tree)
  | .mk desc bitLen data refs hashes, d, st, hb, hi, hd, he => by
    have hkids := proofKids_spec ha ho refs (.mk desc bitLen data refs hashes) d st hb hi hd he (fun _ h => h)
    have hrun : ∀ md, proofNode H cfg md (.mk desc bitLen data refs hashes) st =
      (proofKids H cfg md refs st >>= fun r => rebuild H (.mk desc bitLen data refs hashes) r.1 >>= fun p =>
        .ok (p, { r.2 with cells := ((CCell.mk desc bitLen data refs hashes).reprHash, p) :: r.2.cells })) := fun _ => rfl
    rw [hrun]
    have hcb := ha.built hb
    have hrefs : (CCell.mk desc bitLen data refs hashes).refs = refs := rfl
    generalize hcdef : CCell.mk desc bitLen data refs hashes = c at *
    have heta := CCell.tree_eta c
    rw [hrefs] at heta
    have hoff : offOf c.desc.isExotic c.tree.bits = c.tree.off := by
      conv => rhs; rw [heta]
      rfl
    rcases hkids with ⟨ps, st', e, hi', hk⟩ | ⟨e, he, hbad⟩
    · rw [e]
      have hlen : refs.length = ps.length := by
        have := congrArg List.length hk.trees
        rw [specKids_eq] at this
        simpa using this.symm
      have hpr : Prunes H d c.tree (.mk c.desc.isExotic c.tree.bits (ps.map CCell.tree)) := by
        rw [heta]
        refine .node (by simpa using hlen) fun i g1 g2 => ?_
        show Prunes H (d + offOf c.desc.isExotic c.tree.bits) _ _
        rw [hoff]
        exact hk.prunes i g1 g2
      obtain ⟨hwf, _⟩ := prunes_wf hpr hcb.facts.wf
      obtain ⟨p, e1, e2, e3, e4⟩ := rebuild_spec hcb hk.built (by have := hcb.facts.refs_le; rw [hrefs] at this; omega) hwf
      refine Or.inl ⟨p, st', ?_, hi', ⟨e2, ?_, e3 ▸ hpr, hk.mono, ?_, ?_⟩⟩
      · show (rebuild H c ps >>= fun p => Except.ok (p, { st' with cells := (c.reprHash, p) :: st'.cells })) = _
        rw [e1]; rfl
      · have hspec : ∀ e b rs, specNode H cfg d (.mk e b rs) = .mk e b (specKids H cfg (d + offOf e b) rs) := fun _ _ _ => rfl
        rw [e3, hk.trees]
        conv => rhs; rw [heta]
        rw [hspec, hoff]
      · intro d' x hx
        rcases hx.head with ⟨hx', hxk, rfl⟩ | ⟨r, hr, hrk, hx⟩
        · rw [CCell.tree_refs, hrefs] at hx'
          obtain ⟨r, hr, rfl⟩ := List.mem_map.mp hx'
          have hrb := ha.built (ha.child hb (by rw [hrefs]; exact hr))
          rw [← reprHash_tree hrb]
          exact ((hk.all r hr).1 hxk).1
        · rw [CCell.tree_refs, hrefs] at hr
          obtain ⟨r, hr', rfl⟩ := List.mem_map.mp hr
          exact ((hk.all r hr').2 hrk).1 d' x hx
      · intro hbad
        rcases hbad.head with h | ⟨x, hx, hxk, hb⟩ | ⟨r, hr, hrk, hb⟩
        · omega
        · rw [CCell.tree_refs, hrefs] at hx
          obtain ⟨r, hr, rfl⟩ := List.mem_map.mp hx
          exact hb ((hk.all r hr).1 hxk).2
        · rw [CCell.tree_refs, hrefs] at hr
          obtain ⟨r, hr', rfl⟩ := List.mem_map.mp hr
          exact ((hk.all r hr').2 hrk).2 hb
    · rw [he]
      exact Or.inr ⟨e, rfl, hbad⟩
theorem proofKids_spec {H : Hasher} {cfg : Config} {root : CCell} (ha : Boc.Writer.Apart H (Below [root]))
    (ho : OneDepth H cfg root.tree) : ∀ (cs : List CCell) (n : CCell) (d : Nat) (st : State), Below [root] n → Inv H cfg root st →
      d + n.tree.off ≤ 255 → Enters H cfg 0 root.tree d n.tree → (∀ c ∈ cs, c ∈ n.refs) →
      (∃ ps st', proofKids H cfg (d + n.tree.off) cs st = .ok (ps, st') ∧ Inv H cfg root st' ∧
        KidsDone H cfg (d + n.tree.off) cs ps st st') ∨
      (∃ e, proofKids H cfg (d + n.tree.off) cs st = .error e ∧ Bad H cfg root.tree)
  | [], n, d, st, hb, hi, hd, he, hs => by
    refine Or.inl ⟨[], st, rfl, hi, ⟨?_, rfl, ?_, fun _ h => h, ?_⟩⟩
    · intro p hp; cases hp
    · intro i g1; cases g1
    · intro r hr; cases hr
  | c :: cs, n, d, st, hb, hi, hd, he, hs => by
    have hrun : proofKids H cfg (d + n.tree.off) (c :: cs) st =
      (proofChild H cfg (d + n.tree.off) c st (fun md' => proofNode H cfg md' c st) >>= fun r =>
        proofKids H cfg (d + n.tree.off) cs r.2 >>= fun q => .ok (r.1 :: q.1, q.2)) := rfl
    rw [hrun]
    have hcs := hs c (by simp)
    have hchild := child_spec ha ho hb he hcs hd hi
      (fun st hi h255 hent => proofNode_spec ha ho c (d + n.tree.off) st (ha.child hb hcs) hi h255 hent)
    rcases hchild with ⟨p, st1, e1, hi1, hk1⟩ | ⟨e, he, hbad⟩
    · rw [e1]
      rcases proofKids_spec ha ho cs n d st1 hb hi1 hd he (fun x hx => hs x (by simp [hx])) with ⟨ps, st2, e2, hi2, hk2⟩ | ⟨e, he, hbad⟩
      · refine Or.inl ⟨p :: ps, st2, ?_, hi2, hk1.cons hk2⟩
        show (proofKids H cfg (d + n.tree.off) cs st1 >>= fun q => Except.ok (p :: q.1, q.2)) = _
        rw [e2]; rfl
      · refine Or.inr ⟨e, ?_, hbad⟩
        show (proofKids H cfg (d + n.tree.off) cs st1 >>= fun q => Except.ok (p :: q.1, q.2)) = _
        rw [he]; rfl
    · rw [he]
      exact Or.inr ⟨e, rfl, hbad⟩
end

end Merkle
end Verif
