import Verif.MerkleImage
/-
The passes of `MerkleUpdate::apply` on updates between trees of level 0 without Merkle cells.
-/
set_option linter.unusedVariables false
set_option linter.unusedSimpArgs false
namespace Verif
namespace Merkle
open Boc (Below Clash below_apart)

/-- A hash of the root or of a reference of an included cell. -/
def Shown (H : Hasher) (cfg : Config) (root : Cell) (h : Hash) : Prop :=
  h = root.reprHash H ∨ ∃ d s o, Enters H cfg 0 root d s ∧ o ∈ s.refs ∧ h = o.reprHash H

theorem below_self (c : CCell) : Below [c] c := ⟨c, by simp, .refl _⟩

theorem via_below {go : CCell → Bool} {root x : CCell} (h : Via go root x) : Below [root] x := by
  induction h with
  | child h => exact ⟨root, by simp, .child h (.refl _)⟩
  | step hc hg h ih =>
    obtain ⟨r, hr, hs⟩ := ih
    exact ⟨r, hr, Boc.CCell_sub_last hs h⟩

theorem collect_walk : Walk collectStep (fun s => s.1) (fun c s => (c.reprHash :: s.1, c.hash 0 :: s.2)) (fun c => !c.desc.isPrunedBranch) (fun _ => false) .panic where
  old := by intro c s h; unfold collectStep; rw [if_pos h]
  new := by intro c s h _; unfold collectStep; rw [if_neg h]
  bad := by intro c s _ h; cases h
  vis := by intro c s; rfl

/-- All hashes of a proof tree at Merkle depth 0. -/
theorem collect_spec {H : Hasher} {cfg : Config} {root p : CCell} (hw : NoWhole cfg) (h : Opens H cfg root p) (ha : Boc.Writer.Apart H (Below [p])) :
    ∃ known, collect p = .ok known ∧ ∀ k, k ∈ known ↔ Shown H cfg root.tree k := by
  have hwalk := pass_walk (root := p)
    (Q := fun s : Seen => (∀ x, Below [p] x → x.reprHash ∈ s.1 → x.hash 0 ∈ s.2) ∧ ∀ k ∈ s.2, k = p.hash 0 ∨ ∃ x, Via (fun c => !c.desc.isPrunedBranch) p x ∧ k = x.hash 0)
    collect_walk ha (fun a b h1 h2 e => ⟨by rw [same_pruned (ha.built h1) (ha.built h2) e], rfl⟩)
    (by
      rintro c s hv _ ⟨q1, q2⟩
      constructor
      · intro x hx hm
        rcases List.mem_cons.mp hm with e | hm
        · have := (C11_content_only (ha.built hx) (ha.built (via_below hv)) (ha.inj hx (via_below hv) e) 0).1
          rw [this]; exact List.mem_cons_self
        · exact List.mem_cons_of_mem _ (q1 x hx hm)
      · intro k hk
        rcases List.mem_cons.mp hk with rfl | hk
        · exact Or.inr ⟨c, hv, rfl⟩
        · exact q2 k hk)
    (fun c hc => h.below_off hw hc) (s := ([p.reprHash], [p.hash 0])) rfl
    (by
      constructor
      · intro x hx hm
        rw [List.mem_singleton] at hm ⊢
        exact (C11_content_only (ha.built hx) h.built (ha.inj hx (below_self p) hm) 0).1
      · intro k hk; exact Or.inl (List.mem_singleton.mp hk))
  rcases hwalk with ⟨s, e, ⟨q1, q2⟩, hall, hroot, _⟩ | ⟨_, x, _, hx⟩
  · refine ⟨s.2, ?_, ?_⟩
    · unfold collect; rw [e]; rfl
    · obtain ⟨v1, v2⟩ := h.via hw
      intro k
      constructor
      · intro hk
        rcases q2 k hk with rfl | ⟨x, hv, rfl⟩
        · left; rw [h.hash, reprHash_tree h.plain.built]
        · obtain ⟨d, s, o, he, ho, hst, _⟩ := v1 x hv
          exact Or.inr ⟨d, s, o.tree, he, ho, by rw [(hst.facts hw).1, reprHash_tree hst.plain.built]⟩
      · rintro (rfl | ⟨d, s, o, he, ho, rfl⟩)
        · have := q1 p (below_self p) hroot
          rwa [h.hash, reprHash_tree h.plain.built] at this
        · obtain ⟨x, q, hv, hst, rfl⟩ := v2 d s o he ho
          have := q1 x (via_below hv) (hall x hv)
          rwa [(hst.facts hw).1, reprHash_tree hst.plain.built] at this
  · cases hx

/-- A pruned branch whose original is not known. -/
def unknown (known : List Hash) (c : CCell) : Bool :=
  c.desc.isPrunedBranch && decide (c.desc.levelMask.level = 1 ∧ c.hash 0 ∉ known)

theorem check_walk (known : List Hash) : Walk (checkStep known) (fun s => s) (fun c s => c.reprHash :: s) (fun c => !c.desc.isPrunedBranch) (unknown known) .invalidData where
  old := by intro c s h; unfold checkStep; rw [if_pos h]
  new := by
    intro c s h hb
    unfold checkStep
    unfold unknown at hb
    rw [if_neg h]
    cases hp : c.desc.isPrunedBranch with
    | false => rw [if_neg (by simp)]; rfl
    | true =>
      rw [hp, Bool.true_and, decide_eq_false_iff_not] at hb
      rw [if_pos rfl, if_neg hb]; rfl
  bad := by
    intro c s h hb
    unfold checkStep
    unfold unknown at hb
    rw [if_neg h]
    rw [Bool.and_eq_true, decide_eq_true_iff] at hb
    rw [if_pos hb.1, if_pos hb.2]
  vis := by intro c s; rfl

theorem level_one : (1 : LevelMask).level = 1 := by decide

/-- The check of the new tree succeeds exactly when the originals of all pruned branches are known. -/
theorem check_spec {H : Hasher} {cfg : Config} {root p : CCell} (hw : NoWhole cfg) (h : Opens H cfg root p) (ha : Boc.Writer.Apart H (Below [p])) (known : List Hash) :
    ((∀ d x, PrunedFrom H cfg 0 root.tree d x → x.reprHash H ∈ known) → ∃ s, pass (checkStep known) p [p.reprHash] = .ok s) ∧
    ((∃ d x, PrunedFrom H cfg 0 root.tree d x ∧ x.reprHash H ∉ known) → pass (checkStep known) p [p.reprHash] = .error .invalidData) := by
  obtain ⟨v1, v2⟩ := h.via hw
  have hunk : ∀ o x, Stands H cfg o x → (unknown known x = true ↔ kind H cfg o.tree = .pruned ∧ o.reprHash ∉ known) := by
    intro o x hst
    unfold unknown
    obtain ⟨f1, f2, _⟩ := hst.facts hw
    rw [f2, f1, Bool.and_eq_true, decide_eq_true_iff, decide_eq_true_iff]
    constructor
    · rintro ⟨g1, g2, g3⟩; exact ⟨g1, g3⟩
    · rintro ⟨g1, g3⟩
      exact ⟨g1, by rw [(hst.pruned g1).2.1]; exact level_one, g3⟩
  have hwalk := pass_walk (root := p) (Q := fun _ => True) (check_walk known) ha
    (fun a b h1 h2 e => by
      have hd := same_desc (ha.built h1) (ha.built h2) e
      have hp := same_pruned (ha.built h1) (ha.built h2) e
      refine ⟨by rw [hp], ?_⟩
      unfold unknown
      rw [hp, hd.1, (C11_content_only (ha.built h1) (ha.built h2) e 0).1])
    (fun _ _ _ _ _ => trivial) (fun c hc => h.below_off hw hc) (s := [p.reprHash]) rfl trivial
  rcases hwalk with ⟨s, e, _, _, _, hgood⟩ | ⟨e, x, hv, hx⟩
  · refine ⟨fun _ => ⟨s, e⟩, ?_⟩
    rintro ⟨d, x, ⟨d0, s0, he, hx, hk, rfl⟩, hn⟩
    exfalso
    obtain ⟨y, q, hv, hst, rfl⟩ := v2 d0 s0 x he hx
    have hbad := (hunk q y hst).mpr ⟨hk, by rw [reprHash_tree hst.plain.built]; exact hn⟩
    have hne : y.reprHash ≠ p.reprHash := by
      intro heq
      have := same_pruned hst.built h.built (ha.inj (via_below hv) (below_self p) heq)
      rw [h.not_pruned, (hst.pruned hk).1] at this
      cases this
    rw [hgood y hv hne] at hbad
    cases hbad
  · obtain ⟨d, s, o, he, ho, hst, _⟩ := v1 x hv
    obtain ⟨hk, hn⟩ := (hunk o x hst).mp hx
    refine ⟨fun hall => ?_, fun _ => e⟩
    exact absurd (hall _ o.tree ⟨d, s, he, ho, hk, rfl⟩) (by rw [← reprHash_tree hst.plain.built]; exact hn)

theorem old_walk (known : List Hash) : Walk (oldStep known) (fun s => s.1)
    (fun c s => if c.hash 0 ∈ known then (c.reprHash :: s.1, (c.hash 0, c) :: s.2) else (c.reprHash :: s.1, s.2)) (fun c => decide (c.hash 0 ∈ known)) (fun _ => false) .panic where
  old := by intro c s h; unfold oldStep; rw [if_pos h]
  new := by
    intro c s h _
    unfold oldStep
    rw [if_neg h]
    by_cases hk : c.hash 0 ∈ known
    · rw [if_neg (fun h => h hk), if_pos hk, decide_eq_true hk]
    · rw [if_pos hk, if_neg hk, decide_eq_false hk]
  bad := by intro c s _ h; cases h
  vis := by
    intro c s
    show (if c.hash 0 ∈ known then (c.reprHash :: s.1, (c.hash 0, c) :: s.2) else (c.reprHash :: s.1, s.2)).1 = _
    split <;> rfl

/-- The collected cells of the full old tree: every shown hash leads to a cell with that hash. -/
theorem oldCells_spec {H : Hasher} {cfg : Config} {root : CCell} (hp : Plain H root) (ha : Boc.Writer.Apart H (Below [root])) {known : List Hash}
    (hk : ∀ k, k ∈ known ↔ Shown H cfg root.tree k) :
    ∃ olds, oldCells known root = .ok olds ∧ (∀ k x, (k, x) ∈ olds → Below [root] x ∧ k = x.reprHash) ∧
      ∀ k, Shown H cfg root.tree k → ∃ x, find olds k = some x ∧ Below [root] x ∧ x.reprHash = k := by
  have hplain : ∀ x, Below [root] x → Plain H x := fun x hx => hp.below hx
  have hwalk := pass_walk (root := root)
    (Q := fun s : List Hash × List (Hash × CCell) => (∀ x, Below [root] x → x.reprHash ∈ s.1 → x.reprHash ∈ known → ∃ y, (x.reprHash, y) ∈ s.2) ∧
      ∀ k x, (k, x) ∈ s.2 → Below [root] x ∧ k = x.reprHash)
    (old_walk known) ha
    (fun a b h1 h2 e => ⟨by rw [(C11_content_only (ha.built h1) (ha.built h2) e 0).1], rfl⟩)
    (by
      rintro c s hv _ ⟨q1, q2⟩
      have hcb := via_below hv
      have hh := (hplain c hcb).hash 0
      rw [hh]
      by_cases hck : c.reprHash ∈ known
      · rw [if_pos hck]
        constructor
        · intro x hx hm hxk
          rcases List.mem_cons.mp hm with e | hm
          · exact ⟨c, by rw [e]; exact List.mem_cons_self⟩
          · obtain ⟨y, hy⟩ := q1 x hx hm hxk
            exact ⟨y, List.mem_cons_of_mem _ hy⟩
        · intro k x hx
          rcases List.mem_cons.mp hx with e | hx
          · injection e with e1 e2
            subst e1 e2
            exact ⟨hcb, rfl⟩
          · exact q2 k x hx
      · rw [if_neg hck]
        constructor
        · intro x hx hm hxk
          rcases List.mem_cons.mp hm with e | hm
          · rw [e] at hxk; exact absurd hxk hck
          · exact q1 x hx hm hxk
        · exact q2)
    (fun c hc => bump_plain (ha.built hc) ((hplain c hc).noMerkle _ (.refl _))) (s := ([root.reprHash], [(root.hash 0, root)])) rfl
    (by
      rw [hp.hash]
      constructor
      · intro x hx hm _
        rw [List.mem_singleton] at hm
        exact ⟨root, by rw [hm]; exact List.mem_cons_self⟩
      · intro k x hx
        rw [List.mem_singleton] at hx
        injection hx with e1 e2
        subst e1 e2
        exact ⟨below_self _, rfl⟩)
  rcases hwalk with ⟨s, e, ⟨q1, q2⟩, hall, hroot, _⟩ | ⟨_, x, _, hx⟩
  · refine ⟨s.2, ?_, q2, ?_⟩
    · unfold oldCells; rw [e]; rfl
    · intro k hsh
      have hex : ∃ x, Below [root] x ∧ x.reprHash = k ∧ x.reprHash ∈ s.1 := by
        -- every included cell is visited
        have key : ∀ d t d' u, Enters H cfg d t d' u → ∀ c, c.tree = t → Shown H cfg root.tree (t.reprHash H) → (∃ d0, Enters H cfg 0 root.tree d0 t) →
            (c = root ∨ Via (fun c => decide (c.hash 0 ∈ known)) root c) →
            ∃ c', c'.tree = u ∧ Shown H cfg root.tree (u.reprHash H) ∧ (c' = root ∨ Via (fun c => decide (c.hash 0 ∈ known)) root c') := by
          intro d t d' u he
          induction he with
          | refl => intro c hc hs _ hv; exact ⟨c, hc, hs, hv⟩
          | @step d t r d' x hr hkd _ ih =>
            rintro c rfl hs ⟨d0, he0⟩ hv
            have hr0 := hr
            rw [CCell.tree_refs] at hr
            obtain ⟨q, hq, rfl⟩ := List.mem_map.mp hr
            have hcb : Below [root] c := by
              rcases hv with rfl | hv
              · exact below_self _
              · exact via_below hv
            refine ih q rfl (Or.inr ⟨d0, _, _, he0, hr0, rfl⟩) ⟨_, he0.snoc hr0 hkd⟩ (Or.inr ?_)
            rcases hv with rfl | hv
            · exact .child hq
            · refine .step hv (decide_eq_true ?_) hq
              rw [(hplain c hcb).hash, reprHash_tree (ha.built hcb)]
              exact (hk _).mpr hs
        rcases hsh with rfl | ⟨d, u, o, he, ho, rfl⟩
        · exact ⟨root, below_self _, reprHash_tree hp.built, hroot⟩
        · obtain ⟨c, rfl, hs, hv⟩ := key _ _ _ _ he root rfl (Or.inl rfl) ⟨0, .refl _ _⟩ (Or.inl rfl)
          rw [CCell.tree_refs] at ho
          obtain ⟨q, hq, rfl⟩ := List.mem_map.mp ho
          have hvq : Via (fun c => decide (c.hash 0 ∈ known)) root q := by
            rcases hv with rfl | hv
            · exact .child hq
            · refine .step hv (decide_eq_true ?_) hq
              have hcb := via_below hv
              rw [(hplain c hcb).hash, reprHash_tree (ha.built hcb)]
              exact (hk _).mpr hs
          exact ⟨q, via_below hvq, reprHash_tree (ha.built (via_below hvq)), hall q hvq⟩
      obtain ⟨x, hx, rfl, hm⟩ := hex
      obtain ⟨y, hy⟩ := q1 x hx hm ((hk _).mpr hsh)
      cases hf : find s.2 x.reprHash with
      | none => exact absurd hy (find_none hf y)
      | some z =>
        obtain ⟨hz, hzk⟩ := q2 _ _ (find_mem hf)
        exact ⟨z, rfl, hz, hzk.symm⟩
  · cases hx

/-- Rebuilt cells are right. -/
def ApplyInv (H : Hasher) (new : CCell) (m : List (Hash × CCell)) : Prop :=
  ∀ h k, (h, k) ∈ m → ∃ o, Below [new] o ∧ h = o.reprHash ∧ Built H k ∧ k.tree = o.tree

mutual
/-- Rebuilding a cell of the new tree. -/
theorem applyNode_spec {H : Hasher} {cfg : Config} {new : CCell} (hw : NoWhole cfg) (ha : Boc.Writer.Apart H (Below [new])) {olds : List (Hash × CCell)}
    (ho : ∀ d x, PrunedFrom H cfg 0 new.tree d x → ∃ y, find olds (x.reprHash H) = some y ∧ Built H y ∧ y.tree = x) :
    ∀ (c o : CCell) (m : List (Hash × CCell)) (d : Nat), Below [new] o → Enters H cfg 0 new.tree d o.tree → Opens H cfg o c → ApplyInv H new m →
      ∃ k m', applyNode H olds 0 c m = .ok (k, m') ∧ ApplyInv H new m' ∧ Built H k ∧ k.tree = o.tree
  | .mk desc bitLen data refs hashes, o, m, d, hb, he, hop, hi => by
    have hkids := applyKids_spec hw ha ho refs
    have hrun : applyNode H olds 0 (.mk desc bitLen data refs hashes) m = (applyKids H olds 0 refs m >>= fun r =>
      rebuild H (.mk desc bitLen data refs hashes) r.1 >>= fun k => .ok (k, r.2)) := rfl
    rw [hrun]
    have hrefs : (CCell.mk desc bitLen data refs hashes).refs = refs := rfl
    generalize CCell.mk desc bitLen data refs hashes = c at *
    obtain ⟨h1, h2, h3⟩ := hop.data
    rw [hrefs] at h3
    obtain ⟨ks, m', e, hi', hkb, hkt⟩ := hkids o.refs m hi (by rw [specKids_eq, List.map_map] at h3; exact h3) (fun q hq => ha.child hb hq)
      (fun r hr => hop.built.of_ref (by rw [hrefs]; exact hr)) (fun q hq => hop.plain.child hq)
      (fun q hq hk => ⟨_, he.snoc (mem_refs_tree hq) hk⟩) (fun q hq hk => ⟨_, d, o.tree, he, mem_refs_tree hq, hk, rfl⟩)
    rw [e]
    have hot : (Cell.mk c.desc.isExotic c.tree.bits (ks.map CCell.tree)) = o.tree := by
      rw [h1, h2, hkt]; exact (CCell.tree_eta o).symm
    have hlen : ks.length ≤ 4 := by
      have := congrArg List.length hkt
      have := (ha.built hb).facts.refs_le
      simp at *
      omega
    obtain ⟨k, g1, g2, g3, g4⟩ := rebuild_spec hop.built hkb hlen (by rw [hot]; exact (ha.built hb).facts.wf)
    refine ⟨k, m', ?_, hi', g2, by rw [g3, hot]⟩
    show (rebuild H c ks >>= fun k => Except.ok (k, m')) = _
    rw [g1]; rfl
theorem applyKids_spec {H : Hasher} {cfg : Config} {new : CCell} (hw : NoWhole cfg) (ha : Boc.Writer.Apart H (Below [new])) {olds : List (Hash × CCell)}
    (ho : ∀ d x, PrunedFrom H cfg 0 new.tree d x → ∃ y, find olds (x.reprHash H) = some y ∧ Built H y ∧ y.tree = x) :
    ∀ (cs os : List CCell) (m : List (Hash × CCell)), ApplyInv H new m →
      cs.map CCell.tree = os.map (fun q => place H 0 q.tree (specNode H cfg 0 q.tree) (kind H cfg q.tree)) → (∀ q ∈ os, Below [new] q) →
      (∀ r ∈ cs, Built H r) → (∀ q ∈ os, Plain H q) → (∀ q ∈ os, kind H cfg q.tree = .node → ∃ d, Enters H cfg 0 new.tree d q.tree) →
      (∀ q ∈ os, kind H cfg q.tree = .pruned → ∃ d, PrunedFrom H cfg 0 new.tree d q.tree) →
      ∃ ks m', applyKids H olds 0 cs m = .ok (ks, m') ∧ ApplyInv H new m' ∧ (∀ k ∈ ks, Built H k) ∧ ks.map CCell.tree = os.map CCell.tree
  | [], os, m, hi, ht, hb, hcb, hpl, hen, hpr => by
    have : os = [] := by cases os with
      | nil => rfl
      | cons => cases ht
    subst this
    exact ⟨[], m, rfl, hi, by simp, rfl⟩
  | c :: cs, os, m, hi, ht, hb, hcb, hpl, hen, hpr => by
    have hnode := applyNode_spec hw ha ho c
    have hrest := applyKids_spec hw ha ho cs
    cases os with
    | nil => cases ht
    | cons q qs =>
      simp only [List.map_cons, List.cons.injEq] at ht
      obtain ⟨ht1, ht2⟩ := ht
      have hrun : applyKids H olds 0 (c :: cs) m = (applyChild olds 0 c m (fun md' => applyNode H olds md' c m) >>= fun r =>
        applyKids H olds 0 cs r.2 >>= fun s => .ok (r.1 :: s.1, s.2)) := rfl
      rw [hrun]
      have hqb := hb q (by simp)
      have hst : Stands H cfg q c := ⟨hpl q (by simp), hcb c (by simp), ht1⟩
      obtain ⟨f1, f2, f3⟩ := hst.facts hw
      have hfirst : ∃ k m', applyChild olds 0 c m (fun md' => applyNode H olds md' c m) = .ok (k, m') ∧ ApplyInv H new m' ∧ Built H k ∧ k.tree = q.tree := by
        unfold applyChild
        rcases kind_cases (H := H) hw q.tree with hk | hk
        · obtain ⟨p1, p2, p3, p4, p5⟩ := hst.pruned hk
          obtain ⟨d, hpf⟩ := hpr q (by simp) hk
          obtain ⟨y, hy, hyb, hyt⟩ := ho d _ hpf
          rw [p1, if_pos rfl, if_neg (by decide), p2, if_pos (by decide), level_one]
          rw [show (1 - 1 : Nat) = 0 from rfl, p3, reprHash_tree hst.plain.built, hy]
          exact ⟨y, m, rfl, hi, hyb, hyt⟩
        · have hop := hst.node hk
          rw [hop.not_pruned, if_neg (by simp), hop.hash]
          obtain ⟨d, hent⟩ := hen q (by simp) hk
          cases hf : find m q.reprHash with
          | some k =>
            obtain ⟨o', g1, g2, g3, g4⟩ := hi _ _ (find_mem hf)
            exact ⟨k, m, rfl, hi, g3, by rw [g4, ha.inj hqb g1 g2]⟩
          | none =>
            obtain ⟨k, m', e, hi', hkb, hkt⟩ := hnode q m d hqb hent hop hi
            refine ⟨k, (q.reprHash, k) :: m', ?_, ?_, hkb, hkt⟩
            · show (bump 0 c >>= fun md' => applyNode H olds md' c m >>= fun r => Except.ok (r.1, (q.reprHash, r.1) :: r.2)) = _
              rw [bump_plain hop.built hop.off]
              show (applyNode H olds 0 c m >>= fun r => Except.ok (r.1, (q.reprHash, r.1) :: r.2)) = _
              rw [e]; rfl
            · intro h x hx
              rcases List.mem_cons.mp hx with e | hx
              · injection e with e1 e2
                subst e1 e2
                exact ⟨q, hqb, rfl, hkb, hkt⟩
              · exact hi' h x hx
      obtain ⟨k, m1, e1, hi1, hkb, hkt⟩ := hfirst
      rw [e1]
      obtain ⟨ks, m2, e2, hi2, hksb, hkst⟩ := hrest qs m1 hi1 ht2 (fun x hx => hb x (by simp [hx])) (fun x hx => hcb x (by simp [hx]))
        (fun x hx => hpl x (by simp [hx])) (fun x hx => hen x (by simp [hx])) (fun x hx => hpr x (by simp [hx]))
      refine ⟨k :: ks, m2, ?_, hi2, ?_, by simp [hkt, hkst]⟩
      · show (applyKids H olds 0 cs m1 >>= fun s => Except.ok (k :: s.1, s.2)) = _
        rw [e2]; rfl
      · intro x hx
        rcases List.mem_cons.mp hx with rfl | hx
        · exact hkb
        · exact hksb x hx
end

end Merkle
end Verif
