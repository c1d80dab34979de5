import Verif.MerkleCodec
/-
Merkle proofs: the properties (C36).
-/
set_option linter.unusedVariables false
set_option linter.unusedSimpArgs false
namespace Verif
namespace Merkle
open Boc (Below Clash below_apart)

/-! ### Helper lemmas -/

theorem empty_inv (H : Hasher) (cfg : Config) (root : CCell) : Inv H cfg root ⟨[], []⟩ where
  cells := by intro h p hp; cases hp
  pruned := by intro h hh; cases hh

theorem off_le {H : Hasher} {c : CCell} (h : Built H c) : c.tree.off ≤ 1 := (isMerkle_off h).2

/-- In a well-formed tree a position `d` Merkle cells below a level-0 root only has levels up to `d`. -/
theorem Enters.low {H : Hasher} {cfg : Config} {d : Nat} {t : Cell} {d' : Nat} {x : Cell} (h : Enters H cfg d t d' x) (hw : t.WF H)
    (h0 : ∀ i, d ≤ i → (t.info H).mask.getLsbD i = false) : x.WF H ∧ ∀ i, d' ≤ i → (x.info H).mask.getLsbD i = false := by
  induction h with
  | refl => exact ⟨hw, h0⟩
  | @step d t r d' x hr hk h ih =>
    obtain ⟨e, b, rs⟩ := t
    obtain ⟨ty, m, _, _, _, hk', _⟩ := wf_node hw
    refine ih (hk' r hr) fun i hi => ?_
    have hi : d + offOf e b ≤ i := hi
    have := child_bit hw (h0 (i - offOf e b) (by omega)) r hr
    rwa [show i - offOf e b + offOf e b = i by omega] at this

theorem PrunedFrom.low {H : Hasher} {cfg : Config} {t : Cell} {d' : Nat} {x : Cell} (h : PrunedFrom H cfg 0 t d' x) (hw : t.WF H)
    (h0 : (t.info H).mask = 0) : (x.info H).mask.toNat < 2 ^ (d' + 1) := by
  obtain ⟨e, s, he, hx, hk, rfl⟩ := h
  obtain ⟨hws, hs⟩ := he.low hw (fun i _ => by rw [h0]; simp)
  obtain ⟨ex, b, rs⟩ := s
  have hoff : (Cell.mk ex b rs).off = offOf ex b := rfl
  rw [hoff]
  apply Nat.lt_pow_two_of_testBit
  intro i hi
  have := child_bit hws (hs (i - offOf ex b) (by omega)) x hx
  rwa [show i - offOf ex b + offOf ex b = i by omega] at this

/-- The proof tree of a position is part of the proof tree. -/
theorem Enters.sub {H : Hasher} {cfg : Config} {d : Nat} {t : Cell} {d' : Nat} {x : Cell} (h : Enters H cfg d t d' x) :
    Cell.Sub (specNode H cfg d' x) (specNode H cfg d t) := by
  induction h with
  | refl => exact .refl _
  | @step d t r d' x hr hk h ih =>
    obtain ⟨e, b, rs⟩ := t
    refine .child ?_ ih
    show _ ∈ specKids H cfg (d + offOf e b) rs
    rw [specKids_eq]
    refine List.mem_map.mpr ⟨r, hr, ?_⟩
    rw [hk]; rfl

/-- No Merkle cells inside. -/
def NoMerkle (t : Cell) : Prop := ∀ x, Cell.Sub x t → x.off = 0

theorem Enters.plain {H : Hasher} {cfg : Config} {d : Nat} {t : Cell} {d' : Nat} {x : Cell} (h : Enters H cfg d t d' x) (hp : NoMerkle t) :
    d' = d ∧ Cell.Sub x t := by
  induction h with
  | refl => exact ⟨rfl, .refl _⟩
  | @step d t r d' x hr hk h ih =>
    have h0 := hp t (.refl _)
    obtain ⟨h1, h2⟩ := ih fun y hy => hp y (.child hr hy)
    exact ⟨by omega, .child hr h2⟩

theorem NoMerkle.one {H : Hasher} {cfg : Config} {t : Cell} (hp : NoMerkle t) : OneDepth H cfg t :=
  fun d d' x h h' => (h.plain hp).1.trans (h'.plain hp).1.symm

theorem NoMerkle.not_bad {H : Hasher} {cfg : Config} {t : Cell} (hp : NoMerkle t) (hw : t.WF H) (h0 : (t.info H).mask = 0) : ¬ Bad H cfg t := by
  rintro (⟨d, x, hx, hb⟩ | ⟨d, x, hx, hb⟩)
  · refine hb ⟨?_, hx.low hw h0⟩
    obtain ⟨e, s, he, _, _, rfl⟩ := hx
    obtain ⟨h1, h2⟩ := he.plain hp
    have := hp s h2
    omega
  · obtain ⟨h1, h2⟩ := hx.plain hp
    have := hp x h2
    omega

theorem level0_repr {c : CCell} (h : c.desc.levelMask = 0) (l : Nat) : c.reprHash = c.hash l ∧ c.reprDepth = c.depth l := by
  have : c.desc.levelMask.hashIndex 3 = c.desc.levelMask.hashIndex l := by
    unfold LevelMask.hashIndex; rw [h]; simp
  exact CCell.hash_of_slot this

mutual
/-- The search for a cell fails only when it is not there. -/
theorem pathTo_none {h : Hash} : ∀ (c : CCell), pathTo h c = none → ∀ r ∈ c.refs, ∀ x, CCell.Sub x r → x.reprHash ≠ h
  | .mk desc bitLen data refs hashes, hn => by
    have hn : (pathIn h refs).map _ = none := hn
    rw [Option.map_eq_none_iff] at hn
    exact pathIn_none refs hn
theorem pathIn_none {h : Hash} : ∀ (cs : List CCell), pathIn h cs = none → ∀ r ∈ cs, ∀ x, CCell.Sub x r → x.reprHash ≠ h
  | [], _ => by intro r hr; cases hr
  | c :: cs, hn => by
    rw [pathIn] at hn
    by_cases hc : c.reprHash = h
    · rw [if_pos hc] at hn; cases hn
    · rw [if_neg hc] at hn
      cases hp : pathTo h c with
      | some p => rw [hp] at hn; cases hn
      | none =>
        rw [hp] at hn
        have hsub := pathTo_none c hp
        intro r hr x hx
        rcases List.mem_cons.mp hr with rfl | hr
        · cases hx with
          | refl => exact hc
          | child hr' hx => exact hsub _ hr' _ hx
        · exact pathIn_none cs hn r hr x hx
end

mutual
theorem pathTo_found {h : Hash} : ∀ (c : CCell) (p : List Hash), pathTo h c = some p → ∃ x, x.reprHash = h ∧ CCell.Sub x c
  | .mk desc bitLen data refs hashes, p, hp => by
    have hp : (pathIn h refs).map ((CCell.mk desc bitLen data refs hashes).reprHash :: ·) = some p := hp
    obtain ⟨q, hq, rfl⟩ := Option.map_eq_some_iff.mp hp
    obtain ⟨r, hr, x, hx, hs⟩ := pathIn_found refs q hq
    exact ⟨x, hx, .child hr hs⟩
theorem pathIn_found {h : Hash} : ∀ (cs : List CCell) (p : List Hash), pathIn h cs = some p → ∃ r ∈ cs, ∃ x, x.reprHash = h ∧ CCell.Sub x r
  | [], p, hp => by cases hp
  | c :: cs, p, hp => by
    rw [pathIn] at hp
    by_cases hc : c.reprHash = h
    · exact ⟨c, by simp, c, hc, .refl _⟩
    · rw [if_neg hc] at hp
      cases hq : pathTo h c with
      | some q =>
        obtain ⟨x, h1, h2⟩ := pathTo_found c q hq
        exact ⟨c, by simp, x, h1, h2⟩
      | none =>
        rw [hq] at hp
        obtain ⟨r, hr, h⟩ := pathIn_found cs p hp
        exact ⟨r, by simp [hr], h⟩
end

mutual
/-- Otherwise the found path leads through included cells to a cell with that hash. -/
theorem pathTo_some {H : Hasher} {cfg : Config} {h : Hash} (hh : cfg.filter h = .incl) :
    ∀ (c : CCell) (p : List Hash) (d : Nat), Built H c → pathTo h c = some p → (∀ x ∈ p, cfg.filter x = .incl) →
      ∃ d' x, Enters H cfg d c.tree d' x.tree ∧ x.reprHash = h ∧ CCell.Sub x c ∧ c.reprHash ∈ p
  | .mk desc bitLen data refs hashes, p, d, hb, hp, hi => by
    have hp : (pathIn h refs).map ((CCell.mk desc bitLen data refs hashes).reprHash :: ·) = some p := hp
    have hrefs : (CCell.mk desc bitLen data refs hashes).refs = refs := rfl
    have hsub := pathIn_some (H := H) hh refs
    generalize CCell.mk desc bitLen data refs hashes = c at *
    obtain ⟨q, hq, rfl⟩ := Option.map_eq_some_iff.mp hp
    obtain ⟨r, hr, hk, d', x, he, hx, hs⟩ := hsub q (d + c.tree.off) (fun r hr => hb.of_ref (hrefs ▸ hr)) hq fun x hx => hi x (by simp [hx])
    have hr' : r ∈ c.refs := hrefs ▸ hr
    exact ⟨d', x, .step (mem_refs_tree hr') hk he, hx, .child hr' hs, by simp⟩
theorem pathIn_some {H : Hasher} {cfg : Config} {h : Hash} (hh : cfg.filter h = .incl) :
    ∀ (cs : List CCell) (p : List Hash) (d : Nat), (∀ c ∈ cs, Built H c) → pathIn h cs = some p → (∀ x ∈ p, cfg.filter x = .incl) →
      ∃ r ∈ cs, kind H cfg r.tree = .node ∧ ∃ d' x, Enters H cfg d r.tree d' x.tree ∧ x.reprHash = h ∧ CCell.Sub x r
  | [], p, d, hb, hp, hi => by cases hp
  | c :: cs, p, d, hb, hp, hi => by
    rw [pathIn] at hp
    have hcb := hb c (by simp)
    by_cases hc : c.reprHash = h
    · refine ⟨c, by simp, ?_, d, c, .refl _ _, hc, .refl _⟩
      unfold kind; rw [← reprHash_tree hcb, hc, hh]
    · rw [if_neg hc] at hp
      cases hq : pathTo h c with
      | some q =>
        rw [hq] at hp
        injection hp with hp
        subst hp
        obtain ⟨d', x, h1, h2, h3, h4⟩ := pathTo_some hh c q d hcb hq hi
        refine ⟨c, by simp, ?_, d', x, h1, h2, h3⟩
        unfold kind; rw [← reprHash_tree hcb, hi _ h4]
      | none =>
        rw [hq] at hp
        obtain ⟨r, hr, h⟩ := pathIn_some hh cs p d (fun x hx => hb x (by simp [hx])) hp hi
        exact ⟨r, by simp [hr], h⟩
end

/-! ### The property theorems -/

/-- C36: building a proof from any tree with any filter, when no included cell occurs at two Merkle depths: unless the tree
contains a hash collision, the build succeeds exactly when every replaced cell has a pruned branch for its Merkle depth
(and Merkle cells are nested at most 255 deep); then the result is the tree in which exactly the skipped cells are replaced,
its hash and depth at level 0 are those of the original, and the set of pruned hashes is exact. -/
theorem C36_build {H : Hasher} {cfg : Config} {allow : Bool} {root : CCell} (hr : Built H root)
    (hf : allow = true ∨ cfg.filter root.reprHash ≠ .skip) (ho : OneDepth H cfg root.tree) :
    Clash H [root] ∨
    ((¬ Bad H cfg root.tree → ∃ p st, buildRaw H cfg allow root = .ok (p, st) ∧ Built H p ∧ p.tree = specNode H cfg 0 root.tree ∧
        Prunes H 0 root.tree p.tree ∧ p.hash 0 = root.hash 0 ∧ p.depth 0 = root.depth 0 ∧
        ∀ h, h ∈ st.pruned ↔ ∃ d x, PrunedFrom H cfg 0 root.tree d x ∧ h = x.reprHash H) ∧
      (Bad H cfg root.tree → ∃ e, buildRaw H cfg allow root = .error e)) := by
  by_cases hcl : Clash H [root]
  · exact Or.inl hcl
  · right
    have ha := below_apart (rs := [root]) (by intro r hr'; rw [List.mem_singleton.mp hr']; exact hr) hcl
    have hoff := off_le hr
    have hrun : buildRaw H cfg allow root = proofNode H cfg (0 + root.tree.off) root ⟨[], []⟩ := by
      unfold buildRaw
      rw [if_neg, bump_eq hr 0 (by omega), if_pos (by omega)]
      · rfl
      · rcases hf with rfl | hf
        · simp
        · simp [hf]
    rw [hrun]
    have hroot : Below [root] root := ⟨root, by simp, .refl _⟩
    have hspec := proofNode_spec ha ho root 0 ⟨[], []⟩ hroot (empty_inv H cfg root) (by omega) (.refl _ _)
    -- the two outcomes exclude each other
    have hgood : (∃ p st', proofNode H cfg (0 + root.tree.off) root ⟨[], []⟩ = .ok (p, { st' with cells := (root.reprHash, p) :: st'.cells }) ∧
        Inv H cfg root st' ∧ Done H cfg 0 root p ⟨[], []⟩ st') → ¬ Bad H cfg root.tree := by
      rintro ⟨p, st', e, hi, hd⟩
      exact hd.good
    constructor
    · intro hnb
      rcases hspec with ⟨p, st', e, hi, hd⟩ | ⟨e, he, hbad⟩
      · have hanc := (C13_ancestors hd.prunes).2 0 (by omega)
        refine ⟨p, _, e, hd.built, hd.tree, hd.prunes, ?_, ?_, ?_⟩
        · rw [hd.built.facts.agrees.hash, hr.facts.agrees.hash]; exact hanc.1
        · rw [hd.built.facts.agrees.depth, hr.facts.agrees.depth]; exact hanc.2
        · intro h
          constructor
          · intro hh; exact hi.pruned h hh
          · rintro ⟨d, x, hx, rfl⟩; exact hd.all d x hx
      · exact absurd hbad hnb
    · intro hbad
      rcases hspec with h | ⟨e, he, _⟩
      · exact absurd hbad (hgood h)
      · exact ⟨e, he⟩

/-- C36: a filter that skips the root gives an error and no proof, unless that is allowed. -/
theorem C36_empty {H : Hasher} {cfg : Config} {root : CCell} (h : cfg.filter root.reprHash = .skip) :
    Proof.build H cfg false root = .error .emptyProof := by
  unfold Proof.build buildRaw
  rw [h]
  rfl

/-- C36: below a root of level 0 the only obstacles are cells to be replaced that are inside three Merkle cells or more, and
nesting of more than 255 Merkle cells. -/
theorem C36_level0 {H : Hasher} {cfg : Config} {root : CCell} (hr : Built H root) (h0 : root.desc.levelMask = 0) :
    Bad H cfg root.tree ↔ (∃ d x, PrunedFrom H cfg 0 root.tree d x ∧ 3 ≤ d) ∨ ∃ d x, Enters H cfg 0 root.tree d x ∧ 255 < d + x.off := by
  have hm : (root.tree.info H).mask = 0 := by rw [← hr.facts.agrees.mask]; exact h0
  constructor
  · rintro (⟨d, x, hx, hb⟩ | h)
    · refine Or.inl ⟨d, x, hx, ?_⟩
      have := hx.low hr.facts.wf hm
      exact Classical.byContradiction fun h => hb ⟨by omega, this⟩
    · exact Or.inr h
  · rintro (⟨d, x, hx, hb⟩ | h)
    · exact Or.inl ⟨d, x, hx, fun h => absurd h.1 (by omega)⟩
    · exact Or.inr h

/-- C36: a proof of a tree of level 0 without Merkle cells in it can always be built; the proof has the hash and depth of the
tree, its cell is the tree with exactly the skipped cells replaced, and (when the tree is not of the greatest possible depth) the
proof can be stored in a cell, from which loading gives the same proof back. -/
theorem C36_plain {H : Hasher} {cfg : Config} {allow : Bool} {root : CCell} (hr : Built H root) (h0 : root.desc.levelMask = 0)
    (hf : allow = true ∨ cfg.filter root.reprHash ≠ .skip) (hp : NoMerkle root.tree) :
    Clash H [root] ∨
    ∃ p : Proof, Proof.build H cfg allow root = .ok p ∧ p.hash = root.reprHash ∧ p.depth = root.reprDepth ∧ Built H p.cell ∧
      p.cell.tree = specNode H cfg 0 root.tree ∧ p.cell.hash 0 = root.reprHash ∧ p.cell.depth 0 = root.reprDepth ∧
      (root.reprDepth < 65535 → ∃ b c, p.store CellB.new = (.ok (), b) ∧ b.build H = .ok c ∧ Built H c ∧ Proof.loadFromCell c = .ok p) := by
  rcases C36_build hr hf hp.one with h | ⟨h, _⟩
  · exact Or.inl h
  · right
    have hm : (root.tree.info H).mask = 0 := by rw [← hr.facts.agrees.mask]; exact h0
    obtain ⟨c, st, e, hb, ht, hpr, hh, hd, _⟩ := h (hp.not_bad hr.facts.wf hm)
    obtain ⟨l1, l2⟩ := level0_repr h0 0
    have hok : (Proof.mk root.reprHash root.reprDepth c).Ok := by
      refine ⟨?_, ?_⟩
      · show root.reprHash.length = 32
        rw [reprHash_tree hr]; exact Cell.info_hash_len H _ hr.facts.wf _
      · show root.depth 3 < 2 ^ 16
        rw [hr.facts.agrees.depth]; exact Cell.info_depth_lt H _ hr.facts.wf _
    refine ⟨⟨root.reprHash, root.reprDepth, c⟩, ?_, rfl, rfl, hb, ht, hh.trans l1.symm, hd.trans l2.symm, ?_⟩
    · unfold Proof.build
      rw [e]; rfl
    · intro hdep
      have hdepth : ∀ l, c.depth l < 65535 := by
        intro l
        have := (prunes_wf hpr hr.facts.wf).2 l
        rw [← hb.facts.agrees.depth, ← hr.facts.agrees.depth, ← hr.facts.agrees.depth, ← (level0_repr h0 l).2, ← (level0_repr h0 0).2] at this
        have := Nat.max_self root.reprDepth
        omega
      obtain ⟨b, k, e1, e2, e3, e4, e5⟩ := C36_store hok hb hdepth
      refine ⟨b, k, e1, e2, e3, ?_⟩
      refine (C36_load e3 _).mpr ⟨?_, ?_, e5, hok, hh.trans l1.symm, hd.trans l2.symm⟩
      · rw [CCell.tree_eta] at e4
        injection e4
      · rw [e4]; rfl

/-- C36: whatever is read through a virtualized proof (the hash and depth at every level of every cell reached by a path, and
the data of every ordinary one) is what is read from the original tree along the same path. -/
theorem C36_view {H : Hasher} {cfg : Config} {allow : Bool} {root : CCell} (hr : Built H root) (h0 : root.desc.levelMask = 0)
    (hf : allow = true ∨ cfg.filter root.reprHash ≠ .skip) (ho : OneDepth H cfg root.tree) {p : Proof} (hp : Proof.build H cfg allow root = .ok p)
    {path : List (Nat × Bool)} {w : VCell} (hw : (VCell.plain p.cell).virtualize.walk path = some w) :
    Clash H [root] ∨ ∃ o, root.walk (path.map (·.1)) = some o ∧ (∀ l, w.hash l = o.hash l ∧ w.depth l = o.depth l) ∧
      (w.cell.desc.isExotic = false → w.cell.tree.bits = o.tree.bits) := by
  rcases C36_build hr hf ho with h | ⟨h1, h2⟩
  · exact Or.inl h
  · right
    by_cases hbad : Bad H cfg root.tree
    · obtain ⟨e, he⟩ := h2 hbad
      unfold Proof.build at hp
      rw [he] at hp; cases hp
    · obtain ⟨c, st, e, hb, ht, hpr, _⟩ := h1 hbad
      have hpc : p.cell = c := by
        unfold Proof.build at hp
        rw [e] at hp
        injection hp with hp
        rw [← hp]
      rw [hpc] at hw
      exact C14_proof_body_partial path hr hb h0 hpr (Or.inl rfl) hw

/-- C36: a proof for a cell that is not in the tree is refused. -/
theorem C36_for_absent_cell {H : Hasher} {root : CCell} {h : Hash} (hh : ∀ x, CCell.Sub x root → x.reprHash ≠ h) :
    Proof.createForCell H root h = .error .emptyProof := by
  refine C36_empty ?_
  show cellFilter root h root.reprHash = .skip
  unfold cellFilter
  have hnone : pathTo h root = none := by
    cases hp : pathTo h root with
    | none => rfl
    | some p => exact absurd hp (by
        intro hp
        obtain ⟨x, hx, hs⟩ := pathTo_found root p hp
        exact hh x hs hx)
  rw [hnone, if_neg]
  rintro (h | h)
  · cases h
  · exact hh root (.refl _) h

/-- C36: the proof for a cell of a level-0 tree without Merkle cells shows that cell with its data unchanged, and its hash and
depth. -/
theorem C36_for_cell {H : Hasher} {root c : CCell} (hr : Built H root) (h0 : root.desc.levelMask = 0) (hp : NoMerkle root.tree)
    (hc : CCell.Sub c root) :
    Clash H [root] ∨
    ∃ p, Proof.createForCell H root c.reprHash = .ok p ∧ p.hash = root.reprHash ∧ p.depth = root.reprDepth ∧ Built H p.cell ∧
      p.cell.hash 0 = root.reprHash ∧ p.cell.depth 0 = root.reprDepth ∧
      ∃ rs, Cell.Sub (.mk c.desc.isExotic c.tree.bits rs) p.cell.tree := by
  by_cases hcl : Clash H [root]
  · exact Or.inl hcl
  · have ha := below_apart (rs := [root]) (by intro r hr'; rw [List.mem_singleton.mp hr']; exact hr) hcl
    have hfh : cellFilter root c.reprHash c.reprHash = .incl := by unfold cellFilter; rw [if_pos (Or.inr rfl)]
    have hex : cellFilter root c.reprHash root.reprHash ≠ .skip ∧ ∃ d' x, Enters H ⟨cellFilter root c.reprHash, false⟩ 0 root.tree d' x.tree ∧
        x.reprHash = c.reprHash ∧ CCell.Sub x root := by
      cases hpt : pathTo c.reprHash root with
      | none =>
        cases hc with
        | refl => exact ⟨by rw [hfh]; decide, 0, root, .refl _ _, rfl, .refl _⟩
        | child hr' hs => exact absurd rfl (pathTo_none root hpt _ hr' _ hs)
      | some q =>
        have hin : ∀ x ∈ q, cellFilter root c.reprHash x = .incl := by
          intro x hx; unfold cellFilter; rw [hpt]; exact if_pos (Or.inl hx)
        obtain ⟨d', x, h1, h2, h3, h4⟩ := pathTo_some (cfg := ⟨cellFilter root c.reprHash, false⟩) hfh root q 0 hr hpt hin
        exact ⟨by rw [hin _ h4]; decide, d', x, h1, h2, h3⟩
    obtain ⟨hne, d', x, he, hx, hs⟩ := hex
    have hxc : x.tree = c.tree := by rw [ha.inj ⟨root, by simp, hs⟩ ⟨root, by simp, hc⟩ hx]
    rcases C36_plain (cfg := ⟨cellFilter root c.reprHash, false⟩) (allow := false) hr h0 (Or.inr hne) hp with h | ⟨p, e, h1, h2, h3, h4, h5, h6, _⟩
    · exact Or.inl h
    · refine Or.inr ⟨p, e, h1, h2, h3, h5, h6, ?_⟩
      have hsub := he.sub
      rw [hxc, CCell.tree_eta, ← h4] at hsub
      exact ⟨_, hsub⟩

/-! ### Cases that meet the hypotheses -/

/-- Build a cell from data and references. -/
def mkCell (exotic : Bool) (bits : Bits) (refs : List CCell) : Except Err CCell := (builderOf exotic bits refs).build toyHasher

theorem mkCell_built {exotic : Bool} {bits : Bits} {refs : List CCell} {c : CCell} (h : mkCell exotic bits refs = .ok c)
    (hr : ∀ r ∈ refs, Built toyHasher r) (h1 : bits.length ≤ 1023) (h2 : refs.length ≤ 4) :
    Built toyHasher c ∧ c.tree = .mk exotic bits (refs.map CCell.tree) ∧ c.refs = refs := by
  obtain ⟨hw, hb⟩ := builderOf_wf exotic bits refs h1 h2
  have hall := C10_build toyHasher hw hr
  rw [hb] at hall
  by_cases hwf : (Cell.mk (builderOf exotic bits refs).exotic bits ((builderOf exotic bits refs).refs.map CCell.tree)).WF toyHasher
  · obtain ⟨c', e, h3, h4, h5⟩ := hall.1 hwf
    unfold mkCell at h
    rw [h] at e
    injection e with e
    subst e
    exact ⟨h3, h4, h5⟩
  · unfold mkCell at h
    rcases hall.2 hwf with e | e <;> · rw [h] at e; cases e

theorem ebind_inv {α β : Type} {x : Except Err α} {f : α → Except Err β} {b : β} (h : (x >>= f) = .ok b) : ∃ a, x = .ok a ∧ f a = .ok b := by
  cases x with
  | error e => cases h
  | ok a => exact ⟨a, rfl, h⟩

/-- Four cells: a leaf below a cell below a cell below the root, which also has a second leaf. -/
def demoTree : Except Err CCell := do
  let leaf ← mkCell false [true, false] []
  let g ← mkCell false [true] [leaf]
  let c ← mkCell false [false] [g]
  mkCell false [] [c, leaf]

theorem noMerkle_ordinary {b : Bits} {rs : List Cell} (h : ∀ r ∈ rs, NoMerkle r) : NoMerkle (.mk false b rs) := by
  intro x hx
  cases hx with
  | refl => rfl
  | child hr hx => exact h _ hr _ hx

example : ∃ root, demoTree = .ok root ∧ Built toyHasher root ∧ NoMerkle root.tree := by
  have hall : demoTree.isOk = true := by decide +kernel
  obtain ⟨root, h⟩ := Except.exists_of_isOk hall
  refine ⟨root, h, ?_⟩
  unfold demoTree at h
  obtain ⟨leaf, e1, h⟩ := ebind_inv h
  obtain ⟨g, e2, h⟩ := ebind_inv h
  obtain ⟨c, e3, h⟩ := ebind_inv h
  obtain ⟨b1, t1, _⟩ := mkCell_built e1 (by simp) (by decide) (by decide)
  obtain ⟨b2, t2, _⟩ := mkCell_built e2 (by simpa using b1) (by decide) (by simp)
  obtain ⟨b3, t3, _⟩ := mkCell_built e3 (by simpa using b2) (by decide) (by simp)
  obtain ⟨b4, t4, _⟩ := mkCell_built h (by simpa using ⟨b3, b1⟩) (by decide) (by simp)
  refine ⟨b4, ?_⟩
  have n1 : NoMerkle leaf.tree := by rw [t1]; exact noMerkle_ordinary (by simp)
  have n2 : NoMerkle g.tree := by rw [t2]; exact noMerkle_ordinary (by simpa using n1)
  have n3 : NoMerkle c.tree := by rw [t3]; exact noMerkle_ordinary (by simpa using n2)
  rw [t4]
  exact noMerkle_ordinary (by simpa using ⟨n3, n1⟩)

/-- The hypotheses of the theorems hold for a tree of four cells with a filter that includes the root and its first reference:
the grandchild is replaced, and the proof has the right hash while its own hash differs. -/
example : ∃ root p, demoTree = .ok root ∧ root.desc.levelMask = 0 ∧
    Proof.build toyHasher ⟨fun h => if h = root.reprHash ∨ h = (root.refs.getD 0 root).reprHash then .incl else .skip, false⟩ false root = .ok p ∧
    p.cell.hash 0 = root.reprHash ∧ p.cell.reprHash ≠ root.reprHash ∧
    ((p.cell.refs.getD 0 root).refs.getD 0 root).desc.cellType = .prunedBranch ∧
    (match Proof.createForCell toyHasher root (((root.refs.getD 0 root).refs.getD 0 root).reprHash) with
      | .ok q => decide (q.cell.hash 0 = root.reprHash)
      | .error _ => false) = true := by
  have h : (match demoTree with
    | .error _ => false
    | .ok root => match Proof.build toyHasher ⟨fun h => if h = root.reprHash ∨ h = (root.refs.getD 0 root).reprHash then .incl else .skip, false⟩ false root with
      | .error _ => false
      | .ok p => decide (root.desc.levelMask = 0 ∧ p.cell.hash 0 = root.reprHash ∧ p.cell.reprHash ≠ root.reprHash ∧
          ((p.cell.refs.getD 0 root).refs.getD 0 root).desc.cellType = .prunedBranch ∧
          (match Proof.createForCell toyHasher root (((root.refs.getD 0 root).refs.getD 0 root).reprHash) with
            | .ok q => decide (q.cell.hash 0 = root.reprHash)
            | .error _ => false) = true)) = true := by decide +kernel
  cases hd : demoTree with
  | error e => rw [hd] at h; cases h
  | ok root =>
    rw [hd] at h
    dsimp only at h
    cases hp : Proof.build toyHasher ⟨fun h => if h = root.reprHash ∨ h = (root.refs.getD 0 root).reprHash then .incl else .skip, false⟩ false root with
    | error e => rw [hp] at h; cases h
    | ok p =>
      rw [hp] at h
      dsimp only at h
      obtain ⟨h1, h2, h3, h4, h5⟩ := of_decide_eq_true h
      exact ⟨root, p, rfl, h1, hp, h2, h3, h4, h5⟩

/-! ### Where the code does not keep the property -/

/-- A root with a cell and, next to it, a Merkle proof of that cell. -/
def twiceTree : Except Err CCell := do
  let leaf ← mkCell false [true, false] []
  let g ← mkCell false [true] [leaf]
  let c ← mkCell false [false] [g]
  let m ← mkCell true (natBits 8 3 ++ bytesToBits c.reprHash ++ natBits 16 c.reprDepth) [c]
  mkCell false [] [c, m]

/-- Build the proof, store it in a cell and load it: whether the proof cell keeps the hash of the root at level 0, and what
loading says. -/
def roundTrip (cfg : Config) (root : CCell) : Except Err (Bool × Except Err Unit) := do
  let p ← Proof.build toyHasher cfg false root
  let c ← (p.store CellB.new).2.build toyHasher
  .ok (p.cell.hash 0 == root.hash 0, (Proof.loadFromCell c).map fun _ => ())

/-- Include everything but the first grandchild of the root. -/
def allBut (root : CCell) : Config :=
  ⟨fun h => if h = ((root.refs.getD 0 root).refs.getD 0 root).reprHash then .skip else .incl, false⟩

/-- Finding: when an included cell occurs both outside and inside a Merkle cell, the processed cell is reused although its
pruned branches were made for another Merkle depth. The result does not have the hash of the original and is not accepted
when the stored proof is loaded: `OneDepth` cannot be dropped from `C36_build`. -/
theorem C36_reused_cell : (twiceTree.map fun root => (root.desc.levelMask, roundTrip (allBut root) root)) =
    .ok (0, .ok (false, .error .invalidCell)) := by
  decide +kernel

/-- Finding: for a root that itself contains pruned branches (level not 0) the proof records the representation hash, while the
check on loading compares with the hash at level 0; such a proof cannot be loaded even when nothing is replaced. -/
theorem C36_root_level : (demoTree.bind fun root => (Proof.build toyHasher (allBut root) false root).map fun p =>
      (p.cell.desc.levelMask, roundTrip ⟨fun _ => .incl, false⟩ p.cell)) =
    .ok (1, .ok (true, .error .invalidCell)) := by
  decide +kernel

end Merkle
end Verif
