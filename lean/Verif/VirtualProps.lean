import Verif.Virtual
/-!
# C14: virtualized cells
-/
set_option linter.unusedVariables false
set_option linter.unusedSimpArgs false
namespace Verif

/-- C14, single cells: behind the wrapper of depth `L` a cell shows at level `l` the hash and depth of the underlying
cell at level `min l (top - (1 + L))`: the `1 + L` highest levels are cut off.
Missing: level 1 of a cell with level mask `0b101` behind the first wrapper, where the code gives the hash of
level 0 instead (`C14_mask_five`). -/
theorem C14_hash_partial (c : CCell) (L l : Nat) (hL : L ≤ 2) (h5 : ¬ (c.desc.levelMask = 5 ∧ L = 0 ∧ l = 1)) :
    (VCell.wrapped c L).hash l = c.hash (min l (c.desc.levelMask.top - (1 + L))) ∧
    (VCell.wrapped c L).depth l = c.depth (min l (c.desc.levelMask.top - (1 + L))) :=
  CCell.hash_of_slot ((virtIndex_slot (CellDescriptor.levelMask_lt c.desc) L l hL).mpr h5)

/-- Specification: virtualize a borrowed handle a number of times. -/
def VCell.virtN : Nat → VCell → VCell
  | 0, v => v
  | k + 1, v => (VCell.virtN k v).virtualize

theorem VCell.virtN_wrapped (c : CCell) (hm : c.desc.levelMask.isEmpty = false) :
    ∀ k, VCell.virtN (k + 1) (.plain c) = .wrapped c (min k 2)
  | 0 => by
    show (if c.desc.levelMask.isEmpty then VCell.plain c else .wrapped c 0) = _
    rw [hm]; rfl
  | k + 1 => by
    show (VCell.virtN (k + 1) (.plain c)).virtualize = _
    rw [VCell.virtN_wrapped c hm k]
    show VCell.wrapped c (if min k 2 = 0 then 1 else 2) = _
    by_cases h : k = 0
    · subst h; rfl
    · rw [if_neg (by omega), show min (k + 1) 2 = 2 by omega]

theorem VCell.virtN_plain (c : CCell) (hm : c.desc.levelMask.isEmpty = true) : ∀ k, VCell.virtN k (.plain c) = .plain c
  | 0 => rfl
  | k + 1 => by
    show (VCell.virtN k (.plain c)).virtualize = _
    rw [VCell.virtN_plain c hm k]
    show (if c.desc.levelMask.isEmpty then VCell.plain c else .wrapped c 0) = _
    rw [hm]; rfl

theorem LevelMask.top_le (m : LevelMask) : m.top ≤ 3 := by unfold LevelMask.top; repeat' split <;> try omega

/-- C14: each further virtualization of a borrowed cell hides one more level, however often it is repeated (except for the first
one on the mask 5, see `C14_mask_five`). -/
theorem C14_repeat_partial (c : CCell) (k l : Nat) (h5 : ¬ (c.desc.levelMask = 5 ∧ k = 1 ∧ l = 1)) (hk : 0 < k) :
    (VCell.virtN k (.plain c)).hash l = c.hash (min l (c.desc.levelMask.top - k)) ∧
    (VCell.virtN k (.plain c)).depth l = c.depth (min l (c.desc.levelMask.top - k)) := by
  obtain ⟨k, rfl⟩ : ∃ j, k = j + 1 := ⟨k - 1, by omega⟩
  cases hm : c.desc.levelMask.isEmpty with
  | true =>
    rw [VCell.virtN_plain c hm]
    have h0 : c.desc.levelMask = 0 := by
      unfold LevelMask.isEmpty at hm
      simpa using hm
    have hlt := CellDescriptor.levelMask_lt c.desc
    exact CCell.hash_of_slot (by rw [hashIndex_top hlt h0, hashIndex_top hlt h0])
  | false =>
    rw [VCell.virtN_wrapped c hm]
    have := C14_hash_partial c (min k 2) l (by omega) (fun h => h5 ⟨h.1, by omega, h.2.2⟩)
    have ht := LevelMask.top_le c.desc.levelMask
    rwa [show c.desc.levelMask.top - (1 + min k 2) = c.desc.levelMask.top - (k + 1) by omega] at this

/-- C14: an owned virtualized handle does not count: borrowing it and virtualizing again shows the same level as before. -/
theorem C14_boxed_repeat (c : CCell) (hm : c.desc.levelMask.isEmpty = false) (l : Nat) :
    (VCell.plain c).virtualizeOwned.virtualize.hash l = (VCell.plain c).virtualizeOwned.hash l ∧
    (VCell.plain c).virtualizeOwned.virtualize.depth l = (VCell.plain c).virtualizeOwned.depth l := by
  have h1 : (VCell.plain c).virtualizeOwned = .boxed (.plain c) := by
    show (if c.desc.levelMask.isEmpty then _ else _) = _
    rw [hm]; rfl
  rw [h1]
  show (if c.desc.levelMask.isEmpty then VCell.plain c else .wrapped c 0).hash l = _ ∧
    (if c.desc.levelMask.isEmpty then VCell.plain c else .wrapped c 0).depth l = _
  rw [hm]
  exact ⟨rfl, rfl⟩

/-- What the invariant of a walk says: the handle shows a cell of level at most 1 without its level. -/
def VCell.Shows (v : VCell) (c : CCell) : Prop :=
  (v = .plain c ∧ c.desc.levelMask = 0) ∨ (c.desc.levelMask = 1 ∧ (v = .wrapped c 0 ∨ v = .boxed (.plain c)))

theorem VCell.Shows.facts {v : VCell} {c : CCell} (h : v.Shows c) : v.cell = c ∧ ∀ l, v.hash l = c.hash 0 ∧ v.depth l = c.depth 0 := by
  have hlt := CellDescriptor.levelMask_lt c.desc
  rcases h with ⟨rfl, h0⟩ | ⟨h1, rfl | rfl⟩
  · exact ⟨rfl, fun l => CCell.hash_of_slot (by rw [hashIndex_top hlt h0, hashIndex_top hlt h0])⟩
  · refine ⟨rfl, fun l => ?_⟩
    have := C14_hash_partial c 0 l (by omega) (by rw [h1]; rintro ⟨h, _⟩; cases h)
    rw [h1] at this
    simpa [LevelMask.top] using this
  · refine ⟨rfl, fun l => ?_⟩
    show (VCell.wrapped c 0).hash l = _ ∧ (VCell.wrapped c 0).depth l = _
    have := C14_hash_partial c 0 l (by omega) (by rw [h1]; rintro ⟨h, _⟩; cases h)
    rw [h1] at this
    simpa [LevelMask.top] using this

theorem VCell.shows_virtualize {c : CCell} (h : c.desc.levelMask = 0 ∨ c.desc.levelMask = 1) :
    (VCell.plain c).virtualize.Shows c ∧ (VCell.plain c).virtualizeOwned.Shows c := by
  unfold VCell.virtualizeOwned VCell.virtualize
  show (VCell.Shows (if c.desc.levelMask.isEmpty then _ else _) c) ∧ (VCell.Shows (if c.desc.levelMask.isEmpty then _ else _) c)
  rcases h with h | h
  · rw [h]
    exact ⟨Or.inl ⟨rfl, h⟩, Or.inl ⟨rfl, h⟩⟩
  · rw [h]
    exact ⟨Or.inr ⟨h, Or.inl rfl⟩, Or.inr ⟨h, Or.inr rfl⟩⟩

theorem VCell.Shows.step {v : VCell} {c : CCell} (h : v.Shows c) (hc : ∀ r ∈ c.refs, r.desc.levelMask = 0 ∨ r.desc.levelMask = 1)
    (h0 : c.desc.levelMask = 0 → ∀ r ∈ c.refs, r.desc.levelMask = 0) {i : Nat} {b : Bool} {w : VCell}
    (hw : (if b then v.referenceCloned i else v.reference i) = some w) : ∃ r, c.refs[i]? = some r ∧ w.Shows r := by
  rcases h with ⟨rfl, hm⟩ | ⟨_, rfl | rfl⟩
  · have hw : (c.refs[i]?).map VCell.plain = some w := by cases b <;> exact hw
    obtain ⟨r, hr, rfl⟩ := Option.map_eq_some_iff.mp hw
    exact ⟨r, hr, Or.inl ⟨rfl, h0 hm r (List.mem_of_getElem? hr)⟩⟩
  · cases b with
    | false =>
      obtain ⟨r, hr, rfl⟩ := Option.map_eq_some_iff.mp (show (c.refs[i]?).map _ = some w from hw)
      exact ⟨r, hr, (VCell.shows_virtualize (hc r (List.mem_of_getElem? hr))).1⟩
    | true =>
      obtain ⟨r, hr, rfl⟩ := Option.map_eq_some_iff.mp (show (c.refs[i]?).map _ = some w from hw)
      exact ⟨r, hr, (VCell.shows_virtualize (hc r (List.mem_of_getElem? hr))).2⟩
  · cases b with
    | false =>
      obtain ⟨x, hx, rfl⟩ := Option.map_eq_some_iff.mp (show ((c.refs[i]?).map VCell.plain).map _ = some w from hw)
      obtain ⟨r, hr, rfl⟩ := Option.map_eq_some_iff.mp hx
      exact ⟨r, hr, (VCell.shows_virtualize (hc r (List.mem_of_getElem? hr))).1⟩
    | true =>
      obtain ⟨x, hx, rfl⟩ := Option.map_eq_some_iff.mp (show ((c.refs[i]?).map VCell.plain).map _ = some w from hw)
      obtain ⟨r, hr, rfl⟩ := Option.map_eq_some_iff.mp hx
      exact ⟨r, hr, (VCell.shows_virtualize (hc r (List.mem_of_getElem? hr))).2⟩

/-- The masks of a level-0 tree after pruning at depth 0. -/
theorem Prunes.mask {H : Hasher} {s t : CCell} (hs : Built H s) (ht : Built H t) (h : Prunes H 0 s.tree t.tree)
    (h0 : s.desc.levelMask = 0) : t.desc.levelMask = 0 ∨ t.desc.levelMask = 1 := by
  refine masks_le (CellDescriptor.levelMask_lt _) fun i hi => ?_
  rw [ht.facts.agrees.mask, ← (C13_ancestors h).1 i hi, ← hs.facts.agrees.mask, h0]
  simp

theorem Prunes.inv {H : Hasher} {s t : CCell} (hs : Built H s) (ht : Built H t) (h : Prunes H 0 s.tree t.tree)
    (hx : t.desc.isExotic = false) : s.desc.isExotic = false ∧ s.tree.bits = t.tree.bits ∧ s.refs.length = t.refs.length ∧
      ∀ i (h1 : i < s.refs.length) (h2 : i < t.refs.length), Prunes H 0 s.refs[i].tree t.refs[i].tree := by
  have key : ∀ {d a b}, Prunes H d a b → d = 0 → a = s.tree → b = t.tree → s.desc.isExotic = false ∧ s.tree.bits = t.tree.bits ∧
      s.refs.length = t.refs.length ∧
      ∀ i (h1 : i < s.refs.length) (h2 : i < t.refs.length), Prunes H 0 s.refs[i].tree t.refs[i].tree := by
    intro d a b h hd ha hb
    cases h with
    | same _ t' =>
      rw [ha] at hb
      have hb0 := hb
      rw [CCell.tree_eta s, CCell.tree_eta t] at hb
      simp only [Cell.mk.injEq] at hb
      obtain ⟨e1, _, e3⟩ := hb
      refine ⟨by rw [e1, hx], by rw [hb0], by simpa using congrArg List.length e3, fun i h1 h2 => ?_⟩
      have : (s.refs.map CCell.tree)[i]? = (t.refs.map CCell.tree)[i]? := by rw [e3]
      rw [List.getElem?_map, List.getElem?_map, List.getElem?_eq_getElem h1, List.getElem?_eq_getElem h2] at this
      simp only [Option.map_some, Option.some.injEq] at this
      rw [this]
      exact .same _ _
    | prune hc hd' hp =>
      exfalso
      rename_i c p
      by_cases hm : c.view.mask.toNat < 2 ^ (d + 1)
      · obtain ⟨p', e1, e2, e3, _⟩ := (C13_make_pruned H hc.view_ok hd').1 hm
        rw [hp] at e1
        simp only [Except.ok.injEq] at e1
        subst e1
        have hx' : p.desc.isExotic = false := by
          have e4 := (C10_invariant e2).2.2.1
          have e5 := (C10_invariant ht).2.2.1
          rw [e4, hb, ← e5, hx]
        have e6 := e2.facts.type
        rw [hx', e3] at e6
        cases e6
      · rw [(C13_make_pruned H hc.view_ok hd').2 hm] at hp; cases hp
    | node hl hch =>
      rename_i e b' rs rs'
      subst hd
      rw [CCell.tree_eta s] at ha
      rw [CCell.tree_eta t] at hb
      simp only [Cell.mk.injEq] at ha hb
      obtain ⟨a1, a2, a3⟩ := ha
      obtain ⟨b1, b2, b3⟩ := hb
      have he : e = false := by rw [b1, hx]
      subst he
      subst a3
      subst b3
      refine ⟨a1.symm, by rw [← a2, ← b2], by simpa using hl, fun i h1 h2 => ?_⟩
      have := hch i (by simpa using h1) (by simpa using h2)
      simpa [offOf, typeOf, CellType.isMerkle] using this
  exact key h rfl rfl rfl

/-- C14, proof bodies: let `t` come from a tree `s` of level 0 by pruning any subtrees. Whatever path is followed from the
virtualized `t` through ordinary cells, borrowed or cloned, the virtual cell there shows, at every level, the hash
and depth that the original tree has at the same place, and the same data unless the cell itself is exotic.
Missing: trees whose original already has significant levels, and paths that go through Merkle cells
(`C14_descendants`). -/
theorem C14_proof_body_partial {H : Hasher} (path : List (Nat × Bool)) : ∀ {s t : CCell} {v w : VCell}, Built H s → Built H t → s.desc.levelMask = 0 →
    Prunes H 0 s.tree t.tree → (v = (VCell.plain t).virtualize ∨ v = (VCell.plain t).virtualizeOwned) →
    v.walk path = some w →
    ∃ o, s.walk (path.map (·.1)) = some o ∧ (∀ l, w.hash l = o.hash l ∧ w.depth l = o.depth l) ∧
      (w.cell.desc.isExotic = false → w.cell.tree.bits = o.tree.bits) := by
  intro s t v w hs ht h0 hp hv hw
  have hshow : v.Shows t := by
    rcases hv with rfl | rfl
    · exact (VCell.shows_virtualize (hp.mask hs ht h0)).1
    · exact (VCell.shows_virtualize (hp.mask hs ht h0)).2
  clear hv
  induction path generalizing s t v with
  | nil =>
    simp only [VCell.walk, Option.some.injEq] at hw
    subst hw
    obtain ⟨hc, hh⟩ := hshow.facts
    refine ⟨s, rfl, fun l => ?_, fun hx => ?_⟩
    · rw [(hh l).1, (hh l).2]
      have hs0 := CCell.hash_of_slot (c := s) (a := l) (b := 0)
        (by rw [hashIndex_top (CellDescriptor.levelMask_lt _) h0, hashIndex_top (CellDescriptor.levelMask_lt _) h0])
      rw [hs0.1, hs0.2, ht.facts.agrees.hash, hs.facts.agrees.hash, ht.facts.agrees.depth, hs.facts.agrees.depth]
      exact (C13_ancestors hp).2 0 (Nat.le_refl _)
    · rw [hc] at hx ⊢
      exact (hp.inv hs ht hx).2.1.symm
  | cons ib path ih =>
    obtain ⟨i, b⟩ := ib
    rw [VCell.walk] at hw
    obtain ⟨hc, hh⟩ := hshow.facts
    rw [hc] at hw
    by_cases hx : t.desc.isExotic = true
    · rw [if_pos hx] at hw; cases hw
    · rw [if_neg hx] at hw
      have hx : t.desc.isExotic = false := by simpa using hx
      obtain ⟨i1, i2, i3, i4⟩ := hp.inv hs ht hx
      have hchild : ∀ r ∈ s.refs, r.desc.levelMask = 0 := fun r hr => hs.child_mask i1 h0 hr
      have htc : ∀ r ∈ t.refs, r.desc.levelMask = 0 ∨ r.desc.levelMask = 1 := by
        intro r hr
        obtain ⟨k, hk, rfl⟩ := List.mem_iff_getElem.mp hr
        have hk' : k < s.refs.length := by omega
        exact (i4 k hk' hk).mask (hs.of_ref (List.getElem_mem hk')) (ht.of_ref hr) (hchild _ (List.getElem_mem hk'))
      split at hw
      · cases hw
      · rename_i x hx'
        obtain ⟨r, hr, hsr⟩ := hshow.step htc (fun h r hr => ht.child_mask hx h hr) hx'
        obtain ⟨hk, hr'⟩ := List.getElem?_eq_some_iff.mp hr
        subst hr'
        have hk' : i < s.refs.length := by omega
        obtain ⟨o, o1, o2⟩ := ih (hs.of_ref (List.getElem_mem hk')) (ht.of_ref (List.getElem_mem hk)) (hchild _ (List.getElem_mem hk'))
          (i4 i hk' hk) hw hsr
        refine ⟨o, ?_, o2⟩
        show CCell.walk s (i :: path.map _) = _
        rw [CCell.walk, List.getElem?_eq_getElem hk']
        exact o1

/-- Non-vacuity: a node over two leaves, and the same node with the first leaf pruned. -/
example : ∃ s t : CCell, ∃ w : VCell, Built toyHasher s ∧ Built toyHasher t ∧ s.desc.levelMask = 0 ∧ t.desc.levelMask = 1 ∧
    Prunes toyHasher 0 s.tree t.tree ∧ (VCell.plain t).virtualize.walk [(0, true)] = some w := by
  have hall : (match exLeaf.build toyHasher with
    | .error _ => false
    | .ok a => match makePruned toyHasher a.view 0 with
      | .error _ => false
      | .ok p => match (builderOf false [] [a, a]).build toyHasher, (builderOf false [] [p, a]).build toyHasher with
        | .ok s, .ok t => decide (s.desc.levelMask = 0 ∧ t.desc.levelMask = 1 ∧ a.desc.levelMask.toNat < 2 ∧
            ((VCell.plain t).virtualize.walk [(0, true)]).isSome = true)
        | _, _ => false) = true := by decide +kernel
  cases ha : exLeaf.build toyHasher with
  | error e => rw [ha] at hall; cases hall
  | ok a =>
    rw [ha] at hall
    dsimp only at hall
    cases hp : makePruned toyHasher a.view 0 with
    | error e => rw [hp] at hall; cases hall
    | ok p =>
      rw [hp] at hall
      dsimp only at hall
      cases hs : (builderOf false [] [a, a]).build toyHasher with
      | error e => rw [hs] at hall; cases hall
      | ok s =>
        cases ht : (builderOf false [] [p, a]).build toyHasher with
        | error e => rw [hs, ht] at hall; cases hall
        | ok t =>
          rw [hs, ht] at hall
          obtain ⟨h1, h2, h3, h4⟩ := of_decide_eq_true hall
          obtain ⟨w, hw⟩ := Option.isSome_iff_exists.mp h4
          have ha' : Built toyHasher a := .mk (CellB.parts_ok (builderOf_wf _ _ _ (by simp) (by simp)).1) (by intro r h; cases h) ha
          have hp' : Built toyHasher p := by
            obtain ⟨p', e1, e2, _⟩ := (C13_make_pruned toyHasher ha'.view_ok (by omega : 0 ≤ 2)).1 h3
            rw [hp] at e1
            simp only [Except.ok.injEq] at e1
            rw [e1]; exact e2
          have hin : ∀ x y : CCell, Built toyHasher x → Built toyHasher y → ∀ r ∈ [x, y], Built toyHasher r := by
            intro x y hx hy r hr
            simp only [List.mem_cons, List.not_mem_nil, or_false] at hr
            rcases hr with rfl | rfl <;> assumption
          have hs' : Built toyHasher s := .mk (p := (builderOf false [] [a, a]).parts)
            (CellB.parts_ok (builderOf_wf _ _ _ (by simp) (by simp)).1) (hin a a ha' ha') hs
          have ht' : Built toyHasher t := .mk (p := (builderOf false [] [p, a]).parts)
            (CellB.parts_ok (builderOf_wf _ _ _ (by simp) (by simp)).1) (hin p a hp' ha') ht
          refine ⟨s, t, w, hs', ht', h1, h2, ?_, hw⟩
          have htree : ∀ x y c : CCell, (builderOf false [] [x, y]).build toyHasher = .ok c → c.tree = .mk false [] [x.tree, y.tree] := by
            intro x y c hc
            have hw := builderOf_wf false [] [x, y] (by simp) (by simp)
            obtain ⟨q, rfl⟩ := finalize_fields hc
            have e1 := (CellB.parts_desc hw.1).2
            have e2 := CellB.parts_bits hw.1
            rw [hw.2] at e2
            show Cell.mk (builderOf false [] [x, y]).parts.desc.isExotic (builderOf false [] [x, y]).parts.bits [x.tree, y.tree] = _
            rw [e1, e2]; rfl
          rw [htree _ _ _ hs, htree _ _ _ ht]
          refine .node rfl fun i i1 i2 => ?_
          rw [show (0 + offOf false []) = 0 from rfl]
          match i, i1 with
          | 0, _ => exact .prune ha' (by omega) hp
          | 1, _ => exact .same _ _

/-- A pruned branch with the given mask and stored hashes. -/
def exPrunedMask (mask n : Nat) : Except Err CCell :=
  (builderOf true (natBits 16 (256 + mask) ++ ((List.range n).map fun i => natBits 256 (i + 1)).flatten
    ++ ((List.range n).map fun i => natBits 16 (i + 1)).flatten) []).build toyHasher

/-- C14 fails for single cells: a pruned branch with mask `0b101` shows at level 1, once virtualized, the hash of level 0
and not its own hash of level 1, although level 1 is below the cut level. -/
theorem C14_mask_five : ∃ c, exPrunedMask 5 2 = .ok c ∧ c.desc.levelMask = 5 ∧
    (VCell.plain c).virtualize.hash 1 = c.hash 0 ∧ (VCell.plain c).virtualize.hash 1 ≠ c.hash 1 := by
  have hall : (match exPrunedMask 5 2 with
    | .ok c => decide (c.desc.levelMask = 5 ∧ (VCell.plain c).virtualize.hash 1 = c.hash 0 ∧ (VCell.plain c).virtualize.hash 1 ≠ c.hash 1)
    | .error _ => false) = true := by decide +kernel
  cases h : exPrunedMask 5 2 with
  | error e => rw [h] at hall; cases hall
  | ok c => rw [h] at hall; exact ⟨c, rfl, of_decide_eq_true hall⟩

/-- An ordinary cell over two pruned branches, one of level 2 and one of level 1. -/
def exMixed : Except Err CCell := do
  let a ← exPrunedMask 3 2
  let b ← exPrunedMask 1 1
  (builderOf false [] [a, b]).build toyHasher

/-- C14 fails for descendants of cells with several levels: the virtualized root still shows its hash of level 1,
which covers the second child's hash of level 1, but the virtualized second child shows its hash of level 0. -/
theorem C14_descendants : ∃ c r v, exMixed = .ok c ∧ c.desc.levelMask = 3 ∧ (VCell.plain c).virtualize.hash 1 = c.hash 1 ∧
    c.refs[1]? = some r ∧ (VCell.plain c).virtualize.reference 1 = some v ∧ v.hash 1 ≠ r.hash 1 := by
  have hall : (match exMixed with
    | .ok c => match c.refs[1]?, (VCell.plain c).virtualize.reference 1 with
      | some r, some v => decide (c.desc.levelMask = 3 ∧ (VCell.plain c).virtualize.hash 1 = c.hash 1 ∧ v.hash 1 ≠ r.hash 1)
      | _, _ => false
    | .error _ => false) = true := by decide +kernel
  cases h : exMixed with
  | error e => rw [h] at hall; cases hall
  | ok c =>
    rw [h] at hall
    dsimp only at hall
    cases h1 : c.refs[1]? with
    | none => rw [h1] at hall; cases hall
    | some r =>
      cases h2 : (VCell.plain c).virtualize.reference 1 with
      | none => rw [h1, h2] at hall; cases hall
      | some v =>
        rw [h1, h2] at hall
        have hd := of_decide_eq_true hall
        exact ⟨c, r, v, rfl, hd.1, hd.2.1, h1, h2, hd.2.2⟩

end Verif
