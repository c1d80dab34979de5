import Verif.MerkleDfs
/-
The set of changed cells computed for a Merkle update (`merkle/update.rs:549-588`, `640-655`).
-/
set_option linter.unusedVariables false
set_option linter.unusedSimpArgs false
namespace Verif
namespace Merkle
open Boc (Below Clash below_apart)

/-! ### Specification -/

/-- A hash of the set `P` is found at `t` or, going down through cells that the filter does not skip, below it. -/
inductive Holds (H : Hasher) (f : Filter) (P : List Hash) : Cell → Prop
  | here {t : Cell} (h : t.reprHash H ∈ P) : Holds H f P t
  | deep {t r : Cell} (hf : f (t.reprHash H) ≠ .skip) (hr : r ∈ t.refs) (h : Holds H f P r) : Holds H f P t

/-- `x` is reached from `t` through cells that the filter does not skip (`x` itself may be skipped). -/
inductive Reach (H : Hasher) (f : Filter) : Cell → Cell → Prop
  | refl (t : Cell) : Reach H f t t
  | step {t r x : Cell} (hf : f (t.reprHash H) ≠ .skip) (hr : r ∈ t.refs) (h : Reach H f r x) : Reach H f t x

/-- A cell that has to be kept as a node of the old tree: it is not skipped and a wanted cell is below it. -/
def Changed (H : Hasher) (f : Filter) (P : List Hash) (t : Cell) : Prop :=
  f (t.reprHash H) ≠ .skip ∧ ∃ r ∈ t.refs, Holds H f P r

/-- Included subtrees contain no skipped cells. -/
def Closed (H : Hasher) (f : Filter) (root : Cell) : Prop :=
  ∀ t, Cell.Sub t root → f (t.reprHash H) = .inclSubtree → ∀ x, Cell.Sub x t → f (x.reprHash H) ≠ .skip

/-! ### The computation -/

/-- Everything to be kept below `t` is recorded. -/
def Covers (H : Hasher) (f : Filter) (P : List Hash) (t : Cell) (r : Resolved) : Prop :=
  ∀ x, Reach H f t x → Changed H f P x → x.reprHash H ∈ r.changed

structure FillInv (H : Hasher) (f : Filter) (P : List Hash) (root : CCell) (r : Resolved) : Prop where
  visited : ∀ h b, (h, b) ∈ r.visited → ∃ c, Below [root] c ∧ h = c.reprHash ∧ (b = true ↔ Holds H f P c.tree) ∧ Covers H f P c.tree r
  changed : ∀ h ∈ r.changed, ∃ x, Reach H f root.tree x ∧ h = x.reprHash H ∧ Changed H f P x

structure FillMono (r r' : Resolved) : Prop where
  changed : ∀ h ∈ r.changed, h ∈ r'.changed

theorem Covers.mono {H : Hasher} {f : Filter} {P : List Hash} {t : Cell} {r r' : Resolved} (h : Covers H f P t r) (m : FillMono r r') : Covers H f P t r' :=
  fun x hx hc => m.changed _ (h x hx hc)

theorem FillInv.mono_visited {H : Hasher} {f : Filter} {P : List Hash} {root : CCell} {r : Resolved} (h : FillInv H f P root r) {v : Hash × Bool} {cs : List Hash}
    (hm : ∀ x ∈ r.changed, x ∈ cs) (hv : ∃ c, Below [root] c ∧ v.1 = c.reprHash ∧ (v.2 = true ↔ Holds H f P c.tree) ∧ Covers H f P c.tree ⟨v :: r.visited, cs⟩)
    (hc : ∀ x ∈ cs, ∃ y, Reach H f root.tree y ∧ x = y.reprHash H ∧ Changed H f P y) : FillInv H f P root ⟨v :: r.visited, cs⟩ where
  visited := by
    intro k b hm'
    rcases List.mem_cons.mp hm' with e | hm'
    · subst e; exact hv
    · obtain ⟨c, g1, g2, g3, g4⟩ := h.visited k b hm'
      exact ⟨c, g1, g2, g3, g4.mono ⟨hm⟩⟩
  changed := hc

theorem below_sub {root c : CCell} (h : Below [root] c) : Cell.Sub c.tree root.tree := by
  obtain ⟨r, hr, hs⟩ := h
  rw [List.mem_singleton.mp hr] at hs
  clear hr
  induction hs with
  | refl => exact .refl _
  | child hr s ih => exact .child (mem_refs_tree hr) ih

theorem enters_eq {f : Filter} {h : Hash} {skip : Bool} (hs : skip = true → f h ≠ .skip) : (enters f h skip).1 = decide (f h ≠ .skip) := by
  unfold enters
  cases skip with
  | true => rw [if_pos rfl]; exact (decide_eq_true (hs rfl)).symm
  | false =>
    rw [if_neg (by simp)]
    cases f h <;> rfl

theorem Reach.snoc {H : Hasher} {f : Filter} {a b c : Cell} (h : Reach H f a b) (hf : f (b.reprHash H) ≠ .skip) (hc : c ∈ b.refs) : Reach H f a c := by
  induction h with
  | refl => exact .step hf hc (.refl _)
  | step hf' hr _ ih => exact .step hf' hr (ih hf hc)

theorem Reach.sub {H : Hasher} {f : Filter} {a b : Cell} (h : Reach H f a b) : Cell.Sub b a := by
  induction h with
  | refl => exact .refl _
  | step hf hr _ ih => rename_i t _ _; obtain ⟨e, b, rs⟩ := t; exact .child hr ih

mutual
theorem fillNew_spec {H : Hasher} {f : Filter} {P : List Hash} {root : CCell} (ha : Boc.Writer.Apart H (Below [root])) (hA : Closed H f root.tree) :
    ∀ (c : CCell) (skip : Bool) (r : Resolved), Below [root] c → Reach H f root.tree c.tree → FillInv H f P root r →
      (skip = true → ∀ x, Cell.Sub x c.tree → f (x.reprHash H) ≠ .skip) →
      FillInv H f P root (fillNew f P c skip r).2 ∧ ((fillNew f P c skip r).1 = true ↔ Holds H f P c.tree) ∧ Covers H f P c.tree (fillNew f P c skip r).2 ∧
        FillMono r (fillNew f P c skip r).2
  | .mk desc bitLen data refs hashes, skip, r, hb, hre, hi, hs => by
    have hrun : fillNew f P (.mk desc bitLen data refs hashes) skip r =
      (if (enters f (CCell.mk desc bitLen data refs hashes).reprHash skip).1 then
        record (CCell.mk desc bitLen data refs hashes).reprHash true (fillKids f P refs (enters f (CCell.mk desc bitLen data refs hashes).reprHash skip).2 r).1
          (decide ((CCell.mk desc bitLen data refs hashes).reprHash ∈ P)) (fillKids f P refs (enters f (CCell.mk desc bitLen data refs hashes).reprHash skip).2 r).2
      else record (CCell.mk desc bitLen data refs hashes).reprHash false false (decide ((CCell.mk desc bitLen data refs hashes).reprHash ∈ P)) r) := rfl
    rw [hrun]
    have hkids := fun skip' => fillKids_spec (P := P) ha hA refs skip' r
    have hrefs : (CCell.mk desc bitLen data refs hashes).refs = refs := rfl
    generalize CCell.mk desc bitLen data refs hashes = c at *
    have hcb := ha.built hb
    have hh := reprHash_tree hcb
    have htr : c.tree.refs = refs.map CCell.tree := by rw [CCell.tree_refs, hrefs]
    rw [enters_eq (fun h => by rw [hh]; exact hs h _ (.refl _))]
    by_cases hf : f c.reprHash = .skip
    · rw [if_neg (by simp [hf])]
      unfold record
      have hnc : ¬ Changed H f P c.tree := fun h => h.1 (by rw [← hh]; exact hf)
      have hcov : ∀ r' : Resolved, Covers H f P c.tree r' := by
        intro r' x hx hc
        cases hx with
        | refl => exact absurd hc hnc
        | step hf' _ _ => exact absurd (by rw [← hh]; exact hf) hf'
      have hiff : decide (c.reprHash ∈ P) = true ↔ Holds H f P c.tree := by
        rw [decide_eq_true_iff, hh]
        constructor
        · exact fun h => .here h
        · intro h
          cases h with
          | here h => exact h
          | deep hf' _ _ => exact absurd (by rw [← hh]; exact hf) hf'
      refine ⟨hi.mono_visited (fun _ h => h) ⟨c, hb, rfl, hiff, hcov _⟩ hi.changed, hiff, hcov _, ⟨fun _ h => h⟩⟩
    · rw [if_pos (by simp [hf])]
      have hf' : f (c.tree.reprHash H) ≠ .skip := by rw [← hh]; exact hf
      have hskip : (enters f c.reprHash skip).2 = true → ∀ x, Cell.Sub x c.tree → f (x.reprHash H) ≠ .skip := by
        intro he
        unfold enters at he
        cases skip with
        | true => exact hs rfl
        | false =>
          rw [if_neg (by simp)] at he
          cases hfc : f c.reprHash with
          | skip => exact absurd hfc hf
          | incl => rw [hfc] at he; cases he
          | inclSubtree => exact hA _ (below_sub hb) (by rw [← hh]; exact hfc)
      obtain ⟨h1, h2, h3, h4⟩ := hkids (enters f c.reprHash skip).2 (fun x hx => ha.child hb (by rw [hrefs]; exact hx))
        (fun x hx => hre.snoc hf' (by rw [htr]; exact List.mem_map.mpr ⟨x, hx, rfl⟩)) hi
        (fun he y hy x hx => hskip he x (.child (by rw [htr]; exact List.mem_map.mpr ⟨y, hy, rfl⟩) hx))
      generalize fillKids f P refs (enters f c.reprHash skip).2 r = out at *
      obtain ⟨below, r1⟩ := out
      dsimp only at h1 h2 h3 h4
      unfold record
      dsimp only
      have hex : below = true ↔ ∃ y ∈ c.tree.refs, Holds H f P y := by
        rw [h2, htr]
        constructor
        · rintro ⟨y, hy, h⟩; exact ⟨_, List.mem_map.mpr ⟨y, hy, rfl⟩, h⟩
        · rintro ⟨t, ht, h⟩
          obtain ⟨y, hy, rfl⟩ := List.mem_map.mp ht
          exact ⟨y, hy, h⟩
      have hiff : (below || decide (c.reprHash ∈ P)) = true ↔ Holds H f P c.tree := by
        rw [Bool.or_eq_true, decide_eq_true_iff, hh, hex]
        constructor
        · rintro (⟨y, hy, h⟩ | h)
          · exact .deep hf' hy h
          · exact .here h
        · intro h
          cases h with
          | here h => exact Or.inr h
          | deep _ hr h => exact Or.inl ⟨_, hr, h⟩
      have hmono : ∀ x ∈ r1.changed, x ∈ (if (true && below) = true then c.reprHash :: r1.changed else r1.changed) := by
        intro x hx
        cases below
        · simpa using hx
        · simp [hx]
      have hcov : ∀ vs, Covers H f P c.tree ⟨vs, if (true && below) = true then c.reprHash :: r1.changed else r1.changed⟩ := by
        intro vs x hx hc
        cases hx with
        | refl =>
          have : below = true := hex.mpr hc.2
          rw [this, hh]; simp
        | step _ hr hx =>
          rw [htr] at hr
          obtain ⟨y, hy, rfl⟩ := List.mem_map.mp hr
          exact hmono _ (h3 y hy x hx hc)
      refine ⟨h1.mono_visited hmono ⟨c, hb, rfl, hiff, hcov _⟩ ?_, hiff, hcov _, ⟨fun x hx => hmono x (h4.changed x hx)⟩⟩
      intro x hx
      cases hbl : below with
      | false => rw [hbl] at hx; exact h1.changed x (by simpa using hx)
      | true =>
        rw [hbl] at hx
        rcases List.mem_cons.mp (by simpa using hx : x ∈ c.reprHash :: r1.changed) with rfl | hx
        · exact ⟨c.tree, hre, hh, hf', hex.mp hbl⟩
        · exact h1.changed x hx
theorem fillKids_spec {H : Hasher} {f : Filter} {P : List Hash} {root : CCell} (ha : Boc.Writer.Apart H (Below [root])) (hA : Closed H f root.tree) :
    ∀ (cs : List CCell) (skip : Bool) (r : Resolved), (∀ c ∈ cs, Below [root] c) → (∀ c ∈ cs, Reach H f root.tree c.tree) → FillInv H f P root r →
      (skip = true → ∀ c ∈ cs, ∀ x, Cell.Sub x c.tree → f (x.reprHash H) ≠ .skip) →
      FillInv H f P root (fillKids f P cs skip r).2 ∧ ((fillKids f P cs skip r).1 = true ↔ ∃ c ∈ cs, Holds H f P c.tree) ∧
        (∀ c ∈ cs, Covers H f P c.tree (fillKids f P cs skip r).2) ∧ FillMono r (fillKids f P cs skip r).2
  | [], skip, r, hb, hre, hi, hs => ⟨hi, by simp [fillKids], by simp, ⟨fun _ h => h⟩⟩
  | c :: cs, skip, r, hb, hre, hi, hs => by
    have hrun : fillKids f P (c :: cs) skip r =
      ((fillWith c r (fillNew f P c skip r)).1 || (fillKids f P cs skip (fillWith c r (fillNew f P c skip r)).2).1,
        (fillKids f P cs skip (fillWith c r (fillNew f P c skip r)).2).2) := rfl
    rw [hrun]
    have hbc := hb c (by simp)
    have hfirst : FillInv H f P root (fillWith c r (fillNew f P c skip r)).2 ∧ ((fillWith c r (fillNew f P c skip r)).1 = true ↔ Holds H f P c.tree) ∧
        Covers H f P c.tree (fillWith c r (fillNew f P c skip r)).2 ∧ FillMono r (fillWith c r (fillNew f P c skip r)).2 := by
      have hnew := fillNew_spec ha hA c skip r hbc (hre c (by simp)) hi (fun h => hs h c (by simp))
      generalize fillNew f P c skip r = out at *
      unfold fillWith
      cases hv : find r.visited c.reprHash with
      | none => exact hnew
      | some b =>
        obtain ⟨c', g1, g2, g3, g4⟩ := hi.visited _ _ (find_mem hv)
        have ht := ha.inj hbc g1 g2
        rw [ht]
        exact ⟨hi, g3, g4, ⟨fun _ h => h⟩⟩
    obtain ⟨i1, i2, i3, i4⟩ := hfirst
    generalize fillWith c r (fillNew f P c skip r) = out at *
    obtain ⟨b, r1⟩ := out
    dsimp only at i1 i2 i3 i4 ⊢
    obtain ⟨j1, j2, j3, j4⟩ := fillKids_spec ha hA cs skip r1 (fun x hx => hb x (by simp [hx])) (fun x hx => hre x (by simp [hx])) i1 (fun h x hx => hs h x (by simp [hx]))
    refine ⟨j1, ?_, ?_, ⟨fun x hx => j4.changed x (i4.changed x hx)⟩⟩
    · rw [Bool.or_eq_true, i2, j2]
      simp
    · intro x hx
      rcases List.mem_cons.mp hx with rfl | hx
      · exact i3.mono j4
      · exact j3 x hx
end

/-- The set of changed cells: exactly the cells of the old tree that are reached and lead to a wanted one, and the root if it leads
to one or is wanted itself. -/
theorem changedCells_exact {H : Hasher} {f : Filter} {P : List Hash} {root : CCell} (ha : Boc.Writer.Apart H (Below [root])) (hA : Closed H f root.tree) (h : Hash) :
    h ∈ changedCells f P root ↔ (Holds H f P root.tree ∧ h = root.reprHash) ∨ ∃ x, Reach H f root.tree x ∧ h = x.reprHash H ∧ Changed H f P x := by
  have hroot : Below [root] root := ⟨root, by simp, .refl _⟩
  have hi : FillInv H f P root ⟨[], []⟩ := ⟨by simp, by simp⟩
  obtain ⟨h1, h2, h3, h4⟩ := fillNew_spec ha hA root false ⟨[], []⟩ hroot (.refl _) hi (by simp)
  have hfill : fill f P root false ⟨[], []⟩ = fillNew f P root false ⟨[], []⟩ := rfl
  unfold changedCells
  rw [hfill]
  generalize fillNew f P root false ⟨[], []⟩ = out at *
  obtain ⟨any, r⟩ := out
  dsimp only at h1 h2 h3 h4 ⊢
  have hiff : h ∈ r.changed ↔ ∃ x, Reach H f root.tree x ∧ h = x.reprHash H ∧ Changed H f P x :=
    ⟨h1.changed h, fun ⟨x, a, b, c⟩ => b ▸ h3 x a c⟩
  rw [← hiff, ← h2]
  cases any <;> simp

/-- The set of changed cells: the cells of the old tree that lead to a wanted one, and the root if it leads to one
or is wanted itself. -/
theorem changedCells_spec {H : Hasher} {f : Filter} {P : List Hash} {root : CCell} (ha : Boc.Writer.Apart H (Below [root])) (hA : Closed H f root.tree) :
    (∀ x, Reach H f root.tree x → Changed H f P x → x.reprHash H ∈ changedCells f P root) ∧
    ∀ h ∈ changedCells f P root, h = root.reprHash ∨ ∃ x, Cell.Sub x root.tree ∧ h = x.reprHash H ∧ Changed H f P x := by
  refine ⟨fun x hx hc => (changedCells_exact ha hA _).mpr (.inr ⟨x, hx, rfl, hc⟩), fun h hh => ?_⟩
  rcases (changedCells_exact ha hA h).mp hh with ⟨_, e⟩ | ⟨x, hx, e, hc⟩
  · exact .inl e
  · exact .inr ⟨x, hx.sub, e, hc⟩

end Merkle
end Verif
