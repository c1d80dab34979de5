import Verif.Usage
/-
Usage trees as filters for Merkle updates and proofs.
-/
set_option linter.unusedVariables false
set_option linter.unusedSimpArgs false
namespace Verif
namespace Usage
open Boc (Below Clash below_apart)
open Merkle

theorem Reach.mono {H : Hasher} {s s' : List Hash} (hs : ∀ h ∈ s, h ∈ s') {a b : Cell} (h : Reach H (setFilter s) a b) : Reach H (setFilter s') a b := by
  induction h with
  | refl => exact .refl _
  | step hf hr h ih =>
    refine .step ?_ hr ih
    intro he
    refine hf ?_
    unfold setFilter at he ⊢
    split at he
    · cases he
    · rename_i hn
      rw [if_neg (fun hm => hn (hs _ hm))]

/-- A cell met by going down from `old` through met cells. -/
def InPath (H : Hasher) (old : CCell) (seen : List Hash) (c : CCell) : Prop :=
  Below [old] c ∧ c.reprHash ∈ seen ∧ Reach H (setFilter seen) old.tree c.tree

structure PathInv (H : Hasher) (old : CCell) (m : Usage.Plain) : Prop where
  mode : m.onLoad = true
  regs : m.alive = true → ∀ r c, m.reg r = some c → InPath H old m.seen c
  seen : ∀ h ∈ m.seen, ∃ c, h = c.reprHash ∧ InPath H old m.seen c

theorem InPath.mono {H : Hasher} {old : CCell} {s s' : List Hash} (hs : ∀ h ∈ s, h ∈ s') {c : CCell} (h : InPath H old s c) : InPath H old s' c :=
  ⟨h.1, hs _ h.2.1, Reach.mono hs h.2.2⟩

theorem reg_append (m : Usage.Plain) (x : Option CCell) (r : Nat) (c : CCell) (h : ({ m with regs := m.regs ++ [x] } : Usage.Plain).reg r = some c) : m.reg r = some c ∨ x = some c := by
  unfold Plain.reg at h
  dsimp only at h
  rw [join_append] at h
  split at h
  · exact Or.inr h
  · exact Or.inl h

theorem PathInv.add {H : Hasher} {old : CCell} {m : Usage.Plain} (h : PathInv H old m) {c : CCell} (hc : m.alive = true → InPath H old (c.reprHash :: m.seen) c) :
    PathInv H old (({ m with regs := m.regs ++ [some c] } : Usage.Plain).meet m.onLoad (some c)) := by
  unfold Plain.meet
  dsimp only
  cases ha : m.alive with
  | false =>
    exact ⟨h.mode, fun h' => (by cases h'), h.seen⟩
  | true =>
    have hc := hc ha
    rw [if_pos (by rw [h.mode]; rfl)]
    refine ⟨h.mode, ?_, ?_⟩
    · intro _ r d hd
      rcases reg_append m (some c) r d hd with hd | hd
      · exact (h.regs ha r d hd).mono (fun _ hh => List.mem_cons_of_mem _ hh)
      · injection hd with hd; rw [← hd]; exact hc
    · intro k hk
      rcases List.mem_cons.mp hk with rfl | hk
      · exact ⟨c, rfl, hc⟩
      · obtain ⟨d, e, hd⟩ := h.seen k hk
        exact ⟨d, e, hd.mono (fun _ hh => List.mem_cons_of_mem _ hh)⟩

theorem PathInv.step {H : Hasher} {old : CCell} (hb : Built H old) {m : Usage.Plain} (h : PathInv H old m) (o : Op) (ho : ∀ c, o = .track c → c = old) :
    PathInv H old (m.step o).1 := by
  cases o with
  | drop => exact ⟨h.mode, fun h' => (by cases h'), h.seen⟩
  | info r l => exact h
  | untrack r => exact h
  | data r =>
    show PathInv H old (m.meet (!m.onLoad) (m.reg r))
    rw [h.mode]
    unfold Plain.meet
    split
    · exact h
    · simpa using h
  | track c =>
    have := ho c rfl
    subst this
    unfold Plain.step
    dsimp only
    split
    · exact h.add (fun _ => ⟨below_self c, List.mem_cons_self, .refl _⟩)
    · rename_i ha
      exact ⟨h.mode, fun h' => absurd h' ha, h.seen⟩
  | load r i =>
    unfold Plain.step
    dsimp only
    cases hr : m.reg r with
    | none =>
      refine ⟨h.mode, fun ha r' c hc => ?_, h.seen⟩
      rcases reg_append m none r' c hc with hc | hc
      · exact h.regs ha r' c hc
      · cases hc
    | some c =>
      dsimp only [Option.bind_some]
      cases hq : c.refs[i]? with
      | none =>
        refine ⟨h.mode, fun ha r' c hc => ?_, h.seen⟩
        rcases reg_append m none r' c hc with hc | hc
        · exact h.regs ha r' c hc
        · cases hc
      | some q =>
        refine h.add (fun ha => ?_)
        obtain ⟨p1, p2, p3⟩ := (h.regs ha r c hr).mono (s' := q.reprHash :: m.seen) (fun _ hh => List.mem_cons_of_mem _ hh)
        have hmem := List.mem_of_getElem? hq
        obtain ⟨x, hx, hs⟩ := p1
        refine ⟨⟨x, hx, Boc.CCell_sub_last hs hmem⟩, List.mem_cons_self, p3.snoc ?_ (mem_refs_tree hmem)⟩
        have hcb : Built H c := by
          rw [List.mem_singleton.mp hx] at hs
          exact hb.sub hs
        rw [← reprHash_tree hcb, setFilter_incl p2]
        simp

theorem PathInv.run {H : Hasher} {old : CCell} (hb : Built H old) : ∀ (os : List Op) {m : Usage.Plain}, PathInv H old m → (∀ o ∈ os, ∀ c, o = .track c → c = old) →
    PathInv H old (m.run os).1
  | [], m, h, _ => h
  | o :: os, m, h, ho => PathInv.run hb os (h.step hb o (ho o (by simp))) (fun x hx => ho x (by simp [hx]))

/-- A usage tree in the mode `OnLoad`, whatever the caller does with the tracked old tree: the update from the old tree to any new tree is created and applying it gives
the new tree. (Both of level 0 and without Merkle cells; up to hash collisions.) -/
theorem C37_usage {H : Hasher} {old new : CCell} (ho : Merkle.Plain H old) (hn : Merkle.Plain H new) (os : List Op) (hos : ∀ c, Op.track c ∈ os → c = old) :
    Clash H [old, new] ∨ ∃ u, Update.build H ((Machine.start true).run os).1.tree.filter old new = .ok u ∧
      (Clash H [old, new, u.old, u.new] ∨ ∃ c, u.apply H old = .ok c ∧ Built H c ∧ c.tree = new.tree) := by
  by_cases hcl : Clash H [old, new]
  · exact Or.inl hcl
  have ha2 : Boc.Writer.Apart H (Below [old, new]) := below_apart (by
    intro r hr
    simp only [List.mem_cons, List.not_mem_nil, or_false] at hr
    rcases hr with rfl | rfl
    · exact ho.built
    · exact hn.built) hcl
  obtain ⟨_, hex, _⟩ := C39_exact (H := H) true os (by intro c hc; rw [hos c hc]; exact ho.built)
  have hpath : PathInv H old ((Usage.Plain.start true).run os).1 := PathInv.run ho.built os (m := Usage.Plain.start true)
    ⟨rfl, fun _ r c hc => (by cases hc), fun h hh => (by cases hh)⟩ (fun o ho' c e => hos c (e ▸ ho'))
  have hfil : ((Machine.start true).run os).1.tree.filter = setFilter ((Usage.Plain.start true).run os).1.seen := by
    funext h
    unfold Tree.filter setFilter
    by_cases hh : h ∈ ((Usage.Plain.start true).run os).1.seen
    · rw [if_pos hh, if_pos ((hex h).mpr hh)]
    · rw [if_neg hh, if_neg (fun e => hh ((hex h).mp e))]
  rw [hfil]
  refine C37_visited ho hn ?_ ?_
  · intro h; unfold setFilter; split <;> simp
  · intro x hx hf
    have hmem : x.reprHash H ∈ ((Usage.Plain.start true).run os).1.seen := by
      unfold setFilter at hf
      split at hf
      · assumption
      · exact absurd rfl hf
    obtain ⟨c, e, hb, _, hr⟩ := hpath.seen _ hmem
    obtain ⟨q, hq, rfl⟩ := sub_tree_inv hx rfl
    have hqb : Below [old, new] q := ⟨new, by simp, hq⟩
    have hcb : Below [old, new] c := by
      obtain ⟨y, hy, hs⟩ := hb
      rw [List.mem_singleton.mp hy] at hs
      exact ⟨old, by simp, hs⟩
    rw [← reprHash_tree (ha2.built hqb)] at e
    rw [ha2.inj hqb hcb e]
    exact hr

/-! ### Concrete cases -/

/-- An old tree of four cells in a row and a new tree with the third of them. -/
def chain : Except Err (CCell × CCell) := do
  let leaf ← mkCell false [true, false] []
  let y ← mkCell false [true] [leaf]
  let a ← mkCell false [false] [y]
  let old ← mkCell false [] [a]
  let new ← mkCell false [true, true] [y]
  .ok (old, new)

/-- Going down two references and reading the cell there. -/
def descend (old : CCell) : List Op := [.track old, .data 0, .load 0 0, .load 1 0, .data 2]

-- the same history gives different sets in the two modes
example : (match chain with
  | .ok (old, _) => decide (((Machine.start true).run (descend old)).1.tree.visited.length = 3 ∧ ((Machine.start false).run (descend old)).1.tree.visited.length = 2)
  | .error _ => false) = true := by decide +kernel

/-- In the mode `OnDataAccess` a cell can be visited without the cell above it, whose data was not read: the update is created but cannot be applied. In the
mode `OnLoad` it can. -/
theorem C37_data_access :
    (match chain with
      | .ok (old, new) =>
        (match updated ((Machine.start false).run (descend old)).1.tree.filter old new with | .error .invalidData => true | _ => false) &&
        (match updated ((Machine.start true).run (descend old)).1.tree.filter old new with | .ok c => decide (c.reprHash = new.reprHash) | _ => false)
      | .error _ => false) = true := by decide +kernel

/-- Marking a cell as the root of a subtree has no effect on a cell that was already visited: its unvisited descendants are left out of the proof. Without
the visit they are in. -/
theorem C39_visited_subtree :
    (match chain with
      | .ok (old, _) =>
        (match Proof.build toyHasher ⟨((Machine.start false).run [.track old, .data 0]).1.tree.filterSub [old.reprHash], false⟩ false old with
          | .ok p => decide ((p.cell.refs.getD 0 old).desc.isPrunedBranch = true) | .error _ => false) &&
        (match Proof.build toyHasher ⟨((Machine.start false).run [.track old, .data 0, .load 0 0]).1.tree.filterSub [(old.refs.getD 0 old).reprHash], false⟩ false old with
          | .ok p => decide (p.cell.reprHash = old.reprHash) | .error _ => false)
      | .error _ => false) = true := by decide +kernel

/-- The filter of a usage tree: visited cells are included; other cells are included with everything below them exactly when they are marked as subtree roots. -/
theorem C39_filter {H : Hasher} (onLoad : Bool) (os : List Op) (hb : ∀ c, Op.track c ∈ os → Built H c) (subtrees : List Hash) (h : Hash) :
    let t := ((Machine.start onLoad).run os).1.tree
    let seen := ((Usage.Plain.start onLoad).run os).1.seen
    (t.filterSub subtrees h = .incl ↔ h ∈ seen) ∧ (t.filterSub subtrees h = .inclSubtree ↔ h ∈ subtrees ∧ h ∉ seen) ∧ (t.filter h ≠ .skip ↔ h ∈ seen) := by
  intro t seen
  obtain ⟨_, hex, _⟩ := C39_exact (H := H) onLoad os hb
  have hex : ∀ h, t.contains h = true ↔ h ∈ seen := hex
  unfold Tree.filterSub Tree.filter
  by_cases hs : h ∈ seen
  · rw [if_pos ((hex h).mpr hs), if_pos ((hex h).mpr hs)]
    simp [hs]
  · rw [if_neg (fun e => hs ((hex h).mp e)), if_neg (fun e => hs ((hex h).mp e))]
    by_cases hsub : h ∈ subtrees
    · rw [if_pos hsub]; simp [hs, hsub]
    · rw [if_neg hsub]; simp [hs, hsub]

end Usage
end Verif
