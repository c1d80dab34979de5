import Verif.BocSer
import Verif.CellInj
/-
The list of cells that the writer of bags of cells makes.
-/
set_option linter.unusedVariables false
set_option linter.unusedSimpArgs false
namespace Verif

/-- `a` is `t` or a cell below it. -/
inductive CCell.Sub : CCell → CCell → Prop
  | refl (t) : CCell.Sub t t
  | child {a r t : CCell} (h : r ∈ t.refs) (s : CCell.Sub a r) : CCell.Sub a t

theorem CCell.Sub.trans {a b c : CCell} (h : CCell.Sub a b) (h' : CCell.Sub b c) : CCell.Sub a c := by
  induction h' with
  | refl => exact h
  | child hr s ih => exact .child hr ih

theorem CCell.tree_refs (c : CCell) : c.tree.refs = c.refs.map CCell.tree := by
  cases c with
  | mk d n bs rs hs => exact CCell.treeList_eq rs

theorem CCell.Sub.tree {a b : CCell} (h : CCell.Sub a b) : Cell.Sub a.tree b.tree := by
  induction h with
  | refl => exact .refl _
  | child hr s ih => exact .child (by rw [CCell.tree_refs]; exact List.mem_map_of_mem hr) ih

theorem Cell.Sub.size {a b : Cell} (h : Cell.Sub a b) : sizeOf a ≤ sizeOf b := by
  induction h with
  | refl => exact Nat.le_refl _
  | @child r t hr s ih =>
    cases t with
    | mk e b rs =>
      have := List.sizeOf_lt_of_mem hr
      simp only [Cell.refs] at hr
      have h2 := List.sizeOf_lt_of_mem hr
      simp only [Cell.mk.sizeOf_spec]
      omega

theorem CCell.Sub.ne {a r c : CCell} (h : CCell.Sub a r) (hr : r ∈ c.refs) : a.tree ≠ c.tree := by
  intro e
  have h1 := h.tree.size
  have h2 : r.tree ∈ c.tree.refs := by rw [CCell.tree_refs]; exact List.mem_map_of_mem hr
  have h3 : sizeOf r.tree < sizeOf c.tree := by
    generalize c.tree = t at h2
    cases t with
    | mk e b rs =>
      have := List.sizeOf_lt_of_mem h2
      simp only [Cell.refs] at h2
      have h2 := List.sizeOf_lt_of_mem h2
      simp only [Cell.mk.sizeOf_spec]
      omega
  rw [e] at h1
  omega

theorem Built.child {H : Hasher} {c r : CCell} (h : Built H c) (hr : r ∈ c.refs) : Built H r := by
  cases h with
  | mk hp hb hf =>
    obtain ⟨hs, rfl⟩ := finalize_fields hf
    exact hb r hr

theorem Built.sub {H : Hasher} {a c : CCell} (s : CCell.Sub a c) (h : Built H c) : Built H a := by
  induction s with
  | refl => exact h
  | child hr s ih => exact ih (h.child hr)

namespace Boc
namespace Writer

theorem find_push (w : Writer) (c : CCell) (h : Hash) : (w.push c).find h = if c.reprHash = h then some w.count else w.find h := by
  unfold find push
  simp only [List.find?_cons]
  by_cases e : c.reprHash = h
  · simp [e]
  · have : (c.reprHash == h) = false := by simpa using e
    rw [this, if_neg e]

/-- What always holds of the state of the writer. -/
structure Inv (w : Writer) : Prop where
  idx : ∀ {h : Hash} {i : Nat}, w.find h = some i → ∃ c, w.cells[i]? = some c ∧ c.reprHash = h
  has : ∀ {i : Nat} {c : CCell}, w.cells[i]? = some c → w.find c.reprHash = some i
  closed : ∀ {i : Nat} {c : CCell}, w.cells[i]? = some c → ∀ r ∈ c.refs, ∃ j, j < i ∧ w.find r.reprHash = some j
  refs : w.refCount = (w.cells.map fun c => c.desc.referenceCount).sum

/-- The state `w'` after cells with the property `P` were added to `w`. -/
structure Grown (P : CCell → Prop) (w w' : Writer) : Prop where
  cells : ∃ added, w'.cells = w.cells ++ added ∧ (∀ a ∈ added, P a) ∧
    w'.dataSize = w.dataSize + (added.map fun c => byteLenFull c.desc w.withoutHashes).sum
  keep : ∀ {h : Hash} {i : Nat}, w.find h = some i → w'.find h = some i
  roots : w'.roots = w.roots
  wh : w'.withoutHashes = w.withoutHashes
  crc : w'.crc = w.crc
  inv : w'.Inv

theorem Grown.refl {P : CCell → Prop} {w : Writer} (h : w.Inv) : Grown P w w :=
  ⟨⟨[], by simp, by simp, by simp⟩, id, rfl, rfl, rfl, h⟩

theorem Grown.trans {P Q R : CCell → Prop} {a b c : Writer} (h1 : Grown P a b) (h2 : Grown Q b c) (hp : ∀ x, P x → R x) (hq : ∀ x, Q x → R x) :
    Grown R a c := by
  obtain ⟨a1, e1, f1, g1⟩ := h1.cells
  obtain ⟨a2, e2, f2, g2⟩ := h2.cells
  refine ⟨⟨a1 ++ a2, by rw [e2, e1, List.append_assoc], ?_, ?_⟩, fun h => h2.keep (h1.keep h), h2.roots.trans h1.roots, h2.wh.trans h1.wh,
    h2.crc.trans h1.crc, h2.inv⟩
  · intro x hx
    rcases List.mem_append.mp hx with h | h
    · exact hp x (f1 x h)
    · exact hq x (f2 x h)
  · rw [g2, g1, h1.wh, List.map_append, List.sum_append]; omega

theorem Inv.push {w : Writer} (h : w.Inv) {c : CCell} (hn : w.find c.reprHash = none) (hc : ∀ r ∈ c.refs, (w.find r.reprHash).isSome) :
    (w.push c).Inv := by
  have hlt : ∀ {h : Hash} {i : Nat}, w.find h = some i → i < w.cells.length := by
    intro h' i hi
    obtain ⟨c, hc, _⟩ := h.idx hi
    exact (List.getElem?_eq_some_iff.mp hc).1
  have hcells : (w.push c).cells = w.cells ++ [c] := rfl
  have hget : ∀ {i : Nat} {x : CCell}, (w.push c).cells[i]? = some x → (w.cells[i]? = some x ∧ i < w.cells.length) ∨ (i = w.cells.length ∧ x = c) := by
    intro i x hx
    rw [hcells, List.getElem?_append] at hx
    by_cases hi : i < w.cells.length
    · rw [if_pos hi] at hx; exact Or.inl ⟨hx, hi⟩
    · rw [if_neg hi, List.getElem?_singleton] at hx
      by_cases h0 : i - w.cells.length = 0
      · rw [if_pos h0] at hx
        injection hx with hx
        exact Or.inr ⟨by omega, hx.symm⟩
      · rw [if_neg h0] at hx; cases hx
  refine ⟨?_, ?_, ?_, ?_⟩
  · intro h' i hi
    rw [find_push] at hi
    by_cases e : c.reprHash = h'
    · rw [if_pos e] at hi
      injection hi with hi
      exact ⟨c, by rw [hcells, ← hi]; simp [count], e⟩
    · rw [if_neg e] at hi
      obtain ⟨x, hx, he⟩ := h.idx hi
      exact ⟨x, by rw [hcells, List.getElem?_append_left (hlt hi)]; exact hx, he⟩
  · intro i x hx
    rw [find_push]
    rcases hget hx with ⟨h1, h2⟩ | ⟨rfl, rfl⟩
    · have := h.has h1
      rw [if_neg (fun e => by rw [e, this] at hn; cases hn), this]
    · rw [if_pos rfl]; rfl
  · intro i x hx r hr
    rcases hget hx with ⟨h1, h2⟩ | ⟨rfl, rfl⟩
    · obtain ⟨j, hj, hf⟩ := h.closed h1 r hr
      refine ⟨j, hj, ?_⟩
      rw [find_push, if_neg (fun e => by rw [e, hf] at hn; cases hn), hf]
    · have hs := hc r hr
      obtain ⟨j, hj⟩ := Option.isSome_iff_exists.mp hs
      refine ⟨j, hlt hj, ?_⟩
      rw [find_push, if_neg (fun e => by rw [e, hj] at hn; cases hn), hj]
  · show w.refCount + c.desc.referenceCount = _
    rw [hcells, h.refs, List.map_append, List.sum_append]; simp

theorem Grown.push {P : CCell → Prop} {w : Writer} (h : w.Inv) {c : CCell} (hn : w.find c.reprHash = none) (hc : ∀ r ∈ c.refs, (w.find r.reprHash).isSome)
    (hp : P c) : Grown P w (w.push c) := by
  refine ⟨⟨[c], rfl, by simpa using hp, by simp [Writer.push]⟩, ?_, rfl, rfl, rfl, h.push hn hc⟩
  intro h' i hi
  rw [find_push, if_neg (fun e => by rw [e, hi] at hn; cases hn), hi]

/-- A set of cells in which equal hashes mean equal contents. -/
structure Apart (H : Hasher) (S : CCell → Prop) : Prop where
  built : ∀ {c}, S c → Built H c
  child : ∀ {c r}, S c → r ∈ c.refs → S r
  inj : ∀ {a b}, S a → S b → a.reprHash = b.reprHash → a.tree = b.tree

theorem Apart.sub {H : Hasher} {S : CCell → Prop} (h : Apart H S) {a c : CCell} (s : CCell.Sub a c) (hc : S c) : S a := by
  induction s with
  | refl => exact hc
  | child hr s ih => exact ih (h.child hc hr)

/-- Adding a list of cells does not add a cell with the hash of a cell above all of them. -/
theorem find_fresh {H : Hasher} {S : CCell → Prop} (ha : Apart H S) {c : CCell} (hc : S c) {w w' : Writer} (hw : w.find c.reprHash = none)
    (hg : Grown (fun a => ∃ r ∈ c.refs, CCell.Sub a r) w w') (hi : w.Inv) : w'.find c.reprHash = none := by
  cases hf : w'.find c.reprHash with
  | none => rfl
  | some i =>
    exfalso
    obtain ⟨x, hx, he⟩ := hg.inv.idx hf
    obtain ⟨added, e, hp, _⟩ := hg.cells
    rw [e, List.getElem?_append] at hx
    by_cases hlt : i < w.cells.length
    · rw [if_pos hlt] at hx
      have := hi.has hx
      rw [he, hw] at this
      cases this
    · rw [if_neg hlt] at hx
      obtain ⟨r, hr, hs⟩ := hp x (List.mem_of_getElem? hx)
      exact hs.ne hr (ha.inj (ha.sub hs (ha.child hc hr)) hc he)

mutual
theorem fillRec_spec {H : Hasher} {S : CCell → Prop} (ha : Apart H S) : ∀ (c : CCell) {w : Writer}, w.Inv → S c → w.find c.reprHash = none →
    Grown (fun a => CCell.Sub a c) w (w.fillRec c) ∧ (w.fillRec c).find c.reprHash = some ((w.fillRec c).count - 1) ∧
    w.count < (w.fillRec c).count ∧ (w.fillRec c).count + w.refCount ≤ (w.fillRec c).refCount + w.count + 1
  | .mk d n bs rs hs, w, hw, hc, hn => by
    have hfill : w.fillRec (.mk d n bs rs hs) = (w.fillList rs).push (.mk d n bs rs hs) := by rw [Writer.fillRec]
    rw [hfill]
    obtain ⟨g, f, n1⟩ := fillList_spec ha rs hw (fun r hr => ha.child hc hr)
    have hfresh := find_fresh ha hc hn (w' := w.fillList rs) g hw
    have hpush : Grown (fun a => CCell.Sub a (.mk d n bs rs hs)) (w.fillList rs) ((w.fillList rs).push (.mk d n bs rs hs)) :=
      Grown.push g.inv hfresh f (.refl _)
    refine ⟨Grown.trans g hpush (fun x hx => ?_) (fun _ h => h), ?_, ?_, ?_⟩
    · obtain ⟨r, hr, hs⟩ := hx
      exact .child hr hs
    · rw [find_push, if_pos rfl]
      show some _ = some (((w.fillList rs).cells ++ [_]).length - 1)
      simp [count]
    · obtain ⟨added, e, _, _⟩ := g.cells
      show w.cells.length < ((w.fillList rs).cells ++ [_]).length
      rw [e]; simp
    · have hr : d.referenceCount = rs.length := (ha.built hc).facts.refs
      show ((w.fillList rs).cells ++ [_]).length + _ ≤ (w.fillList rs).refCount + d.referenceCount + _ + 1
      have : ((w.fillList rs).cells ++ [CCell.mk d n bs rs hs]).length = (w.fillList rs).count + 1 := by simp [count]
      rw [this, hr]; omega
theorem fillList_spec {H : Hasher} {S : CCell → Prop} (ha : Apart H S) : ∀ (cs : List CCell) {w : Writer}, w.Inv → (∀ r ∈ cs, S r) →
    Grown (fun a => ∃ r ∈ cs, CCell.Sub a r) w (w.fillList cs) ∧ (∀ r ∈ cs, ((w.fillList cs).find r.reprHash).isSome) ∧
    (w.fillList cs).count + w.refCount ≤ (w.fillList cs).refCount + w.count + cs.length
  | [], w, hw, _ => by
    rw [show w.fillList [] = w by rw [Writer.fillList]]
    exact ⟨Grown.refl hw, by simp, by simp; omega⟩
  | c :: cs, w, hw, hS => by
    have hrest := fun r hr => hS r (List.mem_cons_of_mem c hr)
    have hfill : w.fillList (c :: cs) = Writer.fillList (if (w.find c.reprHash).isSome then w else w.fillRec c) cs := by rw [Writer.fillList]
    rw [hfill]
    by_cases hf : (w.find c.reprHash).isSome
    · rw [if_pos hf]
      obtain ⟨g, f, n1⟩ := fillList_spec ha cs hw hrest
      refine ⟨Grown.trans (Grown.refl (P := fun a => ∃ r ∈ c :: cs, CCell.Sub a r) hw) g (fun _ h => h) (fun x hx => ?_), ?_, ?_⟩
      · obtain ⟨r, hr, hs⟩ := hx
        exact ⟨r, List.mem_cons_of_mem _ hr, hs⟩
      · intro r hr
        rcases List.mem_cons.mp hr with rfl | hr
        · obtain ⟨i, hi⟩ := Option.isSome_iff_exists.mp hf
          rw [g.keep hi]; rfl
        · exact f r hr
      · simp only [List.length_cons]; omega
    · rw [if_neg hf]
      have hn : w.find c.reprHash = none := by simpa using hf
      obtain ⟨g1, f1, l1, n1⟩ := fillRec_spec ha c hw (hS c List.mem_cons_self) hn
      obtain ⟨g, f, n2⟩ := fillList_spec ha cs g1.inv hrest
      refine ⟨Grown.trans g1 g (fun x hx => ⟨c, List.mem_cons_self, hx⟩) (fun x hx => ?_), ?_, ?_⟩
      · obtain ⟨r, hr, hs⟩ := hx
        exact ⟨r, List.mem_cons_of_mem _ hr, hs⟩
      · intro r hr
        rcases List.mem_cons.mp hr with rfl | hr
        · rw [g.keep f1]; rfl
        · exact f r hr
      · simp only [List.length_cons]; omega
end

/-! ### The version with an explicit stack -/

theorem deepGo_spec : ∀ (k : Nat) (rs : List CCell), CCell.stepsList rs ≤ k → ∀ (c : CCell) (stack : List (CCell × List CCell)) (w : Writer) (fuel : Nat),
    ∃ f, Writer.deepGo (fuel + CCell.stepsList rs + 1) ((c, rs) :: stack) w = Writer.deepGo f stack ((w.fillList rs).push c) ∧ fuel ≤ f := by
  intro k
  induction k with
  | zero =>
    intro rs hk c stack w fuel
    cases rs with
    | nil => exact ⟨fuel, by rw [CCell.stepsList, Writer.deepGo, Writer.fillList], Nat.le_refl _⟩
    | cons r rs => rw [CCell.stepsList] at hk; omega
  | succ k ih =>
    intro rs hk c stack w fuel
    cases rs with
    | nil => exact ⟨fuel, by rw [CCell.stepsList, Writer.deepGo, Writer.fillList], Nat.le_refl _⟩
    | cons r rs =>
      have hsteps : CCell.stepsList (r :: rs) = CCell.steps r + 1 + CCell.stepsList rs := by rw [CCell.stepsList]
      rw [hsteps] at hk
      have hpos : 1 ≤ CCell.steps r := by cases r; rw [CCell.steps]; omega
      have hfill : w.fillList (r :: rs) = Writer.fillList (if (w.find r.reprHash).isSome then w else w.fillRec r) rs := by rw [Writer.fillList]
      rw [hfill]
      have hfuel : fuel + CCell.stepsList (r :: rs) + 1 = (fuel + CCell.steps r + CCell.stepsList rs + 1) + 1 := by rw [hsteps]; omega
      rw [hfuel, Writer.deepGo]
      by_cases hf : (w.find r.reprHash).isSome
      · rw [if_pos hf, if_pos hf]
        obtain ⟨f, e, hle⟩ := ih rs (by omega) c stack w (fuel + CCell.steps r)
        exact ⟨f, e, by omega⟩
      · rw [if_neg hf, if_neg hf]
        have hr : CCell.steps r = CCell.stepsList r.refs + 1 := by cases r; rw [CCell.steps]; rfl
        have hrec : w.fillRec r = (w.fillList r.refs).push r := by cases r; rw [Writer.fillRec]; rfl
        have e0 : fuel + CCell.steps r + CCell.stepsList rs + 1 = (fuel + CCell.stepsList rs + 1) + CCell.stepsList r.refs + 1 := by omega
        rw [e0]
        obtain ⟨f1, e1, h1⟩ := ih r.refs (by omega) r ((c, rs) :: stack) w (fuel + CCell.stepsList rs + 1)
        rw [e1, ← hrec]
        obtain ⟨g, hg⟩ : ∃ g, f1 = g + CCell.stepsList rs + 1 := ⟨f1 - (CCell.stepsList rs + 1), by omega⟩
        rw [hg]
        obtain ⟨f2, e2, h2⟩ := ih rs (by omega) c stack (w.fillRec r) g
        exact ⟨f2, e2, by omega⟩

theorem fillDeep_eq (w : Writer) (c : CCell) : w.fillDeep c = w.fillRec c := by
  unfold fillDeep
  have hr : CCell.steps c = 0 + CCell.stepsList c.refs + 1 := by cases c; rw [CCell.steps]; show _ = 0 + CCell.stepsList _ + 1; simp only [CCell.refs]; omega
  have hrec : w.fillRec c = (w.fillList c.refs).push c := by cases c; rw [Writer.fillRec]; rfl
  obtain ⟨f, e, _⟩ := deepGo_spec _ c.refs (Nat.le_refl _) c [] w 0
  rw [hr, e, hrec]
  have : ∀ w' : Writer, Writer.deepGo f [] w' = some w' := by intro w'; cases f <;> rw [Writer.deepGo]
  rw [this]; rfl

theorem fill_eq (w : Writer) (c : CCell) : w.fill c = match w.find c.reprHash with
    | some i => (w, i)
    | none => (w.fillRec c, (w.fillRec c).count - 1) := by
  unfold fill
  rw [fillDeep_eq]
  cases w.find c.reprHash with
  | some i => rfl
  | none => dsimp only; rw [ite_self]

end Writer
end Boc
end Verif
