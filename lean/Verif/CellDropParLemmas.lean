/-
The invariant of memory, handles and running destructors, and its preservation by each change of a cell.
-/
import Verif.CellDropPar
set_option linter.unusedVariables false
namespace Verif.DropPar

/-! ### Specification -/

/-- The cell at address `a` is in memory. -/
def Live (h : Heap) (a : Nat) (n : Node) : Prop := h[a]? = some (some n)

/-- A cell that was not changed since it was built: all the references it was built with are in their slots. -/
def Node.clean (n : Node) : Prop := n.refs = n.built ∧ n.cnt = n.refs.length ∧ n.noFirst = false ∧ n.turned = false

/-- A cell reached from a handle by references. -/
inductive Reach (h : Heap) : Nat → Nat → Prop
  | refl (a : Nat) : Reach h a a
  | step {a b c : Nat} {n : Node} : Live h a n → b ∈ n.owned → Reach h b c → Reach h a c

/-! ### Counting -/

def own : Option Node → List Nat
  | some n => n.owned
  | none => []

def strongAt (h : Heap) (a : Nat) : Nat :=
  match h[a]? with
  | some (some n) => n.strong
  | _ => 0

/-- The number of slots that refer to a cell. -/
def indeg (h : Heap) (a : Nat) : Nat := (h.flatMap own).count a

/-- The handles of a frame. The frames `deep` and `rest` borrow the handle of the frame `drop` below them. -/
def Frame.handles : Frame → List Nat
  | .drop a => [a]
  | .each cs => cs
  | .deep _ => []
  | .rest _ => []
  | .main p => [p]
  | .loop p c => [p, c]
  | .next p keep => p :: keep.toList

def stackH (st : List Frame) : List Nat := st.flatMap Frame.handles

theorem count_set {α : Type} (f : α → List Nat) (x y : α) (b : Nat) : ∀ (l : List α) (i : Nat), l[i]? = some y →
    ((l.set i x).flatMap f).count b + (f y).count b = (l.flatMap f).count b + (f x).count b := by
  intro l
  induction l with
  | nil => intro i h; simp at h
  | cons z l ih =>
    intro i h
    cases i with
    | zero =>
      have e : z = y := by simpa using h
      subst e
      simp only [List.set_cons_zero, List.flatMap_cons, List.count_append]
      omega
    | succ i =>
      have := ih i (by simpa using h)
      simp only [List.set_cons_succ, List.flatMap_cons, List.count_append]
      omega

theorem sum_set {α : Type} (f : α → Nat) (x y : α) : ∀ (l : List α) (i : Nat), l[i]? = some y →
    ((l.set i x).map f).sum + f y = (l.map f).sum + f x := by
  intro l
  induction l with
  | nil => intro i h; simp at h
  | cons z l ih =>
    intro i h
    cases i with
    | zero =>
      have e : z = y := by simpa using h
      subst e
      simp only [List.set_cons_zero, List.map_cons, List.sum_cons]
      omega
    | succ i =>
      have := ih i (by simpa using h)
      simp only [List.set_cons_succ, List.map_cons, List.sum_cons]
      omega

theorem live_lt {h : Heap} {a : Nat} {n : Node} (l : Live h a n) : a < h.length := by
  unfold Live at l
  exact (List.getElem?_eq_some_iff.mp l).1

theorem live_inj {h : Heap} {a : Nat} {n m : Node} (l : Live h a n) (l' : Live h a m) : n = m := by
  unfold Live at l l'
  rw [l] at l'
  injection l' with e
  injection e

theorem live_set {h : Heap} {a c : Nat} {x : Option Node} {n : Node} (la : a < h.length) :
    Live (h.set a x) c n ↔ (c = a ∧ x = some n) ∨ (c ≠ a ∧ Live h c n) := by
  unfold Live
  rw [List.getElem?_set]
  by_cases e : a = c
  · subst e
    simp [la]
  · rw [if_neg e]
    constructor
    · intro l; exact .inr ⟨fun e' => e e'.symm, l⟩
    · rintro (⟨e', _⟩ | ⟨_, l⟩)
      · exact absurd e'.symm e
      · exact l

theorem strongAt_live {h : Heap} {a : Nat} {n : Node} (l : Live h a n) : strongAt h a = n.strong := by
  unfold Live at l
  unfold strongAt
  rw [l]

theorem live_of_strongAt {h : Heap} {a : Nat} (p : 0 < strongAt h a) : ∃ n, Live h a n := by
  unfold strongAt at p
  split at p
  · rename_i n e; exact ⟨n, e⟩
  · omega

theorem strongAt_set {h : Heap} {a c : Nat} {x : Option Node} (la : a < h.length) :
    strongAt (h.set a x) c = if c = a then (match x with | some n => n.strong | none => 0) else strongAt h c := by
  unfold strongAt
  rw [List.getElem?_set]
  by_cases e : a = c
  · subst e
    simp only [if_true, la]
    cases x <;> rfl
  · rw [if_neg e, if_neg (fun e' => e e'.symm)]

theorem indeg_set {h : Heap} {a : Nat} {n : Node} (l : Live h a n) (x : Option Node) (b : Nat) :
    indeg (h.set a x) b + n.owned.count b = indeg h b + (own x).count b :=
  count_set own x (some n) b h a l

theorem indeg_pos {h : Heap} {a b : Nat} {n : Node} (l : Live h a n) (m : b ∈ n.owned) : 0 < indeg h b := by
  unfold indeg
  rw [List.count_pos_iff, List.mem_flatMap]
  exact ⟨some n, List.mem_of_getElem? l, m⟩

theorem of_indeg_pos {h : Heap} {b : Nat} (p : 0 < indeg h b) : ∃ a n, Live h a n ∧ b ∈ n.owned := by
  unfold indeg at p
  rw [List.count_pos_iff, List.mem_flatMap] at p
  obtain ⟨o, mo, mb⟩ := p
  cases o with
  | none => simp [own] at mb
  | some n =>
    obtain ⟨a, la, e⟩ := List.getElem_of_mem mo
    exact ⟨a, n, by unfold Live; rw [List.getElem?_eq_some_iff]; exact ⟨la, e⟩, mb⟩

/-! ### The invariant of memory -/

/-- The slots after the first one. -/
def Node.others (n : Node) : List Nat := (n.refs.take n.cnt).drop 1

theorem others_owned {n : Node} {x : Nat} (m : x ∈ n.others) : x ∈ n.owned := by
  unfold Node.owned
  split
  · exact m
  · exact List.mem_of_mem_drop m

/-- The memory, with the number of handles outside of it (`H`), of those that the program holds (`E`), and of its weak handles (`W`). -/
structure Core (h : Heap) (H E W : Nat → Nat) : Prop where
  count : ∀ a, strongAt h a = H a + indeg h a
  pos : ∀ a n, Live h a n → 0 < n.strong
  shape : ∀ a n, Live h a n → n.cnt ≤ n.refs.length
  weak : ∀ a n, Live h a n → n.weak = W a
  dirty : ∀ a n, Live h a n → ¬ n.clean → n.strong = 1 ∧ E a = 0 ∧ W a = 0 ∧ ∀ b m, Live h b m → a ∈ m.owned → ¬ m.clean
  turned : ∀ b m, Live h b m → ∀ x k, Live h x k → k.turned = true → x ∉ m.others ∧ (x ∈ m.owned → m.turned = true)
  rank : ∃ r : Nat → Nat, ∀ a n, Live h a n → ∀ b ∈ n.owned, r b < r a

/-- What other threads know of a cell is not changed. -/
def Keep1 (h h' : Heap) (c : Nat) : Prop :=
  (∀ n', Live h' c n' → n'.turned = true → Live h c n') ∧ (∀ n, Live h c n → ¬ n.clean → Live h' c n)

def cnt1 (a x : Nat) : Nat := if x = a then 1 else 0

theorem cnt1_self (a : Nat) : cnt1 a a = 1 := by simp [cnt1]
theorem cnt1_ne {a x : Nat} (e : x ≠ a) : cnt1 a x = 0 := by simp [cnt1, e]

theorem not_clean_of_turned {n : Node} (t : n.turned = true) : ¬ n.clean := fun c => by
  have := c.2.2.2
  rw [t] at this
  cases this

/-- Another cell does not see the change of a cell that only one handle refers to. -/
theorem keep_set {h : Heap} {a : Nat} {x : Option Node} {R : Nat → Nat} (la : a < h.length) (z : R a = 0) :
    ∀ c, 0 < R c → Keep1 h (h.set a x) c := by
  intro c p
  have ne : c ≠ a := fun e => by subst e; omega
  refine ⟨fun n' l _ => ?_, fun n l _ => (live_set la).mpr (.inr ⟨ne, l⟩)⟩
  rcases (live_set la).mp l with ⟨e, _⟩ | ⟨_, l⟩
  · exact absurd e ne
  · exact l

/-- A change of a cell that stays as it was built, up to its counts. -/
theorem keep_clean {h : Heap} {a : Nat} {n n' : Node} (l : Live h a n) (cl : n.clean) (cl' : n'.clean) (c : Nat) : Keep1 h (h.set a (some n')) c := by
  refine ⟨fun k lk t => ?_, fun k lk d => ?_⟩
  · rcases (live_set (live_lt l)).mp lk with ⟨e, e'⟩ | ⟨_, l⟩
    · injection e' with e'
      subst e'
      exact absurd cl' (not_clean_of_turned t)
    · exact l
  · refine (live_set (live_lt l)).mpr (.inr ⟨fun e => ?_, lk⟩)
    subst e
    exact d (live_inj l lk ▸ cl)

/-- A change of the counts of a clean cell. -/
theorem Core.counts {h : Heap} {H E W H' E' W' : Nat → Nat} (c : Core h H E W) {a : Nat} {n : Node} (l : Live h a n) (cl : n.clean) (s w : Nat)
    (ps : 0 < s) (hs : s + H a = n.strong + H' a) (hw : w = W' a) (hH : ∀ x, x ≠ a → H' x = H x) (hE : ∀ x, x ≠ a → E' x = E x) (hW : ∀ x, x ≠ a → W' x = W x) :
    Core (h.set a (some { n with strong := s, weak := w })) H' E' W' := by
  have la := live_lt l
  have own' : (Node.owned { n with strong := s, weak := w }) = n.owned := rfl
  have ind : ∀ b, indeg (h.set a (some { n with strong := s, weak := w })) b = indeg h b := by
    intro b
    have := indeg_set l (some { n with strong := s, weak := w }) b
    simp only [own, own'] at this
    omega
  -- a live cell of the new memory comes from a live cell that differs in its counts only
  have old : ∀ b m, Live (h.set a (some { n with strong := s, weak := w })) b m → ∃ m0, Live h b m0 ∧ m.owned = m0.owned ∧ m.others = m0.others ∧ (m.clean ↔ m0.clean) ∧
      m.turned = m0.turned ∧ m.cnt = m0.cnt ∧ m.refs = m0.refs := by
    intro b m lb
    rcases (live_set la).mp lb with ⟨e, e'⟩ | ⟨_, lb⟩
    · injection e' with e'
      subst e' e
      exact ⟨n, l, rfl, rfl, Iff.rfl, rfl, rfl, rfl⟩
    · exact ⟨m, lb, rfl, rfl, Iff.rfl, rfl, rfl, rfl⟩
  constructor
  · intro b
    rw [strongAt_set la, ind]
    by_cases e : b = a
    · subst e
      rw [if_pos rfl]
      have := c.count b
      rw [strongAt_live l] at this
      dsimp only
      omega
    · rw [if_neg e, hH b e]
      exact c.count b
  · intro b m lb
    rcases (live_set la).mp lb with ⟨e, e'⟩ | ⟨_, lb⟩
    · injection e' with e'
      subst e'
      exact ps
    · exact c.pos b m lb
  · intro b m lb
    obtain ⟨m0, l0, _, _, _, _, e1, e2⟩ := old b m lb
    rw [e1, e2]
    exact c.shape b m0 l0
  · intro b m lb
    rcases (live_set la).mp lb with ⟨e, e'⟩ | ⟨ne, lb⟩
    · injection e' with e'
      subst e' e
      exact hw
    · rw [hW b ne]
      exact c.weak b m lb
  · intro b m lb d
    rcases (live_set la).mp lb with ⟨e, e'⟩ | ⟨ne, lb'⟩
    · injection e' with e'
      subst e' e
      exact absurd cl d
    · obtain ⟨d1, d2, d3, d4⟩ := c.dirty b m lb' d
      refine ⟨d1, by rw [hE b ne, d2], by rw [hW b ne, d3], fun b2 m2 l2 o => ?_⟩
      obtain ⟨m0, l0, e1, _, e3, _⟩ := old b2 m2 l2
      rw [e1] at o
      exact fun q => d4 b2 m0 l0 o (e3.mp q)
  · intro b m lb x k lx t
    obtain ⟨m0, l0, e1, e2, _, e4, _⟩ := old b m lb
    obtain ⟨k0, l1, _, _, _, e5, _⟩ := old x k lx
    rw [e1, e2, e4]
    exact c.turned b m0 l0 x k0 l1 (e5 ▸ t)
  · obtain ⟨r, hr⟩ := c.rank
    refine ⟨r, fun b m lb y my => ?_⟩
    obtain ⟨m0, l0, e1, _⟩ := old b m lb
    exact hr b m0 l0 y (e1 ▸ my)

/-- Nothing but the given handle refers to a cell whose count is one. -/
theorem Core.single {h : Heap} {H E W : Nat → Nat} (c : Core h H E W) {a : Nat} {n : Node} {R : Nat → Nat} (l : Live h a n) (u : n.strong = 1)
    (hR : ∀ x, H x = cnt1 a x + R x) : R a = 0 ∧ indeg h a = 0 := by
  have := c.count a
  rw [strongAt_live l, hR, cnt1_self] at this
  omega

/-- The last handle of a cell is released: its slots become handles outside of memory. -/
theorem Core.release {h : Heap} {H E W : Nat → Nat} (c : Core h H E W) {a : Nat} {n : Node} {R : Nat → Nat} (l : Live h a n) (u : n.strong = 1)
    (hR : ∀ x, H x = cnt1 a x + R x) : Core (h.set a none) (fun x => n.owned.count x + R x) E W := by
  have la := live_lt l
  obtain ⟨z, i0⟩ := c.single l u hR
  have ind : ∀ b, indeg (h.set a none) b + n.owned.count b = indeg h b := by
    intro b
    have := indeg_set l none b
    simpa [own] using this
  have old : ∀ b m, Live (h.set a none) b m → b ≠ a ∧ Live h b m := by
    intro b m lb
    rcases (live_set la).mp lb with ⟨_, e'⟩ | q
    · cases e'
    · exact q
  constructor
  · intro b
    rw [strongAt_set la]
    have i := ind b
    have q := c.count b
    rw [hR] at q
    by_cases e : b = a
    · subst e
      rw [if_pos rfl]
      dsimp only
      omega
    · rw [if_neg e]
      rw [cnt1_ne e] at q
      omega
  · intro b m lb; exact c.pos b m (old b m lb).2
  · intro b m lb; exact c.shape b m (old b m lb).2
  · intro b m lb; exact c.weak b m (old b m lb).2
  · intro b m lb d
    obtain ⟨d1, d2, d3, d4⟩ := c.dirty b m (old b m lb).2 d
    exact ⟨d1, d2, d3, fun b2 m2 l2 o => d4 b2 m2 (old b2 m2 l2).2 o⟩
  · intro b m lb x k lx t
    exact c.turned b m (old b m lb).2 x k (old x k lx).2 t
  · obtain ⟨r, hr⟩ := c.rank
    exact ⟨r, fun b m lb => hr b m (old b m lb).2⟩

theorem count_sum_rank (r : Nat → Nat) (l : List Nat) (b : Nat) (m : b ∈ l) : r b ≤ (l.map r).sum := by
  induction l with
  | nil => cases m
  | cons z l ih =>
    rw [List.map_cons, List.sum_cons]
    rcases List.mem_cons.mp m with e | m
    · subst e; omega
    · have := ih m; omega

/-- A change of the slots of a cell that only one handle refers to. -/
theorem Core.change {h : Heap} {H E W H' : Nat → Nat} (c : Core h H E W) {a : Nat} {n n' : Node} {R R' : Nat → Nat} (l : Live h a n) (u : n.strong = 1) (w : n.weak = 0)
    (hR : ∀ x, H x = cnt1 a x + R x) (hE : ∀ x, E x ≤ R x) (hR' : ∀ x, H' x = cnt1 a x + R' x)
    (bal : ∀ x, H' x + n'.owned.count x = H x + n.owned.count x) (es : n'.strong = n.strong) (ew : n'.weak = n.weak) (esh : n'.cnt ≤ n'.refs.length) (dn : ¬ n'.clean)
    (tn : ∀ x k, x ≠ a → Live h x k → k.turned = true → x ∉ n'.others ∧ (x ∈ n'.owned → n'.turned = true)) :
    Core (h.set a (some n')) H' E W := by
  have la := live_lt l
  obtain ⟨z, i0⟩ := c.single l u hR
  have ind : ∀ b, indeg (h.set a (some n')) b + n.owned.count b = indeg h b + n'.owned.count b := fun b => indeg_set l (some n') b
  have an : a ∉ n.owned := fun m => by have := indeg_pos l m; omega
  have an' : a ∉ n'.owned := fun m => by
    have m' := List.count_pos_iff.mpr m
    have b := bal a
    have := hR a
    have := hR' a
    have k := List.count_eq_zero.mpr an
    rw [cnt1_self] at *
    omega
  have other : ∀ b m, b ≠ a → Live h b m → a ∉ m.owned := fun b m _ lb mm => by have := indeg_pos lb mm; omega
  constructor
  · intro b
    rw [strongAt_set la]
    have i := ind b
    have q := c.count b
    have k := bal b
    by_cases e : b = a
    · subst e
      rw [if_pos rfl]
      rw [strongAt_live l] at q
      dsimp only
      rw [es]
      omega
    · rw [if_neg e]
      omega
  · intro b m lb
    rcases (live_set la).mp lb with ⟨e, e'⟩ | ⟨_, lb⟩
    · injection e' with e'
      subst e'
      omega
    · exact c.pos b m lb
  · intro b m lb
    rcases (live_set la).mp lb with ⟨e, e'⟩ | ⟨_, lb⟩
    · injection e' with e'
      subst e'
      exact esh
    · exact c.shape b m lb
  · intro b m lb
    rcases (live_set la).mp lb with ⟨e, e'⟩ | ⟨_, lb⟩
    · injection e' with e'
      subst e' e
      rw [ew]
      exact c.weak b n l
    · exact c.weak b m lb
  · intro b m lb d
    rcases (live_set la).mp lb with ⟨e, e'⟩ | ⟨ne, lb⟩
    · injection e' with e'
      subst e' e
      refine ⟨by omega, by have := hE b; omega, by rw [← c.weak b n l, w], fun b2 m2 l2 o => ?_⟩
      rcases (live_set la).mp l2 with ⟨e, e'⟩ | ⟨ne, l2⟩
      · injection e' with e'
        subst e'
        exact dn
      · exact absurd o (other b2 m2 ne l2)
    · obtain ⟨d1, d2, d3, d4⟩ := c.dirty b m lb d
      refine ⟨d1, d2, d3, fun b2 m2 l2 o => ?_⟩
      rcases (live_set la).mp l2 with ⟨e, e'⟩ | ⟨_, l2⟩
      · injection e' with e'
        subst e'
        exact dn
      · exact d4 b2 m2 l2 o
  · intro b m lb x k lx t
    rcases (live_set la).mp lb with ⟨e, e'⟩ | ⟨ne, lb⟩
    · injection e' with e'
      subst e' e
      rcases (live_set la).mp lx with ⟨e, _⟩ | ⟨ne, lx⟩
      · subst e
        exact ⟨fun m => an' (others_owned m), fun m => absurd m an'⟩
      · exact tn x k ne lx t
    · rcases (live_set la).mp lx with ⟨e, _⟩ | ⟨_, lx⟩
      · have := other b m ne lb
        rw [e]
        exact ⟨fun m => this (others_owned m), fun m => absurd m this⟩
      · exact c.turned b m lb x k lx t
  · obtain ⟨r, hr⟩ := c.rank
    refine ⟨fun x => if x = a then 1 + (n'.owned.map r).sum else r x, fun b m lb y my => ?_⟩
    rcases (live_set la).mp lb with ⟨e, e'⟩ | ⟨ne, lb⟩
    · injection e' with e'
      subst e' e
      have ny : y ≠ b := fun e => an' (e ▸ my)
      dsimp only
      rw [if_neg ny, if_pos rfl]
      have := count_sum_rank r _ y my
      omega
    · have ny : y ≠ a := fun e => other b m ne lb (e ▸ my)
      dsimp only
      rw [if_neg ny, if_neg ne]
      exact hr b m lb y my

end Verif.DropPar
