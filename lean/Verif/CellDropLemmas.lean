import Verif.CellDrop
/-
Lemmas on the release of cells: handles are accounted for at every step.
-/
set_option linter.unusedVariables false
set_option linter.unusedSimpArgs false
namespace Verif.Drop

/-! ### Sums -/

theorem sumTo_congr {f g : Nat → Nat} : ∀ {n : Nat}, (∀ j, j < n → f j = g j) → sumTo f n = sumTo g n
  | 0, _ => rfl
  | n + 1, h => by rw [sumTo, sumTo, sumTo_congr (fun j hj => h j (by omega)), h n (by omega)]

theorem sumTo_update {f g : Nat → Nat} {i : Nat} : ∀ {n : Nat}, i < n → (∀ j, j ≠ i → f j = g j) → sumTo g n + f i = sumTo f n + g i
  | 0, h, _ => absurd h (by omega)
  | n + 1, h, hj => by
    rw [sumTo, sumTo]
    by_cases hi : i = n
    · subst hi
      have := sumTo_congr (n := i) (fun j hj' => hj j (by omega))
      omega
    · have := sumTo_update (n := n) (by omega) hj
      have := hj n (fun h => hi h.symm)
      omega

theorem sumTo_mono {f g : Nat → Nat} : ∀ {n : Nat}, (∀ j, j < n → f j ≤ g j) → sumTo f n ≤ sumTo g n
  | 0, _ => Nat.le_refl _
  | n + 1, h => by
    have := sumTo_mono (n := n) (fun j hj => h j (by omega))
    have := h n (by omega)
    rw [sumTo, sumTo]
    omega

theorem le_sumTo (f : Nat → Nat) {i : Nat} : ∀ {n : Nat}, i < n → f i ≤ sumTo f n
  | 0, h => absurd h (by omega)
  | n + 1, h => by
    rw [sumTo]
    by_cases hi : i = n
    · subst hi; omega
    · have := le_sumTo f (n := n) (i := i) (by omega)
      omega

theorem sumTo_pos {f : Nat → Nat} : ∀ {n : Nat}, 0 < sumTo f n → ∃ i, i < n ∧ 0 < f i
  | 0, h => absurd h (by simp [sumTo])
  | n + 1, h => by
    rw [sumTo] at h
    by_cases hn : 0 < f n
    · exact ⟨n, by omega, hn⟩
    · obtain ⟨i, h1, h2⟩ := sumTo_pos (n := n) (f := f) (by omega)
      exact ⟨i, by omega, h2⟩

theorem sumTo_le {f : Nat → Nat} {b : Nat} : ∀ {n : Nat}, (∀ j, j < n → f j ≤ b) → sumTo f n ≤ b * n
  | 0, _ => by simp [sumTo]
  | n + 1, h => by
    have := sumTo_le (n := n) (fun j hj => h j (by omega))
    have := h n (by omega)
    rw [sumTo, Nat.mul_succ]
    omega

/-! ### Accounts -/

theorem hold_self (c : Nat) (L : Nat → Nat) : hold c L c = L c + 1 := by unfold hold; rw [if_pos rfl]

theorem hold_other {c x : Nat} (L : Nat → Nat) (h : x ≠ c) : hold c L x = L x := by unfold hold; rw [if_neg h]; rfl

theorem hold_le (c : Nat) (L : Nat → Nat) (x : Nat) : L x ≤ hold c L x := by unfold hold; omega

theorem hold_swap (a b : Nat) (L : Nat → Nat) : hold a (hold b L) = hold b (hold a L) := by funext x; unfold hold; omega

theorem live_lt {h : Heap} {a : Nat} {n : Node} (hl : h.Live a n) : a < h.length := by
  refine Classical.byContradiction fun hn => ?_
  unfold Heap.Live at hl
  rw [List.getElem?_eq_none (by omega)] at hl
  cases hl

theorem live_set {h : Heap} {a : Nat} {n : Node} (hl : h.Live a n) (o : Option Node) (x : Nat) : (h.set a o)[x]? = if x = a then some o else h[x]? := by
  rw [List.getElem?_set]
  by_cases hx : x = a
  · subst hx; rw [if_pos rfl, if_pos rfl, if_pos (live_lt hl)]
  · rw [if_neg (fun e => hx e.symm), if_neg hx]

theorem ownedAt_live {h : Heap} {a : Nat} {n : Node} (hl : h.Live a n) : ownedAt h a = n.owned := by
  unfold ownedAt
  rw [show h[a]? = some (some n) from hl]

theorem strongAt_live {h : Heap} {a : Nat} {n : Node} (hl : h.Live a n) : strongAt h a = n.strong := by
  unfold strongAt
  rw [show h[a]? = some (some n) from hl]

theorem live_of_strong {h : Heap} {a : Nat} (hs : 0 < strongAt h a) : ∃ n, h.Live a n := by
  unfold strongAt at hs
  split at hs
  · rename_i n hn; exact ⟨n, hn⟩
  · omega

theorem ownedAt_set {h : Heap} {a : Nat} {n : Node} (hl : h.Live a n) (o : Option Node) {x : Nat} (hx : x ≠ a) : ownedAt (h.set a o) x = ownedAt h x := by
  unfold ownedAt
  rw [live_set hl, if_neg hx]

/-- The slots after a change at one address. -/
theorem indeg_set {h : Heap} {a : Nat} {n : Node} (hl : h.Live a n) (o : Option Node) (x : Nat) :
    indeg (h.set a o) x + n.owned.count x = indeg h x + (ownedAt (h.set a o) a).count x := by
  unfold indeg
  rw [List.length_set]
  have := sumTo_update (f := fun i => (ownedAt h i).count x) (g := fun i => (ownedAt (h.set a o) i).count x) (i := a) (n := h.length) (live_lt hl)
    (fun j hj => by rw [ownedAt_set hl o hj])
  rw [ownedAt_live hl] at this
  exact this

theorem ownedAt_set_some {h : Heap} {a : Nat} {n : Node} (hl : h.Live a n) (n' : Node) : ownedAt (h.set a (some n')) a = n'.owned := by
  unfold ownedAt
  rw [live_set hl, if_pos rfl]

theorem ownedAt_set_none {h : Heap} {a : Nat} {n : Node} (hl : h.Live a n) : ownedAt (h.set a none) a = [] := by
  unfold ownedAt
  rw [live_set hl, if_pos rfl]

theorem count_le_indeg {h : Heap} {a : Nat} {n : Node} (hl : h.Live a n) (x : Nat) : n.owned.count x ≤ indeg h x := by
  have := le_sumTo (fun i => (ownedAt h i).count x) (live_lt hl)
  rw [ownedAt_live hl] at this
  exact this

/-- Slots and handles are exchanged. -/
theorem Acct.set {h : Heap} {L L' : Nat → Nat} (ha : Acct h L) {a : Nat} {n n' : Node} (hl : h.Live a n) (hs : n'.strong = n.strong)
    (hc : ∀ x, L' x + n'.owned.count x = L x + n.owned.count x) : Acct (h.set a (some n')) L' := by
  constructor
  · intro x
    have h1 := ha.count x
    have h2 := indeg_set hl (some n') x
    rw [ownedAt_set_some hl] at h2
    have h3 := hc x
    have h4 : strongAt (h.set a (some n')) x = strongAt h x := by
      by_cases hx : x = a
      · subst hx
        rw [strongAt_live hl]
        unfold strongAt
        rw [live_set hl, if_pos rfl]
        exact hs
      · unfold strongAt
        rw [live_set hl, if_neg hx]
    omega
  · intro x m hm
    unfold Heap.Live at hm
    rw [live_set hl] at hm
    by_cases hx : x = a
    · rw [if_pos hx] at hm
      injection hm with hm
      injection hm with hm
      subst hm
      rw [hs]
      exact ha.pos a n hl
    · rw [if_neg hx] at hm
      exact ha.pos x m hm

/-- A shared cell loses a handle. -/
theorem Acct.dec {h : Heap} {L : Nat → Nat} {a : Nat} (ha : Acct h (hold a L)) {n : Node} (hl : h.Live a n) (hs : 1 < n.strong) :
    Acct (h.set a (some { n with strong := n.strong - 1 })) L := by
  constructor
  · intro x
    have h1 := ha.count x
    have h2 := indeg_set hl (some { n with strong := n.strong - 1 }) x
    rw [ownedAt_set_some hl] at h2
    have h3 : ({ n with strong := n.strong - 1 } : Node).owned = n.owned := rfl
    rw [h3] at h2
    by_cases hx : x = a
    · subst hx
      rw [strongAt_live hl, hold_self] at h1
      unfold strongAt
      rw [live_set hl, if_pos rfl]
      show n.strong - 1 = _
      omega
    · rw [hold_other L hx] at h1
      have : strongAt (h.set a (some { n with strong := n.strong - 1 })) x = strongAt h x := by
        unfold strongAt
        rw [live_set hl, if_neg hx]
      omega
  · intro x m hm
    unfold Heap.Live at hm
    rw [live_set hl] at hm
    by_cases hx : x = a
    · rw [if_pos hx] at hm
      injection hm with hm
      injection hm with hm
      subst hm
      show 0 < n.strong - 1
      omega
    · rw [if_neg hx] at hm
      exact ha.pos x m hm

/-- A cell with one handle is released: its slots become handles. -/
theorem Acct.free {h : Heap} {L L' : Nat → Nat} {a : Nat} (ha : Acct h (hold a L)) {n : Node} (hl : h.Live a n) (hs : n.strong = 1) (hc : ∀ x, L' x = L x + n.owned.count x) :
    Acct (h.set a none) L' := by
  have h0 := ha.count a
  rw [strongAt_live hl, hs, hold_self] at h0
  constructor
  · intro x
    have h1 := ha.count x
    have h2 := indeg_set hl none x
    rw [ownedAt_set_none hl] at h2
    simp only [List.count_nil, Nat.add_zero] at h2
    have h3 := hc x
    have h4 := count_le_indeg hl x
    by_cases hx : x = a
    · subst hx
      have : strongAt (h.set x none) x = 0 := by
        unfold strongAt
        rw [live_set hl, if_pos rfl]
      omega
    · rw [hold_other L hx] at h1
      have : strongAt (h.set a none) x = strongAt h x := by
        unfold strongAt
        rw [live_set hl, if_neg hx]
      omega
  · intro x m hm
    unfold Heap.Live at hm
    rw [live_set hl] at hm
    by_cases hx : x = a
    · rw [if_pos hx] at hm; cases hm
    · rw [if_neg hx] at hm
      exact ha.pos x m hm

/-- A held address is in memory. -/
theorem Acct.live {h : Heap} {L : Nat → Nat} (ha : Acct h L) {a : Nat} (hL : 0 < L a) : ∃ n, h.Live a n :=
  live_of_strong (by have := ha.count a; omega)

theorem Acct.owned_live {h : Heap} {L : Nat → Nat} (ha : Acct h L) {a b : Nat} {n : Node} (hl : h.Live a n) (hb : b ∈ n.owned) : ∃ n, h.Live b n :=
  live_of_strong (by
    have h1 := ha.count b
    have h2 := count_le_indeg hl b
    have h3 := List.count_pos_iff.mpr hb
    omega)

/-! ### Running the steps -/

theorem node_live {h : Heap} {a : Nat} {n : Node} (hl : h.Live a n) : h.node a = .ok n := by
  unfold Heap.node
  rw [show h[a]? = some (some n) from hl]

theorem isUnique_live {h : Heap} {a : Nat} {n : Node} (hl : h.Live a n) : h.isUnique a = .ok (decide (n.strong = 1 ∧ n.weak = 0)) := by
  unfold Heap.isUnique
  rw [node_live hl]
  rfl

theorem slot_some {n : Node} {i c : Nat} (h : n.refs[i]? = some c) : n.slot i = .ok c := by
  unfold Node.slot
  rw [h]

/-- What is assumed of the nested releases: they are for shared cells and for cells without slots. -/
structure Simple (drop : Heap → Nat → Except DropErr Heap) : Prop where
  shared : ∀ h a n, h.Live a n → 1 < n.strong → drop h a = .ok (h.set a (some { n with strong := n.strong - 1 }))
  last : ∀ h a n, h.Live a n → n.strong = 1 → n.owned = [] → drop h a = .ok (h.set a none)

theorem dropRef_simple (fuel d : Nat) : Simple (dropRef fuel (d + 1)) where
  shared h a n hl hs := by
    rw [dropRef, node_live hl]
    show (if n.strong = 0 then _ else if 1 < n.strong then _ else _) = _
    rw [if_neg (by omega), if_pos hs]
  last h a n hl hs ho := by
    rw [dropRef, node_live hl]
    show (if n.strong = 0 then _ else if 1 < n.strong then _ else eachDrop (dropRef fuel d) fuel n.owned (h.set a none)) = _
    rw [if_neg (by omega), if_neg (by omega), ho]
    rfl

/-- What is in a place is what was there before, up to the strong count, which does not grow. -/
def SameAt (h h' : Heap) (a : Nat) : Prop := ∀ n', h'.Live a n' → ∃ n, h.Live a n ∧ n' = { n with strong := n'.strong } ∧ n'.strong ≤ n.strong

theorem SameAt.refl (h : Heap) (a : Nat) : SameAt h h a := fun n hl => ⟨n, hl, rfl, Nat.le_refl _⟩

theorem SameAt.trans {h h' h'' : Heap} {a : Nat} (s1 : SameAt h h' a) (s2 : SameAt h' h'' a) : SameAt h h'' a := by
  intro n hl
  obtain ⟨n', h1, h2, h3⟩ := s2 n hl
  obtain ⟨n0, g1, g2, g3⟩ := s1 n' h1
  refine ⟨n0, g1, ?_, by omega⟩
  rw [h2, g2]

/-- The way back: each cell on it has one handle and, in its first slot, the next one; the first slot of the last cell is taken. -/
def Chain (h : Heap) : Nat → List Nat → Prop
  | p, [] => ∃ n, h.Live p n ∧ n.strong = 1 ∧ n.noFirst = true
  | p, q :: C => ∃ n, h.Live p n ∧ n.strong = 1 ∧ n.noFirst = false ∧ 0 < n.cnt ∧ n.refs[0]? = some q ∧ Chain h q C

theorem Chain.other {h : Heap} {a : Nat} {m : Node} (hl : h.Live a m) (o : Option Node) : ∀ {p : Nat} {C : List Nat}, Chain h p C → a ∉ p :: C → Chain (h.set a o) p C
  | p, [], ⟨n, h1, h2⟩, hn => ⟨n, by unfold Heap.Live; rw [live_set hl, if_neg (fun e => hn (by simp [e]))]; exact h1, h2⟩
  | p, q :: C, ⟨n, h1, h2, h3, h4, h5, h6⟩, hn =>
    ⟨n, by unfold Heap.Live; rw [live_set hl, if_neg (fun e => hn (by simp [e]))]; exact h1, h2, h3, h4, h5, h6.other hl o (fun hm => hn (List.mem_cons_of_mem _ hm))⟩

theorem Chain.strong {h : Heap} : ∀ {p : Nat} {C : List Nat}, Chain h p C → ∀ x, x ∈ p :: C → ∃ n, h.Live x n ∧ n.strong = 1
  | p, [], ⟨n, h1, h2, _⟩, x, hx => by
    simp at hx; subst hx; exact ⟨n, h1, h2⟩
  | p, q :: C, ⟨n, h1, h2, _, _, _, h6⟩, x, hx => by
    rcases List.mem_cons.mp hx with rfl | hx
    · exact ⟨n, h1, h2⟩
    · exact h6.strong x hx

theorem Live.unique {h : Heap} {a : Nat} {n n' : Node} (h1 : h.Live a n) (h2 : h.Live a n') : n = n' := by
  unfold Heap.Live at h1 h2
  rw [h1] at h2
  injection h2 with h2
  injection h2

/-- Cells of the way back, but the first, are in slots of memory. -/
theorem Chain.indeg {h : Heap} : ∀ {p : Nat} {C : List Nat}, Chain h p C → ∀ x, x ∈ C → 0 < indeg h x
  | p, q :: C, ⟨n, h1, h2, h3, h4, h5, h6⟩, x, hx => by
    rcases List.mem_cons.mp hx with rfl | hx
    · have hm : x ∈ n.owned := by
        unfold Node.owned
        rw [h3]
        show x ∈ n.refs.take n.cnt
        rw [List.mem_iff_getElem?]
        exact ⟨0, by rw [List.getElem?_take, if_pos h4]; exact h5⟩
      have := count_le_indeg h1 x
      have := List.count_pos_iff.mpr hm
      omega
    · exact h6.indeg x hx

/-- The weight of a place: what bounds the number of rounds. -/
def weight (h : Heap) (C : List Nat) (i : Nat) : Nat :=
  match h[i]? with
  | some (some n) => if i ∈ C then 1 + n.cnt else 10
  | _ => 0

def total (h : Heap) (C : List Nat) : Nat := sumTo (weight h C) h.length

/-- The state of the loops: `h0` is the memory before, `S` the cells in work, `K` the handles of cells whose first slot may be taken. -/
structure Mid (h0 h : Heap) (K : Nat → Nat) (S : List Nat) : Prop where
  length : h.length = h0.length
  weak : ∀ a n, h.Live a n → n.weak = 0
  size : ∀ a n, h.Live a n → n.cnt ≤ n.refs.length ∧ n.cnt ≤ 4
  first : ∀ a n, h.Live a n → a ∉ S → n.noFirst = false ∨ (0 < K a ∧ n.strong = 1)
  same : ∀ a, a ∉ S → SameAt h0 h a

theorem Mid.self {h0 h : Heap} {K : Nat → Nat} {S : List Nat} (m : Mid h0 h K S) : Mid h h K S :=
  ⟨rfl, m.weak, m.size, m.first, fun a _ => SameAt.refl h a⟩

theorem live_set_self {h : Heap} {a : Nat} {n : Node} (hl : h.Live a n) (n' : Node) : Heap.Live (h.set a (some n')) a n' := by
  unfold Heap.Live
  rw [live_set hl, if_pos rfl]

theorem live_set_other {h : Heap} {a x : Nat} {n m : Node} (hl : h.Live a n) (o : Option Node) (hx : x ≠ a) : Heap.Live (h.set a o) x m ↔ h.Live x m := by
  unfold Heap.Live
  rw [live_set hl, if_neg hx]

theorem not_live_none {h : Heap} {a : Nat} {n m : Node} (hl : h.Live a n) : ¬ Heap.Live (h.set a none) a m := by
  unfold Heap.Live
  rw [live_set hl, if_pos rfl]
  intro h; cases h

/-- A cell is released. -/
theorem Mid.kill {h0 h : Heap} {K K' : Nat → Nat} {S S' : List Nat} (m : Mid h0 h K S) {a : Nat} {n : Node} (hl : h.Live a n)
    (hS : ∀ x, x ≠ a → x ∉ S' → x ∉ S) (hK : ∀ x, x ≠ a → K x ≤ K' x) : Mid h0 (h.set a none) K' S' := by
  have key : ∀ x k, Heap.Live (h.set a none) x k → x ≠ a ∧ h.Live x k := by
    intro x k hk
    by_cases hx : x = a
    · subst hx; exact absurd hk (not_live_none hl)
    · exact ⟨hx, (live_set_other hl none hx).mp hk⟩
  refine ⟨by rw [List.length_set]; exact m.length, fun x k hk => m.weak x k (key x k hk).2, fun x k hk => m.size x k (key x k hk).2, fun x k hk hx => ?_, fun x hx k hk => ?_⟩
  · obtain ⟨h1, h2⟩ := key x k hk
    rcases m.first x k h2 (hS x h1 hx) with g | ⟨g1, g2⟩
    · exact .inl g
    · exact .inr ⟨Nat.lt_of_lt_of_le g1 (hK x h1), g2⟩
  · obtain ⟨h1, h2⟩ := key x k hk
    exact m.same x (hS x h1 hx) k h2

/-- A cell in work is changed. -/
theorem Mid.work {h0 h : Heap} {K : Nat → Nat} {S S' : List Nat} (m : Mid h0 h K S) {a : Nat} {n n' : Node} (hl : h.Live a n)
    (hS : ∀ x, x ∉ S' → x ∉ S) (ha : a ∈ S') (hw : n'.weak = n.weak) (hc : n'.cnt ≤ n.cnt) (hr : n'.refs.length = n.refs.length) : Mid h0 (h.set a (some n')) K S' := by
  have key : ∀ x k, Heap.Live (h.set a (some n')) x k → (x = a ∧ k = n') ∨ (x ≠ a ∧ h.Live x k) := by
    intro x k hk
    by_cases hx : x = a
    · subst hx; exact .inl ⟨rfl, Live.unique hk (live_set_self hl n')⟩
    · exact .inr ⟨hx, (live_set_other hl _ hx).mp hk⟩
  refine ⟨by rw [List.length_set]; exact m.length, fun x k hk => ?_, fun x k hk => ?_, fun x k hk hx => ?_, fun x hx k hk => ?_⟩
  · rcases key x k hk with ⟨rfl, rfl⟩ | ⟨_, h2⟩
    · rw [hw]; exact m.weak _ _ hl
    · exact m.weak x k h2
  · rcases key x k hk with ⟨rfl, rfl⟩ | ⟨_, h2⟩
    · have := m.size _ _ hl; omega
    · exact m.size x k h2
  · rcases key x k hk with ⟨rfl, rfl⟩ | ⟨_, h2⟩
    · exact absurd ha hx
    · exact m.first x k h2 (hS x hx)
  · rcases key x k hk with ⟨rfl, rfl⟩ | ⟨_, h2⟩
    · exact absurd ha hx
    · exact m.same x (hS x hx) k h2

/-- A shared cell loses a handle. -/
theorem Mid.dec {h0 h : Heap} {K : Nat → Nat} {S : List Nat} (m : Mid h0 h K S) {a : Nat} {n : Node} (hl : h.Live a n) (hs : 1 < n.strong) :
    Mid h0 (h.set a (some { n with strong := n.strong - 1 })) K S := by
  have key : ∀ x k, Heap.Live (h.set a (some { n with strong := n.strong - 1 })) x k → (x = a ∧ k = { n with strong := n.strong - 1 }) ∨ (x ≠ a ∧ h.Live x k) := by
    intro x k hk
    by_cases hx : x = a
    · subst hx; exact .inl ⟨rfl, Live.unique hk (live_set_self hl _)⟩
    · exact .inr ⟨hx, (live_set_other hl _ hx).mp hk⟩
  refine ⟨by rw [List.length_set]; exact m.length, fun x k hk => ?_, fun x k hk => ?_, fun x k hk hx => ?_, fun x hx k hk => ?_⟩
  · rcases key x k hk with ⟨rfl, rfl⟩ | ⟨_, h2⟩
    · exact m.weak _ n hl
    · exact m.weak x k h2
  · rcases key x k hk with ⟨rfl, rfl⟩ | ⟨_, h2⟩
    · exact m.size _ n hl
    · exact m.size x k h2
  · rcases key x k hk with ⟨rfl, rfl⟩ | ⟨_, h2⟩
    · rcases m.first _ _ hl hx with g | ⟨_, g⟩
      · exact .inl g
      · omega
    · exact m.first x k h2 hx
  · rcases key x k hk with ⟨rfl, rfl⟩ | ⟨_, h2⟩
    · obtain ⟨n0, g1, g2, g3⟩ := m.same _ hx n hl
      refine ⟨n0, g1, ?_, ?_⟩
      · show ({ n with strong := n.strong - 1 } : Node) = _
        rw [g2]
      · show n.strong - 1 ≤ _
        omega
    · exact m.same x hx k h2

/-! ### Slots -/

theorem owned_pop {n : Node} {c : Nat} (h1 : 1 < n.cnt) (h2 : n.refs[n.cnt - 1]? = some c) : n.owned = ({ n with cnt := n.cnt - 1 } : Node).owned ++ [c] := by
  have e : n.refs.take n.cnt = n.refs.take (n.cnt - 1) ++ [c] := by
    have := List.take_add_one (l := n.refs) (i := n.cnt - 1)
    rw [h2, show n.cnt - 1 + 1 = n.cnt from by omega] at this
    exact this
  have hlen : 1 ≤ (n.refs.take (n.cnt - 1)).length := by
    rw [List.length_take]
    have : n.cnt - 1 < n.refs.length := by
      refine Classical.byContradiction fun hn => ?_
      rw [List.getElem?_eq_none (by omega)] at h2
      cases h2
    omega
  unfold Node.owned
  show (if n.noFirst = true then (n.refs.take n.cnt).drop 1 else n.refs.take n.cnt) = (if n.noFirst = true then (n.refs.take (n.cnt - 1)).drop 1 else n.refs.take (n.cnt - 1)) ++ [c]
  rw [e]
  split
  · rw [List.drop_append_of_le_length hlen]
  · rfl

theorem owned_first {n : Node} {c : Nat} (h0 : n.noFirst = false) (h1 : 0 < n.cnt) (h2 : n.refs[0]? = some c) : n.owned = c :: ({ n with noFirst := true } : Node).owned := by
  unfold Node.owned
  rw [h0]
  show n.refs.take n.cnt = c :: (n.refs.take n.cnt).drop 1
  cases hr : n.refs with
  | nil => rw [hr] at h2; cases h2
  | cons r rs =>
    rw [hr] at h2
    injection h2 with h2
    subst h2
    obtain ⟨k, hk⟩ : ∃ k, n.cnt = k + 1 := ⟨n.cnt - 1, by omega⟩
    rw [hk]
    rfl

theorem owned_replace {n : Node} {c p : Nat} (h0 : n.noFirst = false) (h1 : 0 < n.cnt) (h2 : n.refs[0]? = some c) :
    ∃ t, n.owned = c :: t ∧ ({ n with refs := n.refs.set 0 p } : Node).owned = p :: t := by
  unfold Node.owned
  rw [h0]
  show ∃ t, n.refs.take n.cnt = c :: t ∧ (n.refs.set 0 p).take n.cnt = p :: t
  cases hr : n.refs with
  | nil => rw [hr] at h2; cases h2
  | cons r rs =>
    rw [hr] at h2
    injection h2 with h2
    subst h2
    obtain ⟨k, hk⟩ : ∃ k, n.cnt = k + 1 := ⟨n.cnt - 1, by omega⟩
    rw [hk]
    exact ⟨rs.take k, rfl, rfl⟩

theorem owned_taken {n : Node} (h0 : n.noFirst = true) (h1 : n.cnt ≤ 1) : n.owned = [] := by
  unfold Node.owned
  rw [h0]
  show (n.refs.take n.cnt).drop 1 = []
  rw [List.drop_eq_nil_iff, List.length_take]
  omega

theorem owned_zero {n : Node} (h1 : n.cnt = 0) : n.owned = [] := by
  unfold Node.owned
  rw [h1]
  simp

theorem count_single (c x : Nat) : [c].count x = if x = c then 1 else 0 := by
  rw [List.count_singleton]
  by_cases h : x = c
  · rw [if_pos h, h]; simp
  · rw [if_neg h]; simp; exact fun e => h e.symm

theorem count_cons' (c x : Nat) (t : List Nat) : (c :: t).count x = t.count x + if x = c then 1 else 0 := by
  rw [List.count_cons]
  by_cases h : x = c
  · rw [if_pos h, h]; simp
  · rw [if_neg h]; simp; exact fun e => h e.symm

/-! ### Weights -/

theorem total_set {h : Heap} {a : Nat} {n : Node} (hl : h.Live a n) (o : Option Node) {S S' : List Nat} (hS : ∀ x, x ≠ a → (x ∈ S ↔ x ∈ S')) :
    total (h.set a o) S' + weight h S a = total h S + weight (h.set a o) S' a := by
  unfold total
  rw [List.length_set]
  refine sumTo_update (live_lt hl) fun j hj => ?_
  unfold weight
  rw [live_set hl, if_neg hj]
  split
  · by_cases hx : j ∈ S
    · rw [if_pos hx, if_pos ((hS j hj).mp hx)]
    · rw [if_neg hx, if_neg (fun h => hx ((hS j hj).mpr h))]
  · rfl

theorem weight_in {h : Heap} {a : Nat} {n : Node} (hl : h.Live a n) {S : List Nat} (ha : a ∈ S) : weight h S a = 1 + n.cnt := by
  unfold weight
  rw [show h[a]? = some (some n) from hl]
  exact if_pos ha

theorem weight_out {h : Heap} {a : Nat} {n : Node} (hl : h.Live a n) {S : List Nat} (ha : a ∉ S) : weight h S a = 10 := by
  unfold weight
  rw [show h[a]? = some (some n) from hl]
  exact if_neg ha

theorem weight_none {h : Heap} {a : Nat} {n : Node} (hl : h.Live a n) (S : List Nat) : weight (h.set a none) S a = 0 := by
  unfold weight
  rw [live_set hl, if_pos rfl]

theorem weight_le_total {h : Heap} {a : Nat} {n : Node} (hl : h.Live a n) (S : List Nat) : weight h S a ≤ total h S := le_sumTo _ (live_lt hl)

theorem total_le (h : Heap) : total h [] ≤ 10 * h.length := by
  refine sumTo_le fun j _ => ?_
  unfold weight
  split
  · rw [if_neg (by simp)]; exact Nat.le_refl _
  · omega

end Verif.Drop
