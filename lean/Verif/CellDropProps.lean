import Verif.CellDropLoops
/-
C82: releasing cells. Trees of any depth are released with two nested destructors, without touching released memory; what stays in memory is what can still be reached.
-/
set_option linter.unusedVariables false
set_option linter.unusedSimpArgs false
namespace Verif.Drop

theorem Fresh.owned {h : Heap} (hw : Fresh h) {x : Nat} {n : Node} (hl : h.Live x n) : n.owned = n.refs := by
  obtain ⟨_, h2, h3, _⟩ := hw x n hl
  unfold Node.owned
  rw [h2, h3]
  show n.refs.take n.refs.length = n.refs
  exact List.take_length

theorem Fresh.mid {h : Heap} (hw : Fresh h) : Mid h h noHandles [] :=
  ⟨rfl, fun a n hl => (hw a n hl).1, fun a n hl => ⟨Nat.le_of_eq (hw a n hl).2.2.1, (hw a n hl).2.2.2.1⟩, fun a n hl _ => .inl (hw a n hl).2.1, fun a _ => SameAt.refl h a⟩

theorem Fresh.same {h h' : Heap} (hw : Fresh h) (hs : ∀ a, SameAt h h' a) : Fresh h' := by
  intro x n hl
  obtain ⟨n0, h1, h2, _⟩ := hs x n hl
  have := hw x n0 h1
  rw [h2]
  exact this

/-- What is in memory is reached from the handles. -/
theorem live_reach {h : Heap} {L : Nat → Nat} (hw : Fresh h) (ac : Acct h L) : ∀ (k x : Nat) (n : Node), h.Live x n → h.length ≤ x + k → Reach h L x
  | 0, x, n, hl, hk => absurd (live_lt hl) (by omega)
  | k + 1, x, n, hl, hk => by
    have h1 := ac.count x
    rw [strongAt_live hl] at h1
    have h2 := ac.pos x n hl
    by_cases hL : 0 < L x
    · exact .root hL
    · obtain ⟨i, hi, hc⟩ := sumTo_pos (f := fun i => (ownedAt h i).count x) (n := h.length) (by
        have : indeg h x = sumTo (fun i => (ownedAt h i).count x) h.length := rfl
        omega)
      have hm := List.count_pos_iff.mp hc
      unfold ownedAt at hm
      split at hm
      · rename_i m hm'
        rw [hw.owned (x := i) hm'] at hm
        have := (hw i m hm').2.2.2.2 x hm
        exact .step (live_reach hw ac k i m hm' (by omega)) hm' hm
      · cases hm

/-- What is reached from the handles is in memory, if what is in memory is as it was before. -/
theorem reach_live {h h' : Heap} {L : Nat → Nat} (hw : Fresh h) (hs : ∀ a, SameAt h h' a) (ac : Acct h' L) {x : Nat} (hr : Reach h L x) : ∃ n, h'.Live x n := by
  induction hr with
  | root hL => exact ac.live hL
  | step _ hl hb ih =>
    obtain ⟨n', hl'⟩ := ih
    obtain ⟨n0, h1, h2, _⟩ := hs _ n' hl'
    have e := Live.unique h1 hl
    subst e
    refine ac.owned_live hl' ?_
    rw [(hw.same hs).owned hl', h2]
    exact hb

theorem reach_mono {h h' : Heap} {L : Nat → Nat} (hs : ∀ a, SameAt h h' a) {x : Nat} (hr : Reach h' L x) : Reach h L x := by
  induction hr with
  | root hL => exact .root hL
  | step _ hl hb ih =>
    obtain ⟨n0, h1, h2, _⟩ := hs _ _ hl
    refine .step ih h1 ?_
    rw [h2] at hb
    exact hb

/-! ### Programs -/

/-- The memory of a program and what it has built. -/
structure Rel (p : Plan) (w : World) : Prop where
  held : w.held = p.held
  length : w.heap.length = p.built.length
  refs : ∀ x n, w.heap.Live x n → p.built[x]? = some n.refs
  fresh : Fresh w.heap
  acct : Acct w.heap (fun x => w.held.count x)

theorem Rel.init : Rel ⟨[], []⟩ World.init where
  held := rfl
  length := rfl
  refs x n hl := by unfold Heap.Live World.init at hl; simp at hl
  fresh x n hl := by unfold Heap.Live World.init at hl; simp at hl
  acct := ⟨fun a => by simp [World.init, strongAt, indeg, sumTo], fun a n hl => by unfold Heap.Live World.init at hl; simp at hl⟩

/-- One more handle of a cell in memory. -/
theorem clone_spec {h : Heap} {L : Nat → Nat} (hw : Fresh h) (ac : Acct h L) {a : Nat} {n : Node} (hl : h.Live a n) :
    h.clone a = .ok (h.set a (some { n with strong := n.strong + 1 })) ∧ Fresh (h.set a (some { n with strong := n.strong + 1 })) ∧
    Acct (h.set a (some { n with strong := n.strong + 1 })) (hold a L) := by
  have hp := ac.pos a n hl
  have key : ∀ x k, Heap.Live (h.set a (some { n with strong := n.strong + 1 })) x k → (x = a ∧ k = { n with strong := n.strong + 1 }) ∨ (x ≠ a ∧ h.Live x k) := by
    intro x k hk
    by_cases hx : x = a
    · subst hx; exact .inl ⟨rfl, Live.unique hk (live_set_self hl _)⟩
    · exact .inr ⟨hx, (live_set_other hl _ hx).mp hk⟩
  refine ⟨?_, ?_, ?_, ?_⟩
  · unfold Heap.clone
    rw [node_live hl]
    show (if n.strong = 0 then _ else _) = _
    rw [if_neg (by omega)]
  · intro x k hk
    rcases key x k hk with ⟨rfl, rfl⟩ | ⟨_, h2⟩
    · exact hw _ n hl
    · exact hw x k h2
  · intro x
    have h1 := ac.count x
    have h2 := indeg_set hl (some { n with strong := n.strong + 1 }) x
    rw [ownedAt_set_some hl] at h2
    have h3 : ({ n with strong := n.strong + 1 } : Node).owned = n.owned := rfl
    rw [h3] at h2
    by_cases hx : x = a
    · subst hx
      rw [strongAt_live hl] at h1
      rw [strongAt_live (live_set_self hl _), hold_self]
      show n.strong + 1 = _
      omega
    · rw [hold_other L hx]
      have : strongAt (h.set a (some { n with strong := n.strong + 1 })) x = strongAt h x := by
        unfold strongAt
        rw [live_set hl, if_neg hx]
      omega
  · intro x k hk
    rcases key x k hk with ⟨rfl, rfl⟩ | ⟨_, h2⟩
    · exact Nat.succ_pos _
    · exact ac.pos x k h2

theorem hold_count (a : Nat) (l : List Nat) : hold a (fun x => l.count x) = fun x => (a :: l).count x := by
  funext x
  rw [count_cons']
  rfl

theorem Rel.hold {p : Plan} {w : World} (r : Rel p w) {a : Nat} {n : Node} (hl : w.heap.Live a n) :
    ∃ h, w.heap.clone a = .ok h ∧ Rel ⟨p.built, a :: p.held⟩ ⟨h, a :: w.held⟩ := by
  obtain ⟨e, f, ac⟩ := clone_spec r.fresh r.acct hl
  refine ⟨_, e, ⟨by rw [r.held], by rw [List.length_set]; exact r.length, fun x k hk => ?_, f, ?_⟩⟩
  · by_cases hx : x = a
    · subst hx
      have := Live.unique hk (live_set_self hl _)
      subst this
      exact r.refs _ n hl
    · exact r.refs x k ((live_set_other hl _ hx).mp hk)
  · rw [hold_count] at ac
    exact ac

theorem Rel.heldLive {p : Plan} {w : World} (r : Rel p w) {i a : Nat} (hi : w.held[i]? = some a) : ∃ n, w.heap.Live a n :=
  r.acct.live (List.count_pos_iff.mpr (List.mem_of_getElem? hi))

theorem count_eraseIdx : ∀ (l : List Nat) (i a : Nat), l[i]? = some a → ∀ x, l.count x = (l.eraseIdx i).count x + if x = a then 1 else 0
  | [], _, _, h, _ => by simp at h
  | b :: l, 0, a, h, x => by
    injection h with h
    subst h
    exact count_cons' b x l
  | b :: l, i + 1, a, h, x => by
    have := count_eraseIdx l i a h x
    rw [List.eraseIdx_cons_succ, count_cons', count_cons']
    omega

theorem live_append {h : Heap} {m : Node} {x : Nat} {n : Node} : Heap.Live (h ++ [some m]) x n ↔ h.Live x n ∨ (x = h.length ∧ n = m) := by
  unfold Heap.Live
  by_cases hx : x < h.length
  · rw [List.getElem?_append_left hx]
    exact ⟨.inl, fun g => g.elim id (fun g => absurd g.1 (by omega))⟩
  · rw [List.getElem?_append_right (by omega), List.getElem?_eq_none (l := h) (by omega)]
    by_cases he : x = h.length
    · subst he
      simp [eq_comm]
    · have : x - h.length ≠ 0 := by omega
      obtain ⟨k, hk⟩ : ∃ k, x - h.length = k + 1 := ⟨x - h.length - 1, by omega⟩
      rw [hk]
      simp [he]

theorem Rel.new {p : Plan} {w : World} (r : Rel p w) {k : Nat} (h4 : k ≤ 4) (hk : k ≤ w.held.length) :
    Rel ⟨p.built ++ [p.held.take k], p.built.length :: p.held.drop k⟩ ⟨w.heap ++ [some ⟨w.held.take k, k, false, 1, 0⟩], w.heap.length :: w.held.drop k⟩ := by
  have hlen : (w.held.take k).length = k := by rw [List.length_take]; omega
  have ho : (⟨w.held.take k, k, false, 1, 0⟩ : Node).owned = w.held.take k := by
    unfold Node.owned
    show (w.held.take k).take k = _
    rw [List.take_take, Nat.min_self]
  have hb : ∀ b, b ∈ w.held → b < w.heap.length := fun b hb => by
    obtain ⟨n, hl⟩ := r.acct.live (a := b) (List.count_pos_iff.mpr hb)
    exact live_lt hl
  have hold1 : ∀ i, i < w.heap.length → ownedAt (w.heap ++ [some ⟨w.held.take k, k, false, 1, 0⟩]) i = ownedAt w.heap i := by
    intro i hi
    unfold ownedAt
    rw [List.getElem?_append_left hi]
  have hlast : ownedAt (w.heap ++ [some ⟨w.held.take k, k, false, 1, 0⟩]) w.heap.length = w.held.take k := by
    unfold ownedAt
    rw [List.getElem?_concat_length]
    exact ho
  have hin : ∀ x, indeg (w.heap ++ [some ⟨w.held.take k, k, false, 1, 0⟩]) x = indeg w.heap x + (w.held.take k).count x := by
    intro x
    unfold indeg
    rw [List.length_append]
    show sumTo _ w.heap.length + (ownedAt (w.heap ++ [some ⟨w.held.take k, k, false, 1, 0⟩]) w.heap.length).count x = _
    rw [hlast]
    refine congrArg (· + (w.held.take k).count x) (sumTo_congr (fun j hj => ?_))
    rw [hold1 j hj]
  refine ⟨?_, ?_, ?_, ?_, ?_, ?_⟩
  · show w.heap.length :: w.held.drop k = _
    rw [r.length, r.held]
  · show (w.heap ++ _).length = (p.built ++ _).length
    rw [List.length_append, List.length_append, r.length]
    rfl
  · intro x n hl
    rcases live_append.mp hl with h1 | ⟨h1, h2⟩
    · show (p.built ++ _)[x]? = _
      rw [List.getElem?_append_left (by rw [← r.length]; exact live_lt h1)]
      exact r.refs x n h1
    · subst h1 h2
      show (p.built ++ _)[_]? = some (w.held.take k)
      rw [r.length, List.getElem?_concat_length, r.held]
  · intro x n hl
    rcases live_append.mp hl with h1 | ⟨h1, h2⟩
    · exact r.fresh x n h1
    · subst h1 h2
      exact ⟨rfl, rfl, hlen.symm, h4, fun b hb' => hb b (List.mem_of_mem_take hb')⟩
  · intro x
    show strongAt (w.heap ++ [some ⟨w.held.take k, k, false, 1, 0⟩]) x = (w.heap.length :: w.held.drop k).count x + indeg (w.heap ++ [some ⟨w.held.take k, k, false, 1, 0⟩]) x
    rw [hin, count_cons']
    have h1 := r.acct.count x
    have h2 : w.held.count x = (w.held.take k).count x + (w.held.drop k).count x := by rw [← List.count_append, List.take_append_drop]
    replace h1 : strongAt w.heap x = w.held.count x + indeg w.heap x := h1
    by_cases hx : x = w.heap.length
    · subst hx
      have e : strongAt (w.heap ++ [some ⟨w.held.take k, k, false, 1, 0⟩]) w.heap.length = 1 := by
        unfold strongAt
        rw [List.getElem?_concat_length]
      have e0 : strongAt w.heap w.heap.length = 0 := by
        unfold strongAt
        rw [List.getElem?_eq_none (Nat.le_refl _)]
      rw [if_pos rfl]
      omega
    · have e : strongAt (w.heap ++ [some ⟨w.held.take k, k, false, 1, 0⟩]) x = strongAt w.heap x := by
        unfold strongAt
        by_cases hlt : x < w.heap.length
        · rw [List.getElem?_append_left hlt]
        · rw [List.getElem?_eq_none (by rw [List.length_append]; show w.heap.length + 1 ≤ x; omega), List.getElem?_eq_none (by omega)]
      rw [if_neg hx]
      omega
  · intro x n hl
    rcases live_append.mp hl with h1 | ⟨h1, h2⟩
    · exact r.acct.pos x n h1
    · subst h2
      exact Nat.one_pos

theorem Rel.step {p : Plan} {w : World} (r : Rel p w) (d : Nat) (op : Op) : ∃ w', op.run (d + 2) w = .ok w' ∧ Rel (op.plan p) w' := by
  cases op with
  | new k =>
    unfold Op.run Op.plan
    dsimp only
    rw [← r.held]
    by_cases hk : k ≤ 4 ∧ k ≤ w.held.length
    · rw [if_pos hk, if_pos hk]
      have := r.new hk.1 hk.2
      rw [← r.held] at this
      exact ⟨_, rfl, this⟩
    · rw [if_neg hk, if_neg hk]
      exact ⟨w, rfl, r⟩
  | clone i =>
    unfold Op.run Op.plan
    dsimp only
    rw [← r.held]
    cases hi : w.held[i]? with
    | none => exact ⟨w, rfl, r⟩
    | some a =>
      obtain ⟨n, hl⟩ := r.heldLive hi
      obtain ⟨h, e, r'⟩ := r.hold hl
      dsimp only
      rw [e]
      rw [← r.held] at r'
      exact ⟨_, rfl, r'⟩
  | child i j =>
    unfold Op.run Op.plan
    dsimp only
    rw [← r.held]
    cases hi : w.held[i]? with
    | none => exact ⟨w, rfl, r⟩
    | some a =>
      obtain ⟨n, hl⟩ := r.heldLive hi
      have hf := r.fresh a n hl
      dsimp only
      rw [node_live hl]
      have hb : p.built.getD a [] = n.refs := by rw [List.getD_eq_getElem?_getD, r.refs a n hl]; rfl
      rw [hb]
      show ∃ w', (if j < n.cnt then _ else _) = _ ∧ _
      by_cases hj : j < n.cnt
      · obtain ⟨c, hc⟩ : ∃ c, n.refs[j]? = some c := ⟨_, List.getElem?_eq_getElem (by omega)⟩
        rw [if_pos hj, slot_some hc, hc]
        obtain ⟨m, hm⟩ := r.acct.owned_live hl (b := c) (by rw [r.fresh.owned hl]; exact List.mem_of_getElem? hc)
        obtain ⟨h, e, r'⟩ := r.hold hm
        show ∃ w', (w.heap.clone c >>= _) = _ ∧ _
        rw [e]
        rw [← r.held] at r'
        exact ⟨_, rfl, r'⟩
      · rw [if_neg hj, List.getElem?_eq_none (by omega)]
        exact ⟨w, rfl, r⟩
  | drop i =>
    unfold Op.run Op.plan
    dsimp only
    rw [← r.held]
    cases hi : w.held[i]? with
    | none =>
      have : w.held.eraseIdx i = w.held := List.eraseIdx_of_length_le (by
        refine Classical.byContradiction fun hn => ?_
        rw [List.getElem?_eq_getElem (by omega)] at hi
        cases hi)
      rw [this, r.held]
      exact ⟨w, rfl, r⟩
    | some a =>
      have ac : Acct w.heap (Drop.hold a (fun x => (w.held.eraseIdx i).count x)) := by
        have : Drop.hold a (fun x => (w.held.eraseIdx i).count x) = fun x => w.held.count x := by
          funext x
          rw [count_eraseIdx w.held i a hi x]
          rfl
        rw [this]
        exact r.acct
      obtain ⟨h', e, m, ac'⟩ := dropRef_spec (d := d) (fuel := 10 * w.heap.length + 1) r.fresh.mid ac (by omega)
      have hs : ∀ x, SameAt w.heap h' x := fun x => m.same x (by simp)
      dsimp only
      rw [e]
      refine ⟨_, rfl, ⟨rfl, by rw [← r.length]; exact m.length, fun x n hl => ?_, r.fresh.same hs, ac'⟩⟩
      obtain ⟨n0, h1, h2, _⟩ := hs x n hl
      rw [h2]
      exact r.refs x n0 h1

theorem Rel.runs (d : Nat) : ∀ (ops : List Op) {p : Plan} {w : World}, Rel p w → ∃ w', w.runs (d + 2) ops = .ok w' ∧ Rel (ops.foldl Op.plan p) w'
  | [], p, w, r => ⟨w, rfl, r⟩
  | op :: ops, p, w, r => by
    obtain ⟨w1, e1, r1⟩ := r.step d op
    obtain ⟨w2, e2, r2⟩ := r1.runs d ops
    refine ⟨w2, ?_, r2⟩
    rw [World.runs, e1]
    exact e2

theorem Rel.needed {p : Plan} {w : World} (r : Rel p w) (x : Nat) : (∃ n, w.heap.Live x n) ↔ Needed p x := by
  constructor
  · intro ⟨n, hl⟩
    have hr := live_reach r.fresh r.acct w.heap.length x n hl (by omega)
    clear hl
    induction hr with
    | root hL => exact .held (by rw [← r.held]; exact List.count_pos_iff.mp hL)
    | step _ hl hb ih => exact .child ih (r.refs _ _ hl) hb
  · intro hn
    induction hn with
    | held hm => exact r.acct.live (List.count_pos_iff.mpr (by rw [r.held]; exact hm))
    | child _ hrs hb ih =>
      obtain ⟨n, hl⟩ := ih
      have := r.refs _ n hl
      rw [hrs] at this
      injection this with this
      subst this
      exact r.acct.owned_live hl (by rw [r.fresh.owned hl]; exact hb)

/-! ### C82

The full statement: for every memory with correct counts, weak handles included, a release does not fail with two nested destructors, and leaves exactly what can still be reached. It is false for cells
with weak handles (`C82_weak_nesting`), so the theorems below are about cells without them. -/

/-- C82: releasing one of the handles of a cell succeeds for memory of any size and trees of any depth, with at most two nested destructors and in a bounded number of rounds: no released
memory is touched and no count falls below zero. Afterwards the cells in memory are exactly those that can be reached from the other handles, they are unchanged, and the counts are right again. -/
theorem C82_drop_partial {h : Heap} {L : Nat → Nat} {a fuel d : Nat} (hw : Fresh h) (ac : Acct h (hold a L)) (hf : 10 * h.length < fuel) (hd : 2 ≤ d) :
    ∃ h', dropRef fuel d h a = .ok h' ∧ (∀ x, (∃ n, h'.Live x n) ↔ Reach h L x) ∧ (∀ x n', h'.Live x n' → ∃ n, h.Live x n ∧ n' = { n with strong := n'.strong }) ∧ Fresh h' ∧ Acct h' L := by
  obtain ⟨k, rfl⟩ : ∃ k, d = k + 2 := ⟨d - 2, by omega⟩
  obtain ⟨h', e, m, ac'⟩ := dropRef_spec (d := k) hw.mid ac hf
  have hs : ∀ x, SameAt h h' x := fun x => m.same x (by simp)
  refine ⟨h', e, fun x => ⟨fun ⟨n, hl⟩ => ?_, reach_live hw hs ac'⟩, fun x n' hl => ?_, hw.same hs, ac'⟩
  · exact reach_mono hs (live_reach (hw.same hs) ac' h'.length x n hl (by omega))
  · obtain ⟨n, h1, h2, _⟩ := hs x n' hl
    exact ⟨n, h1, h2⟩

/-- C82: every program that builds cells, clones and releases handles and takes children never fails, with two nested destructors. It holds what it would hold if nothing were released,
a cell is in memory exactly when the program can still get to it, and then it has the references it was built with. -/
theorem C82_history_partial (ops : List Op) : ∃ w, World.init.runs 2 ops = .ok w ∧ w.held = (Plan.after ops).held ∧
    (∀ x, (∃ n, w.heap.Live x n) ↔ Needed (Plan.after ops) x) ∧ ∀ x n, w.heap.Live x n → (Plan.after ops).built[x]? = some n.refs := by
  obtain ⟨w, e, r⟩ := Rel.init.runs 0 ops
  exact ⟨w, e, r.held, r.needed, r.refs⟩

/-- C82: a program that has released all that it held has nothing left in memory. -/
theorem C82_no_leak_partial (ops : List Op) (h : (Plan.after ops).held = []) : ∃ w, World.init.runs 2 ops = .ok w ∧ ∀ x n, ¬ w.heap.Live x n := by
  obtain ⟨w, e, _, hn, _⟩ := C82_history_partial ops
  refine ⟨w, e, fun x n hl => ?_⟩
  have := (hn x).mp ⟨n, hl⟩
  clear hl
  induction this with
  | held hm => rw [h] at hm; cases hm
  | child _ _ _ ih => exact ih

/-- C82, the other side: the loop passes over cells with weak handles. In a chain of such cells (each but the last with the one before as its only child) every cell is released by the destructor of the one
above it, so the nesting grows with the chain: no bound is enough for all chains. -/
theorem C82_weak_nesting (fuel : Nat) : ∀ (d a : Nat) (h : Heap), d ≤ a → (∀ i, i ≤ a → ∃ n, h.Live i n ∧ n.strong = 1 ∧ 0 < n.weak ∧ n.noFirst = false ∧ n.cnt = n.refs.length ∧ n.refs = if i = 0 then [] else [i - 1]) →
    dropRef fuel d h a = .error .nesting
  | 0, a, h, _, _ => rfl
  | d + 1, a, h, hd, hc => by
    obtain ⟨n, hl, hs, hwk, hn, hcn, hr⟩ := hc a (Nat.le_refl _)
    rw [if_neg (by omega)] at hr
    have ho : n.owned = [a - 1] := by
      unfold Node.owned
      rw [hn, hcn]
      show n.refs.take n.refs.length = _
      rw [List.take_length, hr]
    rw [dropRef, node_live hl]
    show (if n.strong = 0 then _ else if 1 < n.strong then _ else eachDrop (dropRef fuel d) fuel n.owned (h.set a none)) = _
    rw [if_neg (by omega), if_neg (by omega), ho]
    have hc' : ∀ i, i ≤ a - 1 → ∃ n, Heap.Live (h.set a none) i n ∧ n.strong = 1 ∧ 0 < n.weak ∧ n.noFirst = false ∧ n.cnt = n.refs.length ∧ n.refs = if i = 0 then [] else [i - 1] := by
      intro i hi
      obtain ⟨m, h1, h2⟩ := hc i (by omega)
      exact ⟨m, (live_set_other hl none (by omega)).mpr h1, h2⟩
    obtain ⟨m, hm, _, hwm, _⟩ := hc' (a - 1) (Nat.le_refl _)
    have e1 : deepDrop (dropRef fuel d) fuel (h.set a none) (a - 1) = .ok (h.set a none) := by
      unfold deepDrop
      rw [isUnique_live hm, decide_eq_false (by omega)]
      rfl
    rw [eachDrop, e1]
    show (dropRef fuel d (h.set a none) (a - 1) >>= _) = _
    rw [C82_weak_nesting fuel d (a - 1) _ (by omega) hc']
    rfl

/-! ### Cases -/

/-- Two leaves, a cell with the second one twice and the first, a chain above it; then handles of the cells on the way down to the second leaf are taken, and all but the last are released, the top last. -/
def sampleOps : List Op := [.new 0, .new 0, .clone 0, .new 3, .new 1, .new 1, .child 0 0, .child 0 0, .child 0 1, .drop 1, .drop 1, .drop 1]

def sampleHeap : Heap :=
  [some ⟨[], 0, false, 1, 0⟩, some ⟨[0], 1, false, 2, 0⟩, some ⟨[1, 1], 2, false, 1, 0⟩, some ⟨[2], 1, false, 1, 0⟩, some ⟨[3], 1, false, 1, 0⟩]

/-- A deep tree is released, down to nothing; nested destructors one deep would not be enough. -/
example : dropRef 51 2 sampleHeap 4 = .ok [none, none, none, none, none] ∧ dropRef 51 1 sampleHeap 4 = .error .nesting := ⟨by rfl, by rfl⟩

/-- Its hypotheses. -/
example : Fresh sampleHeap ∧ Acct sampleHeap (hold 4 noHandles) := by
  have key : ∀ x n, sampleHeap.Live x n → x < 5 := fun x n hl => live_lt hl
  refine ⟨fun x n hl => ?_, fun a => ?_, fun x n hl => ?_⟩
  · have := key x n hl
    rcases x with _ | _ | _ | _ | _ | x
    all_goals first | omega | (injection hl with hl; injection hl with hl; subst hl; simp)
  · rcases a with _ | _ | _ | _ | _ | a
    all_goals first | decide +kernel | skip
    have e : strongAt sampleHeap (a + 5) = 0 := rfl
    have e2 : indeg sampleHeap (a + 5) = 0 := by
      simp [indeg, sumTo, sampleHeap, ownedAt, Node.owned]
    rw [e, e2, hold_other _ (by omega)]
    rfl
  · have := key x n hl
    rcases x with _ | _ | _ | _ | _ | x
    all_goals first | omega | (injection hl with hl; injection hl with hl; subst hl; simp)

/-- The program holds the second leaf, and nothing else is left in memory. -/
example : World.init.runs 2 sampleOps = .ok ⟨[none, some ⟨[], 0, false, 1, 0⟩, none, none, none], [1]⟩ ∧ (Plan.after sampleOps).held = [1] := ⟨by rfl, by rfl⟩

/-- A program that gives everything back. -/
example : (Plan.after (sampleOps ++ [.drop 0])).held = [] ∧ World.init.runs 2 (sampleOps ++ [.drop 0]) = .ok ⟨[none, none, none, none, none], []⟩ := ⟨by rfl, by rfl⟩

/-- A chain of three cells with weak handles cannot be released with two nested destructors; without the weak handles it can. -/
example : dropRef 31 2 [some ⟨[], 0, false, 1, 1⟩, some ⟨[0], 1, false, 1, 1⟩, some ⟨[1], 1, false, 1, 1⟩] 2 = .error .nesting ∧
    dropRef 31 2 [some ⟨[], 0, false, 1, 0⟩, some ⟨[0], 1, false, 1, 0⟩, some ⟨[1], 1, false, 1, 0⟩] 2 = .ok [none, none, none] := ⟨by rfl, by rfl⟩

end Verif.Drop
