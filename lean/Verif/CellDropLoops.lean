import Verif.CellDropLemmas
/-
The loops that release cells: what they do, and that they neither fail nor touch released memory.
-/
set_option linter.unusedVariables false
set_option linter.unusedSimpArgs false
namespace Verif.Drop

theorem takeNext_some {h : Heap} {a : Nat} {n : Node} (hl : h.Live a n) (h1 : 1 < n.cnt) (hz : n.cnt ≤ n.refs.length) :
    ∃ c, n.refs[n.cnt - 1]? = some c ∧ h.takeNext a = .ok (some c, h.set a (some { n with cnt := n.cnt - 1 })) := by
  obtain ⟨c, hc⟩ : ∃ c, n.refs[n.cnt - 1]? = some c := ⟨_, List.getElem?_eq_getElem (by omega)⟩
  refine ⟨c, hc, ?_⟩
  unfold Heap.takeNext
  rw [node_live hl]
  show (if 1 < n.cnt then n.slot (n.cnt - 1) >>= _ else _) = _
  rw [if_pos h1, slot_some hc]
  rfl

theorem takeNext_none {h : Heap} {a : Nat} {n : Node} (hl : h.Live a n) (h1 : ¬ 1 < n.cnt) : h.takeNext a = .ok (none, h) := by
  unfold Heap.takeNext
  rw [node_live hl]
  show (if 1 < n.cnt then n.slot (n.cnt - 1) >>= _ else _) = _
  rw [if_neg h1]

theorem takeFirst_some {h : Heap} {a c : Nat} {n : Node} (hl : h.Live a n) (h1 : 0 < n.cnt) (h2 : n.noFirst = false) (hc : n.refs[0]? = some c) :
    h.takeFirst a = .ok (some c, h.set a (some { n with noFirst := true })) := by
  unfold Heap.takeFirst
  rw [node_live hl]
  show (if 0 < n.cnt ∧ n.noFirst = false then n.slot 0 >>= _ else _) = _
  rw [if_pos ⟨h1, h2⟩, slot_some hc]
  rfl

theorem takeFirst_none {h : Heap} {a : Nat} {n : Node} (hl : h.Live a n) (h1 : ¬ (0 < n.cnt ∧ n.noFirst = false)) : h.takeFirst a = .ok (none, h) := by
  unfold Heap.takeFirst
  rw [node_live hl]
  show (if 0 < n.cnt ∧ n.noFirst = false then n.slot 0 >>= _ else _) = _
  rw [if_neg h1]

theorem replaceFirst_some {h : Heap} {a p c : Nat} {n : Node} (hl : h.Live a n) (h1 : 0 < n.cnt) (h2 : n.noFirst = false) (hc : n.refs[0]? = some c) :
    h.replaceFirst a p = .ok (some c, h.set a (some { n with refs := n.refs.set 0 p })) := by
  unfold Heap.replaceFirst
  rw [node_live hl]
  show (if 0 < n.cnt ∧ n.noFirst = false then n.slot 0 >>= _ else _) = _
  rw [if_pos ⟨h1, h2⟩, slot_some hc]
  rfl

theorem replaceFirst_none {h : Heap} {a p : Nat} {n : Node} (hl : h.Live a n) (h1 : ¬ (0 < n.cnt ∧ n.noFirst = false)) : h.replaceFirst a p = .ok (none, h) := by
  unfold Heap.replaceFirst
  rw [node_live hl]
  show (if 0 < n.cnt ∧ n.noFirst = false then n.slot 0 >>= _ else _) = _
  rw [if_neg h1]

theorem unique_true {h : Heap} {a : Nat} {n : Node} (hl : h.Live a n) (h1 : n.strong = 1) (h2 : n.weak = 0) : h.isUnique a = .ok true := by
  rw [isUnique_live hl, decide_eq_true ⟨h1, h2⟩]

theorem unique_false {h : Heap} {a : Nat} {n : Node} (hl : h.Live a n) (h1 : n.strong ≠ 1) : h.isUnique a = .ok false := by
  rw [isUnique_live hl, decide_eq_false (fun h => h1 h.1)]

/-- The first cell of the way back, with the facts that the loops use. -/
theorem Chain.head {h : Heap} {p : Nat} {C : List Nat} (hc : Chain h p C) : ∃ n, h.Live p n ∧ n.strong = 1 := hc.strong p (by simp)

/-- The first cell of the way back loses a slot that is not the first one. -/
theorem Chain.pop {h : Heap} {p : Nat} {n : Node} (hl : h.Live p n) (h1 : 1 < n.cnt) : ∀ {C : List Nat}, Chain h p C → (p :: C).Nodup →
    Chain (h.set p (some { n with cnt := n.cnt - 1 })) p C
  | [], ⟨m, g1, g2, g3⟩, _ => by
    have e := Live.unique g1 hl
    subst e
    exact ⟨_, live_set_self hl _, g2, g3⟩
  | q :: C, ⟨m, g1, g2, g3, g4, g5, g6⟩, nd => by
    have e := Live.unique g1 hl
    subst e
    exact ⟨_, live_set_self hl _, g2, g3, by show 0 < m.cnt - 1; omega, g5, g6.other hl _ (List.nodup_cons.mp nd).1⟩

/-- What is left of the way back after a step up. -/
structure Up (drop : Heap → Nat → Except DropErr Heap) (h0 h : Heap) (K L : Nat → Nat) (p : Nat) (C : List Nat) (r : Option (Nat × Nat)) (h' : Heap) : Prop where
  rest : ∀ x, x ∉ p :: C → h'[x]? = h[x]?
  none : r = .none → Mid h0 h' K [] ∧ Acct h' L
  some : ∀ anc child, r = .some (anc, child) → ∃ C', (∀ x, x ∈ anc :: C' → x ∈ p :: C) ∧ Mid h0 h' K (anc :: C') ∧ Chain h' anc C' ∧ (anc :: C').Nodup ∧
    Acct h' (hold anc (hold child L)) ∧ total h' (anc :: C') < total h (p :: C)

theorem nextChild_spec {drop : Heap → Nat → Except DropErr Heap} (hd : Simple drop) {h0 : Heap} {K L : Nat → Nat} : ∀ (fuel : Nat) (h : Heap) (p : Nat) (C : List Nat),
    Mid h0 h K (p :: C) → Chain h p C → (p :: C).Nodup → Acct h (hold p L) → total h (p :: C) ≤ fuel →
    ∃ r h', nextChild drop fuel h p = .ok (r, h') ∧ Up drop h0 h K L p C r h'
  | 0, h, p, C, m, ch, nd, ac, hf => by
    obtain ⟨n, hl, _⟩ := ch.head
    have := weight_le_total hl (p :: C)
    rw [weight_in hl (by simp)] at this
    omega
  | fuel + 1, h, p, C, m, ch, nd, ac, hf => by
    obtain ⟨n, hl, hs⟩ := ch.head
    have hw := m.weak p n hl
    have hz := m.size p n hl
    rw [nextChild, unique_true hl hs hw]
    show ∃ r h', (h.takeNext p >>= _) = _ ∧ _
    by_cases h1 : 1 < n.cnt
    · obtain ⟨c, hc, e⟩ := takeNext_some hl h1 hz.1
      rw [e]
      refine ⟨some (p, c), _, rfl, ⟨fun x hx => ?_, (by intro h; cases h), fun anc child he => ?_⟩⟩
      · rw [live_set hl, if_neg (fun e => hx (by simp [e]))]
      · injection he with he
        injection he with e1 e2
        subst e1 e2
        refine ⟨C, fun x hx => hx, m.work hl (fun x hx => hx) (by simp) rfl (Nat.sub_le _ _) rfl, ch.pop hl h1 nd, nd, ?_, ?_⟩
        · refine ac.set hl rfl fun x => ?_
          rw [owned_pop h1 hc, List.count_append, count_single]
          unfold hold
          omega
        · have := total_set hl (some { n with cnt := n.cnt - 1 }) (S := p :: C) (S' := p :: C) (fun _ _ => Iff.rfl)
          rw [weight_in hl (by simp), weight_in (live_set_self hl _) (by simp)] at this
          replace this : total (h.set p (some { n with cnt := n.cnt - 1 })) (p :: C) + (1 + n.cnt) = total h (p :: C) + (1 + (n.cnt - 1)) := this
          omega
    · rw [takeNext_none hl h1]
      show ∃ r h', (h.takeFirst p >>= _) = _ ∧ _
      cases C with
      | nil =>
        obtain ⟨n', g1, g2, g3⟩ := ch
        have e := Live.unique g1 hl
        subst e
        rw [takeFirst_none hl (by rw [g3]; simp)]
        show ∃ r h', (drop h p >>= _) = _ ∧ _
        have ho := owned_taken g3 (by omega)
        rw [hd.last h p n' hl hs ho]
        refine ⟨none, _, rfl, ⟨fun x hx => ?_, fun _ => ⟨?_, ?_⟩, (by intro _ _ h; cases h)⟩⟩
        · rw [live_set hl, if_neg (fun e => hx (by simp [e]))]
        · exact m.kill hl (fun x hx _ => by simp [hx]) (fun x _ => Nat.le_refl _)
        · exact ac.free hl hs (fun x => by rw [ho]; rfl)
      | cons q C =>
        obtain ⟨n', g1, g2, g3, g4, g5, g6⟩ := ch
        have e := Live.unique g1 hl
        subst e
        rw [takeFirst_some hl g4 g3 g5]
        show ∃ r h', (drop (h.set p (some { n' with noFirst := true })) p >>= _) = _ ∧ _
        have hl1 : Heap.Live (h.set p (some { n' with noFirst := true })) p { n' with noFirst := true } := live_set_self hl _
        have ho : ({ n' with noFirst := true } : Node).owned = [] := owned_taken rfl (by show n'.cnt ≤ 1; omega)
        rw [hd.last _ p _ hl1 hs ho]
        have e2 : (h.set p (some { n' with noFirst := true })).set p none = h.set p none := by rw [List.set_set]
        rw [e2]
        show ∃ r h', nextChild drop fuel (h.set p none) q = _ ∧ _
        have hpq : p ∉ q :: C := (List.nodup_cons.mp nd).1
        have m1 : Mid h0 (h.set p none) K (q :: C) := m.kill hl (fun x hx hn => by
          intro hm
          rcases List.mem_cons.mp hm with rfl | hm
          · exact hx rfl
          · exact hn hm) (fun x _ => Nat.le_refl _)
        have ac1 : Acct (h.set p none) (hold q L) := by
          have a1 : Acct (h.set p (some { n' with noFirst := true })) (hold p (hold q L)) := ac.set hl rfl fun x => by
            rw [owned_first g3 g4 g5, count_cons']
            unfold hold
            omega
          have := a1.free (L' := hold q L) hl1 hs (fun x => by rw [ho]; rfl)
          rw [e2] at this
          exact this
        have t1 := total_set hl none (S := p :: q :: C) (S' := q :: C) (fun x hx => by simp [hx])
        rw [weight_in hl (by simp), weight_none hl] at t1
        obtain ⟨r, h', e3, u⟩ := nextChild_spec hd fuel (h.set p none) q C m1 (g6.other hl none hpq) (List.nodup_cons.mp nd).2 ac1 (by omega)
        refine ⟨r, h', e3, ⟨fun x hx => ?_, u.none, fun anc child he => ?_⟩⟩
        · rw [u.rest x (fun hm => hx (List.mem_cons_of_mem _ hm)), live_set hl, if_neg (fun e => hx (by simp [e]))]
        · obtain ⟨C', b1, b2, b3, b4, b5, b6⟩ := u.some anc child he
          exact ⟨C', fun x hx => List.mem_cons_of_mem _ (b1 x hx), b2, b3, b4, b5, by omega⟩

/-- A cell that is held is not on the way back. -/
theorem held_off {h : Heap} {L : Nat → Nat} {p c : Nat} {C : List Nat} (ch : Chain h p C) (ac : Acct h (hold p (hold c L))) : c ∉ p :: C := by
  intro hc
  obtain ⟨n, hl, hs⟩ := ch.strong c hc
  have h1 := ac.count c
  rw [strongAt_live hl, hs] at h1
  rcases List.mem_cons.mp hc with rfl | hc
  · rw [hold_self, hold_self] at h1; omega
  · have := ch.indeg c hc
    have := hold_le p (hold c L) c
    rw [hold_self] at this
    omega

/-- A held cell with taken slots is shared with its keeper. -/
theorem first_untaken {h0 h : Heap} {K L : Nat → Nat} {S : List Nat} (m : Mid h0 h K S) (hK : ∀ x, K x ≤ L x) {c : Nat} {n : Node} (hl : h.Live c n) (hS : c ∉ S)
    {L' : Nat → Nat} (hL : ∀ x, hold c L x ≤ L' x) (ac : Acct h L') : n.noFirst = false := by
  rcases m.first c n hl hS with g | ⟨g1, g2⟩
  · exact g
  · have h1 := ac.count c
    rw [strongAt_live hl, g2] at h1
    have h2 := hL c
    rw [hold_self] at h2
    have := hK c
    omega

theorem mainLoop_spec {drop : Heap → Nat → Except DropErr Heap} (hd : Simple drop) {h0 : Heap} {K L : Nat → Nat} (hK : ∀ x, K x ≤ L x) : ∀ (fuel : Nat) (h : Heap) (p c : Nat) (C : List Nat),
    Mid h0 h K (p :: C) → Chain h p C → (p :: C).Nodup → Acct h (hold p (hold c L)) → total h (p :: C) < fuel →
    ∃ h', mainLoop drop fuel h p c = .ok h' ∧ Mid h0 h' K [] ∧ Acct h' L
  | 0, h, p, c, C, m, ch, nd, ac, hf => absurd hf (by omega)
  | fuel + 1, h, p, c, C, m, ch, nd, ac, hf => by
    have hoff := held_off ch ac
    obtain ⟨n, hl⟩ := ac.live (a := c) (by have := hold_le p (hold c L) c; rw [hold_self] at this; omega)
    have hz := m.size c n hl
    have hnf := first_untaken m hK hl hoff (fun x => hold_le p (hold c L) x) ac
    have hpos := ac.pos c n hl
    rw [mainLoop]
    by_cases hs : n.strong = 1
    · rw [unique_true hl hs (m.weak c n hl)]
      show ∃ h', (h.replaceFirst c p >>= _) = _ ∧ _
      by_cases h1 : 0 < n.cnt
      · obtain ⟨f, hf0⟩ : ∃ f, n.refs[0]? = some f := ⟨_, List.getElem?_eq_getElem (by omega)⟩
        rw [replaceFirst_some hl h1 hnf hf0]
        show ∃ h', mainLoop drop fuel (h.set c (some { n with refs := n.refs.set 0 p })) c f = _ ∧ _
        obtain ⟨t, o1, o2⟩ := owned_replace (p := p) hnf h1 hf0
        refine mainLoop_spec hd hK fuel _ c f (p :: C) ?_ ?_ ?_ ?_ ?_
        · exact m.work hl (fun x hx hm => hx (List.mem_cons_of_mem _ hm)) (by simp) rfl (Nat.le_refl _) (List.length_set)
        · refine ⟨_, live_set_self hl _, hs, hnf, h1, ?_, ch.other hl _ hoff⟩
          show (n.refs.set 0 p)[0]? = some p
          rw [List.getElem?_set]
          rw [if_pos rfl, if_pos (by omega)]
        · exact List.nodup_cons.mpr ⟨hoff, nd⟩
        · refine ac.set hl rfl fun x => ?_
          rw [o1, o2, count_cons', count_cons']
          unfold hold
          omega
        · have := total_set hl (some { n with refs := n.refs.set 0 p }) (S := p :: C) (S' := c :: p :: C) (fun x hx => by simp [hx])
          rw [weight_out hl hoff, weight_in (live_set_self hl _) (by simp)] at this
          replace this : total (h.set c (some { n with refs := n.refs.set 0 p })) (c :: p :: C) + 10 = total h (p :: C) + (1 + n.cnt) := this
          omega
      · rw [replaceFirst_none hl (fun h => h1 h.1)]
        show ∃ h', (drop h c >>= _) = _ ∧ _
        have ho := owned_zero (n := n) (by omega)
        rw [hd.last h c n hl hs ho]
        show ∃ h', (nextChild drop (fuel + 1) (h.set c none) p >>= _) = _ ∧ _
        have t1 := total_set hl none (S := p :: C) (S' := p :: C) (fun _ _ => Iff.rfl)
        rw [weight_out hl hoff, weight_none hl] at t1
        have ac1 : Acct (h.set c none) (hold p L) := by
          rw [hold_swap] at ac
          exact ac.free hl hs (fun x => by rw [ho]; rfl)
        obtain ⟨r, h', e, u⟩ := nextChild_spec hd (fuel + 1) (h.set c none) p C (m.kill hl (fun x _ hx => hx) (fun x _ => Nat.le_refl _)) (ch.other hl none hoff) nd ac1 (by omega)
        rw [e]
        rcases r with _ | ⟨anc, child⟩
        · exact ⟨h', rfl, u.none rfl⟩
        · obtain ⟨C', b1, b2, b3, b4, b5, b6⟩ := u.some anc child rfl
          exact mainLoop_spec hd hK fuel h' anc child C' b2 b3 b4 b5 (by omega)
    · rw [unique_false hl hs]
      show ∃ h', (nextChild drop (fuel + 1) h p >>= _) = _ ∧ _
      obtain ⟨r, h', e, u⟩ := nextChild_spec hd (fuel + 1) h p C m ch nd ac (by omega)
      have hl' : h'.Live c n := by
        unfold Heap.Live
        rw [u.rest c hoff]
        exact hl
      rw [e]
      rcases r with _ | ⟨anc, child⟩
      · obtain ⟨b1, b2⟩ := u.none rfl
        exact ⟨_, hd.shared h' c n hl' (by omega), b1.dec hl' (by omega), b2.dec hl' (by omega)⟩
      · obtain ⟨C', b1, b2, b3, b4, b5, b6⟩ := u.some anc child rfl
        have hoff' : c ∉ anc :: C' := fun hm => hoff (b1 c hm)
        show ∃ h'', (drop h' c >>= _) = _ ∧ _
        rw [hd.shared h' c n hl' (by omega)]
        refine mainLoop_spec hd hK fuel _ anc child C' (b2.dec hl' (by omega)) (b3.other hl' _ hoff') b4 ?_ ?_
        · have : hold anc (hold child (hold c L)) = hold c (hold anc (hold child L)) := by funext x; unfold hold; omega
          rw [this] at b5
          exact b5.dec hl' (by omega)
        · have := total_set hl' (some { n with strong := n.strong - 1 }) (S := anc :: C') (S' := anc :: C') (fun _ _ => Iff.rfl)
          rw [weight_out hl' hoff', weight_out (live_set_self hl' _) hoff'] at this
          omega

/-- `main_deep_safe_drop` releases the cell it is given. -/
theorem mainDrop_spec {drop : Heap → Nat → Except DropErr Heap} (hd : Simple drop) {h0 : Heap} {K L : Nat → Nat} (hK : ∀ x, K x ≤ L x) {fuel : Nat} {h : Heap} {p : Nat}
    (m : Mid h0 h K []) (ac : Acct h (hold p L)) (hf : 10 * h.length < fuel) : ∃ h', mainDrop drop fuel h p = .ok h' ∧ Mid h0 h' K [] ∧ Acct h' L := by
  obtain ⟨n, hl⟩ := ac.live (a := p) (by rw [hold_self]; omega)
  have hz := m.size p n hl
  have hnf := first_untaken m hK hl (by simp) (fun x => Nat.le_refl _) ac
  have hpos := ac.pos p n hl
  unfold mainDrop
  by_cases hs : n.strong = 1
  · rw [unique_true hl hs (m.weak p n hl)]
    show ∃ h', (h.takeFirst p >>= _) = _ ∧ _
    by_cases h1 : 0 < n.cnt
    · obtain ⟨f, hf0⟩ : ∃ f, n.refs[0]? = some f := ⟨_, List.getElem?_eq_getElem (by omega)⟩
      rw [takeFirst_some hl h1 hnf hf0]
      refine mainLoop_spec hd hK fuel _ p f [] ?_ ?_ (by simp) ?_ ?_
      · exact m.work hl (fun x hx => by simp) (by simp) rfl (Nat.le_refl _) rfl
      · exact ⟨_, live_set_self hl _, hs, rfl⟩
      · refine ac.set hl rfl fun x => ?_
        rw [owned_first hnf h1 hf0, count_cons']
        unfold hold
        omega
      · have := total_set hl (some { n with noFirst := true }) (S := []) (S' := [p]) (fun x hx => by simp [hx])
        rw [weight_out hl (by simp), weight_in (live_set_self hl _) (by simp)] at this
        replace this : total (h.set p (some { n with noFirst := true })) [p] + 10 = total h [] + (1 + n.cnt) := this
        have := total_le h
        omega
    · rw [takeFirst_none hl (fun h => h1 h.1)]
      have ho := owned_zero (n := n) (by omega)
      exact ⟨_, hd.last h p n hl hs ho, m.kill hl (fun x _ hx => hx) (fun x _ => Nat.le_refl _), ac.free hl hs (fun x => by rw [ho]; rfl)⟩
  · rw [unique_false hl hs]
    exact ⟨_, hd.shared h p n hl (by omega), m.dec hl (by omega), ac.dec hl (by omega)⟩

def noHandles : Nat → Nat := fun _ => 0

/-- A cell that is held by the loop over slots: its own slots are released, apart from the first one, which is taken already. -/
theorem restDrop_spec {drop : Heap → Nat → Except DropErr Heap} (hd : Simple drop) {L : Nat → Nat} {fuel a : Nat} : ∀ (k : Nat) (h : Heap) (n : Node),
    Mid h h (hold a noHandles) [] → Acct h (hold a L) → h.Live a n → n.strong = 1 → n.noFirst = true → 10 * h.length < fuel → n.cnt < k →
    ∃ h' n', restDrop drop fuel k h a = .ok h' ∧ Mid h' h' (hold a noHandles) [] ∧ h'.length = h.length ∧ (∀ x, x ≠ a → SameAt h h' x) ∧ Acct h' (hold a L) ∧
      h'.Live a n' ∧ n'.strong = 1 ∧ n'.owned = []
  | 0, h, n, m, ac, hl, hs, hn, hf, hk => absurd hk (by omega)
  | k + 1, h, n, m, ac, hl, hs, hn, hf, hk => by
    rw [restDrop]
    by_cases h1 : 1 < n.cnt
    · obtain ⟨c, hc, e⟩ := takeNext_some hl h1 (m.size a n hl).1
      rw [e]
      show ∃ h' n', (mainDrop drop fuel (h.set a (some { n with cnt := n.cnt - 1 })) c >>= _) = _ ∧ _
      have hl1 : Heap.Live (h.set a (some { n with cnt := n.cnt - 1 })) a { n with cnt := n.cnt - 1 } := live_set_self hl _
      have m1 : Mid (h.set a (some { n with cnt := n.cnt - 1 })) (h.set a (some { n with cnt := n.cnt - 1 })) (hold a noHandles) [] := by
        have w := m.work hl (S' := [a]) (n' := { n with cnt := n.cnt - 1 }) (fun x hx => by simp) (by simp) rfl (Nat.sub_le _ _) rfl
        refine ⟨rfl, w.weak, w.size, fun x j hx _ => ?_, fun x _ => SameAt.refl _ x⟩
        by_cases hxa : x = a
        · subst hxa
          have := Live.unique hx hl1
          subst this
          exact .inr ⟨by rw [hold_self]; omega, hs⟩
        · exact w.first x j hx (by simp [hxa])
      have ac1 : Acct (h.set a (some { n with cnt := n.cnt - 1 })) (hold c (hold a L)) := ac.set hl rfl fun x => by
        rw [owned_pop h1 hc, List.count_append, count_single]
        unfold hold
        omega
      obtain ⟨h2, e2, m2, ac2⟩ := mainDrop_spec hd (K := hold a noHandles) (L := hold a L) (fun x => by unfold hold noHandles; omega) m1 ac1 (by rw [List.length_set]; exact hf)
      rw [e2]
      show ∃ h' n', restDrop drop fuel k h2 a = _ ∧ _
      obtain ⟨n2, hl2⟩ := ac2.live (a := a) (by rw [hold_self]; omega)
      obtain ⟨n3, b1, b2, b3⟩ := m2.same a (by simp) n2 hl2
      have b4 := Live.unique b1 hl1
      subst b4
      have b5 := ac2.pos a n2 hl2
      replace b3 : n2.strong ≤ n.strong := b3
      have hlen : h2.length = h.length := by rw [m2.length, List.length_set]
      have b6 : n2.noFirst = true := by rw [b2]; exact hn
      have b7 : n2.cnt = n.cnt - 1 := by rw [b2]
      obtain ⟨h', n', r1, r2, r3, r4, r5⟩ := restDrop_spec hd (fuel := fuel) k h2 n2 m2.self ac2 hl2 (by omega) b6 (by omega) (by omega)
      refine ⟨h', n', r1, r2, by omega, fun x hx => ?_, r5⟩
      refine SameAt.trans ?_ (r4 x hx)
      intro j hj
      obtain ⟨j0, g1, g2⟩ := m2.same x (by simp) j hj
      exact ⟨j0, (live_set_other hl _ hx).mp g1, g2⟩
    · rw [takeNext_none hl h1]
      exact ⟨h, n, rfl, m, rfl, fun x _ => SameAt.refl h x, ac, hl, hs, owned_taken hn (by omega)⟩

/-- One round of the loop over slots releases the handle in the slot. -/
theorem slot_spec {drop : Heap → Nat → Except DropErr Heap} (hd : Simple drop) {h0 : Heap} {L : Nat → Nat} {fuel a : Nat} {h : Heap} (m : Mid h0 h noHandles [])
    (ac : Acct h (hold a L)) (hf : 10 * h.length < fuel) :
    ∃ h1 h2, deepDrop drop fuel h a = .ok h1 ∧ drop h1 a = .ok h2 ∧ Mid h0 h2 noHandles [] ∧ Acct h2 L := by
  obtain ⟨n, hl⟩ := ac.live (a := a) (by rw [hold_self]; omega)
  have hz := m.size a n hl
  have hnf : n.noFirst = false := by
    rcases m.first a n hl (by simp) with g | ⟨g, _⟩
    · exact g
    · exact absurd g (by unfold noHandles; omega)
  have hpos := ac.pos a n hl
  have hlt := live_lt hl
  unfold deepDrop
  by_cases hs : n.strong = 1
  · rw [unique_true hl hs (m.weak a n hl)]
    show ∃ h1 h2, (h.takeFirst a >>= _) = _ ∧ _
    by_cases h1 : 0 < n.cnt
    · obtain ⟨f, hf0⟩ : ∃ f, n.refs[0]? = some f := ⟨_, List.getElem?_eq_getElem (by omega)⟩
      rw [takeFirst_some hl h1 hnf hf0]
      show ∃ h1 h2, (mainDrop drop fuel (h.set a (some { n with noFirst := true })) f >>= _) = _ ∧ _
      have hl1 : Heap.Live (h.set a (some { n with noFirst := true })) a { n with noFirst := true } := live_set_self hl _
      have m1 : Mid (h.set a (some { n with noFirst := true })) (h.set a (some { n with noFirst := true })) (hold a noHandles) [] := by
        have w := m.work hl (S' := [a]) (n' := { n with noFirst := true }) (fun x hx => by simp) (by simp) rfl (Nat.le_refl _) rfl
        refine ⟨rfl, w.weak, w.size, fun x j hx _ => ?_, fun x _ => SameAt.refl _ x⟩
        by_cases hxa : x = a
        · subst hxa
          have := Live.unique hx hl1
          subst this
          exact .inr ⟨by rw [hold_self]; omega, hs⟩
        · rcases w.first x j hx (by simp [hxa]) with g | ⟨g, _⟩
          · exact .inl g
          · exact absurd g (by unfold noHandles; omega)
      have ac1 : Acct (h.set a (some { n with noFirst := true })) (hold f (hold a L)) := ac.set hl rfl fun x => by
        rw [owned_first hnf h1 hf0, count_cons']
        unfold hold
        omega
      obtain ⟨h2, e2, m2, ac2⟩ := mainDrop_spec hd (K := hold a noHandles) (L := hold a L) (fun x => by unfold hold noHandles; omega) m1 ac1 (by rw [List.length_set]; exact hf)
      rw [e2]
      show ∃ h1 h3, restDrop drop fuel fuel h2 a = _ ∧ _
      obtain ⟨n2, hl2⟩ := ac2.live (a := a) (by rw [hold_self]; omega)
      obtain ⟨n3, b1, b2, b3⟩ := m2.same a (by simp) n2 hl2
      have b4 := Live.unique b1 hl1
      subst b4
      have b5 := ac2.pos a n2 hl2
      replace b3 : n2.strong ≤ n.strong := b3
      have hlen : h2.length = h.length := by rw [m2.length, List.length_set]
      have b6 : n2.noFirst = true := by rw [b2]
      have b7 : n2.cnt = n.cnt := by rw [b2]
      obtain ⟨h', n', r1, r2, r3, r4, r5, r6, r7, r8⟩ := restDrop_spec hd (fuel := fuel) fuel h2 n2 m2.self ac2 hl2 (by omega) b6 (by omega) (by omega)
      refine ⟨h', _, r1, hd.last h' a n' r6 r7 r8, ?_, r5.free r6 r7 (fun x => by rw [r8]; rfl)⟩
      have k := r2.kill (K' := noHandles) r6 (S' := []) (fun x _ hx => hx) (fun x hx => by rw [hold_other _ hx]; exact Nat.le_refl _)
      refine ⟨by rw [List.length_set]; have := m.length; omega, k.weak, k.size, k.first, fun x _ j hj => ?_⟩
      have hx : x ≠ a := fun e => by subst e; exact not_live_none r6 hj
      have s1 : SameAt h h' x := by
        refine SameAt.trans ?_ (r4 x hx)
        intro j hj
        obtain ⟨j0, g1, g2⟩ := m2.same x (by simp) j hj
        exact ⟨j0, (live_set_other hl _ hx).mp g1, g2⟩
      exact ((m.same x (by simp)).trans s1) j ((live_set_other r6 none hx).mp hj)
    · rw [takeFirst_none hl (fun h => h1 h.1)]
      have ho := owned_zero (n := n) (by omega)
      exact ⟨h, _, rfl, hd.last h a n hl hs ho, m.kill hl (fun x _ hx => hx) (fun x _ => Nat.le_refl _), ac.free hl hs (fun x => by rw [ho]; rfl)⟩
  · rw [unique_false hl hs]
    exact ⟨h, _, rfl, hd.shared h a n hl (by omega), m.dec hl (by omega), ac.dec hl (by omega)⟩

theorem eachDrop_spec {drop : Heap → Nat → Except DropErr Heap} (hd : Simple drop) {h0 : Heap} {L : Nat → Nat} {fuel : Nat} : ∀ (cs : List Nat) (h : Heap) (L' : Nat → Nat),
    Mid h0 h noHandles [] → (∀ x, L' x = L x + cs.count x) → Acct h L' → 10 * h.length < fuel →
    ∃ h', eachDrop drop fuel cs h = .ok h' ∧ Mid h0 h' noHandles [] ∧ Acct h' L
  | [], h, L', m, hL, ac, hf => by
    have : L' = L := by funext x; rw [hL x]; rfl
    subst this
    exact ⟨h, rfl, m, ac⟩
  | c :: cs, h, L', m, hL, ac, hf => by
    have : L' = hold c (fun x => L x + cs.count x) := by
      funext x
      rw [hL x, count_cons']
      show _ = L x + cs.count x + _
      omega
    subst this
    obtain ⟨h1, h2, e1, e2, m2, ac2⟩ := slot_spec hd m ac hf
    rw [eachDrop, e1]
    show ∃ h', (drop h1 c >>= _) = _ ∧ _
    rw [e2]
    exact eachDrop_spec hd cs h2 _ m2 (fun x => rfl) ac2 (by rw [m2.length, ← m.length]; exact hf)

/-- A release with two levels of destructors. -/
theorem dropRef_spec {L : Nat → Nat} {fuel d a : Nat} {h : Heap} (m : Mid h h noHandles []) (ac : Acct h (hold a L)) (hf : 10 * h.length < fuel) :
    ∃ h', dropRef fuel (d + 2) h a = .ok h' ∧ Mid h h' noHandles [] ∧ Acct h' L := by
  obtain ⟨n, hl⟩ := ac.live (a := a) (by rw [hold_self]; omega)
  have hpos := ac.pos a n hl
  by_cases hs : 1 < n.strong
  · exact ⟨_, (dropRef_simple fuel (d + 1)).shared h a n hl hs, m.dec hl hs, ac.dec hl hs⟩
  · rw [dropRef, node_live hl]
    show ∃ h', (if n.strong = 0 then _ else if 1 < n.strong then _ else eachDrop (dropRef fuel (d + 1)) fuel n.owned (h.set a none)) = _ ∧ _
    rw [if_neg (by omega), if_neg hs]
    refine eachDrop_spec (dropRef_simple fuel d) n.owned (h.set a none) (fun x => L x + n.owned.count x) ?_ (fun x => rfl) (ac.free hl (by omega) (fun x => rfl)) (by rw [List.length_set]; exact hf)
    exact m.kill hl (fun x _ hx => hx) (fun x _ => Nat.le_refl _)

end Verif.Drop
