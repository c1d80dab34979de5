import Verif.DictIterProps
/-
C35: union iteration over two dictionaries.
-/
set_option linter.unusedVariables false
set_option linter.unusedSimpArgs false
namespace Verif

theorem lexBits_self (a : Bits) : lexBits a a = .eq := by
  induction a with
  | nil => rfl
  | cons x xs ih => simp [lexBits, ih]

theorem lexBits_split (c k1 k2 : Bits) (bit : Bool) : lexBits (c ++ bit :: k1) (c ++ (!bit) :: k2) = if bit then .gt else .lt := by
  induction c with
  | nil => cases bit <;> rfl
  | cons x xs ih => simp only [List.cons_append, lexBits, if_true, ih]

/-- The comparison used by the union iterator is the iteration order. -/
theorem unionCmp_spec (rev s : Bool) {a b : Bits} (h : a.length = b.length) :
    match unionCmp rev s a b with
    | .lt => keyBefore rev s a b
    | .gt => keyBefore rev s b a
    | .eq => a = b := by
  by_cases hab : a = b
  · subst hab
    unfold unionCmp
    rw [lexBits_self]
    cases s <;> cases rev <;> simp
  · have hd : ∃ c bit k1 k2, a = c ++ bit :: k1 ∧ b = c ++ (!bit) :: k2 ∧ k1.length = k2.length := by
      clear s rev
      induction a generalizing b with
      | nil => cases b with
        | nil => exact absurd rfl hab
        | cons y ys => simp at h
      | cons x xs ih => cases b with
        | nil => simp at h
        | cons y ys =>
          have hl : xs.length = ys.length := by simpa using h
          by_cases hxy : x = y
          · subst hxy
            obtain ⟨c, bit, k1, k2, e1, e2, e3⟩ := ih hl (fun hh => hab (by rw [hh]))
            exact ⟨x :: c, bit, k1, k2, by rw [e1]; rfl, by rw [e2]; rfl, e3⟩
          · exact ⟨[], x, xs, ys, rfl, by cases x <;> cases y <;> simp_all, hl⟩
    obtain ⟨c, bit, k1, k2, e1, e2, e3⟩ := hd
    have key := keyBefore_split rev s c k1 k2 bit e3
    have key2 := keyBefore_split rev s c k2 k1 (!bit) e3.symm
    rw [Bool.not_not] at key2
    subst e1 e2
    rw [show unionCmp rev s (c ++ bit :: k1) (c ++ (!bit) :: k2) =
        if (bit = Trie.firstBit rev s c) then .lt else .gt from ?_]
    · by_cases hb : bit = Trie.firstBit rev s c
      · rw [if_pos hb]; exact key.mpr hb
      · rw [if_neg hb]
        exact key2.mpr (by revert hb; cases bit <;> cases Trie.firstBit rev s c <;> simp)
    · unfold unionCmp Trie.firstBit
      rw [lexBits_split]
      cases c with
      | nil => cases rev <;> cases s <;> cases bit <;> rfl
      | cons d c => cases rev <;> cases s <;> cases bit <;> cases d <;> rfl

/-- The merged list of two ordered lists. -/
def unionList (rev s : Bool) : Nat → List (Bits × Sl) → List (Bits × Sl) → List UnionItem
  | 0, _, _ => []
  | n + 1, [], [] => []
  | n + 1, (k, v) :: l, [] => (k, some v, none) :: unionList rev s n l []
  | n + 1, [], (k, v) :: r => (k, none, some v) :: unionList rev s n [] r
  | n + 1, (k, v) :: l, (k', v') :: r => match unionCmp rev s k k' with
    | .lt => (k, some v, none) :: unionList rev s n l ((k', v') :: r)
    | .gt => (k', none, some v') :: unionList rev s n ((k, v) :: l) r
    | .eq => (k, some v, some v') :: unionList rev s n l r

/-- One side of the union iterator: the entries still to come, a peeked one included. -/
def SideOk (rev s : Bool) (it : RawIter) (finished : Bool) (peeked : Option (Bits × Sl)) (L : List (Bits × Sl)) : Prop :=
  match peeked with
  | some p => finished = false ∧ ∃ R, L = p :: R ∧ ItOk rev s it R
  | none => ItOk rev s it L ∧ (finished = true → L = [])

theorem sideOk_valid {rev s : Bool} {it : RawIter} {f : Bool} {p : Option (Bits × Sl)} {L : List (Bits × Sl)} (h : SideOk rev s it f p L) :
    it.status = .valid ∧ it.reversed = rev ∧ it.signed = s := by
  cases p with
  | some p => obtain ⟨_, R, _, h⟩ := h; exact itOk_status h
  | none => exact itOk_status h.1

theorem unionPeek_spec {rev s : Bool} {it : RawIter} {f : Bool} {p : Option (Bits × Sl)} {L : List (Bits × Sl)} (h : SideOk rev s it f p L) :
    ∃ it' f', unionPeek it f p = (.ok L.head?, it', f', L.head?) ∧ SideOk rev s it' f' L.head? L ∧ (∀ q R, L = q :: R → SideOk rev s it' f' none R) := by
  cases p with
  | some p =>
    obtain ⟨hf, R, rfl, hi⟩ := h
    refine ⟨it, f, ?_, ⟨hf, R, rfl, hi⟩, fun q R' hq => ?_⟩
    · unfold unionPeek; rw [if_neg (by simp)]; rfl
    · injection hq with h1 h2
      exact ⟨h2 ▸ hi, fun hc => by rw [hf] at hc; cases hc⟩
  | none =>
    obtain ⟨hi, hf⟩ := h
    cases L with
    | nil =>
      cases f with
      | true => exact ⟨it, true, rfl, ⟨hi, hf⟩, fun q R hq => by cases hq⟩
      | false =>
        obtain ⟨h1, h2⟩ := itOk_next.1 hi
        refine ⟨it.next.2, true, ?_, ⟨h2, fun _ => rfl⟩, fun q R hq => by cases hq⟩
        unfold unionPeek
        rw [if_pos ⟨rfl, rfl⟩]
        cases hx : it.next with
        | mk o it' =>
          rw [hx] at h1
          simp only at h1
          subst h1
          rfl
    | cons q R =>
      cases f with
      | true => exact absurd (hf rfl) (by simp)
      | false =>
        obtain ⟨h1, h2⟩ := itOk_next.2 q R hi
        refine ⟨it.next.2, false, ?_, ⟨rfl, R, rfl, h2⟩, fun q R' hq => ?_⟩
        · unfold unionPeek
          rw [if_pos ⟨rfl, rfl⟩]
          cases hx : it.next with
          | mk o it' =>
            rw [hx] at h1
            simp only at h1
            subst h1
            rfl
        · injection hq with e1 e2
          exact ⟨e2 ▸ h2, fun hc => by cases hc⟩

/-- The state of the union iterator with the entries of both sides still to come. -/
def UOk (rev s : Bool) (it : UnionIter) (L R : List (Bits × Sl)) : Prop :=
  SideOk rev s it.left it.leftFinished it.leftPeeked L ∧ SideOk rev s it.right it.rightFinished it.rightPeeked R

theorem uOk_yields {rev s : Bool} : ∀ {it : UnionIter} {L R : List (Bits × Sl)}, UOk rev s it L R →
    Yields UnionIter.next it ((unionList rev s (L.length + R.length) L R).map .ok) := by
  intro it L R h
  refine yields_of_step (fun it l => ∃ n L R, L.length + R.length ≤ n ∧ l = (unionList rev s n L R).map .ok ∧ UOk rev s it L R) ?_ ?_ ⟨_, L, R, Nat.le_refl _, rfl, h⟩
  all_goals clear h
  · rintro it ⟨n, L, R, hn, hl, h1, h2⟩
    have hu : unionList rev s n L R = [] := List.map_eq_nil_iff.mp hl.symm
    have hLR : L = [] ∧ R = [] := by
      cases n with
      | zero => exact ⟨List.length_eq_zero_iff.mp (by omega), List.length_eq_zero_iff.mp (by omega)⟩
      | succ n =>
        cases L <;> cases R
        · exact ⟨rfl, rfl⟩
        · simp [unionList] at hu
        · simp [unionList] at hu
        · unfold unionList at hu; split at hu <;> cases hu
    obtain ⟨rfl, rfl⟩ := hLR
    obtain ⟨v1, v2, v3⟩ := sideOk_valid h1
    obtain ⟨w1, w2, w3⟩ := sideOk_valid h2
    obtain ⟨l', lf, pl, sl, _⟩ := unionPeek_spec h1
    obtain ⟨r', rf, pr, sr, _⟩ := unionPeek_spec h2
    unfold UnionIter.next
    rw [if_neg (by rw [v1, w1]; simp)]
    dsimp only
    rw [pl]
    dsimp only
    rw [pr]
    exact ⟨rfl, n, [], [], hn, by rw [hu]; rfl, sl, sr⟩
  · rintro it p ps ⟨n, L, R, hn, hl, h1, h2⟩
    obtain ⟨v1, v2, v3⟩ := sideOk_valid h1
    obtain ⟨w1, w2, w3⟩ := sideOk_valid h2
    obtain ⟨l', lf, pl, sl, nl⟩ := unionPeek_spec h1
    obtain ⟨r', rf, pr, sr, nr⟩ := unionPeek_spec h2
    unfold UnionIter.next
    rw [if_neg (by rw [v1, w1]; simp)]
    dsimp only
    rw [pl]
    dsimp only
    rw [pr]
    dsimp only
    cases n with
    | zero => cases hl
    | succ n =>
      cases L with
      | nil => cases R with
        | nil => cases hl
        | cons q R =>
          obtain ⟨k, v⟩ := q
          injection hl with e1 e2
          exact ⟨by rw [e1]; rfl, n, [], R, by simp at hn ⊢; omega, e2, sl, nr _ _ rfl⟩
      | cons q L => cases R with
        | nil =>
          obtain ⟨k, v⟩ := q
          injection hl with e1 e2
          exact ⟨by rw [e1]; rfl, n, L, [], by simp at hn ⊢; omega, e2, nl _ _ rfl, sr⟩
        | cons q' R =>
          obtain ⟨k, v⟩ := q
          obtain ⟨k', v'⟩ := q'
          dsimp only [List.head?_cons]
          rw [v2, v3]
          rw [unionList] at hl
          cases hc : unionCmp rev s k k' with
          | lt =>
            rw [hc] at hl
            injection hl with e1 e2
            exact ⟨by rw [e1], n, L, (k', v') :: R, by simp at hn ⊢; omega, e2, nl _ _ rfl, sr⟩
          | gt =>
            rw [hc] at hl
            injection hl with e1 e2
            exact ⟨by rw [e1], n, (k, v) :: L, R, by simp at hn ⊢; omega, e2, sl, nr _ _ rfl⟩
          | eq =>
            rw [hc] at hl
            injection hl with e1 e2
            exact ⟨by rw [e1], n, L, R, by simp at hn ⊢; omega, e2, nl _ _ rfl, nr _ _ rfl⟩

/-- What the union of two maps lists: every key of either map once, in order, with its values in both maps. -/
def UnionListing (rev s : Bool) (n : Nat) (ml mr : DMap) (u : List UnionItem) : Prop :=
  u.Pairwise (fun p q => keyBefore rev s p.1 q.1) ∧
  ∀ k a b, (k, a, b) ∈ u ↔ k.length = n ∧ a = ml k ∧ b = mr k ∧ (a ≠ none ∨ b ≠ none)

/-- The merged list, for two ordered lists with keys of the same length. -/
theorem unionList_spec (rev s : Bool) (n : Nat) : ∀ (f : Nat) (L R : List (Bits × Sl)), L.length + R.length ≤ f →
    L.Pairwise (fun p q => keyBefore rev s p.1 q.1) → R.Pairwise (fun p q => keyBefore rev s p.1 q.1) →
    (∀ p ∈ L, p.1.length = n) → (∀ p ∈ R, p.1.length = n) →
    (unionList rev s f L R).Pairwise (fun p q => keyBefore rev s p.1 q.1) ∧
    ∀ k a b, (k, a, b) ∈ unionList rev s f L R ↔
      (∃ v, a = some v ∧ (k, v) ∈ L ∧ ((∃ w, b = some w ∧ (k, w) ∈ R) ∨ (b = none ∧ ∀ w, (k, w) ∉ R))) ∨
      (a = none ∧ (∀ v, (k, v) ∉ L) ∧ ∃ w, b = some w ∧ (k, w) ∈ R) := by
  intro f
  induction f with
  | zero =>
    intro L R hf _ _ _ _
    have h1 : L = [] := List.length_eq_zero_iff.mp (by omega)
    have h2 : R = [] := List.length_eq_zero_iff.mp (by omega)
    subst h1 h2
    simp [unionList]
  | succ f ih =>
    intro L R hf sL sR nL nR
    cases L with
    | nil => cases R with
      | nil => simp [unionList]
      | cons q R =>
        obtain ⟨k0, v0⟩ := q
        rw [List.pairwise_cons] at sR
        obtain ⟨i1, i2⟩ := ih [] R (by simp at hf ⊢; omega) List.Pairwise.nil sR.2 (by simp) (fun p hp => nR p (List.mem_cons_of_mem _ hp))
        rw [unionList]
        constructor
        · rw [List.pairwise_cons]
          refine ⟨?_, i1⟩
          rintro ⟨k, a, b⟩ hm
          have := (i2 k a b).mp hm
          simp only [List.not_mem_nil, false_and, and_false, exists_false, false_or, not_false_eq_true, implies_true, true_and] at this
          obtain ⟨_, w, _, hw⟩ := this
          exact sR.1 _ hw
        · intro k a b
          rw [List.mem_cons, i2 k a b]
          constructor
          · rintro (h | h)
            · injection h with e1 e2
              injection e2 with e2 e3
              subst e1 e2 e3
              exact Or.inr ⟨rfl, by simp, v0, rfl, List.mem_cons_self⟩
            · simp at h
              obtain ⟨ha, w, hb, hw⟩ := h
              exact Or.inr ⟨ha, by simp, w, hb, List.mem_cons_of_mem _ hw⟩
          · rintro (⟨v, _, hv, _⟩ | ⟨ha, _, w, hb, hw⟩)
            · cases hv
            · rcases List.mem_cons.mp hw with h | h
              · injection h with e1 e2
                subst e1 e2 ha hb
                exact Or.inl rfl
              · exact Or.inr (Or.inr ⟨ha, by simp, w, hb, h⟩)
    | cons q L =>
      obtain ⟨k0, v0⟩ := q
      cases R with
      | nil =>
        rw [List.pairwise_cons] at sL
        obtain ⟨i1, i2⟩ := ih L [] (by simp at hf ⊢; omega) sL.2 List.Pairwise.nil (fun p hp => nL p (List.mem_cons_of_mem _ hp)) (by simp)
        rw [unionList]
        constructor
        · rw [List.pairwise_cons]
          refine ⟨?_, i1⟩
          rintro ⟨k, a, b⟩ hm
          rcases (i2 k a b).mp hm with ⟨v, _, hv, _⟩ | ⟨_, _, w, _, hw⟩
          · exact sL.1 _ hv
          · cases hw
        · intro k a b
          rw [List.mem_cons, i2 k a b]
          constructor
          · rintro (h | ⟨v, ha, hv, h⟩ | ⟨_, _, w, _, hw⟩)
            · injection h with e1 e2
              injection e2 with e2 e3
              subst e1 e2 e3
              exact Or.inl ⟨v0, rfl, List.mem_cons_self, Or.inr ⟨rfl, by simp⟩⟩
            · exact Or.inl ⟨v, ha, List.mem_cons_of_mem _ hv, h⟩
            · cases hw
          · rintro (⟨v, ha, hv, h⟩ | ⟨ha, _, w, hb, hw⟩)
            · rcases List.mem_cons.mp hv with h' | h'
              · injection h' with e1 e2
                subst e1 e2 ha
                rcases h with ⟨w, _, hw⟩ | ⟨hb, _⟩
                · cases hw
                · subst hb; exact Or.inl rfl
              · exact Or.inr (Or.inl ⟨v, ha, h', h⟩)
            · cases hw
      | cons q' R =>
        obtain ⟨k1, v1⟩ := q'
        have sL0 := sL
        have sR0 := sR
        rw [List.pairwise_cons] at sL sR
        have nk0 : k0.length = n := nL (k0, v0) List.mem_cons_self
        have nk1 : k1.length = n := nR (k1, v1) List.mem_cons_self
        have hcmp := unionCmp_spec rev s (a := k0) (b := k1) (by rw [nk0, nk1])
        rw [unionList]
        cases hc : unionCmp rev s k0 k1 with
        | lt =>
          rw [hc] at hcmp
          simp only at hcmp ⊢
          obtain ⟨i1, i2⟩ := ih L ((k1, v1) :: R) (by simp at hf ⊢; omega) sL.2 sR0 (fun p hp => nL p (List.mem_cons_of_mem _ hp)) nR
          have hbefore : ∀ k w, (k, w) ∈ (k1, v1) :: R → keyBefore rev s k0 k := by
            intro k w hw
            rcases List.mem_cons.mp hw with h | h
            · injection h with e1 e2; rw [e1]; exact hcmp
            · exact keyBefore_trans hcmp (sR.1 _ h)
          constructor
          · rw [List.pairwise_cons]
            refine ⟨?_, i1⟩
            rintro ⟨k, a, b⟩ hm
            rcases (i2 k a b).mp hm with ⟨v, _, hv, _⟩ | ⟨_, _, w, _, hw⟩
            · exact sL.1 _ hv
            · exact hbefore _ _ hw
          · intro k a b
            rw [List.mem_cons, i2 k a b]
            constructor
            · rintro (h | ⟨v, ha, hv, h⟩ | ⟨ha, hl, w, hb, hw⟩)
              · injection h with e1 e2
                injection e2 with e2 e3
                subst e1 e2 e3
                exact Or.inl ⟨v0, rfl, List.mem_cons_self, Or.inr ⟨rfl, fun w hw => keyBefore_irrefl _ _ _ (hbefore _ _ hw)⟩⟩
              · exact Or.inl ⟨v, ha, List.mem_cons_of_mem _ hv, h⟩
              · refine Or.inr ⟨ha, fun v hv => ?_, w, hb, hw⟩
                rcases List.mem_cons.mp hv with h | h
                · injection h with e1 e2
                  exact keyBefore_irrefl rev s k0 (by have := hbefore _ _ hw; rw [e1] at this; exact this)
                · exact hl v h
            · rintro (⟨v, ha, hv, h⟩ | ⟨ha, hl, w, hb, hw⟩)
              · rcases List.mem_cons.mp hv with h' | h'
                · injection h' with e1 e2
                  subst e1 e2 ha
                  rcases h with ⟨w, _, hw⟩ | ⟨hb, _⟩
                  · exact absurd (hbefore _ _ hw) (keyBefore_irrefl _ _ _)
                  · subst hb; exact Or.inl rfl
                · exact Or.inr (Or.inl ⟨v, ha, h', h⟩)
              · exact Or.inr (Or.inr ⟨ha, fun v hv => hl v (List.mem_cons_of_mem _ hv), w, hb, hw⟩)
        | gt =>
          rw [hc] at hcmp
          simp only at hcmp ⊢
          obtain ⟨i1, i2⟩ := ih ((k0, v0) :: L) R (by simp at hf ⊢; omega) sL0 sR.2 nL (fun p hp => nR p (List.mem_cons_of_mem _ hp))
          have hbefore : ∀ k w, (k, w) ∈ (k0, v0) :: L → keyBefore rev s k1 k := by
            intro k w hw
            rcases List.mem_cons.mp hw with h | h
            · injection h with e1 e2; rw [e1]; exact hcmp
            · exact keyBefore_trans hcmp (sL.1 _ h)
          constructor
          · rw [List.pairwise_cons]
            refine ⟨?_, i1⟩
            rintro ⟨k, a, b⟩ hm
            rcases (i2 k a b).mp hm with ⟨v, _, hv, _⟩ | ⟨_, _, w, _, hw⟩
            · exact hbefore _ _ hv
            · exact sR.1 _ hw
          · intro k a b
            rw [List.mem_cons, i2 k a b]
            constructor
            · rintro (h | ⟨v, ha, hv, h⟩ | ⟨ha, hl, w, hb, hw⟩)
              · injection h with e1 e2
                injection e2 with e2 e3
                subst e1 e2 e3
                exact Or.inr ⟨rfl, fun v hv => keyBefore_irrefl _ _ _ (hbefore _ _ hv), v1, rfl, List.mem_cons_self⟩
              · refine Or.inl ⟨v, ha, hv, ?_⟩
                rcases h with ⟨w, hb, hw⟩ | ⟨hb, hr⟩
                · exact Or.inl ⟨w, hb, List.mem_cons_of_mem _ hw⟩
                · refine Or.inr ⟨hb, fun w hw => ?_⟩
                  rcases List.mem_cons.mp hw with h | h
                  · injection h with e1 e2
                    exact keyBefore_irrefl rev s k1 (by have := hbefore _ _ hv; rw [e1] at this; exact this)
                  · exact hr w h
              · exact Or.inr ⟨ha, hl, w, hb, List.mem_cons_of_mem _ hw⟩
            · rintro (⟨v, ha, hv, h⟩ | ⟨ha, hl, w, hb, hw⟩)
              · refine Or.inr (Or.inl ⟨v, ha, hv, ?_⟩)
                rcases h with ⟨w, hb, hw⟩ | ⟨hb, hr⟩
                · rcases List.mem_cons.mp hw with h | h
                  · injection h with e1 e2
                    exact absurd (by have := hbefore _ _ hv; rw [e1] at this; exact this) (keyBefore_irrefl rev s k1)
                  · exact Or.inl ⟨w, hb, h⟩
                · exact Or.inr ⟨hb, fun w hw => hr w (List.mem_cons_of_mem _ hw)⟩
              · rcases List.mem_cons.mp hw with h | h
                · injection h with e1 e2
                  subst e1 e2 ha hb
                  exact Or.inl rfl
                · exact Or.inr (Or.inr ⟨ha, hl, w, hb, h⟩)
        | eq =>
          rw [hc] at hcmp
          simp only at hcmp ⊢
          subst hcmp
          obtain ⟨i1, i2⟩ := ih L R (by simp at hf ⊢; omega) sL.2 sR.2 (fun p hp => nL p (List.mem_cons_of_mem _ hp)) (fun p hp => nR p (List.mem_cons_of_mem _ hp))
          have nl : ∀ v, (k0, v) ∉ L := fun v hv => keyBefore_irrefl _ _ _ (sL.1 (k0, v) hv)
          have nr : ∀ v, (k0, v) ∉ R := fun v hv => keyBefore_irrefl _ _ _ (sR.1 (k0, v) hv)
          constructor
          · rw [List.pairwise_cons]
            refine ⟨?_, i1⟩
            rintro ⟨k, a, b⟩ hm
            rcases (i2 k a b).mp hm with ⟨v, _, hv, _⟩ | ⟨_, _, w, _, hw⟩
            · exact sL.1 _ hv
            · exact sR.1 _ hw
          · intro k a b
            rw [List.mem_cons, i2 k a b]
            constructor
            · rintro (h | ⟨v, ha, hv, h⟩ | ⟨ha, hl, w, hb, hw⟩)
              · injection h with e1 e2
                injection e2 with e2 e3
                subst e1 e2 e3
                exact Or.inl ⟨v0, rfl, List.mem_cons_self, Or.inl ⟨v1, rfl, List.mem_cons_self⟩⟩
              · refine Or.inl ⟨v, ha, List.mem_cons_of_mem _ hv, ?_⟩
                rcases h with ⟨w, hb, hw⟩ | ⟨hb, hr⟩
                · exact Or.inl ⟨w, hb, List.mem_cons_of_mem _ hw⟩
                · refine Or.inr ⟨hb, fun w hw => ?_⟩
                  rcases List.mem_cons.mp hw with h | h
                  · injection h with e1 e2; subst e1; exact nl v hv
                  · exact hr w h
              · refine Or.inr ⟨ha, fun v hv => ?_, w, hb, List.mem_cons_of_mem _ hw⟩
                rcases List.mem_cons.mp hv with h | h
                · injection h with e1 e2; subst e1; exact nr w hw
                · exact hl v h
            · rintro (⟨v, ha, hv, h⟩ | ⟨ha, hl, w, hb, hw⟩)
              · rcases List.mem_cons.mp hv with h' | h'
                · injection h' with e1 e2
                  subst e1 e2 ha
                  rcases h with ⟨w, hb, hw⟩ | ⟨hb, hr⟩
                  · rcases List.mem_cons.mp hw with h | h
                    · injection h with e1 e2
                      subst e2 hb
                      exact Or.inl rfl
                    · exact absurd h (nr w)
                  · exact absurd List.mem_cons_self (hr v1)
                · refine Or.inr (Or.inl ⟨v, ha, h', ?_⟩)
                  rcases h with ⟨w, hb, hw⟩ | ⟨hb, hr⟩
                  · rcases List.mem_cons.mp hw with h | h
                    · injection h with e1 e2
                      subst e1
                      exact absurd h' (nl v)
                    · exact Or.inl ⟨w, hb, h⟩
                  · exact Or.inr ⟨hb, fun w hw => hr w (List.mem_cons_of_mem _ hw)⟩
              · rcases List.mem_cons.mp hw with h | h
                · injection h with e1 e2
                  subst e1
                  exact absurd List.mem_cons_self (hl v0)
                · exact Or.inr (Or.inr ⟨ha, fun v hv => hl v (List.mem_cons_of_mem _ hv), w, hb, h⟩)

theorem new_itOk (acc : Cell → Bool) {n : Nat} (hn : n ≤ 1023) {d : Option Cell} {m : DMap} (hd : Represents acc n d m) (rev s : Bool) :
    ∃ l, Listing rev s n m l ∧ ItOk rev s (RawIter.new d n rev s) l := by
  cases d with
  | none =>
    refine ⟨[], ⟨List.Pairwise.nil, fun k v => ⟨fun h => (by cases h), fun ⟨h1, h2⟩ => ?_⟩⟩, ItOk.later (Pending.nil [])⟩
    rw [hd k h1] at h2; cases h2
  | some c =>
    obtain ⟨t, hs, hf, rfl, hm⟩ := hd
    exact ⟨t.entries rev s, listing_trie hs hm rev s, itOk_new hn hs rev s⟩

/-- The union of two dictionaries with the same key length yields every key of either one exactly once, in key order,
with the value of both sides, and then ends for good. -/
theorem C35_union (acc : Cell → Bool) {n : Nat} (hn : n ≤ 1023) {dl dr : Option Cell} {ml mr : DMap} (hl : Represents acc n dl ml)
    (hr : Represents acc n dr mr) (rev s : Bool) :
    ∃ u, UnionListing rev s n ml mr u ∧ Yields UnionIter.next (UnionIter.new dl dr n rev s) (u.map .ok) := by
  obtain ⟨L, ⟨sL, mL⟩, iL⟩ := new_itOk acc hn hl rev s
  obtain ⟨R, ⟨sR, mR⟩, iR⟩ := new_itOk acc hn hr rev s
  have hu : UOk rev s (UnionIter.new dl dr n rev s) L R := ⟨⟨iL, fun h => by cases h⟩, ⟨iR, fun h => by cases h⟩⟩
  obtain ⟨p1, p2⟩ := unionList_spec rev s n (L.length + R.length) L R (Nat.le_refl _) sL sR
    (fun p hp => ((mL p.1 p.2).mp hp).1) (fun p hp => ((mR p.1 p.2).mp hp).1)
  refine ⟨_, ⟨p1, fun k a b => ?_⟩, uOk_yields hu⟩
  rw [p2 k a b]
  simp only [mL, mR]
  constructor
  · rintro (⟨v, rfl, ⟨h1, h2⟩, h⟩ | ⟨rfl, h, w, rfl, h1, h2⟩)
    · rcases h with ⟨w, rfl, _, h3⟩ | ⟨rfl, h3⟩
      · exact ⟨h1, h2.symm, h3.symm, by simp⟩
      · refine ⟨h1, h2.symm, ?_, by simp⟩
        cases hx : mr k with
        | none => rfl
        | some w => exact absurd ⟨h1, hx⟩ (h3 w)
    · refine ⟨h1, ?_, h2.symm, by simp⟩
      cases hx : ml k with
      | none => rfl
      | some w => exact absurd ⟨h1, hx⟩ (h w)
  · rintro ⟨h1, h2, h3, h4⟩
    cases a with
    | some v =>
      refine Or.inl ⟨v, rfl, ⟨h1, h2.symm⟩, ?_⟩
      cases b with
      | some w => exact Or.inl ⟨w, rfl, h1, h3.symm⟩
      | none => exact Or.inr ⟨rfl, fun w ⟨_, hw⟩ => by rw [hw] at h3; cases h3⟩
    | none => cases b with
      | some w => exact Or.inr ⟨rfl, fun v ⟨_, hv⟩ => (by rw [hv] at h2; cases h2), w, rfl, h1, h3.symm⟩
      | none => simp at h4

/-- After an error the union iterator yields nothing more, whatever the cells are. -/
theorem C35_error_ends (it it' : UnionIter) (e : Err) (h : it.next = (some (.error e), it')) :
    Yields UnionIter.next it' ([] : List (Except Err UnionItem)) := by
  have hb : it'.left.status = .broken ∧ it'.right.status = .broken := by
    have hfin : ∀ u : UnionIter, u.finish.left.status = .broken ∧ u.finish.right.status = .broken := fun u => ⟨rfl, rfl⟩
    unfold UnionIter.next at h
    split at h
    · split at h
      · injection h with h1 h2; cases h1
      · injection h with h1 h2; rw [← h2]; exact hfin _
    · dsimp only at h
      rcases hp : unionPeek it.left it.leftFinished it.leftPeeked with ⟨r1, l, lf, lp⟩
      rw [hp] at h
      cases r1 with
      | error e1 => injection h with h1 h2; rw [← h2]; exact hfin _
      | ok lv =>
        dsimp only at h
        rcases hq : unionPeek it.right it.rightFinished it.rightPeeked with ⟨r2, r, rf, rp⟩
        rw [hq] at h
        cases r2 with
        | error e1 => injection h with h1 h2; rw [← h2]; exact hfin _
        | ok rv =>
          cases lv with
          | none => cases rv with
            | none => injection h with h1 h2; cases h1
            | some p => injection h with h1 h2; cases h1
          | some p => cases rv with
            | none => injection h with h1 h2; cases h1
            | some q =>
              dsimp only at h
              split at h <;> (injection h with h1 h2; cases h1)
  refine yields_of_step (fun it l => l = [] ∧ it.left.status = .broken ∧ it.right.status = .broken) ?_ (fun it p ps ⟨h, _⟩ => by cases h) ⟨rfl, hb⟩
  rintro it ⟨_, h1, h2⟩
  have : it.next = (none, it) := by
    unfold UnionIter.next
    rw [if_pos (Or.inl (by rw [h1]; simp)), if_pos (by rw [h1, h2]; simp)]
  rw [this]
  exact ⟨rfl, rfl, h1, h2⟩

example :
    let v (b : Bool) : Sl := ⟨[b], []⟩
    let d1 := (runHistory (fun _ => true) 2 none [.insert .set [true, false] (v true), .insert .set [false, true] (v true)]).2
    let d2 := (runHistory (fun _ => true) 2 none [.insert .set [true, false] (v false), .insert .set [true, true] (v false)]).2
    (calls UnionIter.next 4 (UnionIter.new d1 d2 2 false true)).map (fun o => o.map (fun r => r.toOption.map (fun p => (p.1, p.2.1.isSome, p.2.2.isSome)))) =
      [some (some ([true, false], true, true)), some (some ([true, true], false, true)), some (some ([false, true], true, false)), none] := by decide

end Verif
