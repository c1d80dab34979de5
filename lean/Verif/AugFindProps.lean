import Verif.AugFind
import Verif.DictOrder
/-
Searches of an augmented dictionary by extras (`AugDict::find_by_extra`): what is found and when nothing is found.
-/
set_option linter.unusedVariables false
set_option linter.unusedSimpArgs false
namespace Verif

/-! ### Specification -/

/-- A secondary index: look for an extra with the property `P`, at an edge on the side of `last` first. -/
def Flow.pred {A : Type} (P : A → Bool) (last : Bool) : Flow Unit A where
  onLeaf s a := (P a, s)
  onEdge s a b := (if P (if last then b else a) then some last else if P (if last then a else b) then some !last else none, s)

/-- The result is the entry with the least key (`last`: the greatest key) among those whose extra has the property `P`. -/
def IsFirstWith {A : Type} (P : A → Bool) (last : Bool) (n : Nat) (m : AMap A) : Option (Bits × A × Sl) → Prop
  | none => ∀ k a v, k.length = n → m k = some (a, v) → P a = false
  | some (k, a, v) => k.length = n ∧ m k = some (a, v) ∧ P a = true ∧
      ∀ k' a' v', k'.length = n → keyBefore last false k' k → m k' = some (a', v') → P a' = false

/-- The result is the entry with the greatest extra (`o = .gt`) or the least extra (`o = .lt`), the last one if there are several. -/
def IsExtreme {A : Type} (cmp : A → A → Ordering) (o : Ordering) (n : Nat) (m : AMap A) : Option (Bits × A × Sl) → Prop
  | none => ∀ k, k.length = n → m k = none
  | some (k, a, v) => k.length = n ∧ m k = some (a, v) ∧
      ∀ k' a' v', k'.length = n → m k' = some (a', v') → cmp a' a ≠ o ∧ (keyBefore false false k k' → cmp a' a = o.swap)

/-! ### Lemmas -/

theorem Total.pred {A : Type} {comb : A → A → Option A} {P : A → Bool} (hP : ∀ a b c, comb a b = some c → P c = (P a || P b)) {n : Nat} {m : AMap A} {p : Bits} {a : A}
    (h : Total comb n m p a) : P a = true ↔ ∃ k a' v, k.length = n ∧ p <+: k ∧ m k = some (a', v) ∧ P a' = true := by
  induction h with
  | @key p a v hk hm =>
    refine ⟨fun h => ⟨p, a, v, hk, List.prefix_refl _, hm, h⟩, ?_⟩
    rintro ⟨k, a', v', h1, h2, h3, h4⟩
    have := List.IsPrefix.eq_of_length h2 (by omega)
    subst this
    rw [hm] at h3
    injection h3 with h3
    injection h3 with h3 _
    rw [h3]; exact h4
  | @one p a bit hnone ht ih =>
    rw [ih]
    constructor
    · rintro ⟨k, a', v, h1, ⟨r, hr⟩, h⟩
      exact ⟨k, a', v, h1, ⟨bit :: r, by rw [← hr]; simp⟩, h⟩
    · rintro ⟨k, a', v, h1, ⟨r, rfl⟩, h3, h4⟩
      cases r with
      | nil =>
        exfalso
        exact ht.short (by simpa using h1)
      | cons c r =>
        by_cases hcb : c = bit
        · subst hcb
          exact ⟨_, a', v, h1, ⟨r, by simp⟩, h3, h4⟩
        · have : c = !bit := by cases c <;> cases bit <;> first | rfl | exact absurd rfl hcb
          subst this
          rw [hnone _ h1 ⟨r, by simp⟩] at h3
          cases h3
  | @both p a b c t1 t2 hc ih1 ih2 =>
    rw [hP a b c hc, Bool.or_eq_true, ih1, ih2]
    constructor
    · rintro (⟨k, a', v, h1, ⟨r, hr⟩, h⟩ | ⟨k, a', v, h1, ⟨r, hr⟩, h⟩)
      · exact ⟨k, a', v, h1, ⟨false :: r, by rw [← hr]; simp⟩, h⟩
      · exact ⟨k, a', v, h1, ⟨true :: r, by rw [← hr]; simp⟩, h⟩
    · rintro ⟨k, a', v, h1, ⟨r, rfl⟩, h3, h4⟩
      cases r with
      | nil => exact absurd (by simpa using h1) t1.short
      | cons c r =>
        cases c
        · exact Or.inl ⟨_, a', v, h1, ⟨r, by simp⟩, h3, h4⟩
        · exact Or.inr ⟨_, a', v, h1, ⟨r, by simp⟩, h3, h4⟩

/-- Keys under a prefix: the next bit. -/
theorem under_cases {n : Nat} {p k : Bits} (hp : p.length ≠ n) (hk : k.length = n) (h : p <+: k) : ∃ bit r, k = p ++ bit :: r := by
  obtain ⟨r, rfl⟩ := h
  cases r with
  | nil => exact absurd (by simpa using hk) hp
  | cons c r => exact ⟨c, r, rfl⟩

theorem Search.len {σ A : Type} {flow : Flow σ A} {comb : A → A → Option A} {n : Nat} {m : AMap A} {st : σ} {p : Bits} {a : A} {o : Option (Bits × A × Sl)}
    (h : Search flow comb n m st p a o) : p.length ≤ n := by
  induction h with
  | found hk => exact Nat.le_of_eq hk
  | refused hk => exact Nat.le_of_eq hk
  | one bit _ _ ih => simp at ih; omega
  | both bit _ _ _ _ _ ih => simp at ih; omega
  | stop t1 _ _ _ =>
    obtain ⟨k, hk, h, _⟩ := t1.some_key
    have := h.length_le
    simp at this
    omega

theorem Search.sound {σ A : Type} {flow : Flow σ A} {comb : A → A → Option A} {n : Nat} {m : AMap A} {st : σ} {p : Bits} {x : A} {o : Option (Bits × A × Sl)}
    (h : Search flow comb n m st p x o) : ∀ k a v, o = some (k, a, v) → k.length = n ∧ m k = some (a, v) ∧ ∃ st', (flow.onLeaf st' a).1 = true := by
  induction h with
  | found h1 h2 h3 =>
    rintro k a v e
    injection e with e
    injection e with e e'
    injection e' with e' e''
    subst e e' e''
    exact ⟨h1, h2, _, h3⟩
  | refused => intro k a v e; cases e
  | one _ _ _ ih => exact ih
  | both _ _ _ _ _ _ ih => exact ih
  | stop => intro k a v e; cases e

/-- The same, for the keys under a prefix. -/
def FirstUnder {A : Type} (P : A → Bool) (last : Bool) (n : Nat) (m : AMap A) (p : Bits) : Option (Bits × A × Sl) → Prop
  | none => ∀ k a v, k.length = n → p <+: k → m k = some (a, v) → P a = false
  | some (k, a, v) => k.length = n ∧ p <+: k ∧ m k = some (a, v) ∧ P a = true ∧
      ∀ k' a' v', k'.length = n → p <+: k' → keyBefore last false k' k → m k' = some (a', v') → P a' = false

theorem search_first {A : Type} {comb : A → A → Option A} {P : A → Bool} (hP : ∀ a b c, comb a b = some c → P c = (P a || P b)) {last : Bool} {n : Nat} {m : AMap A}
    {st : Unit} {p : Bits} {a : A} {o : Option (Bits × A × Sl)} (h : Search (Flow.pred P last) comb n m st p a o) : FirstUnder P last n m p o := by
  induction h with
  | @found st p a v hk hm hl =>
    refine ⟨hk, List.prefix_refl _, hm, hl, fun k' a' v' h1 h2 h3 h4 => ?_⟩
    have := List.IsPrefix.eq_of_length h2 (by omega)
    subst this
    exact absurd h3 (keyBefore_irrefl _ _ _)
  | @refused st p a v hk hm hl =>
    intro k' a' v' h1 h2 h4
    have := List.IsPrefix.eq_of_length h2 (by omega)
    subst this
    rw [hm] at h4
    injection h4 with h4
    injection h4 with h4 _
    rw [← h4]; exact hl
  | @one st p a o bit hnone hsub ih =>
    have hp : p.length ≠ n := by
      have := hsub.len
      simp at this
      omega
    have hside : ∀ k a v, k.length = n → p <+: k → m k = some (a, v) → (p ++ [bit]) <+: k := by
      intro k a v hk hpk hm
      obtain ⟨c, r, rfl⟩ := under_cases hp hk hpk
      by_cases hcb : c = bit
      · subst hcb; exact ⟨r, by simp⟩
      · have : c = !bit := by cases c <;> cases bit <;> first | rfl | exact absurd rfl hcb
        subst this
        rw [hnone _ hk ⟨r, by simp⟩] at hm
        cases hm
    cases o with
    | none => exact fun k a v hk hpk hm => ih k a v hk (hside k a v hk hpk hm) hm
    | some q =>
      obtain ⟨k, a0, v⟩ := q
      obtain ⟨h1, ⟨r, hr⟩, h3, h4, h5⟩ := ih
      exact ⟨h1, ⟨bit :: r, by rw [← hr]; simp⟩, h3, h4, fun k' a' v' g1 g2 g3 g4 => h5 k' a' v' g1 (hside k' a' v' g1 g2 g4) g3 g4⟩
  | @both st st' p a b c o bit t1 t2 hc hfl hsub ih =>
    have hp := t1.short
    have q1 := t1.pred hP
    have q2 := t2.pred hP
    have hfl : (if P (if last then b else a) then some last else if P (if last then a else b) then some !last else none) = some bit := by injection hfl
    -- what is known of the side that comes first
    have key : (P (if bit then b else a) = true) ∧ (bit ≠ last → P (if last then b else a) = false) := by
      cases h1 : P (if last then b else a)
      · rw [h1] at hfl
        cases h2 : P (if last then a else b)
        · rw [h2] at hfl; cases hfl
        · rw [h2] at hfl
          injection hfl with hfl
          subst hfl
          refine ⟨?_, fun _ => rfl⟩
          cases last <;> exact h2
      · rw [h1] at hfl
        injection hfl with hfl
        subst hfl
        exact ⟨h1, fun h => absurd rfl h⟩
    have hall : ∀ side : Bool, P (if side then b else a) = false → ∀ k a' v', k.length = n → (p ++ [side]) <+: k → m k = some (a', v') → P a' = false := by
      intro side hs k a' v' h1 h2 h3
      refine Bool.eq_false_iff.mpr fun h4 => ?_
      cases side
      · have := q1.mpr ⟨k, a', v', h1, h2, h3, h4⟩
        rw [show a = (if false then b else a) from rfl] at this
        exact absurd this (by rw [hs]; decide)
      · have := q2.mpr ⟨k, a', v', h1, h2, h3, h4⟩
        exact absurd (this.symm.trans hs) (by decide)
    have hex : ∃ k a' v, k.length = n ∧ (p ++ [bit]) <+: k ∧ m k = some (a', v) ∧ P a' = true := by
      cases bit
      · exact q1.mp key.1
      · exact q2.mp key.1
    cases o with
    | none =>
      exfalso
      obtain ⟨k, a', v, h1, h2, h3, h4⟩ := hex
      have := ih k a' v h1 h2 h3
      rw [h4] at this; cases this
    | some q =>
      obtain ⟨k, a0, v⟩ := q
      obtain ⟨h1, ⟨r, hr⟩, h3, h4, h5⟩ := ih
      refine ⟨h1, ⟨bit :: r, by rw [← hr]; simp⟩, h3, h4, fun k' a' v' g1 g2 g3 g4 => ?_⟩
      obtain ⟨d, r', rfl⟩ := under_cases hp g1 g2
      by_cases hd : d = bit
      · subst hd
        exact h5 _ a' v' g1 ⟨r', by simp⟩ g3 g4
      · have hb : bit = !d := by cases d <;> cases bit <;> first | rfl | exact absurd rfl hd
        subst hb
        have hk : k = p ++ (!d) :: r := by rw [← hr]; simp
        rw [hk] at g3
        have hlen : r'.length = r.length := by
          rw [hk] at h1
          simp at g1 h1
          omega
        have hdl := (keyBefore_split last false p r' r d hlen).mp g3
        have hdl : d = last := by
          rw [hdl]
          unfold Trie.firstBit
          simp
        subst hdl
        exact hall d (key.2 (by cases d <;> decide)) _ a' v' g1 ⟨r', by simp⟩ g4
  | @stop st st' p a b c t1 t2 hc hfl =>
    have hp := t1.short
    have hfl : (if P (if last then b else a) then some last else if P (if last then a else b) then some !last else none) = none := by injection hfl
    have key : P a = false ∧ P b = false := by
      cases h1 : P a <;> cases h2 : P b <;> cases last <;> simp [h1, h2] at hfl ⊢
    intro k a' v' g1 g2 g4
    obtain ⟨d, r', rfl⟩ := under_cases hp g1 g2
    refine Bool.eq_false_iff.mpr fun h4 => ?_
    cases d
    · have := (t1.pred hP).mpr ⟨_, a', v', g1, ⟨r', by simp⟩, g4, h4⟩
      rw [key.1] at this; cases this
    · have := (t2.pred hP).mpr ⟨_, a', v', g1, ⟨r', by simp⟩, g4, h4⟩
      rw [key.2] at this; cases this

/-! ### Orders -/

section Orders
variable {A : Type} {cmp : A → A → Ordering} [Std.TransCmp cmp] {o : Ordering}

theorem cmp_trans (ho : o ≠ .eq) {x y z : A} (h1 : cmp x y ≠ o) (h2 : cmp y z ≠ o) : cmp x z ≠ o := by
  cases o with
  | eq => exact absurd rfl ho
  | lt =>
    have g1 : (cmp x y).isGE := by cases h : cmp x y <;> first | exact absurd h h1 | rfl
    have g2 : (cmp y z).isGE := by cases h : cmp y z <;> first | exact absurd h h2 | rfl
    have g3 := Std.TransCmp.isGE_trans g1 g2
    intro h; rw [h] at g3; cases g3
  | gt =>
    have g1 : (cmp x y).isLE := by cases h : cmp x y <;> first | exact absurd h h1 | rfl
    have g2 : (cmp y z).isLE := by cases h : cmp y z <;> first | exact absurd h h2 | rfl
    have g3 := Std.TransCmp.isLE_trans g1 g2
    intro h; rw [h] at g3; cases g3

theorem cmp_strict (ho : o ≠ .eq) {x y z : A} (h1 : cmp x y ≠ o) (h2 : cmp z y = o) : cmp x z = o.swap := by
  have e : cmp y z = o.swap := by rw [Std.OrientedCmp.eq_swap (cmp := cmp), h2]
  cases o with
  | eq => exact absurd rfl ho
  | lt =>
    have g1 : (cmp x y).isGE := by cases h : cmp x y <;> first | exact absurd h h1 | rfl
    exact Std.TransCmp.gt_of_isGE_of_gt g1 e
  | gt =>
    have g1 : (cmp x y).isLE := by cases h : cmp x y <;> first | exact absurd h h1 | rfl
    exact Std.TransCmp.lt_of_isLE_of_lt g1 e

theorem cmp_swap_ne (ho : o ≠ .eq) {x y : A} (h : cmp x y = o) : cmp y x ≠ o := by
  rw [Std.OrientedCmp.eq_swap (cmp := cmp), h]
  cases o <;> first | exact absurd rfl ho | decide

theorem Total.extreme {comb : A → A → Option A} (ho : o ≠ .eq) (hc : ∀ a b c, comb a b = some c → cmp c (if cmp a b = o then a else b) = .eq) {n : Nat} {m : AMap A} {p : Bits} {a : A}
    (h : Total comb n m p a) : ∀ k a' v, k.length = n → p <+: k → m k = some (a', v) → cmp a' a ≠ o := by
  induction h with
  | @key p a v hk hm =>
    intro k a' v' h1 h2 h3
    have := List.IsPrefix.eq_of_length h2 (by omega)
    subst this
    rw [hm] at h3
    injection h3 with h3
    injection h3 with h3 _
    subst h3
    rw [Std.ReflCmp.compare_self (cmp := cmp)]
    exact ho.symm
  | @one p a bit hnone ht ih =>
    intro k a' v' h1 h2 h3
    obtain ⟨c, r, rfl⟩ := under_cases ht.short h1 h2
    by_cases hcb : c = bit
    · subst hcb
      exact ih _ a' v' h1 ⟨r, by simp⟩ h3
    · have : c = !bit := by cases c <;> cases bit <;> first | rfl | exact absurd rfl hcb
      subst this
      rw [hnone _ h1 ⟨r, by simp⟩] at h3
      cases h3
  | @both p a b c t1 t2 hcc ih1 ih2 =>
    intro k a' v' h1 h2 h3
    have hw := hc a b c hcc
    rw [Std.TransCmp.congr_right hw]
    obtain ⟨d, r, rfl⟩ := under_cases t1.short h1 h2
    cases d
    · have g := ih1 _ a' v' h1 ⟨r, by simp⟩ h3
      by_cases hab : cmp a b = o
      · rw [if_pos hab]; exact g
      · rw [if_neg hab]; exact cmp_trans ho g hab
    · have g := ih2 _ a' v' h1 ⟨r, by simp⟩ h3
      by_cases hab : cmp a b = o
      · rw [if_pos hab]; exact cmp_trans ho g (cmp_swap_ne ho hab)
      · rw [if_neg hab]; exact g

theorem search_extreme {comb : A → A → Option A} (ho : o ≠ .eq) (hc : ∀ a b c, comb a b = some c → cmp c (if cmp a b = o then a else b) = .eq) {n : Nat} {m : AMap A}
    {st : Unit} {p : Bits} {c : A} {q : Option (Bits × A × Sl)} (h : Search (Flow.ordering cmp o) comb n m st p c q) :
    ∃ k a v, q = some (k, a, v) ∧ k.length = n ∧ p <+: k ∧ m k = some (a, v) ∧ cmp a c = .eq ∧
      ∀ k' a' v', k'.length = n → p <+: k' → m k' = some (a', v') → cmp a' a ≠ o ∧ (keyBefore false false k k' → cmp a' a = o.swap) := by
  induction h with
  | @found st p a v hk hm hl =>
    refine ⟨p, a, v, rfl, hk, List.prefix_refl _, hm, Std.ReflCmp.compare_self, fun k' a' v' h1 h2 h3 => ?_⟩
    have := List.IsPrefix.eq_of_length h2 (by omega)
    subst this
    rw [hm] at h3
    injection h3 with h3
    injection h3 with h3 _
    subst h3
    rw [Std.ReflCmp.compare_self (cmp := cmp)]
    exact ⟨ho.symm, fun h => absurd h (keyBefore_irrefl _ _ _)⟩
  | refused hk hm hl => cases hl
  | @one st p a q bit hnone hsub ih =>
    obtain ⟨k, a0, v, rfl, h1, ⟨r, hr⟩, h3, h4, h5⟩ := ih
    have hp : p.length ≠ n := by
      have := hsub.len
      simp at this
      omega
    refine ⟨k, a0, v, rfl, h1, ⟨bit :: r, by rw [← hr]; simp⟩, h3, h4, fun k' a' v' g1 g2 g3 => ?_⟩
    obtain ⟨c, r', rfl⟩ := under_cases hp g1 g2
    by_cases hcb : c = bit
    · subst hcb
      exact h5 _ a' v' g1 ⟨r', by simp⟩ g3
    · have : c = !bit := by cases c <;> cases bit <;> first | rfl | exact absurd rfl hcb
      subst this
      rw [hnone _ g1 ⟨r', by simp⟩] at g3
      cases g3
  | @both st st' p a b c q bit t1 t2 hcc hfl hsub ih =>
    obtain ⟨k, a0, v, rfl, h1, ⟨r, hr⟩, h3, h4, h5⟩ := ih
    have hk : k = p ++ bit :: r := by rw [← hr]; simp
    have hfl : some (if o = cmp a b then false else true) = some bit := by injection hfl
    injection hfl with hfl
    have x1 := t1.extreme ho hc
    have x2 := t2.extreme ho hc
    have hw := hc a b c hcc
    by_cases hab : cmp a b = o
    · rw [if_pos hab.symm] at hfl
      subst hfl
      rw [if_pos hab] at hw
      replace h4 : cmp a0 a = .eq := h4
      refine ⟨k, a0, v, rfl, h1, ⟨false :: r, hk.symm⟩, h3, ?_, fun k' a' v' g1 g2 g3 => ?_⟩
      · rw [Std.TransCmp.congr_right hw]; exact h4
      · obtain ⟨d, r', rfl⟩ := under_cases t1.short g1 g2
        cases d
        · exact h5 _ a' v' g1 ⟨r', by simp⟩ g3
        · have g := x2 _ a' v' g1 ⟨r', by simp⟩ g3
          rw [Std.TransCmp.congr_right h4]
          have e := cmp_strict ho g hab
          exact ⟨by rw [e]; cases o <;> first | exact absurd rfl ho | decide, fun _ => e⟩
    · rw [if_neg (fun h => hab h.symm)] at hfl
      subst hfl
      rw [if_neg hab] at hw
      replace h4 : cmp a0 b = .eq := h4
      refine ⟨k, a0, v, rfl, h1, ⟨true :: r, hk.symm⟩, h3, ?_, fun k' a' v' g1 g2 g3 => ?_⟩
      · rw [Std.TransCmp.congr_right hw]; exact h4
      · obtain ⟨d, r', rfl⟩ := under_cases t1.short g1 g2
        cases d
        · have g := x1 _ a' v' g1 ⟨r', by simp⟩ g3
          rw [Std.TransCmp.congr_right h4]
          refine ⟨cmp_trans ho g hab, fun hb => ?_⟩
          exfalso
          rw [hk] at hb
          have hlen : r.length = r'.length := by
            rw [hk] at h1
            simp at g1 h1
            omega
          have := (keyBefore_split false false p r r' true hlen).mp hb
          unfold Trie.firstBit at this
          simp at this
        · exact h5 _ a' v' g1 ⟨r', by simp⟩ g3
  | @stop st st' p a b c t1 t2 hcc hfl =>
    have hfl : some (if o = cmp a b then false else true) = none := by injection hfl
    cases hfl

end Orders

/-! ## C81 -/

section
variable {σ A : Type} {T : AugType A} {valid : A → Prop} {comb : A → A → Option A} {load : Sl → Except Err (A × Sl)} {acc : Cell → Bool} {n : Nat} {s : AugDict A} {m : AMap A}

/-- For every search object: a search never fails, and it walks as specified: at each pair of sides the object sees the combined extras of all entries of each side. -/
theorem C81_walk (law : T.Lawful valid comb) (hsp : T.Splits valid load) (hn : n ≤ 1023) (h : AugDict.Is T valid comb acc n s m) (flow : Flow σ A) (st : σ) :
    ((∀ k, k.length = n → m k = none) → findByExtra load flow st s.root n = .ok none) ∧
    ((∃ k, k.length = n ∧ (m k).isSome) → ∃ o, findByExtra load flow st s.root n = .ok o ∧ Search flow comb n m st [] s.extra o) := by
  have hd := h.tree
  cases hr : s.root with
  | none =>
    rw [hr] at hd
    refine ⟨fun _ => rfl, fun ⟨k, hk, hs⟩ => ?_⟩
    have := hd k hk
    unfold AMap.stored at this
    cases hm : m k with
    | none => rw [hm] at hs; cases hs
    | some p => rw [hm] at this; cases this
  | some c =>
    rw [hr] at hd
    obtain ⟨t, hs, hc, hg, rfl, hm⟩ := hd
    refine ⟨fun hall => ?_, fun hex => ?_⟩
    · exfalso
      obtain ⟨k, w, hk, hw⟩ := Trie.exists_key hs
      have := hm k hk
      unfold AMap.stored at this
      rw [hall k hk, hw] at this
      cases this
    · have hm' : ∀ k, k.length = n → m.stored T ([] ++ k) = t.lookup k := fun k hk => by rw [List.nil_append]; exact hm k hk
      obtain ⟨a, v, hva, he, ht⟩ := total_trie law h.valid (N := n) [] hs hc hg (by simp) hm'
      obtain ⟨o, e1, e2⟩ := byExtraGo_spec law hsp flow hn h.valid [] (n + 1) st hs hc hg (by simp) hm' (by omega) a v hva he ht
      have hx : a = s.extra := ht.unique (h.extra hex)
      subst hx
      refine ⟨o, ?_, e2⟩
      unfold findByExtra
      dsimp only
      rw [preload_cell hsp hn hs hg hva he]
      exact e1

/-- For every search object: what is found is an entry of the dictionary with its own extra and value, and the object has accepted its extra. -/
theorem C81_sound (law : T.Lawful valid comb) (hsp : T.Splits valid load) (hn : n ≤ 1023) (h : AugDict.Is T valid comb acc n s m) (flow : Flow σ A) (st : σ) :
    ∃ o, findByExtra load flow st s.root n = .ok o ∧ ∀ k a v, o = some (k, a, v) → k.length = n ∧ m k = some (a, v) ∧ ∃ st', (flow.onLeaf st' a).1 = true := by
  obtain ⟨w1, w2⟩ := C81_walk law hsp hn h flow st
  by_cases hex : ∃ k, k.length = n ∧ (m k).isSome
  · obtain ⟨o, e1, e2⟩ := w2 hex
    exact ⟨o, e1, e2.sound⟩
  · refine ⟨none, w1 fun k hk => ?_, fun k a v e => by cases e⟩
    cases hm : m k with
    | none => rfl
    | some p => exact absurd ⟨k, hk, by rw [hm]; rfl⟩ hex

/-- A secondary index: if an extra of a side has the property exactly if one of the combined extras has it, a search that follows the property finds the first (the last) entry
with it, and finds nothing only if there is none. -/
theorem C81_index (law : T.Lawful valid comb) (hsp : T.Splits valid load) (hn : n ≤ 1023) (h : AugDict.Is T valid comb acc n s m) {P : A → Bool}
    (hP : ∀ a b c, comb a b = some c → P c = (P a || P b)) (last : Bool) :
    ∃ o, findByExtra load (Flow.pred P last) () s.root n = .ok o ∧ IsFirstWith P last n m o := by
  obtain ⟨w1, w2⟩ := C81_walk law hsp hn h (Flow.pred P last) ()
  by_cases hex : ∃ k, k.length = n ∧ (m k).isSome
  · obtain ⟨o, e1, e2⟩ := w2 hex
    refine ⟨o, e1, ?_⟩
    have := search_first hP e2
    cases o with
    | none => exact fun k a v hk hm => this k a v hk (List.nil_prefix) hm
    | some q =>
      obtain ⟨k, a, v⟩ := q
      obtain ⟨h1, _, h3, h4, h5⟩ := this
      exact ⟨h1, h3, h4, fun k' a' v' g1 g2 g3 => h5 k' a' v' g1 List.nil_prefix g2 g3⟩
  · have hno : ∀ k, k.length = n → m k = none := fun k hk => by
      cases hm : m k with
      | none => rfl
      | some p => exact absurd ⟨k, hk, by rw [hm]; rfl⟩ hex
    refine ⟨none, w1 hno, fun k a v hk hm => ?_⟩
    rw [hno k hk] at hm
    cases hm

/-- Searching with a branch finds the entry with the least key, or with the greatest key, and nothing only in an empty dictionary. -/
theorem C81_branch (law : T.Lawful valid comb) (hsp : T.Splits valid load) (hn : n ≤ 1023) (h : AugDict.Is T valid comb acc n s m) (last : Bool) :
    ∃ o, findByExtra load (Flow.branch last) () s.root n = .ok o ∧ IsFirstWith (fun _ => true) last n m o :=
  C81_index law hsp hn h (P := fun _ => true) (fun _ _ _ _ => rfl) last

/-- Searching with an ordering: if the combination of two extras is the greater (`.gt`) or the less (`.lt`) of them, the entry with the greatest (least) extra is found,
the last one if several are equal, and nothing only in an empty dictionary. -/
theorem C81_order (law : T.Lawful valid comb) (hsp : T.Splits valid load) (hn : n ≤ 1023) (h : AugDict.Is T valid comb acc n s m) {cmp : A → A → Ordering} [Std.TransCmp cmp]
    {o : Ordering} (ho : o ≠ .eq) (hc : ∀ a b c, comb a b = some c → cmp c (if cmp a b = o then a else b) = .eq) :
    ∃ q, findByExtra load (Flow.ordering cmp o) () s.root n = .ok q ∧ IsExtreme cmp o n m q := by
  obtain ⟨w1, w2⟩ := C81_walk law hsp hn h (Flow.ordering cmp o) ()
  by_cases hex : ∃ k, k.length = n ∧ (m k).isSome
  · obtain ⟨q, e1, e2⟩ := w2 hex
    obtain ⟨k, a, v, rfl, h1, _, h3, _, h5⟩ := search_extreme ho hc e2
    exact ⟨_, e1, h1, h3, fun k' a' v' g1 g2 => h5 k' a' v' g1 List.nil_prefix g2⟩
  · have hno : ∀ k, k.length = n → m k = none := fun k hk => by
      cases hm : m k with
      | none => rfl
      | some p => exact absurd ⟨k, hk, by rw [hm]; rfl⟩ hex
    exact ⟨none, w1 hno, hno⟩

end

/-! ### Extra types given by codecs -/

theorem AugType.of_splits {A : Type} {store : A → Wr Cell Unit} {load : Rd Cell A} {add : A → A → Except Err A} {dflt : A} {ok : A → Prop} {R : A → Enc Cell → Prop}
    {enc : A → Enc Cell} (h : Codes ok store load R enc) (hf : ∀ a, ok a → (enc a).Fits) {valid : A → Prop} (hv : ∀ a, valid a → ok a) :
    (AugType.of store load add dflt).Splits valid load.split := by
  intro a ha v hs
  have hst : (AugType.of store load add dflt).store a = ⟨(enc a).1, (enc a).2⟩ := by
    show ((store a).toSl.toOption).getD .empty = _
    rw [Wr.toSl_ok (h.writes a (hv a ha)) (hf a (hv a ha))]
    rfl
  rw [hst] at hs ⊢
  obtain ⟨w, c⟩ := Sl.reader_spec hs.1 hs.2
  obtain ⟨s', e1, _, c1, _⟩ := h.reads a (enc a) (h.canon a (hv a ha)) _ (v.bits, v.refs) w c
  unfold Rd.split
  rw [e1]
  dsimp only
  rw [c1]

theorem keyMaxLtAug_splits : keyMaxLtAug.Splits (fun a => a.2 < 2 ^ 64) (pairLoad Rd.bit Rd.u64).split := by
  refine AugType.of_splits (Codes.pair Codes.bool Codes.u64) (fun a ha => ?_) (fun a h => ⟨trivial, h⟩)
  unfold Enc.Fits
  rw [Enc.append_fst, Enc.append_snd, List.length_append, List.length_append]
  have h1 : (Enc.bits (natBits 64 a.2) : Enc Cell).1.length = 64 := natBits_length ..
  have h3 : (Enc.bits (natBits 64 a.2) : Enc Cell).2.length = 0 := rfl
  have h4 : (Enc.bits [a.1] : Enc Cell).1.length = 1 := rfl
  have h5 : (Enc.bits [a.1] : Enc Cell).2.length = 0 := rfl
  omega

/-- Old masterchain blocks: the first key block is found by its flag, and the first (last) block that does not end before a logical time by the greatest logical times. -/
theorem C81_old_blocks {acc : Cell → Bool} {n : Nat} (hn : n ≤ 1023) {s : AugDict (Bool × Nat)} {m : AMap (Bool × Nat)}
    (h : AugDict.Is keyMaxLtAug (fun a => a.2 < 2 ^ 64) (fun a b => some (a.1 || b.1, max a.2 b.2)) acc n s m) (last : Bool) :
    (∃ o, findByExtra (pairLoad Rd.bit Rd.u64).split (Flow.pred Prod.fst last) () s.root n = .ok o ∧ IsFirstWith Prod.fst last n m o) ∧
    ∀ lt, ∃ o, findByExtra (pairLoad Rd.bit Rd.u64).split (Flow.pred (fun a => decide (lt ≤ a.2)) last) () s.root n = .ok o ∧
      IsFirstWith (fun a => decide (lt ≤ a.2)) last n m o := by
  refine ⟨C81_index keyMaxLtAug_lawful keyMaxLtAug_splits hn h (fun a b c hc => ?_) last,
    fun lt => C81_index keyMaxLtAug_lawful keyMaxLtAug_splits hn h (fun a b c hc => ?_) last⟩
  · injection hc with hc
    rw [← hc]
  · injection hc with hc
    rw [← hc]
    show decide (lt ≤ max a.2 b.2) = (decide (lt ≤ a.2) || decide (lt ≤ b.2))
    rw [Bool.eq_iff_iff]
    simp only [Bool.or_eq_true, decide_eq_true_eq]
    omega

/-- Numbers of 64 bits combined with the maximum, as in the tests of `dict/aug.rs` (1350-1364). -/
def maxU64Aug : AugType Nat := .of Wr.u64 Rd.u64 (fun a b => .ok (max a b)) 0

theorem u64_fits (v : Nat) : (Enc.bits (natBits 64 v) : Enc Cell).Fits := by
  unfold Enc.Fits
  have h1 : (Enc.bits (natBits 64 v) : Enc Cell).1.length = 64 := natBits_length ..
  have h3 : (Enc.bits (natBits 64 v) : Enc Cell).2.length = 0 := rfl
  omega

theorem maxU64Aug_lawful : maxU64Aug.Lawful (fun a => a < 2 ^ 64) (fun a b => some (max a b)) :=
  AugType.of_lawful (add := fun a b => .ok (max a b)) Codes.u64 (fun a _ => u64_fits a) (fun a h => h) (fun a b c ha hb h => by
    injection h with h
    subst h
    exact Nat.max_lt.mpr ⟨ha, hb⟩)

theorem maxU64Aug_splits : maxU64Aug.Splits (fun a => a < 2 ^ 64) Rd.u64.split :=
  AugType.of_splits Codes.u64 (fun a _ => u64_fits a) (fun a h => h)

/-- Any history of a dictionary with maxima: `find_by_extra(Ordering::Greater)` finds the entry with the greatest extra. -/
theorem C81_max (acc : Cell → Bool) {n : Nat} (hn : n ≤ 1023) (ops : List (AOp Nat)) (hv : ∀ op ∈ ops, op.Valid (fun a => a < 2 ^ 64)) :
    let s := ((AugDict.new maxU64Aug).runs maxU64Aug acc n ops).2
    ∃ m, AExplains maxU64Aug acc n (fun _ => none) ops ((AugDict.new maxU64Aug).runs maxU64Aug acc n ops).1 m ∧
      ∃ q, findByExtra Rd.u64.split (Flow.ordering compare .gt) () s.root n = .ok q ∧ IsExtreme compare .gt n m q := by
  obtain ⟨m, h1, h2⟩ := C33_history maxU64Aug_lawful acc hn ops hv (C33_new maxU64Aug _ _ acc n)
  refine ⟨m, h1, C81_order maxU64Aug_lawful maxU64Aug_splits hn h2 (by decide) (fun a b c hc => ?_)⟩
  injection hc with hc
  subst hc
  rw [Nat.compare_eq_eq]
  by_cases h : compare a b = .gt
  · rw [if_pos h]
    have := Nat.compare_eq_gt.mp h
    omega
  · rw [if_neg h]
    have : ¬ b < a := fun h' => h (Nat.compare_eq_gt.mpr h')
    omega

/-! ### Examples -/

def augFindSample : List (AOp Nat) :=
  [.insert .set [false, false, true] 10 ⟨[true], []⟩, .insert .set [false, true, true] 350 ⟨[true, true], []⟩, .insert .set [true, false, false] 300 ⟨[], []⟩,
   .insert .set [true, true, false] 350 ⟨[false], []⟩, .insert .set [true, true, true] 7 ⟨[false, false], []⟩]

def augFindRoot : Option Cell := ((AugDict.new maxU64Aug).runs maxU64Aug (fun _ => true) 3 augFindSample).2.root

def foundKey (r : Except Err (Option (Bits × Nat × Sl))) : Option (Option (Bits × Nat × Bits)) := r.toOption.map fun o => o.map fun q => (q.1, q.2.1, q.2.2.bits)

/-- The last one of the two greatest extras is found; the first extra above 299 and the last extra above 9; the ends; nothing above 1000. -/
example :
    foundKey (findByExtra Rd.u64.split (Flow.ordering compare .gt) () augFindRoot 3) = some (some ([true, true, false], 350, [false])) ∧
    foundKey (findByExtra Rd.u64.split (Flow.pred (fun a => decide (299 < a)) false) () augFindRoot 3) = some (some ([false, true, true], 350, [true, true])) ∧
    foundKey (findByExtra Rd.u64.split (Flow.pred (fun a => decide (9 < a)) true) () augFindRoot 3) = some (some ([true, true, false], 350, [false])) ∧
    foundKey (findByExtra Rd.u64.split (Flow.branch false) () augFindRoot 3) = some (some ([false, false, true], 10, [true])) ∧
    foundKey (findByExtra Rd.u64.split (Flow.branch true) () augFindRoot 3) = some (some ([true, true, true], 7, [false, false])) ∧
    foundKey (findByExtra Rd.u64.split (Flow.pred (fun a => decide (1000 < a)) false) () augFindRoot 3) = some none := by
  refine ⟨?_, ?_, ?_, ?_, ?_, ?_⟩ <;> decide +kernel

/-- A dictionary that the theorems are about, with four entries. -/
example : ∃ m, AugDict.Is maxU64Aug (fun a => a < 2 ^ 64) (fun a b => some (max a b)) (fun _ => true) 3
      ((AugDict.new maxU64Aug).runs maxU64Aug (fun _ => true) 3 augFindSample).2 m := by
  obtain ⟨m, _, h⟩ := C33_history maxU64Aug_lawful (fun _ => true) (n := 3) (by decide) augFindSample
    (by unfold augFindSample; intro op hop; simp at hop; rcases hop with rfl | rfl | rfl | rfl | rfl <;> (show _ < _; decide)) (C33_new maxU64Aug _ _ _ _)
  exact ⟨m, h⟩

/-- A search object with state: go left at the first edge, then right, and accept any leaf. -/
example :
    foundKey (findByExtra Rd.u64.split ⟨fun s _ => (true, s), fun s _ _ => (some s, !s)⟩ false augFindRoot 3) = some (some ([false, true, true], 350, [true, true])) := by decide +kernel

end Verif
