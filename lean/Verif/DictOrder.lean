import Verif.DictTrie
/-
Specification of the key order of a dictionary and of ordered iteration, bounds and neighbours over a trie.
-/
set_option linter.unusedVariables false
set_option linter.unusedSimpArgs false
namespace Verif

/-- A key read as a big-endian number, unsigned or in two's complement. -/
def keyInt (signed : Bool) (k : Bits) : Int :=
  if signed = true ∧ k.head? = some true then (natOfBits k : Int) - (2 ^ k.length : Nat) else (natOfBits k : Int)

/-- `a` comes strictly before `b`, ascending or (`rev`) descending. -/
def keyBefore (rev signed : Bool) (a b : Bits) : Prop :=
  if rev = true then keyInt signed b < keyInt signed a else keyInt signed a < keyInt signed b

instance (rev signed : Bool) (a b : Bits) : Decidable (keyBefore rev signed a b) := by
  unfold keyBefore; infer_instance

namespace Trie

/-- The branch with the first keys, when all keys of the trie start at their first bit (`signed`: the sign bit). -/
def firstBit (rev signed : Bool) (l : Bits) : Bool := rev ^^ (signed && l.isEmpty)

/-- Put the label and the branch bit in front of a key. -/
def under (l : Bits) (bit : Bool) (p : Bits × Sl) : Bits × Sl := (l ++ bit :: p.1, p.2)

/-- All entries in iteration order. -/
def entries (rev : Bool) : Bool → Trie → List (Bits × Sl)
  | s, leaf l e v => [(l, v)]
  | s, fork l e x a b =>
    if firstBit rev s l then (b.entries rev false).map (under l true) ++ (a.entries rev false).map (under l false)
    else (a.entries rev false).map (under l false) ++ (b.entries rev false).map (under l true)

/-- The branch of a fork on the side of a bit. -/
def side (bit : Bool) (a b : Trie) : Trie := if bit then b else a

/-- The first entry in iteration order. -/
def first (rev : Bool) : Bool → Trie → Bits × Sl
  | s, leaf l e v => (l, v)
  | s, fork l e x a b =>
    if firstBit rev s l then under l true (b.first rev false) else under l false (a.first rev false)

/-- The first entry after a key in iteration order (the key itself included or not). -/
def next (rev incl : Bool) : Bool → Trie → Bits → Option (Bits × Sl)
  | s, leaf l e v, k => if (incl = true ∧ k = l) ∨ keyBefore rev s k l then some (l, v) else none
  | s, fork l e x a b, k => match diverge l k with
    | .full (false :: r) => match a.next rev incl false r with
      | some p => some (under l false p)
      | none => if firstBit rev s l = false then some (under l true (b.first rev false)) else none
    | .full (true :: r) => match b.next rev incl false r with
      | some p => some (under l true p)
      | none => if firstBit rev s l = true then some (under l false (a.first rev false)) else none
    | .split c bit l' k' => if bit = firstBit rev s c then some ((fork l e x a b).first rev s) else none
    | _ => none

end Trie

/-! ### The order of keys -/

theorem head_append_cons (c k : Bits) (bit : Bool) : (c ++ bit :: k).head? = some ((c ++ [bit]).head (by simp)) := by
  cases c <;> rfl

theorem keyBefore_split (rev s : Bool) (c k1 k2 : Bits) (bit : Bool) (h : k1.length = k2.length) :
    keyBefore rev s (c ++ bit :: k1) (c ++ (!bit) :: k2) ↔ bit = Trie.firstBit rev s c := by
  have l1 := natOfBits_lt k1
  have l2 := natOfBits_lt k2
  rw [h] at l1
  unfold keyBefore keyInt Trie.firstBit
  simp only [natOfBits_append, natOfBits_cons, List.length_append, List.length_cons, h]
  have hp : 2 ^ (k2.length + 1) = 2 * 2 ^ k2.length := by rw [Nat.pow_succ]; omega
  have hp2 : 2 ^ (c.length + (k2.length + 1)) = 2 ^ c.length * (2 * 2 ^ k2.length) := by rw [Nat.pow_add, hp]
  rw [hp2]
  cases c with
  | nil =>
    cases rev <;> cases s <;> cases bit <;>
    simp only [List.nil_append, List.head?_cons, List.isEmpty_nil, natOfBits_nil, Bool.toNat_true, Bool.toNat_false, List.length_nil, Bool.not_true, Bool.not_false,
      and_true, true_and, and_false, false_and, if_true, if_false, Bool.and_true, Bool.and_false, Bool.xor_true, Bool.xor_false, Bool.false_eq_true, Bool.true_xor, Bool.false_xor, reduceCtorEq,
      Option.some.injEq, iff_true, iff_false, Nat.pow_zero, Nat.one_mul, Nat.zero_mul, Nat.zero_add] <;> omega
  | cons d c =>
    have ha : ∀ x, natOfBits (d :: c) * x < 2 ^ (d :: c).length * x + 1 := by
      intro x
      have := Nat.mul_le_mul_right x (Nat.le_of_lt (natOfBits_lt (d :: c)))
      omega
    generalize natOfBits (d :: c) * (2 ^ (k2.length+1)) = A at *
    cases rev <;> cases s <;> cases bit <;> cases d <;>
    simp only [List.cons_append, List.head?_cons, List.isEmpty_cons, Bool.toNat_true, Bool.toNat_false, Bool.not_true, Bool.not_false,
      and_true, true_and, and_false, false_and, if_true, if_false, Bool.and_true, Bool.and_false, Bool.xor_true, Bool.xor_false, Bool.false_eq_true, Bool.true_xor, Bool.false_xor, reduceCtorEq,
      Option.some.injEq, iff_true, iff_false, Nat.one_mul, Nat.zero_mul, Nat.zero_add] <;> omega

theorem keyBefore_prefix (rev s : Bool) (c k1 k2 : Bits) (bit : Bool) (h : k1.length = k2.length) :
    keyBefore rev s (c ++ bit :: k1) (c ++ bit :: k2) ↔ keyBefore rev false k1 k2 := by
  unfold keyBefore keyInt
  rw [head_append_cons, head_append_cons]
  simp only [natOfBits_append, natOfBits_cons, List.length_append, List.length_cons, h, Bool.false_eq_true, false_and, if_false]
  cases rev <;> simp only [if_true, if_false, Bool.false_eq_true] <;> split <;> omega

theorem keyBefore_irrefl (rev s : Bool) (a : Bits) : ¬ keyBefore rev s a a := by
  unfold keyBefore; split <;> omega

theorem keyBefore_trans {rev s : Bool} {a b c : Bits} (h1 : keyBefore rev s a b) (h2 : keyBefore rev s b c) : keyBefore rev s a c := by
  unfold keyBefore at *; split at h1 <;> simp_all <;> omega

/-- Different keys of the same length are ordered. -/
theorem keyInt_inj {s : Bool} {a b : Bits} (hl : a.length = b.length) (h : keyInt s a = keyInt s b) : a = b := by
  apply natOfBits_inj hl
  have l1 := natOfBits_lt a
  have l2 := natOfBits_lt b
  unfold keyInt at h
  rw [hl] at h l1
  generalize 2 ^ b.length = m at *
  by_cases h1 : s = true ∧ a.head? = some true <;> by_cases h2 : s = true ∧ b.head? = some true
  · rw [if_pos h1, if_pos h2] at h; omega
  · rw [if_pos h1, if_neg h2] at h; omega
  · rw [if_neg h1, if_pos h2] at h; omega
  · rw [if_neg h1, if_neg h2] at h; omega

namespace Trie

theorem under_inj (l : Bits) (bit : Bool) {p q : Bits × Sl} (h : under l bit p = under l bit q) : p = q := by
  obtain ⟨p1, p2⟩ := p
  obtain ⟨q1, q2⟩ := q
  simp only [under, Prod.mk.injEq, List.append_cancel_left_eq, List.cons.injEq, true_and] at h
  rw [h.1, h.2]

/-- The entries are exactly the keys with a value. -/
theorem mem_entries (rev : Bool) : ∀ {n : Nat} {t : Trie} (s : Bool), t.Sized n → ∀ k v, (k, v) ∈ t.entries rev s ↔ t.lookup k = some v
  | n, leaf l e v0, s, hs, k, v => by
    simp only [entries, List.mem_singleton, Prod.mk.injEq, lookup_leaf]
    by_cases h : k = l
    · simp [h, eq_comm]
    · simp [h]
  | n, fork l e x a b, s, hs, k, v => by
    have ha := mem_entries rev (t := a) false hs.2.2.1
    have hb := mem_entries rev (t := b) false hs.2.2.2
    have key : (k, v) ∈ (fork l e x a b).entries rev s ↔
        (∃ r, k = l ++ false :: r ∧ a.lookup r = some v) ∨ (∃ r, k = l ++ true :: r ∧ b.lookup r = some v) := by
      have e1 : ∀ (bit : Bool) (u : Trie), (∀ k v, (k, v) ∈ u.entries rev false ↔ u.lookup k = some v) →
          ((k, v) ∈ (u.entries rev false).map (under l bit) ↔ ∃ r, k = l ++ bit :: r ∧ u.lookup r = some v) := by
        intro bit u hu
        simp only [List.mem_map, Prod.exists, under, Prod.mk.injEq]
        constructor
        · rintro ⟨r, w, hm, h1, h2⟩
          exact ⟨r, h1.symm, by rw [← h2]; exact (hu r w).mp hm⟩
        · rintro ⟨r, h1, h2⟩
          exact ⟨r, v, (hu r v).mpr h2, h1.symm, rfl⟩
      rw [entries]
      split
      · rw [List.mem_append, e1 true b hb, e1 false a ha, or_comm]
      · rw [List.mem_append, e1 true b hb, e1 false a ha]
    rw [key]
    constructor
    · rintro (⟨r, rfl, h⟩ | ⟨r, rfl, h⟩)
      · rw [lookup_fork]; exact h
      · rw [lookup_fork]; exact h
    · intro h
      cases hp : stripPrefix l k with
      | none =>
        rw [lookup, hp] at h; cases h
      | some r =>
        have := stripPrefix_some.mp hp
        cases r with
        | nil => rw [lookup, hp] at h; cases h
        | cons bit r =>
          cases bit
          · exact Or.inl ⟨r, this, by rw [lookup, hp] at h; exact h⟩
          · exact Or.inr ⟨r, this, by rw [lookup, hp] at h; exact h⟩

theorem entries_length {n : Nat} {t : Trie} (rev s : Bool) (hs : t.Sized n) {p : Bits × Sl} (hp : p ∈ t.entries rev s) : p.1.length = n :=
  lookup_some_length hs ((mem_entries rev s hs p.1 p.2).mp hp)

/-- The entries are strictly sorted by key. -/
theorem entries_sorted (rev : Bool) : ∀ {n : Nat} {t : Trie} (s : Bool), t.Sized n →
    (t.entries rev s).Pairwise (fun p q => keyBefore rev s p.1 q.1)
  | n, leaf l e v0, s, hs => by simp [entries]
  | n, fork l e x a b, s, hs => by
    have ha := entries_sorted rev (t := a) false hs.2.2.1
    have hb := entries_sorted rev (t := b) false hs.2.2.2
    have part : ∀ (bit : Bool) (u : Trie), u.Sized (n - l.length - 1) → (u.entries rev false).Pairwise (fun p q => keyBefore rev false p.1 q.1) →
        ((u.entries rev false).map (under l bit)).Pairwise (fun p q => keyBefore rev s p.1 q.1) := by
      intro bit u hu hp
      rw [List.pairwise_map]
      refine List.Pairwise.imp_of_mem ?_ hp
      intro p q hpm hqm hpq
      have h1 := entries_length rev false hu hpm
      have h2 := entries_length rev false hu hqm
      exact (keyBefore_prefix rev s l p.1 q.1 bit (by omega)).mpr hpq
    have cross : ∀ (bit : Bool) (u w : Trie), u.Sized (n - l.length - 1) → w.Sized (n - l.length - 1) → bit = firstBit rev s l →
        ∀ p ∈ (u.entries rev false).map (under l bit), ∀ q ∈ (w.entries rev false).map (under l (!bit)), keyBefore rev s p.1 q.1 := by
      intro bit u w hu hw hbit p hp q hq
      obtain ⟨p', hp', rfl⟩ := List.mem_map.mp hp
      obtain ⟨q', hq', rfl⟩ := List.mem_map.mp hq
      have h1 := entries_length rev false hu hp'
      have h2 := entries_length rev false hw hq'
      exact (keyBefore_split rev s l p'.1 q'.1 bit (by omega)).mpr hbit
    rw [entries]
    by_cases hf : firstBit rev s l = true
    · rw [if_pos hf, List.pairwise_append]
      exact ⟨part true b hs.2.2.2 hb, part false a hs.2.2.1 ha, cross true b a hs.2.2.2 hs.2.2.1 hf.symm⟩
    · rw [if_neg hf, List.pairwise_append]
      exact ⟨part false a hs.2.2.1 ha, part true b hs.2.2.2 hb, cross false a b hs.2.2.1 hs.2.2.2 (by simp only [Bool.not_eq_true] at hf; exact hf.symm)⟩

theorem entries_ne_nil (rev : Bool) : ∀ (s : Bool) (t : Trie), ∃ ps, t.entries rev s = t.first rev s :: ps
  | s, leaf l e v => ⟨[], rfl⟩
  | s, fork l e x a b => by
    obtain ⟨pa, ha⟩ := entries_ne_nil rev false a
    obtain ⟨pb, hb⟩ := entries_ne_nil rev false b
    rw [entries, first]
    split
    · rw [hb]; exact ⟨_, rfl⟩
    · rw [ha]; exact ⟨_, rfl⟩

/-- The first entry has a value and no key comes before it. -/
theorem first_spec (rev s : Bool) {n : Nat} {t : Trie} (hs : t.Sized n) :
    t.lookup (t.first rev s).1 = some (t.first rev s).2 ∧
    ∀ k v, t.lookup k = some v → k = (t.first rev s).1 ∨ keyBefore rev s (t.first rev s).1 k := by
  obtain ⟨ps, hps⟩ := entries_ne_nil rev s t
  have hm := mem_entries rev s hs
  have hsd := entries_sorted rev s hs
  rw [hps] at hm hsd
  refine ⟨(hm _ _).mp List.mem_cons_self, fun k v hk => ?_⟩
  rcases List.mem_cons.mp ((hm k v).mpr hk) with h | h
  · left; rw [← h]
  · right; exact (List.pairwise_cons.mp hsd).1 _ h

/-- Descending order is ascending order backwards. -/
theorem entries_reverse : ∀ (s : Bool) (t : Trie), t.entries true s = (t.entries false s).reverse
  | s, leaf l e v => rfl
  | s, fork l e x a b => by
    have ha := entries_reverse false a
    have hb := entries_reverse false b
    rw [entries, entries, firstBit, firstBit]
    cases hfl : (s && l.isEmpty) <;> simp [hfl, ha, hb]

end Trie

/-- What a neighbour search must return: the first key in iteration order that comes after `k` (or is `k`, when
inclusive), with its value; nothing if there is none. -/
def IsNext (rev s incl : Bool) (m : Bits → Option Sl) (n : Nat) (k : Bits) : Option (Bits × Sl) → Prop
  | none => ∀ k', k'.length = n → (keyBefore rev s k k' ∨ (incl = true ∧ k' = k)) → m k' = none
  | some (k0, v) => k0.length = n ∧ m k0 = some v ∧ (keyBefore rev s k k0 ∨ (incl = true ∧ k0 = k)) ∧
      ∀ k', k'.length = n → (keyBefore rev s k k' ∨ (incl = true ∧ k' = k)) → (m k').isSome = true → k' = k0 ∨ keyBefore rev s k0 k'

namespace Trie

theorem bool_ne {a b : Bool} (h : ¬ a = b) : a = !b := by cases a <;> cases b <;> first | rfl | exact absurd rfl h

theorem next_fork (rev incl s : Bool) (l e : Bits) (x : Sl) (a b : Trie) (bit : Bool) (r : Bits) :
    (fork l e x a b).next rev incl s (l ++ bit :: r) = (match (side bit a b).next rev incl false r with
      | some p => some (under l bit p)
      | none => if bit = firstBit rev s l then some (under l (!bit) ((side (!bit) a b).first rev false)) else none) := by
  rw [next, (diverge_full (l := l)).mpr rfl]
  cases bit
  · cases h : firstBit rev s l <;> rfl
  · cases h : firstBit rev s l <;> rfl

theorem next_split (rev incl s : Bool) {t : Trie} {c l' k' : Bits} {bit : Bool} {n : Nat} (hs : t.Sized n) (hk : (c ++ bit :: k').length = n)
    (h1 : t.label = c ++ (!bit) :: l') :
    t.next rev incl s (c ++ bit :: k') = if bit = firstBit rev s c then some (t.first rev s) else none := by
  cases t with
  | leaf l e v =>
    have hl : l = c ++ (!bit) :: l' := h1
    have hn : l.length = n := hs.1
    rw [next, first]
    have hne : c ++ bit :: k' ≠ l := by
      rw [hl]; intro h
      have := List.append_cancel_left h
      simp at this
    subst hl
    have hkb := keyBefore_split rev s c k' l' bit (by simp at hn hk; omega)
    by_cases hb : bit = firstBit rev s c
    · rw [if_pos (Or.inr (hkb.mpr hb)), if_pos hb]
    · rw [if_neg, if_neg hb]
      rintro (h | h)
      · exact hne h.2
      · exact hb (hkb.mp h)
  | fork l e x a b =>
    rw [next, (diverge_split (l := l)).mpr ⟨h1, rfl⟩]

theorem side_sized {n : Nat} {l e : Bits} {x : Sl} {a b : Trie} (hs : (fork l e x a b).Sized n) (bit : Bool) : (side bit a b).Sized (n - l.length - 1) := by
  cases bit
  · exact hs.2.2.1
  · exact hs.2.2.2

/-- A key with a value under a fork. -/
theorem lookup_fork_cases {l e : Bits} {x : Sl} {a b : Trie} {k : Bits} {v : Sl} (h : (fork l e x a b).lookup k = some v) :
    ∃ bit r, k = l ++ bit :: r ∧ (side bit a b).lookup r = some v := by
  cases hp : stripPrefix l k with
  | none => rw [lookup, hp] at h; cases h
  | some r =>
    have := stripPrefix_some.mp hp
    cases r with
    | nil => rw [lookup, hp] at h; cases h
    | cons bit r =>
      refine ⟨bit, r, this, ?_⟩
      rw [this, lookup_fork] at h
      exact h

theorem next_spec (rev incl : Bool) : ∀ {n : Nat} {t : Trie} (s : Bool), t.Sized n → ∀ {k : Bits}, k.length = n →
    IsNext rev s incl t.lookup n k (t.next rev incl s k)
  | n, t, s, hs, k, hk => by
    rcases key_cases hs hk with ⟨e, w, rfl⟩ | ⟨l, e, x, a, b, bit, r, rfl, h, hr⟩ | ⟨c, bit, l', k', h1, h2⟩
    · rw [next]
      by_cases hi : incl = true
      · rw [if_pos (Or.inl ⟨hi, rfl⟩)]
        refine ⟨hk, by rw [lookup_leaf, if_pos rfl], Or.inr ⟨hi, rfl⟩, fun k' hk' _ hv => ?_⟩
        rw [lookup_leaf] at hv
        by_cases h : k' = k
        · exact Or.inl h
        · rw [if_neg h] at hv; cases hv
      · rw [if_neg (fun h => h.elim (fun h => hi h.1) (keyBefore_irrefl _ _ _))]
        intro k' hk' h
        rw [lookup_leaf]
        by_cases hh : k' = k
        · rcases h with h | h
          · rw [hh] at h; exact absurd h (keyBefore_irrefl _ _ _)
          · exact absurd h.1 hi
        · rw [if_neg hh]
    · have hlt := hs.1
      have hsz := side_sized hs
      have ih : IsNext rev false incl (side bit a b).lookup (n - l.length - 1) r ((side bit a b).next rev incl false r) := by
        cases bit
        · exact next_spec rev incl (t := a) false hs.2.2.1 hr
        · exact next_spec rev incl (t := b) false hs.2.2.2 hr
      subst h
      rw [next_fork]
      cases hx : (side bit a b).next rev incl false r with
      | some p =>
        obtain ⟨k0, v0⟩ := p
        rw [hx] at ih
        obtain ⟨i1, i2, i3, i4⟩ := ih
        refine ⟨by simp only [List.length_append, List.length_cons]; omega, ?_, ?_, ?_⟩
        · rw [lookup_fork]; exact i2
        · rcases i3 with h | h
          · exact Or.inl ((keyBefore_prefix rev s l r k0 bit (by omega)).mpr h)
          · exact Or.inr ⟨h.1, by rw [h.2]⟩
        · intro k' hk' hb hv
          obtain ⟨v', hv'⟩ := Option.isSome_iff_exists.mp hv
          obtain ⟨bit', r', rfl, hl'⟩ := lookup_fork_cases hv'
          have hr' := lookup_some_length (hsz bit') hl'
          by_cases hbb : bit' = bit
          · subst hbb
            have hcond : keyBefore rev false r r' ∨ (incl = true ∧ r' = r) := by
              rcases hb with h | h
              · exact Or.inl ((keyBefore_prefix rev s l r r' bit' (by omega)).mp h)
              · refine Or.inr ⟨h.1, ?_⟩
                have := List.append_cancel_left h.2
                exact (List.cons.inj this).2
            rcases i4 r' hr' hcond (by rw [hl']; rfl) with h | h
            · left; rw [h]
            · right; exact (keyBefore_prefix rev s l k0 r' bit' (by omega)).mpr h
          · have hbit : bit' = !bit := bool_ne hbb
            subst hbit
            rcases hb with h | h
            · right
              exact (keyBefore_split rev s l k0 r' bit (by omega)).mpr ((keyBefore_split rev s l r r' bit (by omega)).mp h)
            · have := List.append_cancel_left h.2
              simp at this
      | none =>
        rw [hx] at ih
        dsimp only
        obtain ⟨f1, f2⟩ := first_spec rev false (hsz (!bit))
        have fl := lookup_some_length (hsz (!bit)) f1
        by_cases hb : bit = firstBit rev s l
        · rw [if_pos hb]
          refine ⟨by simp only [List.length_append, List.length_cons]; omega, ?_, ?_, ?_⟩
          · rw [lookup_fork]; exact f1
          · exact Or.inl ((keyBefore_split rev s l r _ bit (by omega)).mpr hb)
          · intro k' hk' hc hv
            obtain ⟨v', hv'⟩ := Option.isSome_iff_exists.mp hv
            obtain ⟨bit', r', rfl, hl'⟩ := lookup_fork_cases hv'
            have hr' := lookup_some_length (hsz bit') hl'
            by_cases hbb : bit' = bit
            · subst hbb
              have hcond : keyBefore rev false r r' ∨ (incl = true ∧ r' = r) := by
                rcases hc with h | h
                · exact Or.inl ((keyBefore_prefix rev s l r r' bit' (by omega)).mp h)
                · refine Or.inr ⟨h.1, ?_⟩
                  have := List.append_cancel_left h.2
                  exact (List.cons.inj this).2
              rw [ih r' hr' hcond] at hl'
              cases hl'
            · have hbit : bit' = !bit := bool_ne hbb
              subst hbit
              rcases f2 r' v' hl' with h | h
              · left; rw [h]
              · right; exact (keyBefore_prefix rev s l _ r' (!bit) (by omega)).mpr h
        · rw [if_neg hb]
          intro k' hk' hc
          cases hv : (fork l e x a b).lookup k' with
          | none => rfl
          | some v' =>
            obtain ⟨bit', r', rfl, hl'⟩ := lookup_fork_cases hv
            have hr' := lookup_some_length (hsz bit') hl'
            by_cases hbb : bit' = bit
            · subst hbb
              have hcond : keyBefore rev false r r' ∨ (incl = true ∧ r' = r) := by
                rcases hc with h | h
                · exact Or.inl ((keyBefore_prefix rev s l r r' bit' (by omega)).mp h)
                · refine Or.inr ⟨h.1, ?_⟩
                  have := List.append_cancel_left h.2
                  exact (List.cons.inj this).2
              rw [ih r' hr' hcond] at hl'
              cases hl'
            · have hbit : bit' = !bit := bool_ne hbb
              subst hbit
              rcases hc with h | h
              · exact absurd ((keyBefore_split rev s l r r' bit (by omega)).mp h) hb
              · have := List.append_cancel_left h.2
                simp at this
    · subst h2
      rw [next_split rev incl s hs hk h1]
      obtain ⟨f1, f2⟩ := first_spec rev s hs
      have all : ∀ k0 v0, t.lookup k0 = some v0 → (keyBefore rev s (c ++ bit :: k') k0 ↔ bit = firstBit rev s c) ∧ k0 ≠ c ++ bit :: k' := by
        intro k0 v0 h0
        obtain ⟨q, hq⟩ := lookup_prefix h0
        rw [h1] at hq
        have hl0 := lookup_some_length hs h0
        have hq' : k0 = c ++ (!bit) :: (l' ++ q) := by rw [hq]; simp
        subst hq'
        refine ⟨keyBefore_split rev s c k' _ bit (by simp only [List.length_append, List.length_cons] at hl0 hk ⊢; omega), ?_⟩
        intro h
        have := List.append_cancel_left h
        simp at this
      by_cases hb : bit = firstBit rev s c
      · rw [if_pos hb]
        refine ⟨lookup_some_length hs f1, f1, Or.inl ((all _ _ f1).1.mpr hb), fun k0 hk0 _ hv => ?_⟩
        obtain ⟨v0, hv0⟩ := Option.isSome_iff_exists.mp hv
        exact f2 k0 v0 hv0
      · rw [if_neg hb]
        intro k0 hk0 hc
        cases hv : t.lookup k0 with
        | none => rfl
        | some v0 =>
          obtain ⟨g1, g2⟩ := all k0 v0 hv
          rcases hc with h | h
          · exact absurd (g1.mp h) hb
          · exact absurd h.2 g2
termination_by n t => t
decreasing_by all_goals (subst_vars; simp_wf; try omega)

end Trie

end Verif
