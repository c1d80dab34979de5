import Verif.DictLabel
/-
Specification of a dictionary: a binary Patricia trie, how it is written as a cell, and what looking up, setting and
removing a key mean for it. Nothing here follows the code of the dictionary operations; `Dict.lean` models those.
-/
set_option linter.unusedVariables false
set_option linter.unusedSimpArgs false
namespace Verif

/-- What is left of `k` after the prefix `l`. -/
def stripPrefix : Bits → Bits → Option Bits
  | [], k => some k
  | _ :: _, [] => none
  | a :: l, b :: k => if a = b then stripPrefix l k else none

theorem stripPrefix_append (l r : Bits) : stripPrefix l (l ++ r) = some r := by
  induction l with
  | nil => rfl
  | cons a l ih => rw [List.cons_append, stripPrefix, if_pos rfl, ih]

theorem stripPrefix_some {l k r : Bits} : stripPrefix l k = some r ↔ k = l ++ r := by
  constructor
  · intro h
    induction l generalizing k with
    | nil => cases h; rfl
    | cons a l ih =>
      cases k with
      | nil => cases h
      | cons b k =>
        rw [stripPrefix] at h
        by_cases hab : a = b
        · rw [if_pos hab] at h
          rw [ih h, hab]; rfl
        · rw [if_neg hab] at h; cases h
  · rintro rfl
    exact stripPrefix_append l r

/-- How a key `k` leaves a label `l`. -/
inductive Div
  | full (rest : Bits)                        -- `k = l ++ rest`
  | split (c : Bits) (bit : Bool) (l' k' : Bits)    -- `k = c ++ bit :: k'`, `l = c ++ !bit :: l'`
  | short                                     -- `k` is a proper prefix of `l`

def Div.cons (a : Bool) : Div → Div
  | .full r => .full r
  | .split c b l k => .split (a :: c) b l k
  | .short => .short

def diverge : Bits → Bits → Div
  | [], k => .full k
  | _ :: _, [] => .short
  | a :: l, b :: k => if a = b then (diverge l k).cons a else .split [] b l k

/-- A binary trie with path compression. Every node has a label `l`, the bits `e` that write the label in its cell,
and then either a value or two branches (with a possible extra, as in augmented dictionaries). -/
inductive Trie
  | leaf (l e : Bits) (v : Sl)
  | fork (l e : Bits) (x : Sl) (a b : Trie)

namespace Trie

/-- The cell of a node: the label, then the value, or the references to both branches and the extra. -/
def cell : Trie → Cell
  | leaf l e v => .mk false (e ++ v.bits) v.refs
  | fork l e x a b => .mk false (e ++ x.bits) (a.cell :: b.cell :: x.refs)

def label : Trie → Bits
  | leaf l _ _ => l
  | fork l _ _ _ _ => l

/-- All keys have `n` bits and every label is written in one of the permitted ways. -/
def Sized : Nat → Trie → Prop
  | n, leaf l e v => l.length = n ∧ LabelEnc n l e
  | n, fork l e x a b => l.length < n ∧ LabelEnc n l e ∧ Sized (n - l.length - 1) a ∧ Sized (n - l.length - 1) b

/-- The value of a key. -/
def lookup : Trie → Bits → Option Sl
  | leaf l e v, k => if k = l then some v else none
  | fork l e x a b, k => match stripPrefix l k with
    | some (false :: r) => a.lookup r
    | some (true :: r) => b.lookup r
    | _ => none

/-- All keys and values, smallest key (as an unsigned number) first. -/
def toList : Trie → List (Bits × Sl)
  | leaf l e v => [(l, v)]
  | fork l e x a b => a.toList.map (fun p => (l ++ false :: p.1, p.2)) ++ b.toList.map (fun p => (l ++ true :: p.1, p.2))

/-- A leaf with the shortest label. -/
def mkLeaf (l : Bits) (v : Sl) : Trie := leaf l (labelBits l l.length) v

/-- Replace the label of a node with `n` key bits. -/
def relabel (t : Trie) (l : Bits) (n : Nat) : Trie :=
  match t with
  | leaf _ _ v => leaf l (labelBits l n) v
  | fork _ _ x a b => fork l (labelBits l n) x a b

/-- A fork with the shortest label, the branch `new` on the side of `bit`. -/
def mkFork (c : Bits) (n : Nat) (bit : Bool) (old new : Trie) : Trie :=
  fork c (labelBits c n) .empty (if bit then old else new) (if bit then new else old)

/-- Put a value under a key. (References in the extra of a fork on the way are dropped; ordinary dictionaries
have none.) -/
def set : Trie → Bits → Sl → Trie
  | leaf l e v0, k, v => match diverge l k with
    | .full _ => mkLeaf l v
    | .split c bit l' k' => mkFork c k.length bit (relabel (leaf l e v0) l' k'.length) (mkLeaf k' v)
    | .short => leaf l e v0
  | fork l e x a b, k, v => match diverge l k with
    | .full (false :: r) => fork l e ⟨x.bits, []⟩ (a.set r v) b
    | .full (true :: r) => fork l e ⟨x.bits, []⟩ a (b.set r v)
    | .full [] => fork l e x a b
    | .split c bit l' k' => mkFork c k.length bit (relabel (fork l e x a b) l' k'.length) (mkLeaf k' v)
    | .short => fork l e x a b

/-- Remove a key that is present; `none` if nothing is left. -/
def remove : Trie → Bits → Option Trie
  | leaf l e v, k => none
  | fork l e x a b, k => match stripPrefix l k with
    | some (false :: r) => match a.remove r with
      | none => some (relabel b (l ++ true :: b.label) k.length)
      | some a' => some (fork l e ⟨x.bits, []⟩ a' b)
    | some (true :: r) => match b.remove r with
      | none => some (relabel a (l ++ false :: a.label) k.length)
      | some b' => some (fork l e ⟨x.bits, []⟩ a b')
    | _ => some (fork l e x a b)

/-- The canonical form: every label is written in the shortest way and forks carry nothing but their branches. -/
def Canon : Nat → Trie → Prop
  | n, leaf l e v => e = labelBits l n
  | n, fork l e x a b => e = labelBits l n ∧ x = .empty ∧ Canon (n - l.length - 1) a ∧ Canon (n - l.length - 1) b

end Trie

/-- A cell that a context builds: within the cell limits and accepted (for the default context: not too deep). -/
def okCell (acc : Cell → Bool) (c : Cell) : Prop := c.bits.length ≤ 1023 ∧ c.refs.length ≤ 4 ∧ acc c = true

/-- All cells of the trie can be built. -/
def Trie.Fits (acc : Cell → Bool) : Trie → Prop
  | .leaf l e v => okCell acc (Trie.leaf l e v).cell
  | .fork l e x a b => okCell acc (Trie.fork l e x a b).cell ∧ a.Fits acc ∧ b.Fits acc

/-! ### Lemmas -/

theorem diverge_full {l k r : Bits} : diverge l k = .full r ↔ k = l ++ r := by
  induction l generalizing k with
  | nil => simp only [diverge, Div.full.injEq, List.nil_append]
  | cons a l ih =>
    cases k with
    | nil => simp [diverge]
    | cons b k =>
      rw [diverge]
      by_cases hab : a = b
      · rw [if_pos hab, hab, List.cons_append, List.cons.injEq]
        constructor
        · intro h
          cases hd : diverge l k with
          | full r' => rw [hd] at h; cases h; exact ⟨rfl, ih.mp hd⟩
          | split c b' l' k' => rw [hd] at h; cases h
          | short => rw [hd] at h; cases h
        · rintro ⟨_, h⟩
          rw [ih.mpr h]; rfl
      · rw [if_neg hab]
        constructor
        · intro h; cases h
        · intro h
          rw [List.cons_append, List.cons.injEq] at h
          exact absurd h.1.symm hab

theorem diverge_split {l k c l' k' : Bits} {bit : Bool} :
    diverge l k = .split c bit l' k' ↔ l = c ++ (!bit) :: l' ∧ k = c ++ bit :: k' := by
  induction l generalizing k c with
  | nil => simp [diverge]
  | cons a l ih =>
    cases k with
    | nil => simp [diverge]
    | cons b k =>
      rw [diverge]
      by_cases hab : a = b
      · rw [if_pos hab]
        subst hab
        constructor
        · intro h
          cases hd : diverge l k with
          | full r' => rw [hd] at h; cases h
          | split c0 b' l0 k0 =>
            rw [hd] at h
            injection h with h1 h2 h3 h4
            subst h1 h2 h3 h4
            obtain ⟨e1, e2⟩ := ih.mp hd
            rw [e1, e2]; exact ⟨rfl, rfl⟩
          | short => rw [hd] at h; cases h
        · rintro ⟨h1, h2⟩
          cases c with
          | nil =>
            simp only [List.nil_append, List.cons.injEq] at h1 h2
            have := h1.1.symm.trans h2.1
            cases bit <;> cases this
          | cons c0 c =>
            simp only [List.cons_append, List.cons.injEq] at h1 h2
            rw [ih.mpr ⟨h1.2, h2.2⟩, h1.1]; rfl
      · rw [if_neg hab]
        constructor
        · intro h
          injection h with h1 h2 h3 h4
          subst h1 h2 h3 h4
          refine ⟨?_, rfl⟩
          cases a <;> cases b <;> simp_all
        · rintro ⟨h1, h2⟩
          cases c with
          | nil =>
            simp only [List.nil_append, List.cons.injEq] at h1 h2
            rw [h1.2, h2.1, h2.2]
          | cons c0 c =>
            simp only [List.cons_append, List.cons.injEq] at h1 h2
            exact absurd (h1.1.trans h2.1.symm) hab

theorem diverge_short {l k : Bits} (h : diverge l k = .short) : k.length < l.length := by
  induction l generalizing k with
  | nil => simp [diverge] at h
  | cons a l ih =>
    cases k with
    | nil => simp
    | cons b k =>
      rw [diverge] at h
      by_cases hab : a = b
      · rw [if_pos hab] at h
        cases hd : diverge l k with
        | full r' => rw [hd] at h; cases h
        | split c0 b' l0 k0 => rw [hd] at h; cases h
        | short => have := ih hd; simp; omega
      · rw [if_neg hab] at h; cases h

theorem commonPrefixLen_full (l r : Bits) : commonPrefixLen (l ++ r) l = l.length := by
  induction l with
  | nil => cases r <;> rfl
  | cons a l ih => rw [List.cons_append, commonPrefixLen, if_pos rfl, ih, List.length_cons]

theorem commonPrefixLen_split (c : Bits) (bit : Bool) (l' k' : Bits) :
    commonPrefixLen (c ++ bit :: k') (c ++ (!bit) :: l') = c.length := by
  induction c with
  | nil => rw [List.nil_append, List.nil_append, commonPrefixLen, if_neg (by cases bit <;> simp)]; rfl
  | cons a l ih => rw [List.cons_append, List.cons_append, commonPrefixLen, if_pos rfl, ih, List.length_cons]

theorem diverge_cases (l k : Bits) (h : l.length ≤ k.length) :
    (∃ r, k = l ++ r) ∨ ∃ c bit l' k', l = c ++ (!bit) :: l' ∧ k = c ++ bit :: k' := by
  cases hd : diverge l k with
  | full r => exact Or.inl ⟨r, diverge_full.mp hd⟩
  | split c b l' k' => exact Or.inr ⟨c, b, l', k', diverge_split.mp hd⟩
  | short => have := diverge_short hd; omega

namespace Trie

theorem lookup_fork (l e : Bits) (x : Sl) (a b : Trie) (bit : Bool) (r : Bits) :
    (fork l e x a b).lookup (l ++ bit :: r) = (if bit then b else a).lookup r := by
  rw [lookup, stripPrefix_append]
  cases bit <;> rfl

theorem lookup_leaf (l e : Bits) (v : Sl) (k : Bits) : (leaf l e v).lookup k = if k = l then some v else none := rfl

theorem lookup_fork_none {l e : Bits} {x : Sl} {a b : Trie} {k : Bits} (h : ∀ bit r, k ≠ l ++ bit :: r) :
    (fork l e x a b).lookup k = none := by
  rw [lookup]
  cases hs : stripPrefix l k with
  | none => rfl
  | some r =>
    cases r with
    | nil => rfl
    | cons bit r => exact absurd (stripPrefix_some.mp hs) (h bit r)

theorem Sized.length_le : ∀ {n : Nat} {t : Trie}, Sized n t → t.label.length ≤ n
  | n, leaf l e v, h => Nat.le_of_eq h.1
  | n, fork l e x a b, h => Nat.le_of_lt h.1

theorem Sized.enc : ∀ {n : Nat} {t : Trie}, Sized n t → ∃ e rest refs, LabelEnc n t.label e ∧ t.cell = .mk false (e ++ rest) refs
  | n, leaf l e v, h => ⟨e, v.bits, v.refs, h.2, rfl⟩
  | n, fork l e x a b, h => ⟨e, x.bits, _, h.2.1, rfl⟩

theorem lookup_some_length : ∀ {n : Nat} {t : Trie} {k : Bits} {v : Sl}, Sized n t → t.lookup k = some v → k.length = n
  | n, leaf l e w, k, v, hs, h => by
    rw [lookup_leaf] at h
    by_cases hk : k = l
    · rw [hk]; exact hs.1
    · rw [if_neg hk] at h; cases h
  | n, fork l e x a b, k, v, hs, h => by
    by_cases hk : ∃ bit r, k = l ++ bit :: r
    · obtain ⟨bit, r, rfl⟩ := hk
      rw [lookup_fork] at h
      have h1 := hs.1
      have : r.length = n - l.length - 1 := by
        cases bit
        · exact lookup_some_length hs.2.2.1 h
        · exact lookup_some_length hs.2.2.2 h
      simp; omega
    · rw [lookup_fork_none (fun bit r hh => hk ⟨bit, r, hh⟩)] at h; cases h

/-- Relabelling changes only the common prefix of the keys. -/
theorem lookup_relabel (t : Trie) (p l' : Bits) (n : Nat) (h : t.label = p ++ l') (r : Bits) :
    (t.relabel l' n).lookup r = t.lookup (p ++ r) := by
  cases t with
  | leaf l e v =>
    have h : l = p ++ l' := h
    subst h
    rw [relabel, lookup_leaf, lookup_leaf]
    simp
  | fork l e x a b =>
    have h : l = p ++ l' := h
    subst h
    rw [relabel]
    by_cases hk : ∃ bit q, r = l' ++ bit :: q
    · obtain ⟨bit, q, rfl⟩ := hk
      rw [lookup_fork, ← List.append_assoc, lookup_fork]
    · rw [lookup_fork_none (fun bit q hh => hk ⟨bit, q, hh⟩), lookup_fork_none]
      intro bit q hh
      rw [List.append_assoc, List.append_cancel_left_eq] at hh
      exact hk ⟨bit, q, hh⟩

theorem lookup_relabel' (t : Trie) (p : Bits) (n : Nat) (r : Bits) : (t.relabel (p ++ t.label) n).lookup (p ++ r) = t.lookup r := by
  cases t with
  | leaf l e v =>
    show (leaf (p ++ l) _ v).lookup _ = _
    rw [lookup_leaf, lookup_leaf]; simp
  | fork l e x a b =>
    show (fork (p ++ l) _ x a b).lookup _ = _
    by_cases hk : ∃ bit q, r = l ++ bit :: q
    · obtain ⟨bit, q, rfl⟩ := hk
      rw [lookup_fork, ← List.append_assoc, lookup_fork]
    · rw [lookup_fork_none (k := r) (fun bit q hh => hk ⟨bit, q, hh⟩), lookup_fork_none]
      intro bit q hh
      rw [List.append_assoc, List.append_cancel_left_eq] at hh
      exact hk ⟨bit, q, hh⟩

/-- A key with a value starts with the label. -/
theorem lookup_prefix {t : Trie} {k : Bits} {v : Sl} (h : t.lookup k = some v) : ∃ r, k = t.label ++ r := by
  cases t with
  | leaf l e w =>
    rw [lookup_leaf] at h
    by_cases hk : k = l
    · exact ⟨[], by simp [hk, label]⟩
    · rw [if_neg hk] at h; cases h
  | fork l e x a b =>
    by_cases hk : ∃ bit r, k = l ++ bit :: r
    · obtain ⟨bit, r, hk⟩ := hk
      exact ⟨bit :: r, hk⟩
    · rw [lookup_fork_none (fun bit r hh => hk ⟨bit, r, hh⟩)] at h; cases h

theorem lookup_not_prefix {t : Trie} {k : Bits} (h : ∀ r, k ≠ t.label ++ r) : t.lookup k = none := by
  cases hl : t.lookup k with
  | none => rfl
  | some v =>
    obtain ⟨r, hr⟩ := lookup_prefix hl
    exact absurd hr (h r)

theorem relabel_label (t : Trie) (l : Bits) (n : Nat) : (t.relabel l n).label = l := by cases t <;> rfl

theorem sized_relabel {t : Trie} {n m : Nat} {l' : Bits} (h : Sized n t) (h1 : n - t.label.length = m - l'.length) (h2 : l'.length ≤ m) :
    Sized m (t.relabel l' m) := by
  cases t with
  | leaf l e v =>
    have := h.1
    have h1 : n - l.length = m - l'.length := h1
    exact ⟨by omega, labelBits_enc _ _ h2⟩
  | fork l e x a b =>
    have := h.1
    have h1 : n - l.length = m - l'.length := h1
    refine ⟨by omega, labelBits_enc _ _ h2, ?_, ?_⟩
    · rw [← h1]; exact h.2.2.1
    · rw [← h1]; exact h.2.2.2

theorem sized_mkLeaf (l : Bits) (v : Sl) : Sized l.length (mkLeaf l v) := ⟨rfl, labelBits_enc _ _ (Nat.le_refl _)⟩

theorem sized_mkFork {c : Bits} {n m : Nat} {bit : Bool} {old new : Trie} (h : n = c.length + 1 + m) (h1 : Sized m old) (h2 : Sized m new) :
    Sized n (mkFork c n bit old new) := by
  subst h
  refine ⟨by omega, labelBits_enc _ _ (by omega), ?_, ?_⟩
  all_goals
    rw [show c.length + 1 + m - c.length - 1 = m from by omega]
    cases bit <;> assumption

theorem set_split {t : Trie} {k c l' k' : Bits} {bit : Bool} (v : Sl) (h1 : t.label = c ++ (!bit) :: l') (h2 : k = c ++ bit :: k') :
    t.set k v = mkFork c k.length bit (t.relabel l' k'.length) (mkLeaf k' v) := by
  cases t with
  | leaf l e w => rw [set, (diverge_split (l := l)).mpr ⟨h1, h2⟩]
  | fork l e x a b => rw [set, (diverge_split (l := l)).mpr ⟨h1, h2⟩]

theorem set_fork (l e : Bits) (x : Sl) (a b : Trie) (bit : Bool) (r : Bits) (v : Sl) :
    (fork l e x a b).set (l ++ bit :: r) v =
      fork l e ⟨x.bits, []⟩ (if bit then a else a.set r v) (if bit then b.set r v else b) := by
  rw [set, diverge_full.mpr rfl]
  cases bit <;> rfl

theorem set_leaf (l e : Bits) (w v : Sl) : (leaf l e w).set l v = mkLeaf l v := by
  rw [set, diverge_full.mpr (List.append_nil l).symm]

/-- The ways a key of the right length meets a trie. -/
theorem key_cases {n : Nat} {t : Trie} (hs : Sized n t) {k : Bits} (hk : k.length = n) :
    (∃ e v, t = leaf k e v) ∨
    (∃ l e x a b bit r, t = fork l e x a b ∧ k = l ++ bit :: r ∧ r.length = n - l.length - 1) ∨
    (∃ c bit l' k', t.label = c ++ (!bit) :: l' ∧ k = c ++ bit :: k') := by
  rcases diverge_cases t.label k (by have := hs.length_le; omega) with ⟨r, h⟩ | h
  · cases t with
    | leaf l e v =>
      have h : k = l ++ r := h
      have : r = [] := by
        have := hs.1
        rw [h, List.length_append] at hk
        exact List.length_eq_zero_iff.mp (by omega)
      subst this
      rw [List.append_nil] at h
      subst h
      exact Or.inl ⟨e, v, rfl⟩
    | fork l e x a b =>
      have h : k = l ++ r := h
      cases r with
      | nil =>
        have := hs.1
        rw [h] at hk; simp at hk; omega
      | cons bit r =>
        refine Or.inr (Or.inl ⟨l, e, x, a, b, bit, r, rfl, h, ?_⟩)
        rw [h] at hk; simp at hk; omega
  · exact Or.inr (Or.inr h)

theorem label_not_prefix {t : Trie} {c l' k' : Bits} {bit : Bool} (h1 : t.label = c ++ (!bit) :: l') (r : Bits) : c ++ bit :: k' ≠ t.label ++ r := by
  rw [h1]
  intro h
  rw [List.append_assoc, List.append_cancel_left_eq, List.cons_append, List.cons.injEq] at h
  cases bit <;> cases h.1

theorem sized_set : ∀ {n : Nat} {t : Trie} {k : Bits} (v : Sl), Sized n t → k.length = n → Sized n (t.set k v)
  | n, t, k, v, hs, hk => by
    rcases key_cases hs hk with ⟨e, w, rfl⟩ | ⟨l, e, x, a, b, bit, r, rfl, h, hr⟩ | ⟨c, bit, l', k', h1, h2⟩
    · rw [set_leaf]
      have := sized_mkLeaf k v
      rw [hk] at this; exact this
    · rw [h, set_fork]
      refine ⟨hs.1, hs.2.1, ?_, ?_⟩
      · cases bit
        · exact sized_set v hs.2.2.1 hr
        · exact hs.2.2.1
      · cases bit
        · exact hs.2.2.2
        · exact sized_set v hs.2.2.2 hr
    · rw [set_split v h1 h2]
      have hlen := hs.length_le
      rw [h1] at hlen
      have hkl : k.length = c.length + 1 + k'.length := by rw [h2]; simp; omega
      have hll : t.label.length = c.length + 1 + l'.length := by rw [h1]; simp; omega
      simp only [List.length_append, List.length_cons] at hlen
      rw [hk]
      refine sized_mkFork (m := k'.length) (by omega) ?_ (sized_mkLeaf k' v)
      refine sized_relabel hs (by omega) (by omega)
  termination_by n t => t
  decreasing_by all_goals (subst_vars; simp_wf; try omega)

theorem lookup_set : ∀ {n : Nat} {t : Trie} {k : Bits} (v : Sl), Sized n t → k.length = n → ∀ k', k'.length = n →
    (t.set k v).lookup k' = if k' = k then some v else t.lookup k'
  | n, t, k, v, hs, hk, q, hq => by
    rcases key_cases hs hk with ⟨e, w, rfl⟩ | ⟨l, e, x, a, b, bit, r, rfl, h, hr⟩ | ⟨c, bit, l', k', h1, h2⟩
    · rw [set_leaf, mkLeaf, lookup_leaf, lookup_leaf]
      split <;> rfl
    · rw [h, set_fork]
      have hl := hs.1
      by_cases hpre : ∃ bit' r', q = l ++ bit' :: r'
      · obtain ⟨bit', r', rfl⟩ := hpre
        rw [lookup_fork, lookup_fork]
        have hr' : r'.length = n - l.length - 1 := by simp at hq; omega
        simp only [List.append_cancel_left_eq, List.cons.injEq]
        cases bit <;> cases bit' <;> simp only [Bool.false_eq_true, if_false, if_true, false_and, true_and, reduceCtorEq]
        · exact lookup_set v hs.2.2.1 hr r' hr'
        · exact lookup_set v hs.2.2.2 hr r' hr'
      · rw [lookup_fork_none (fun b' r' hh => hpre ⟨b', r', hh⟩), lookup_fork_none (fun b' r' hh => hpre ⟨b', r', hh⟩), if_neg]
        intro hh; exact hpre ⟨bit, r, hh⟩
    · rw [set_split v h1 h2]
      have hkl : k.length = c.length + 1 + k'.length := by rw [h2]; simp; omega
      subst h2
      by_cases hpre : ∃ bit' r', q = c ++ bit' :: r'
      · obtain ⟨bit', r', rfl⟩ := hpre
        rw [mkFork, lookup_fork]
        have hr' : r'.length = k'.length := by simp at hq; omega
        have hrel : (t.relabel l' k'.length).lookup r' = t.lookup (c ++ (!bit) :: r') := by
          rw [lookup_relabel t (c ++ [!bit]) l' k'.length (by rw [h1]; simp)]
          simp
        have hnew : (mkLeaf k' v).lookup r' = if r' = k' then some v else none := rfl
        have hno : t.lookup (c ++ bit :: r') = none := lookup_not_prefix (label_not_prefix h1)
        simp only [List.append_cancel_left_eq, List.cons.injEq]
        cases bit <;> cases bit' <;>
          simp only [Bool.false_eq_true, if_false, if_true, false_and, true_and, reduceCtorEq, hnew, hrel, Bool.not_false, Bool.not_true] at hno ⊢ <;>
          rw [hno]
      · rw [mkFork, lookup_fork_none (fun b' r' hh => hpre ⟨b', r', hh⟩), if_neg (fun hh => hpre ⟨bit, k', hh⟩), lookup_not_prefix]
        intro r' hh
        rw [h1] at hh
        exact hpre ⟨!bit, l' ++ r', by simpa using hh⟩
  termination_by n t => t
  decreasing_by all_goals (subst_vars; simp_wf; try omega)

theorem remove_fork (l e : Bits) (x : Sl) (a b : Trie) (bit : Bool) (r : Bits) :
    (fork l e x a b).remove (l ++ bit :: r) = some (match (if bit then b else a).remove r with
      | none => relabel (if bit then a else b) (l ++ (!bit) :: (if bit then a else b).label) (l ++ bit :: r).length
      | some t' => fork l e ⟨x.bits, []⟩ (if bit then a else t') (if bit then t' else b)) := by
  rw [remove, stripPrefix_append]
  cases bit
  · dsimp only [Bool.false_eq_true, if_false]
    simp only [Bool.false_eq_true, if_false, Bool.not_false]
    cases a.remove r <;> rfl
  · simp only [if_true, Bool.not_true]
    cases b.remove r <;> rfl

/-- The number of keys is at least one. -/
theorem exists_key : ∀ {n : Nat} {t : Trie}, Sized n t → ∃ k v, k.length = n ∧ t.lookup k = some v
  | n, leaf l e v, h => ⟨l, v, h.1, by rw [lookup_leaf, if_pos rfl]⟩
  | n, fork l e x a b, h => by
    obtain ⟨k, v, h1, h2⟩ := exists_key h.2.2.1
    have := h.1
    exact ⟨l ++ false :: k, v, by simp; omega, by rw [lookup_fork]; exact h2⟩

theorem sized_remove : ∀ {n : Nat} {t t' : Trie} {k : Bits} {w : Sl}, Sized n t → t.lookup k = some w → t.remove k = some t' → Sized n t'
  | n, leaf l e v, t', k, w, hs, hl, h => by cases h
  | n, fork l e x a b, t', k, w, hs, hl, h => by
    have hkn := lookup_some_length hs hl
    by_cases hpre : ∃ bit' r', k = l ++ bit' :: r'
    · obtain ⟨bit, r, rfl⟩ := hpre
      rw [lookup_fork] at hl
      rw [remove_fork] at h
      injection h with h
      have h1 := hs.1
      have hj : ∀ (u : Trie) (bb : Bool), Sized (n - l.length - 1) u → Sized n (u.relabel (l ++ bb :: u.label) (l ++ bit :: r).length) := by
        intro u bb hu
        rw [hkn]
        have := hu.length_le
        exact sized_relabel hu (by simp; omega) (by simp; omega)
      cases bit
      · simp only [Bool.false_eq_true, if_false] at hl h
        cases hr : a.remove r with
        | none => rw [hr] at h; dsimp only at h; rw [← h]; exact hj b _ hs.2.2.2
        | some u => rw [hr] at h; dsimp only at h; rw [← h]; exact ⟨h1, hs.2.1, sized_remove hs.2.2.1 hl hr, hs.2.2.2⟩
      · simp only [if_true] at hl h
        cases hr : b.remove r with
        | none => rw [hr] at h; dsimp only at h; rw [← h]; exact hj a _ hs.2.2.1
        | some u => rw [hr] at h; dsimp only at h; rw [← h]; exact ⟨h1, hs.2.1, hs.2.2.1, sized_remove hs.2.2.2 hl hr⟩
    · rw [lookup_fork_none (fun b' r' hh => hpre ⟨b', r', hh⟩)] at hl; cases hl

/-- Removing a key that is there leaves exactly the other keys. -/
theorem lookup_remove : ∀ {n : Nat} {t : Trie} {k : Bits} {w : Sl}, Sized n t → t.lookup k = some w → ∀ k', k'.length = n →
    (match t.remove k with | none => none | some t' => t'.lookup k') = if k' = k then none else t.lookup k'
  | n, leaf l e v, k, w, hs, hl, q, hq => by
    have : k = l := by
      rw [lookup_leaf] at hl
      by_cases hk : k = l
      · exact hk
      · rw [if_neg hk] at hl; cases hl
    subst this
    show none = _
    rw [lookup_leaf]
    split <;> rfl
  | n, fork l e x a b, k, w, hs, hl, q, hq => by
    have hkn := lookup_some_length hs hl
    by_cases hpre : ∃ bit' r', k = l ++ bit' :: r'
    · obtain ⟨bit, r, rfl⟩ := hpre
      have h1 := hs.1
      rw [lookup_fork] at hl
      rw [remove_fork]
      dsimp only
      by_cases hq' : ∃ bit' r', q = l ++ bit' :: r'
      · obtain ⟨bit', r', rfl⟩ := hq'
        have hr' : r'.length = n - l.length - 1 := by simp at hq; omega
        simp only [List.append_cancel_left_eq, List.cons.injEq]
        rw [lookup_fork]
        have hj : ∀ (u : Trie) (bb : Bool), (u.relabel (l ++ bb :: u.label) (l ++ bit :: r).length).lookup (l ++ bit' :: r') =
            if bb = bit' then u.lookup r' else none := by
          intro u bb
          by_cases hb : bb = bit'
          · subst hb
            rw [if_pos rfl]
            have := lookup_relabel' u (l ++ [bb]) (l ++ bit :: r).length r'
            simpa using this
          · rw [if_neg hb]
            refine lookup_not_prefix fun s hh => hb ?_
            rw [relabel_label, List.append_assoc, List.append_cancel_left_eq, List.cons_append, List.cons.injEq] at hh
            exact hh.1.symm
        cases bit
        · simp only [Bool.false_eq_true, if_false, Bool.not_false] at hl ⊢
          have ih := lookup_remove hs.2.2.1 hl r' hr'
          cases hr : a.remove r with
          | none =>
            rw [hr] at ih
            dsimp only at ih ⊢
            rw [hj]
            cases bit' <;> simp only [Bool.false_eq_true, if_false, if_true, false_and, true_and, reduceCtorEq]
            exact ih
          | some u =>
            rw [hr] at ih
            dsimp only at ih ⊢
            rw [lookup_fork]
            cases bit' <;> simp only [Bool.false_eq_true, if_false, if_true, false_and, true_and, reduceCtorEq]
            exact ih
        · simp only [if_true, Bool.not_true] at hl ⊢
          have ih := lookup_remove hs.2.2.2 hl r' hr'
          cases hr : b.remove r with
          | none =>
            rw [hr] at ih
            dsimp only at ih ⊢
            rw [hj]
            cases bit' <;> simp only [Bool.false_eq_true, if_false, if_true, false_and, true_and, reduceCtorEq]
            exact ih
          | some u =>
            rw [hr] at ih
            dsimp only at ih ⊢
            rw [lookup_fork]
            cases bit' <;> simp only [Bool.false_eq_true, if_false, if_true, false_and, true_and, reduceCtorEq]
            exact ih
      · rw [lookup_fork_none (fun b' r' hh => hq' ⟨b', r', hh⟩), if_neg (fun hh => hq' ⟨bit, r, hh⟩)]
        have hj : ∀ (u : Trie) (bb : Bool), (u.relabel (l ++ bb :: u.label) (l ++ bit :: r).length).lookup q = none := by
          intro u bb
          refine lookup_not_prefix fun s hh => hq' ⟨bb, u.label ++ s, ?_⟩
          rw [hh, relabel_label]; simp
        cases bit
        · simp only [Bool.false_eq_true, if_false]
          cases a.remove r with
          | none => exact hj _ _
          | some u => exact lookup_fork_none (fun b' r' hh => hq' ⟨b', r', hh⟩)
        · simp only [if_true]
          cases b.remove r with
          | none => exact hj _ _
          | some u => exact lookup_fork_none (fun b' r' hh => hq' ⟨b', r', hh⟩)
    · rw [lookup_fork_none (fun b' r' hh => hpre ⟨b', r', hh⟩)] at hl; cases hl

/-- A trie in canonical form is determined by its keys and values. -/
theorem canon_unique : ∀ {n : Nat} {t t' : Trie}, Sized n t → Sized n t' → Canon n t → Canon n t' →
    (∀ k, k.length = n → t.lookup k = t'.lookup k) → t = t'
  | n, leaf l e v, leaf l' e' v', h, h', c, c', hl => by
    have := hl l h.1
    rw [lookup_leaf, lookup_leaf, if_pos rfl] at this
    by_cases hh : l = l'
    · rw [if_pos hh] at this
      injection this with this
      have c : e = labelBits l n := c
      have c' : e' = labelBits l' n := c'
      rw [c, c', hh, this]
    · rw [if_neg hh] at this; cases this
  | n, leaf l e v, fork l' e' x a b, h, h', c, c', hl => by
    obtain ⟨k0, v0, hk0, hv0⟩ := exists_key h'.2.2.1
    obtain ⟨k1, v1, hk1, hv1⟩ := exists_key h'.2.2.2
    have hlt := h'.1
    have e0 := hl (l' ++ false :: k0) (by simp; omega)
    have e1 := hl (l' ++ true :: k1) (by simp; omega)
    rw [lookup_fork, lookup_leaf] at e0 e1
    simp only [Bool.false_eq_true, if_false, if_true] at e0 e1
    rw [hv0] at e0
    rw [hv1] at e1
    by_cases g0 : l' ++ false :: k0 = l
    · by_cases g1 : l' ++ true :: k1 = l
      · rw [← g0, List.append_cancel_left_eq, List.cons.injEq] at g1
        cases g1.1
      · rw [if_neg g1] at e1; cases e1
    · rw [if_neg g0] at e0; cases e0
  | n, fork l' e' x a b, leaf l e v, h', h, c', c, hl => by
    obtain ⟨k0, v0, hk0, hv0⟩ := exists_key h'.2.2.1
    obtain ⟨k1, v1, hk1, hv1⟩ := exists_key h'.2.2.2
    have hlt := h'.1
    have e0 := hl (l' ++ false :: k0) (by simp; omega)
    have e1 := hl (l' ++ true :: k1) (by simp; omega)
    rw [lookup_fork, lookup_leaf] at e0 e1
    simp only [Bool.false_eq_true, if_false, if_true] at e0 e1
    rw [hv0] at e0
    rw [hv1] at e1
    by_cases g0 : l' ++ false :: k0 = l
    · by_cases g1 : l' ++ true :: k1 = l
      · rw [← g0, List.append_cancel_left_eq, List.cons.injEq] at g1
        cases g1.1
      · rw [if_neg g1] at e1; cases e1
    · rw [if_neg g0] at e0; cases e0
  | n, fork l e x a b, fork l' e' x' a' b', h, h', c, c', hl => by
    have key : ∀ (l l' e e' : Bits) (x x' : Sl) (a b a' b' : Trie), Sized n (fork l e x a b) →
        (∀ k, k.length = n → (fork l e x a b).lookup k = (fork l' e' x' a' b').lookup k) → ∃ s, l = l' ++ s := by
      intro l l' e e' x x' a b a' b' h hl
      obtain ⟨k0, v0, hk0, hv0⟩ := exists_key h.2.2.1
      obtain ⟨k1, v1, hk1, hv1⟩ := exists_key h.2.2.2
      have hlt := h.1
      have e0 := hl (l ++ false :: k0) (by simp; omega)
      have e1 := hl (l ++ true :: k1) (by simp; omega)
      rw [lookup_fork] at e0 e1
      simp only [Bool.false_eq_true, if_false, if_true] at e0 e1
      rw [hv0] at e0
      rw [hv1] at e1
      obtain ⟨r0, g0⟩ := lookup_prefix e0.symm
      obtain ⟨r1, g1⟩ := lookup_prefix e1.symm
      have g0 : l ++ false :: k0 = l' ++ r0 := g0
      have g1 : l ++ true :: k1 = l' ++ r1 := g1
      rcases List.append_eq_append_iff.mp g0 with ⟨s, s1, s2⟩ | ⟨s, s1, s2⟩
      · cases s with
        | nil => exact ⟨[], by simpa using s1.symm⟩
        | cons s0 s =>
          rw [s1, List.append_assoc, List.append_cancel_left_eq] at g1
          rw [List.cons_append, List.cons.injEq] at s2 g1
          rw [← s2.1] at g1
          cases g1.1
      · exact ⟨s, s1⟩
    obtain ⟨s, hs⟩ := key l l' e e' x x' a b a' b' h hl
    obtain ⟨s', hs'⟩ := key l' l e' e x' x a' b' a b h' (fun k hk => (hl k hk).symm)
    have : l = l' := by
      have h1 := congrArg List.length hs
      have h2 := congrArg List.length hs'
      rw [List.length_append] at h1 h2
      have : s = [] := List.length_eq_zero_iff.mp (by omega)
      rw [hs, this, List.append_nil]
    subst this
    have ha : a = a' := canon_unique h.2.2.1 h'.2.2.1 c.2.2.1 c'.2.2.1 (fun k hk => by
      have h1 := h.1
      have := hl (l ++ false :: k) (by simp; omega)
      rw [lookup_fork, lookup_fork] at this
      exact this)
    have hb : b = b' := canon_unique h.2.2.2 h'.2.2.2 c.2.2.2 c'.2.2.2 (fun k hk => by
      have h1 := h.1
      have := hl (l ++ true :: k) (by simp; omega)
      rw [lookup_fork, lookup_fork] at this
      exact this)
    rw [ha, hb, c.1, c'.1, c.2.1, c'.2.1]

theorem canon_relabel {t : Trie} {n m : Nat} {l' : Bits} (h : Canon n t) (h1 : n - t.label.length = m - l'.length) :
    Canon m (t.relabel l' m) := by
  cases t with
  | leaf l e v => rfl
  | fork l e x a b =>
    have h1 : n - l.length = m - l'.length := h1
    refine ⟨rfl, h.2.1, ?_, ?_⟩
    · rw [← h1]; exact h.2.2.1
    · rw [← h1]; exact h.2.2.2

theorem canon_set : ∀ {n : Nat} {t : Trie} {k : Bits} (v : Sl), Sized n t → Canon n t → k.length = n → Canon n (t.set k v)
  | n, t, k, v, hs, hc, hk => by
    rcases key_cases hs hk with ⟨e, w, rfl⟩ | ⟨l, e, x, a, b, bit, r, rfl, h, hr⟩ | ⟨c, bit, l', k', h1, h2⟩
    · rw [set_leaf]
      show _ = _
      rw [hk]
    · rw [h, set_fork]
      refine ⟨hc.1, by rw [hc.2.1]; rfl, ?_, ?_⟩
      · cases bit
        · exact canon_set v hs.2.2.1 hc.2.2.1 hr
        · exact hc.2.2.1
      · cases bit
        · exact hc.2.2.2
        · exact canon_set v hs.2.2.2 hc.2.2.2 hr
    · rw [set_split v h1 h2]
      have hlen := hs.length_le
      rw [h1] at hlen
      have hkl : k.length = c.length + 1 + k'.length := by rw [h2]; simp; omega
      have hll : t.label.length = c.length + 1 + l'.length := by rw [h1]; simp; omega
      simp only [List.length_append, List.length_cons] at hlen
      have hm : n - c.length - 1 = k'.length := by omega
      have ho : Canon k'.length (t.relabel l' k'.length) := canon_relabel hc (by omega)
      have hn : Canon k'.length (mkLeaf k' v) := rfl
      rw [hk]
      refine ⟨rfl, rfl, ?_, ?_⟩
      all_goals
        rw [hm]
        cases bit <;> assumption
  termination_by n t => t
  decreasing_by all_goals (subst_vars; simp_wf; try omega)

theorem canon_remove : ∀ {n : Nat} {t t' : Trie} {k : Bits} {w : Sl}, Sized n t → Canon n t → t.lookup k = some w → t.remove k = some t' → Canon n t'
  | n, leaf l e v, t', k, w, hs, hc, hl, h => by cases h
  | n, fork l e x a b, t', k, w, hs, hc, hl, h => by
    have hkn := lookup_some_length hs hl
    by_cases hpre : ∃ bit' r', k = l ++ bit' :: r'
    · obtain ⟨bit, r, rfl⟩ := hpre
      rw [lookup_fork] at hl
      rw [remove_fork] at h
      injection h with h
      have h1 := hs.1
      have hj : ∀ (u : Trie) (bb : Bool), Sized (n - l.length - 1) u → Canon (n - l.length - 1) u → Canon n (u.relabel (l ++ bb :: u.label) (l ++ bit :: r).length) := by
        intro u bb hu huc
        rw [hkn]
        have := hu.length_le
        exact canon_relabel huc (by simp; omega)
      cases bit
      · simp only [Bool.false_eq_true, if_false] at hl h
        cases hr : a.remove r with
        | none => rw [hr] at h; dsimp only at h; rw [← h]; exact hj b _ hs.2.2.2 hc.2.2.2
        | some u => rw [hr] at h; dsimp only at h; rw [← h]; exact ⟨hc.1, by rw [hc.2.1]; rfl, canon_remove hs.2.2.1 hc.2.2.1 hl hr, hc.2.2.2⟩
      · simp only [if_true] at hl h
        cases hr : b.remove r with
        | none => rw [hr] at h; dsimp only at h; rw [← h]; exact hj a _ hs.2.2.1 hc.2.2.1
        | some u => rw [hr] at h; dsimp only at h; rw [← h]; exact ⟨hc.1, by rw [hc.2.1]; rfl, hc.2.2.1, canon_remove hs.2.2.2 hc.2.2.2 hl hr⟩
    · rw [lookup_fork_none (fun b' r' hh => hpre ⟨b', r', hh⟩)] at hl; cases hl

end Trie
end Verif
