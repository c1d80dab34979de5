import Verif.DictSplit
import Verif.DictBuildLemmas
import Verif.DictBuildProps
/-
Splitting and merging of dictionaries at trie level.
-/
set_option linter.unusedVariables false
set_option linter.unusedSimpArgs false
namespace Verif

theorem stripPrefix_none {p k : Bits} : stripPrefix p k = none ↔ ¬ p <+: k := by
  constructor
  · rintro h ⟨r, rfl⟩
    rw [stripPrefix_append] at h; cases h
  · intro h
    cases hs : stripPrefix p k with
    | none => rfl
    | some r => exact absurd ⟨r, (stripPrefix_some.mp hs).symm⟩ h

namespace Trie

/-- Every key starts with the label. -/
theorem label_prefix {t : Trie} {k : Bits} {v : Sl} (h : t.lookup k = some v) : t.label <+: k := by
  cases t with
  | leaf l e w =>
    rw [lookup_leaf] at h
    by_cases hk : k = l
    · rw [hk]; exact List.prefix_refl _
    · rw [if_neg hk] at h; cases h
  | fork l e x a b =>
    by_cases hk : ∃ bit r, k = l ++ bit :: r
    · obtain ⟨bit, r, rfl⟩ := hk
      exact List.prefix_append _ _
    · rw [lookup_fork_none (fun bit r hh => hk ⟨bit, r, hh⟩)] at h; cases h

/-- A common prefix of all keys is a prefix of the label. -/
theorem prefix_label {n : Nat} {t : Trie} (hs : t.Sized n) {p : Bits} (h : ∀ k, t.lookup k ≠ none → p <+: k) : p <+: t.label := by
  cases t with
  | leaf l e v => exact h l (by rw [lookup_leaf, if_pos rfl]; simp)
  | fork l e x a b =>
    obtain ⟨ka, va, _, ha⟩ := exists_key hs.2.2.1
    obtain ⟨kb, vb, _, hb⟩ := exists_key hs.2.2.2
    have h1 := h (l ++ false :: ka) (by rw [lookup_fork]; simp [ha])
    have h2 := h (l ++ true :: kb) (by rw [lookup_fork]; simp [hb])
    show p <+: l
    by_cases hp : p.length ≤ l.length
    · exact List.prefix_of_prefix_length_le h1 (List.prefix_append _ _) hp
    · have hp' : (l ++ [false]).length ≤ p.length := by simp; omega
      have e1 : l ++ [false] <+: p := List.prefix_of_prefix_length_le (by exact ⟨ka, by simp⟩) h1 hp'
      have e2 : l ++ [true] <+: p := List.prefix_of_prefix_length_le (by exact ⟨kb, by simp⟩) h2 (by simp at hp' ⊢; omega)
      obtain ⟨r1, hr1⟩ := e1
      obtain ⟨r2, hr2⟩ := e2
      rw [← hr1, List.append_assoc, List.append_assoc, List.append_cancel_left_eq] at hr2
      cases hr2

/-- A trie relabelled with a longer label holds the same entries below the added prefix. -/
theorem lookup_extend (t : Trie) (p : Bits) (n : Nat) (k : Bits) : (t.relabel (p ++ t.label) n).lookup k = match stripPrefix p k with
    | some r => t.lookup r
    | none => none := by
  cases hs : stripPrefix p k with
  | some r =>
    rw [stripPrefix_some.mp hs]
    exact lookup_relabel' t p n r
  | none =>
    have hn := stripPrefix_none.mp hs
    cases hl : (t.relabel (p ++ t.label) n).lookup k with
    | none => rfl
    | some v =>
      have := label_prefix hl
      rw [relabel_label] at this
      exact absurd ((List.prefix_append p t.label).trans this) hn

theorem sized_extend {t : Trie} {n m : Nat} {p : Bits} (h : t.Sized n) (hm : m = n + p.length) : (t.relabel (p ++ t.label) m).Sized m := by
  have := h.length_le
  exact sized_relabel h (by rw [List.length_append]; omega) (by rw [List.length_append]; omega)

theorem canonX_extend {cmp : Comparator} {t : Trie} {n m : Nat} {p : Bits} (hs : t.Sized n) (h : t.CanonX cmp n) (hm : m = n + p.length) :
    (t.relabel (p ++ t.label) m).CanonX cmp m := by
  have := hs.length_le
  exact canonX_relabel h (by rw [List.length_append]; omega)

end Trie

theorem rebuildBranch_spec (acc : Cell → Bool) {n sub : Nat} (hn : n ≤ 1023) {p : Bits} (bit : Bool) {t : Trie} (hs : t.Sized sub) (hsub : n = sub + (p.length + 1)) :
    Builds acc (rebuildBranch acc n p sub bit (some t.cell)) (t.relabel (p ++ bit :: t.label) n).cell := by
  have hr : rebuildBranch acc n p sub bit (some t.cell) = makeLeaf acc (p ++ bit :: t.label) n t.body := by
    show (asSlice t.cell >>= fun branch => readLabel branch sub >>= fun x =>
      if 1023 < (p ++ bit :: x.1).length then .error .cellOverflow else makeLeaf acc (p ++ bit :: x.1) n x.2) = _
    rw [asSlice_cell]
    show (readLabel ⟨t.cell.bits, t.cell.refs⟩ sub >>= _) = _
    rw [readLabel_cell hs (by omega)]
    show (if 1023 < (p ++ bit :: t.label).length then _ else _) = _
    rw [if_neg (by have := hs.length_le; simp; omega)]
  rw [hr, relabel_cell]
  exact makeLeaf_builds acc _ _ (by omega)

end Verif
