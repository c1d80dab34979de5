import Verif.DictLemmas
import Verif.DictBuild
/-
Specification of augmented tries: every fork carries the extra that the comparator yields for its branches. An
ordinary dictionary is the special case without a comparator.
-/
set_option linter.unusedVariables false
set_option linter.unusedSimpArgs false
namespace Verif

/-- The extra of a fork from the contents of its branches; empty without a comparator (or where it fails). -/
def Comparator.get (cmp : Comparator) (a b : Sl) : Sl :=
  match cmp with
  | none => .empty
  | some f => match f a b with
    | .ok x => x
    | .error _ => .empty

namespace Trie

/-- What a comparator sees of a branch: extra and value of a leaf, the extra of a fork. -/
def ext : Trie → Sl
  | leaf l e v => v
  | fork l e x a b => x

/-- Shortest labels and right extras. -/
def CanonX (cmp : Comparator) : Nat → Trie → Prop
  | n, leaf l e v => e = labelBits l n
  | n, fork l e x a b => e = labelBits l n ∧ x = cmp.get a.ext b.ext ∧ CanonX cmp (n - l.length - 1) a ∧ CanonX cmp (n - l.length - 1) b

/-- All cells can be built and the comparator does not fail. -/
def Good (cmp : Comparator) (acc : Cell → Bool) : Trie → Prop
  | leaf l e v => okCell acc (leaf l e v).cell
  | fork l e x a b => okCell acc (fork l e x a b).cell ∧ (∀ f, cmp = some f → ∃ y, f a.ext b.ext = .ok y) ∧ a.Good cmp acc ∧ b.Good cmp acc

/-- A fork with the shortest label and the right extra. -/
def joinX (cmp : Comparator) (l : Bits) (n : Nat) (a b : Trie) : Trie := fork l (labelBits l n) (cmp.get a.ext b.ext) a b

/-- Without a comparator these are the notions for ordinary dictionaries. -/
theorem canonX_none : ∀ {n : Nat} {t : Trie}, t.CanonX none n ↔ t.Canon n
  | n, leaf l e v => Iff.rfl
  | n, fork l e x a b => by
    show (_ ∧ _ ∧ _ ∧ _) ↔ (_ ∧ _ ∧ _ ∧ _)
    rw [canonX_none (t := a), canonX_none (t := b)]
    rfl

theorem good_none {acc : Cell → Bool} : ∀ {t : Trie}, t.Good none acc ↔ t.Fits acc
  | leaf l e v => Iff.rfl
  | fork l e x a b => by
    show (_ ∧ _ ∧ _ ∧ _) ↔ (_ ∧ _ ∧ _)
    rw [good_none (t := a), good_none (t := b)]
    simp

theorem good_fits {cmp : Comparator} {acc : Cell → Bool} : ∀ {t : Trie}, t.Good cmp acc → t.Fits acc
  | leaf l e v, h => h
  | fork l e x a b, h => ⟨h.1, good_fits h.2.2.1, good_fits h.2.2.2⟩

/-- Forget the extras. -/
def plain : Trie → Trie
  | leaf l e v => leaf l e v
  | fork l e x a b => fork l e .empty a.plain b.plain

theorem plain_sized : ∀ {n : Nat} {t : Trie}, t.Sized n → t.plain.Sized n
  | n, leaf l e v, h => h
  | n, fork l e x a b, h => ⟨h.1, h.2.1, plain_sized h.2.2.1, plain_sized h.2.2.2⟩

theorem plain_canon {cmp : Comparator} : ∀ {n : Nat} {t : Trie}, t.CanonX cmp n → t.plain.Canon n
  | n, leaf l e v, h => h
  | n, fork l e x a b, h => ⟨h.1, rfl, plain_canon h.2.2.1, plain_canon h.2.2.2⟩

theorem plain_lookup : ∀ (t : Trie) (k : Bits), t.plain.lookup k = t.lookup k
  | leaf l e v, k => rfl
  | fork l e x a b, k => by
    show (fork l e .empty a.plain b.plain).lookup k = _
    unfold lookup
    cases stripPrefix l k with
    | none => rfl
    | some r => cases r with
      | nil => rfl
      | cons c r => cases c <;> simp only [plain_lookup]

theorem plain_inj {cmp : Comparator} : ∀ {n : Nat} {t t' : Trie}, t.CanonX cmp n → t'.CanonX cmp n → t.plain = t'.plain → t = t'
  | n, leaf l e v, leaf l' e' v', _, _, h => h
  | n, leaf l e v, fork .., _, _, h => by cases h
  | n, fork .., leaf l e v, _, _, h => by cases h
  | n, fork l e x a b, fork l' e' x' a' b', h1, h2, h => by
    have h : fork l e .empty a.plain b.plain = fork l' e' .empty a'.plain b'.plain := h
    injection h with i1 i2 i3 i4 i5
    subst i1 i2
    have ha := plain_inj h1.2.2.1 h2.2.2.1 i4
    have hb := plain_inj h1.2.2.2 h2.2.2.2 i5
    subst ha hb
    rw [h1.2.1, h2.2.1]

/-- An augmented trie is determined by its keys and values, too. -/
theorem canonX_unique {cmp : Comparator} {n : Nat} {t t' : Trie} (h : t.Sized n) (h' : t'.Sized n) (c : t.CanonX cmp n) (c' : t'.CanonX cmp n)
    (hl : ∀ k, k.length = n → t.lookup k = t'.lookup k) : t = t' :=
  plain_inj c c' (canon_unique (plain_sized h) (plain_sized h') (plain_canon c) (plain_canon c')
    (fun k hk => by rw [plain_lookup, plain_lookup]; exact hl k hk))

theorem canonX_relabel {cmp : Comparator} {t : Trie} {n m : Nat} {l' : Bits} (h : t.CanonX cmp n) (h1 : n - t.label.length = m - l'.length) :
    (t.relabel l' m).CanonX cmp m := by
  cases t with
  | leaf l e v => exact rfl
  | fork l e x a b =>
    have h1 : n - l.length = m - l'.length := h1
    refine ⟨rfl, h.2.1, ?_, ?_⟩
    · have := h.2.2.1; rw [h1] at this; exact this
    · have := h.2.2.2; rw [h1] at this; exact this

theorem canonX_relabel_self {cmp : Comparator} {t : Trie} {n : Nat} (h : t.CanonX cmp n) : t.relabel t.label n = t := by
  cases t with
  | leaf l e v =>
    have h : e = labelBits l n := h
    rw [h]; rfl
  | fork l e x a b =>
    have h : e = labelBits l n := h.1
    rw [h]; rfl

theorem relabel_relabel (t : Trie) (l l' : Bits) (n n' : Nat) : (t.relabel l n).relabel l' n' = t.relabel l' n' := by cases t <;> rfl

theorem relabel_ext (t : Trie) (l : Bits) (n : Nat) : (t.relabel l n).ext = t.ext := by cases t <;> rfl

/-- A relabelled trie is good if its root cell can be built. -/
theorem good_relabel {cmp : Comparator} {acc : Cell → Bool} {t : Trie} {l : Bits} {n : Nat} (h : t.Good cmp acc) :
    (t.relabel l n).Good cmp acc ↔ okCell acc (t.relabel l n).cell := by
  cases t with
  | leaf l' e v => exact Iff.rfl
  | fork l' e x a b => exact ⟨fun hh => hh.1, fun hh => ⟨hh, h.2⟩⟩

theorem good_cell {cmp : Comparator} {acc : Cell → Bool} {t : Trie} (h : t.Good cmp acc) : okCell acc t.cell := by
  cases t with
  | leaf l e v => exact h
  | fork l e x a b => exact h.1

end Trie

/-- The root `d` is the canonical (augmented) dictionary of the map `m`. -/
def RepresentsX (cmp : Comparator) (acc : Cell → Bool) (n : Nat) (d : Option Cell) (m : Bits → Option Sl) : Prop :=
  match d with
  | none => ∀ k, k.length = n → m k = none
  | some c => ∃ t : Trie, t.Sized n ∧ t.CanonX cmp n ∧ t.Good cmp acc ∧ c = t.cell ∧ ∀ k, k.length = n → m k = t.lookup k

end Verif
