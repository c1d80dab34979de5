import Verif.DictBuildTrie
import Verif.DictSplitLemmas
/-
The merge stack of `dict/ops/build.rs` with pieces of an existing dictionary on it: what the stack of pieces, pushed
in ascending order, is merged to. Used for the bulk modification (`dict/ops/modify.rs`).
-/
set_option linter.unusedVariables false
set_option linter.unusedSimpArgs false
namespace Verif

/-- The two bit strings part, with a 0 in the first and a 1 in the second. -/
def Before (p q : Bits) : Prop := ∃ c p' q', p = c ++ false :: p' ∧ q = c ++ true :: q'

theorem Before.ext {p q p' q' : Bits} (h : Before p q) (hp : p <+: p') (hq : q <+: q') : Before p' q' := by
  obtain ⟨c, a, b, rfl, rfl⟩ := h
  obtain ⟨r, rfl⟩ := hp
  obtain ⟨s, rfl⟩ := hq
  exact ⟨c, a ++ r, b ++ s, by simp, by simp⟩

theorem before_cons {x y : Bool} {p q : Bits} : Before (x :: p) (y :: q) ↔ (x = false ∧ y = true) ∨ (x = y ∧ Before p q) := by
  constructor
  · rintro ⟨c, a, b, h1, h2⟩
    cases c with
    | nil =>
      injection h1 with h1 h1'
      injection h2 with h2 h2'
      exact Or.inl ⟨h1, h2⟩
    | cons z c =>
      injection h1 with h1 h1'
      injection h2 with h2 h2'
      exact Or.inr ⟨h1.trans h2.symm, c, a, b, h1', h2'⟩
  · rintro (⟨rfl, rfl⟩ | ⟨rfl, c, a, b, rfl, rfl⟩)
    · exact ⟨[], p, q, rfl, rfl⟩
    · exact ⟨x :: c, a, b, rfl, rfl⟩

theorem not_before_nil_left (q : Bits) : ¬ Before [] q := by
  rintro ⟨c, a, b, h1, h2⟩
  cases c <;> cases h1

theorem not_before_nil_right (q : Bits) : ¬ Before q [] := by
  rintro ⟨c, a, b, h1, h2⟩
  cases c <;> cases h2

theorem Before.trans : ∀ {p q r : Bits}, Before p q → Before q r → Before p r
  | [], _, _, h, _ => absurd h (not_before_nil_left _)
  | _ :: _, [], _, h, _ => absurd h (not_before_nil_right _)
  | _ :: _, _ :: _, [], _, h => absurd h (not_before_nil_right _)
  | x :: p, y :: q, z :: r, h, h' => by
    rw [before_cons] at *
    rcases h with ⟨rfl, rfl⟩ | ⟨rfl, h⟩
    · rcases h' with ⟨h1, h2⟩ | ⟨rfl, h'⟩
      · cases h1
      · exact Or.inl ⟨rfl, rfl⟩
    · rcases h' with h1 | ⟨rfl, h'⟩
      · exact Or.inl h1
      · exact Or.inr ⟨rfl, h.trans h'⟩

theorem Before.irrefl (p : Bits) : ¬ Before p p := by
  induction p with
  | nil => exact not_before_nil_left _
  | cons x p ih =>
    rw [before_cons]
    rintro (⟨rfl, h⟩ | ⟨_, h⟩)
    · cases h
    · exact ih h

theorem Before.not_prefix {p q k : Bits} (h : Before p q) (h1 : p <+: k) (h2 : q <+: k) : False := Before.irrefl k (h.ext h1 h2)

theorem before_siblings (p : Bits) (r r' : Bits) : Before (p ++ false :: r) (p ++ true :: r') := ⟨p, r, r', rfl, rfl⟩

/-- Where two strings part. -/
theorem Before.at {p q : Bits} (h : Before p q) : commonPrefixLen p q < p.length ∧ commonPrefixLen p q < q.length ∧
    p[commonPrefixLen p q]? = some false ∧ q[commonPrefixLen p q]? = some true ∧ p.take (commonPrefixLen p q) = q.take (commonPrefixLen p q) := by
  obtain ⟨c, a, b, rfl, rfl⟩ := h
  have := commonPrefixLen_split c false b a
  rw [show (!false) = true from rfl] at this
  rw [this]
  refine ⟨by simp, by simp, by simp, by simp, by simp⟩

theorem before_of_lt {a b : Bits} (hl : a.length = b.length) (h : lexBits a b = .lt) : Before a b := by
  obtain ⟨h1, h2, h3, h4⟩ := lexBits_lt_div hl h
  generalize commonPrefixLen a b = d at *
  refine ⟨a.take d, a.drop (d + 1), b.drop (d + 1), ?_, ?_⟩
  · have := List.take_append_drop (d + 1) a
    rw [take_succ_of h2, List.append_assoc] at this
    exact this.symm
  · have := List.take_append_drop (d + 1) b
    rw [take_succ_of h3, List.append_assoc, ← h4] at this
    exact this.symm

/-- What lies between something below the sibling and a node, lies below the sibling. -/
theorem Before.between {c y z : Bits} (h1 : Before (c ++ false :: y) z) (h2 : Before z (c ++ [true])) : c ++ [false] <+: z := by
  induction c generalizing z with
  | nil =>
    cases z with
    | nil => exact absurd h1 (not_before_nil_right _)
    | cons x z =>
      rw [List.nil_append, before_cons] at h2
      rcases h2 with ⟨rfl, _⟩ | ⟨_, h⟩
      · exact ⟨z, rfl⟩
      · exact absurd h (not_before_nil_right _)
  | cons a c ih =>
    cases z with
    | nil => exact absurd h1 (not_before_nil_right _)
    | cons x z =>
      rw [List.cons_append, before_cons] at h1 h2
      rcases h1 with ⟨rfl, rfl⟩ | ⟨rfl, h1⟩
      · rcases h2 with ⟨h, _⟩ | ⟨h, _⟩ <;> cases h
      · rcases h2 with ⟨rfl, h⟩ | ⟨_, h2⟩
        · cases h
        · obtain ⟨s, hs⟩ := ih h1 h2
          exact ⟨s, by rw [List.cons_append, List.cons_append, hs]⟩

theorem Before.between' {c y z : Bits} (h1 : Before (c ++ [false]) z) (h2 : Before z (c ++ true :: y)) : c ++ [true] <+: z := by
  induction c generalizing z with
  | nil =>
    cases z with
    | nil => exact absurd h1 (not_before_nil_right _)
    | cons x z =>
      rw [List.nil_append, before_cons] at h1
      rcases h1 with ⟨_, rfl⟩ | ⟨_, h⟩
      · exact ⟨z, rfl⟩
      · exact absurd h (not_before_nil_left _)
  | cons a c ih =>
    cases z with
    | nil => exact absurd h1 (not_before_nil_right _)
    | cons x z =>
      rw [List.cons_append, before_cons] at h1 h2
      rcases h1 with ⟨rfl, rfl⟩ | ⟨rfl, h1⟩
      · rcases h2 with ⟨h, _⟩ | ⟨h, _⟩ <;> cases h
      · rcases h2 with ⟨rfl, h⟩ | ⟨_, h2⟩
        · cases h
        · obtain ⟨s, hs⟩ := ih h1 h2
          exact ⟨s, by rw [List.cons_append, List.cons_append, hs]⟩

/-! ### Pieces -/

/-- What is pushed: an entry, a subtree as it is (it must stay a branch of a fork just above it), or a subtree that may
get another label. `p` is what precedes the label of the subtree. -/
inductive Piece
  | leaf (key : Bits) (v : Sl)
  | node (p : Bits) (t : Trie)
  | flat (p : Bits) (t : Trie)

namespace Piece

/-- The prefix the merge stack keeps. -/
def q : Piece → Bits
  | leaf key _ => key
  | node p _ => p
  | flat p t => p ++ t.label

def look : Piece → Bits → Option Sl
  | leaf key v, k => if k = key then some v else none
  | node p t, k | flat p t, k => lk p t k

/-- The node for the piece when cut at bit `o`. -/
def R (n : Nat) : Piece → Nat → Trie
  | leaf key v, o => leafAt n key v o
  | node p t, o => t.relabel (p.drop o ++ t.label) (n - o)
  | flat p t, o => t.relabel ((p ++ t.label).drop o) (n - o)

def Rigid : Piece → Prop
  | node _ _ => True
  | _ => False

/-- A part of a canonical dictionary. -/
structure PartOf (cmp : Comparator) (acc : Cell → Bool) (n : Nat) (p : Bits) (t : Trie) : Prop where
  len : p.length ≤ n
  sized : t.Sized (n - p.length)
  canon : t.CanonX cmp (n - p.length)
  good : t.Good cmp acc

def Ok (cmp : Comparator) (acc : Cell → Bool) (n : Nat) : Piece → Prop
  | leaf key _ => key.length = n
  | node p t => PartOf cmp acc n p t
  | flat p t => PartOf cmp acc n p t

theorem q_len {cmp : Comparator} {acc : Cell → Bool} {n : Nat} {x : Piece} (h : x.Ok cmp acc n) : x.q.length ≤ n := by
  cases x with
  | leaf key v => exact Nat.le_of_eq h
  | node p t => exact h.len
  | flat p t =>
    have := h.sized.length_le
    have := h.len
    show (p ++ t.label).length ≤ n
    rw [List.length_append]; omega

end Piece

theorem lk_extend (t : Trie) (p s : Bits) (m : Nat) (k : Bits) : lk p (t.relabel (s ++ t.label) m) k = lk (p ++ s) t k := by
  unfold lk
  rw [stripPrefix_append_left]
  cases stripPrefix p k with
  | none => rfl
  | some r =>
    show (t.relabel (s ++ t.label) m).lookup r = _
    rw [Trie.lookup_extend]
    cases h : stripPrefix s r <;> simp [h]

theorem lk_cut (t : Trie) (p x y : Bits) (m : Nat) (h : t.label = x ++ y) (k : Bits) : lk (p ++ x) (t.relabel y m) k = lk p t k := by
  unfold lk
  rw [stripPrefix_append_left]
  cases stripPrefix p k with
  | none => rfl
  | some r =>
    show (match stripPrefix x r with | some r => (t.relabel y m).lookup r | none => none) = t.lookup r
    cases hs : stripPrefix x r with
    | some r' =>
      rw [stripPrefix_some.mp hs]
      exact Trie.lookup_relabel t x y m h r'
    | none =>
      refine (Trie.lookup_not_prefix fun r' hr => ?_).symm
      rw [h, List.append_assoc] at hr
      rw [hr, stripPrefix_append] at hs
      cases hs

theorem lk_prefix {p : Bits} {t : Trie} {k : Bits} (h : (lk p t k).isSome) : p ++ t.label <+: k := by
  unfold lk at h
  cases hs : stripPrefix p k with
  | none => rw [hs] at h; cases h
  | some r =>
    rw [hs] at h
    have h : (t.lookup r).isSome := h
    cases hl : t.lookup r with
    | none => rw [hl] at h; cases h
    | some v =>
      obtain ⟨r', hr⟩ := Trie.lookup_prefix hl
      rw [stripPrefix_some.mp hs, hr]
      exact ⟨r', by simp⟩

namespace Piece

/-- Keys of a piece are below its prefix. -/
theorem look_prefix {x : Piece} {k : Bits} (h : (x.look k).isSome) : x.q <+: k := by
  cases x with
  | leaf key v =>
    have h : (if k = key then some v else none).isSome := h
    by_cases hk : k = key
    · subst hk; exact List.prefix_refl _
    · rw [if_neg hk] at h; cases h
  | node p t => exact (List.prefix_append p t.label).trans (lk_prefix h)
  | flat p t => exact lk_prefix h

theorem R_ok {cmp : Comparator} {acc : Cell → Bool} {n : Nat} {x : Piece} (h : x.Ok cmp acc n) (o : Nat) (ho : o ≤ x.q.length) :
    (x.R n o).Sized (n - o) ∧ (x.R n o).CanonX cmp (n - o) ∧ ∀ k, lk (x.q.take o) (x.R n o) k = x.look k := by
  cases x with
  | leaf key v => exact leafAt_ok cmp n key v h o ho
  | node p t =>
    have ho : o ≤ p.length := ho
    have h : PartOf cmp acc n p t := h
    have hlen := h.len
    have hm : n - o = (n - p.length) + (p.drop o).length := by rw [List.length_drop]; omega
    refine ⟨Trie.sized_extend h.sized hm, Trie.canonX_extend h.sized h.canon hm, fun k => ?_⟩
    show lk (p.take o) (t.relabel (p.drop o ++ t.label) (n - o)) k = lk p t k
    rw [lk_extend, List.take_append_drop]
  | flat p t =>
    have ho : o ≤ (p ++ t.label).length := ho
    have h : PartOf cmp acc n p t := h
    have hlen := h.len
    have hle := h.sized.length_le
    rw [List.length_append] at ho
    refine ⟨Trie.sized_relabel h.sized ?_ ?_, Trie.canonX_relabel h.canon ?_, fun k => ?_⟩
    · rw [List.length_drop, List.length_append]; omega
    · rw [List.length_drop, List.length_append]; omega
    · rw [List.length_drop, List.length_append]; omega
    · show lk ((p ++ t.label).take o) (t.relabel ((p ++ t.label).drop o) (n - o)) k = lk p t k
      by_cases hp : o ≤ p.length
      · rw [List.drop_append_of_le_length hp, List.take_append_of_le_length hp, lk_extend, List.take_append_drop]
      · have e1 : (p ++ t.label).take o = p ++ t.label.take (o - p.length) := by
          rw [List.take_append, List.take_of_length_le (by omega)]
        have e2 : (p ++ t.label).drop o = t.label.drop (o - p.length) := by
          rw [List.drop_append, List.drop_eq_nil_of_le (by omega), List.nil_append]
        rw [e1, e2]
        exact lk_cut t p _ _ _ (List.take_append_drop _ _).symm k

/-- Where the label of a cell ends. -/
def labelEnd (t : Trie) : Nat := t.cell.bits.length - t.body.bits.length

def nodeExt (cmp : Comparator) (n : Nat) (t : Trie) : Nat × Bool :=
  match cmp with
  | none => (0, false)
  | some _ => (labelEnd t, t.label.length == n)

/-- The item of the merge stack for a piece. -/
def item (cmp : Comparator) (n prev : Nat) : Piece → MItem
  | leaf key v => .leaf key v prev
  | node p t => .node p t.cell (nodeExt cmp (n - p.length) t) prev
  | flat p t => .denorm (p ++ t.label) t.cell (labelEnd t) (t.label.length == n - p.length) prev

theorem item_pfx (cmp : Comparator) (n prev : Nat) (x : Piece) : (x.item cmp n prev).pfx = x.q := by cases x <;> rfl
theorem item_prev (cmp : Comparator) (n prev : Nat) (x : Piece) : (x.item cmp n prev).prev = prev := by cases x <;> rfl

theorem cell_bits (t : Trie) : ∃ e, t.cell.bits = e ++ t.body.bits ∧ e.length = labelEnd t := by
  cases t with
  | leaf l e v => exact ⟨e, rfl, by simp [labelEnd, Trie.cell, Trie.body, Cell.bits]⟩
  | fork l e x a b => exact ⟨e, rfl, by simp [labelEnd, Trie.cell, Trie.body, Cell.bits]⟩

theorem skip_label (t : Trie) : (asSlice t.cell >>= fun s => s.skip (labelEnd t) 0) = .ok t.body := by
  rw [asSlice_cell]
  show Sl.skip _ _ _ = _
  unfold Sl.skip
  obtain ⟨e, h1, h2⟩ := cell_bits t
  have hr : t.cell.refs = t.body.refs := by cases t <;> rfl
  rw [if_neg (by simp only [h1, List.length_append]; omega)]
  simp only [h1, hr, ← h2, List.drop_left, List.drop_zero]

theorem isLeaf_refs {n : Nat} {t : Trie} (h : t.Sized n) : (if (t.label.length == n) = true then 0 else 2) = (match t with | .leaf .. => 0 | .fork .. => 2) := by
  cases t with
  | leaf l e v =>
    have : l.length = n := h.1
    show (if (l.length == n) = true then 0 else 2) = 0
    rw [if_pos (by simp [this])]
  | fork l e x a b =>
    have : l.length < n := h.1
    show (if (l.length == n) = true then 0 else 2) = 2
    rw [if_neg (by simp; omega)]

theorem skip_node {n : Nat} {t : Trie} (h : t.Sized n) :
    (asSlice t.cell >>= fun s => s.skip (labelEnd t) (if (t.label.length == n) = true then 0 else 2)) = .ok t.ext := by
  rw [isLeaf_refs h, asSlice_cell]
  show Sl.skip _ _ _ = _
  unfold Sl.skip
  cases t with
  | leaf l e v =>
    rw [if_neg (by simp [labelEnd, Trie.cell, Trie.body, Cell.bits])]
    simp [labelEnd, Trie.cell, Trie.body, Cell.bits, Cell.refs, Trie.ext]
  | fork l e x a b =>
    rw [if_neg (by simp [labelEnd, Trie.cell, Trie.body, Cell.bits, Cell.refs])]
    simp [labelEnd, Trie.cell, Trie.body, Cell.bits, Cell.refs, Trie.ext]

/-- The item of a piece is the right branch wherever it may be cut. -/
theorem itemAs (cmp : Comparator) (acc : Cell → Bool) {n : Nat} (hn : n ≤ 1023) {x : Piece} (h : x.Ok cmp acc n) (prev e : Nat) (he : e < x.q.length)
    (hr : x.Rigid → e + 1 = x.q.length) : ItemAs cmp acc n (x.item cmp n prev) e (x.R n (e + 1)) := by
  cases x with
  | leaf key v =>
    have := itemAs_leaf cmp acc hn key v prev e he
    show ItemAs cmp acc n _ e (leafAt n key v (e + 1))
    unfold leafAt
    rw [show n - (e + 1) = n - e - 1 by omega]
    exact this
  | node p t =>
    have hr : e + 1 = p.length := hr trivial
    have h : PartOf cmp acc n p t := h
    have hR : R n (node p t) (e + 1) = t := by
      show t.relabel (p.drop (e + 1) ++ t.label) (n - (e + 1)) = t
      rw [hr, List.drop_length, List.nil_append]
      exact Trie.canonX_relabel_self h.canon
    rw [hR]
    cases cmp with
    | none => exact itemAs_node none acc h.good p 0 false prev (fun f hf => by cases hf)
    | some f => exact itemAs_node (some f) acc h.good p (labelEnd t) _ prev (fun f hf => skip_node h.sized)
  | flat p t =>
    have h : PartOf cmp acc n p t := h
    have he : e < (p ++ t.label).length := he
    obtain ⟨h1, h2⟩ := buildLabeled_spec acc ((p ++ t.label).drop (e + 1)) (n := n - e - 1) t.body (by omega)
    have hb : (item cmp n prev (flat p t)).branch acc e (n - e - 1) =
        (buildLabeled acc ((p ++ t.label).drop (e + 1)) (n - e - 1) t.body >>= fun x => Except.ok (x.1, x.2, if (t.label.length == n - p.length) = true then 0 else 2)) := by
      have h0 : (item cmp n prev (flat p t)).branch acc e (n - e - 1) = ((asSlice t.cell >>= fun s => s.skip (labelEnd t) 0) >>= fun data =>
          buildLabeled acc ((p ++ t.label).drop (e + 1)) (n - e - 1) data >>= fun x => Except.ok (x.1, x.2, if (t.label.length == n - p.length) = true then 0 else 2)) := by
        refine Eq.trans (if_neg (by omega)) ?_
        rw [asSlice_cell]; rfl
      rw [h0, skip_label]; rfl
    have hc : (R n (flat p t) (e + 1)).cell = .mk false (labelBits ((p ++ t.label).drop (e + 1)) (n - e - 1) ++ t.body.bits) t.body.refs := by
      show (t.relabel ((p ++ t.label).drop (e + 1)) (n - (e + 1))).cell = _
      rw [relabel_cell, show n - (e + 1) = n - e - 1 by omega]
    have hg : (R n (flat p t) (e + 1)).Good cmp acc ↔ okCell acc (R n (flat p t) (e + 1)).cell := Trie.good_relabel h.good
    unfold ItemAs
    rw [hb, hg, hc]
    refine ⟨fun hh => ?_, fun hh => ?_⟩
    · rw [h1 hh]
      refine ⟨_, _, rfl, fun f _ => ?_⟩
      rw [← hc]
      have := skip_ext ((p ++ t.label).drop (e + 1)) (n - e - 1) t _ (isLeaf_refs h.sized)
      show (asSlice (t.relabel ((p ++ t.label).drop (e + 1)) (n - (e + 1))).cell >>= _) = .ok (t.relabel _ _).ext
      rw [Trie.relabel_ext, show n - (e + 1) = n - e - 1 by omega]
      exact this
    · obtain ⟨er, her⟩ := h2 hh
      rw [her]; exact ⟨er, rfl⟩

/-- A single piece is the whole dictionary. -/
theorem item_build (cmp : Comparator) (acc : Cell → Bool) {n : Nat} (hn : n ≤ 1023) {x : Piece} (h : x.Ok cmp acc n) (prev : Nat) (hr : ¬ x.Rigid) :
    ((x.R n 0).Good cmp acc → (x.item cmp n prev).build acc n = .ok (x.R n 0).cell) ∧
    (¬ (x.R n 0).Good cmp acc → ∃ e, (x.item cmp n prev).build acc n = .error e) := by
  cases x with
  | leaf key v =>
    have hb := buildLabeled_spec acc key (n := n) v (by omega)
    have hbuild : (MItem.leaf key v prev).build acc n = (buildLabeled acc key n v >>= fun x => .ok x.1) := rfl
    have hcell : (leafAt n key v 0).Good cmp acc ↔ okCell acc (.mk false (labelBits key n ++ v.bits) v.refs) := by
      unfold leafAt
      rw [List.drop_zero, Nat.sub_zero]
      exact Iff.rfl
    have hcell' : (leafAt n key v 0).cell = .mk false (labelBits key n ++ v.bits) v.refs := by
      unfold leafAt
      rw [List.drop_zero, Nat.sub_zero]
      rfl
    show ((leafAt n key v 0).Good cmp acc → (MItem.leaf key v prev).build acc n = .ok (leafAt n key v 0).cell) ∧
      (¬ (leafAt n key v 0).Good cmp acc → ∃ e, (MItem.leaf key v prev).build acc n = .error e)
    rw [hbuild, hcell']
    refine ⟨fun hg => ?_, fun hg => ?_⟩
    · rw [hb.1 (hcell.mp hg)]; rfl
    · obtain ⟨e, he⟩ := hb.2 (fun h => hg (hcell.mpr h))
      rw [he]; exact ⟨e, rfl⟩
  | node p t => exact absurd trivial hr
  | flat p t =>
    have h : PartOf cmp acc n p t := h
    have hb : (item cmp n prev (flat p t)).build acc n = makeLeaf acc (p ++ t.label) n t.body := by
      show (asSlice t.cell >>= fun data => data.skip (labelEnd t) 0 >>= fun data => makeLeaf acc (p ++ t.label) n data) = _
      have := skip_label t
      rw [asSlice_cell] at this ⊢
      have this : Sl.skip ⟨t.cell.bits, t.cell.refs⟩ (labelEnd t) 0 = .ok t.body := this
      show (Sl.skip ⟨t.cell.bits, t.cell.refs⟩ (labelEnd t) 0 >>= _) = _
      rw [this]; rfl
    have hc : (R n (flat p t) 0).cell = .mk false (labelBits (p ++ t.label) n ++ t.body.bits) t.body.refs := by
      show (t.relabel ((p ++ t.label).drop 0) (n - 0)).cell = _
      rw [relabel_cell, List.drop_zero, Nat.sub_zero]
    have hg : (R n (flat p t) 0).Good cmp acc ↔ okCell acc (R n (flat p t) 0).cell := Trie.good_relabel h.good
    obtain ⟨m1, m2⟩ := makeLeaf_builds acc (p ++ t.label) (n := n) t.body (by omega)
    rw [hb, hg, hc]
    exact ⟨m1, m2⟩

end Piece

/-! ### The stack -/

/-- The piece on top and the closed left branches on the way to it. -/
structure PState where
  top : Piece
  sp : List (Nat × Trie)

namespace PState

def trie (cmp : Comparator) (n : Nat) (s : PState) : Trie := closeDown cmp n s.top.q 0 s.sp (s.top.R n)

def look (s : PState) : Bits → Option Sl := spLook s.top.q s.sp s.top.look

def push (cmp : Comparator) (n : Nat) (s : PState) (x : Piece) : PState :=
  let d := commonPrefixLen s.top.q x.q
  ⟨x, (d, closeDown cmp n s.top.q (d + 1) (above d s.sp) (s.top.R n)) :: below d s.sp⟩

structure Ok (cmp : Comparator) (acc : Cell → Bool) (n : Nat) (s : PState) : Prop where
  top : s.top.Ok cmp acc n
  dec : s.sp.Pairwise (fun p p' => p'.1 < p.1)
  ok : ∀ p ∈ s.sp, p.1 < s.top.q.length ∧ s.top.q[p.1]? = some true ∧ p.2.Sized (n - p.1 - 1) ∧ p.2.CanonX cmp (n - p.1 - 1)

theorem Ok.trie {cmp : Comparator} {acc : Cell → Bool} {n : Nat} {s : PState} (h : s.Ok cmp acc n) :
    (s.trie cmp n).Sized n ∧ (s.trie cmp n).CanonX cmp n ∧ ∀ k, (s.trie cmp n).lookup k = s.look k :=
  closeDown_spec cmp n s.top.q 0 (Nat.zero_le _) (Piece.q_len h.top) s.sp (s.top.R n) s.top.look s.top.q.length h.dec
    (fun p hp => ⟨Nat.zero_le _, h.ok p hp⟩) (Nat.zero_le _) (Nat.le_refl _) (fun o ho => Piece.R_ok h.top o ho)

theorem Ok.push {cmp : Comparator} {acc : Cell → Bool} {n : Nat} {s : PState} (h : s.Ok cmp acc n) {x : Piece} (hx : x.Ok cmp acc n)
    (hlt : Before s.top.q x.q) : (s.push cmp n x).Ok cmp acc n ∧ ∀ k, (s.push cmp n x).look k = (s.look k <|> x.look k) := by
  obtain ⟨hd, hdx, hq, hk1, htk⟩ := hlt.at
  unfold PState.push
  generalize commonPrefixLen s.top.q x.q = d at hd hdx hq hk1 htk
  dsimp only
  have hlen := Piece.q_len h.top
  have hne : ∀ p ∈ s.sp, p.1 ≠ d := by
    intro p hp he
    have := (h.ok p hp).2.1
    rw [he, hq] at this
    cases this
  have hcl := closeDown_spec cmp n s.top.q (d + 1) (by omega) hlen (above d s.sp) (s.top.R n) s.top.look s.top.q.length (h.dec.filter _)
    (fun p hp => by obtain ⟨h1, h2⟩ := mem_above.mp hp; exact ⟨h2, h.ok p h1⟩) (by omega) (Nat.le_refl _) (fun o ho => Piece.R_ok h.top o ho)
  obtain ⟨c1, c2, c3⟩ := hcl
  have hb : ∀ p ∈ below d s.sp, p.1 < d := by
    intro p hp
    obtain ⟨h1, h2⟩ := mem_below.mp hp
    have := hne p h1
    omega
  refine ⟨⟨hx, ?_, ?_⟩, ?_⟩
  · exact List.Pairwise.cons hb (h.dec.filter _)
  · intro p hp
    rcases List.mem_cons.mp hp with e | e
    · subst e
      have : n - d - 1 = n - (d + 1) := by omega
      refine ⟨hdx, hk1, ?_, ?_⟩
      · show Trie.Sized (n - d - 1) _
        rw [this]; exact c1
      · show Trie.CanonX cmp (n - d - 1) _
        rw [this]; exact c2
    · obtain ⟨a1, a2, a3⟩ := h.ok p (mem_below.mp e).1
      have hpd := hb p e
      refine ⟨by show p.1 < x.q.length; omega, ?_, a3⟩
      have e1 : (s.top.q.take d)[p.1]? = s.top.q[p.1]? := by rw [List.getElem?_take, if_pos hpd]
      have e2 : (x.q.take d)[p.1]? = x.q[p.1]? := by rw [List.getElem?_take, if_pos hpd]
      show x.q[p.1]? = some true
      rw [← e2, ← htk, e1]; exact a2
  · intro k
    show spLook x.q (below d s.sp) (fun k => lk (x.q.take d ++ [false]) (closeDown cmp n s.top.q (d + 1) (above d s.sp) (s.top.R n)) k <|> x.look k) k = _
    have e1 : x.q.take d ++ [false] = s.top.q.take (d + 1) := by rw [take_succ_of hq, htk]
    rw [e1]
    have e2 : (fun k => lk (s.top.q.take (d + 1)) (closeDown cmp n s.top.q (d + 1) (above d s.sp) (s.top.R n)) k <|> x.look k) =
        (fun k => spLook s.top.q (above d s.sp) s.top.look k <|> x.look k) := by
      funext k; rw [c3]
    rw [e2, spLook_or x.q k (below d s.sp) (spLook s.top.q (above d s.sp) s.top.look), ← spLook_path htk _ _ (fun p hp => Nat.le_of_lt (hb p hp)),
      ← spLook_append, ← above_below d h.dec]
    rfl

/-- The stack of the code for a state. -/
structure StackFor (cmp : Comparator) (acc : Cell → Bool) (n : Nat) (s : PState) (st : List MItem) : Prop where
  ok : s.Ok cmp acc n
  stack : ∃ rest prev, st = s.top.item cmp n prev :: rest ∧ StackIs cmp acc n prev rest s.sp

/-- One piece is added, or something before it cannot be built. -/
theorem push_spec (cmp : Comparator) (acc : Cell → Bool) {n : Nat} (hn : n ≤ 1023) {s : PState} {st : List MItem} (h : StackFor cmp acc n s st) {x : Piece}
    (hx : x.Ok cmp acc n) (hlt : Before s.top.q x.q) (hr : s.top.Rigid → cutAt (commonPrefixLen s.top.q x.q) s.sp + 1 = s.top.q.length) :
    (∃ st', reduce cmp acc n st x.q = .ok (commonPrefixLen s.top.q x.q, st') ∧
      StackFor cmp acc n (s.push cmp n x) (x.item cmp n (commonPrefixLen s.top.q x.q) :: st')) ∨
    (∃ e, reduce cmp acc n st x.q = .error e) ∧ ∃ p ∈ (s.push cmp n x).sp, ¬ p.2.Good cmp acc := by
  have hpush := (h.ok.push hx hlt).1
  obtain ⟨rest, prev, rfl, hst⟩ := h.stack
  obtain ⟨hd, hdx, hq, hk1, htk⟩ := hlt.at
  have hlen := Piece.q_len h.ok.top
  have hred : reduce cmp acc n (s.top.item cmp n prev :: rest) x.q =
      (reduceGo cmp acc n (commonPrefixLen s.top.q x.q) rest (s.top.item cmp n prev) >>= fun st => .ok (commonPrefixLen s.top.q x.q, st)) := by
    have hr0 : reduce cmp acc n (s.top.item cmp n prev :: rest) x.q =
      (if commonPrefixLen (s.top.item cmp n prev).pfx x.q ≤ (s.top.item cmp n prev).prev then
        reduceGo cmp acc n (commonPrefixLen (s.top.item cmp n prev).pfx x.q) rest (s.top.item cmp n prev) >>= fun st => .ok (commonPrefixLen (s.top.item cmp n prev).pfx x.q, st)
      else .ok (commonPrefixLen (s.top.item cmp n prev).pfx x.q, s.top.item cmp n prev :: rest)) := rfl
    rw [hr0, Piece.item_pfx, Piece.item_prev]
    by_cases hle : commonPrefixLen s.top.q x.q ≤ prev
    · rw [if_pos hle]
    · rw [if_neg hle]
      cases rest with
      | nil => rfl
      | cons l r =>
        have : reduceGo cmp acc n (commonPrefixLen s.top.q x.q) (l :: r) (s.top.item cmp n prev) = .ok (s.top.item cmp n prev :: l :: r) :=
          if_pos (by rw [Piece.item_prev]; omega)
        rw [this]
        rfl
  rw [hred]
  have hdn : commonPrefixLen s.top.q x.q < n := by omega
  have hsp : ∀ p ∈ s.sp, p.1 ≠ commonPrefixLen s.top.q x.q ∧ p.1 < s.top.q.length := by
    intro p hp
    refine ⟨fun he => ?_, (h.ok.ok p hp).1⟩
    have := (h.ok.ok p hp).2.1
    rw [he, hq] at this
    cases this
  have hcut : cutAt (commonPrefixLen s.top.q x.q) s.sp < s.top.q.length := by
    cases hs : s.sp with
    | nil => exact hd
    | cons p sp =>
      have := (hsp p (by rw [hs]; exact List.mem_cons_self)).2
      obtain ⟨e, T⟩ := p
      simp only [cutAt] at *
      omega
  have hleaf := Piece.itemAs cmp acc hn h.ok.top prev _ hcut hr
  rcases reduceGo_spec cmp acc hn s.top.q (commonPrefixLen s.top.q x.q) hdn rest s.sp (s.top.item cmp n prev) (s.top.R n) (by rw [Piece.item_prev]; exact hst)
      (Or.inl (Piece.item_pfx _ _ _ _)) hsp hleaf with
    ⟨r', rest', he, hi, hst'⟩ | ⟨⟨e, he⟩, hbad⟩
  · left
    rw [he]
    refine ⟨r' :: rest', rfl, hpush, r' :: rest', _, rfl, ?_⟩
    have hb : ∀ p ∈ below (commonPrefixLen s.top.q x.q) s.sp, p.1 < commonPrefixLen s.top.q x.q := by
      intro p hp
      obtain ⟨h1, h2⟩ := mem_below.mp hp
      have := (hsp p h1).1
      omega
    exact StackIs.cons hi hdn hb hst'
  · right
    rw [he]
    exact ⟨⟨e, rfl⟩, _, List.mem_cons_self, hbad⟩

/-- Left branches stay good if later ones are. -/
theorem push_good {cmp : Comparator} {acc : Cell → Bool} {n : Nat} {s : PState} {x : Piece}
    (hg : ∀ p ∈ (s.push cmp n x).sp, p.2.Good cmp acc) : ∀ p ∈ s.sp, p.2.Good cmp acc := by
  intro p hp
  by_cases hd : p.1 ≤ commonPrefixLen s.top.q x.q
  · exact hg p (List.mem_cons_of_mem _ (mem_below.mpr ⟨hp, hd⟩))
  · have := hg _ List.mem_cons_self
    exact (closeDown_part cmp acc n s.top.q _ _ _ this).1 p (mem_above.mpr ⟨hp, by omega⟩)

/-- `finalize` for a state. -/
theorem finalize_spec (cmp : Comparator) (acc : Cell → Bool) {n : Nat} (hn : n ≤ 1023) {s : PState} {st : List MItem} (h : StackFor cmp acc n s st)
    (hr : s.top.Rigid → ∃ T sp, s.sp = (s.top.q.length - 1, T) :: sp) :
    ((s.trie cmp n).Good cmp acc → finalize cmp acc n st = .ok (some (s.trie cmp n).cell)) ∧
    (¬ (s.trie cmp n).Good cmp acc → ∃ e, finalize cmp acc n st = .error e) := by
  obtain ⟨rest, prev, rfl, hst⟩ := h.stack
  have hnr : s.sp = [] → ¬ s.top.Rigid := by
    intro hs hh
    obtain ⟨T, sp, h2⟩ := hr hh
    rw [hs] at h2; cases h2
  have hfin := finalizeGo_spec cmp acc hn s.top.q rest s.sp (s.top.item cmp n prev) (s.top.R n) (by rw [Piece.item_prev]; exact hst) (Or.inl (Piece.item_pfx _ _ _ _))
    (fun p hp => (h.ok.ok p hp).1)
    (by
      cases hs : s.sp with
      | nil => exact (Piece.item_build cmp acc hn h.ok.top prev (hnr hs)).1
      | cons p sp =>
        obtain ⟨e, T⟩ := p
        have he : e < s.top.q.length := (h.ok.ok (e, T) (by rw [hs]; exact List.mem_cons_self)).1
        refine Piece.itemAs cmp acc hn h.ok.top prev e he fun hh => ?_
        obtain ⟨T', sp', h2⟩ := hr hh
        rw [hs] at h2
        injection h2 with h2 h3
        injection h2 with h2 h4
        omega)
    (fun hs hng => (Piece.item_build cmp acc hn h.ok.top prev (hnr hs)).2 hng)
  have hf : finalize cmp acc n (s.top.item cmp n prev :: rest) =
      ((finalizeGo cmp acc n rest (s.top.item cmp n prev) >>= fun r => r.build acc n) >>= fun c => .ok (some c)) := by
    show (finalizeGo cmp acc n rest (s.top.item cmp n prev) >>= fun r => r.build acc n >>= fun c => .ok (some c)) = _
    cases finalizeGo cmp acc n rest (s.top.item cmp n prev) <;> rfl
  rw [hf]
  refine ⟨fun hg => ?_, fun hg => ?_⟩
  · rw [hfin.1 hg]; rfl
  · obtain ⟨e, he⟩ := hfin.2 hg
    rw [he]; exact ⟨e, rfl⟩

/-! ### Many pieces -/

def pushAll (cmp : Comparator) (n : Nat) : List Piece → PState → PState
  | [], s => s
  | x :: xs, s => pushAll cmp n xs (s.push cmp n x)

end PState

/-- One piece is pushed: `add_value`, `add_subtree` or `add_flattened_subtree` (`dict/ops/modify.rs:607-732`). -/
def addPiece (cmp : Comparator) (acc : Cell → Bool) (n : Nat) (st : List MItem) : Piece → Except Err (List MItem)
  | .leaf key v => addValue cmp acc st key (some v)
  | .node p t => addSubtree cmp acc st p (n - p.length) t.cell
  | .flat p t => addFlattened cmp acc st p (n - p.length) t.cell

def addPieces (cmp : Comparator) (acc : Cell → Bool) (n : Nat) : List Piece → List MItem → Except Err (List MItem)
  | [], st => .ok st
  | x :: xs, st => addPiece cmp acc n st x >>= addPieces cmp acc n xs

theorem addPieces_append (cmp : Comparator) (acc : Cell → Bool) (n : Nat) (xs ys : List Piece) (st : List MItem) :
    addPieces cmp acc n (xs ++ ys) st = (addPieces cmp acc n xs st >>= addPieces cmp acc n ys) := by
  induction xs generalizing st with
  | nil => rfl
  | cons x xs ih =>
    show (addPiece cmp acc n st x >>= addPieces cmp acc n (xs ++ ys)) = ((addPiece cmp acc n st x >>= addPieces cmp acc n xs) >>= _)
    cases addPiece cmp acc n st x with
    | error e => rfl
    | ok st' => exact ih st'

theorem addPiece_eq (cmp : Comparator) (acc : Cell → Bool) {n : Nat} (hn : n ≤ 1023) {x : Piece} (h : x.Ok cmp acc n) (st : List MItem) :
    addPiece cmp acc n st x = (reduce cmp acc n st x.q >>= fun r => .ok (x.item cmp n r.1 :: r.2)) := by
  cases x with
  | leaf key v =>
    have h : key.length = n := h
    subst h
    rfl
  | node p t =>
    have h : Piece.PartOf cmp acc n p t := h
    have e : p.length + (n - p.length) = n := by have := h.len; omega
    show (reduce cmp acc (p.length + (n - p.length)) st p >>= fun r => readNodeExtra cmp t.cell (n - p.length) >>= fun ext => .ok (.node p t.cell ext r.1 :: r.2)) = _
    rw [e]
    have hx : readNodeExtra cmp t.cell (n - p.length) =
        .ok (Piece.nodeExt cmp (n - p.length) t) := by
      cases cmp with
      | none => rfl
      | some f =>
        show (asSlice t.cell >>= fun data => readLabel data (n - p.length) >>= fun r => Except.ok (data.bits.length - r.2.bits.length, r.1.length == n - p.length)) = _
        rw [asSlice_cell]
        show (readLabel _ _ >>= _) = _
        rw [readLabel_cell h.sized (by omega)]
        rfl
    rw [hx]
    rfl
  | flat p t =>
    have h : Piece.PartOf cmp acc n p t := h
    have e : p.length + (n - p.length) = n := by have := h.len; omega
    show (asSlice t.cell >>= fun data => readLabel data (n - p.length) >>= fun r => reduce cmp acc (p.length + (n - p.length)) st (p ++ r.1) >>= fun r' =>
      .ok (.denorm (p ++ r.1) t.cell (data.bits.length - r.2.bits.length) (r.1.length == n - p.length) r'.1 :: r'.2)) = _
    rw [e, asSlice_cell]
    show (readLabel _ _ >>= _) = _
    rw [readLabel_cell h.sized (by omega)]
    rfl

/-- `q` lies below the sibling of `p`. -/
def Sib (p q : Bits) : Prop := ∃ c b, p = c ++ [b] ∧ c ++ [!b] <+: q

theorem Sib.cpl {p q : Bits} (h : Sib p q) : commonPrefixLen p q + 1 = p.length ∧ commonPrefixLen q p + 1 = p.length := by
  obtain ⟨c, b, rfl, r, rfl⟩ := h
  have h1 := commonPrefixLen_split c b r []
  have h2 := commonPrefixLen_split c (!b) [] r
  rw [Bool.not_not] at h2
  rw [List.append_assoc]
  constructor
  · rw [show [!b] ++ r = (!b) :: r from rfl, h1]; simp
  · rw [show [!b] ++ r = (!b) :: r from rfl, h2]; simp

/-- Every subtree that keeps its label has a neighbour below its sibling. -/
def Settled : Prop → List Piece → Prop
  | _, [] => True
  | ok, [x] => x.Rigid → ok
  | ok, x :: y :: xs => (x.Rigid → ok ∨ Sib x.q y.q) ∧ Settled (Sib y.q x.q) (y :: xs)

theorem pieces_settled : ∀ (xs pre : List Piece), (pre ++ xs).Pairwise (fun a b => Before a.q b.q) →
    (∀ x ∈ xs, x.Rigid → ∃ y ∈ pre ++ xs, Sib x.q y.q) → ∀ ok : Prop,
    (∀ x xs', xs = x :: xs' → (∃ pre' z, pre = pre' ++ [z] ∧ Sib x.q z.q) → ok) → Settled ok xs
  | [], _, _, _, _, _ => trivial
  | x :: xs, pre, hp, hr, ok, hok => by
    have hx : x.Rigid → ok ∨ ∃ y xs', xs = y :: xs' ∧ Sib x.q y.q := by
      intro hrig
      obtain ⟨w, hw, c, b, hc, hcw⟩ := hr x List.mem_cons_self hrig
      have hnx : w ≠ x := by
        rintro rfl
        obtain ⟨r, hr⟩ := hcw
        have := congrArg List.length hr
        rw [hc] at hr this
        rw [List.append_assoc, List.append_cancel_left_eq] at hr
        injection hr with h1 h2
        cases b <;> cases h1
      rw [List.pairwise_append, List.pairwise_cons] at hp
      obtain ⟨hp1, ⟨hp2, hp3⟩, hp4⟩ := hp
      rcases List.mem_append.mp hw with hw | hw
      · left
        refine hok x xs rfl ?_
        have hb := hp4 w hw x List.mem_cons_self
        rcases List.eq_nil_or_concat pre with h0 | ⟨pre', z, hz⟩
        · rw [h0] at hw; cases hw
        · rw [List.concat_eq_append] at hz
          refine ⟨pre', z, hz, c, b, hc, ?_⟩
          subst hz
          obtain ⟨r, hr⟩ := hcw
          rcases List.mem_append.mp hw with h1 | h1
          · have h2 := (List.pairwise_append.mp hp1).2.2 w h1 z List.mem_cons_self
            have h3 := hp4 z (by simp) x List.mem_cons_self
            cases b with
            | false =>
              rw [← hr, hc] at hb
              exact absurd (hb.ext (p' := c ++ [true] ++ r) (q' := c ++ [false]) (List.prefix_refl _) (List.prefix_refl _)) (by
                intro hh
                exact Before.irrefl _ ((before_siblings c [] r).trans (by simpa using hh)))
            | true =>
              rw [← hr, List.append_assoc] at h2
              rw [hc] at h3
              exact Before.between (y := r) h2 h3
          · rw [List.mem_singleton] at h1
            rw [← h1]
            exact ⟨r, hr⟩
      · rcases List.mem_cons.mp hw with hw | hw
        · exact absurd hw hnx
        · right
          cases xs with
          | nil => cases hw
          | cons y xs' =>
            refine ⟨y, xs', rfl, c, b, hc, ?_⟩
            have hb := hp2 w hw
            obtain ⟨r, hr⟩ := hcw
            rcases List.mem_cons.mp hw with h1 | h1
            · rw [← h1]; exact ⟨r, hr⟩
            · have h2 := (List.pairwise_cons.mp hp3).1 w h1
              have h3 := hp2 y List.mem_cons_self
              cases b with
              | true =>
                rw [← hr, hc] at hb
                exact absurd hb (by
                  intro hh
                  refine Before.irrefl _ (hh.trans (r := c ++ [true]) ?_)
                  rw [List.append_assoc]
                  exact before_siblings c r [])
              | false =>
                rw [← hr, List.append_assoc] at h2
                rw [hc] at h3
                exact Before.between' (y := r) h3 h2
    have hrest : Settled (match xs with | [] => False | y :: _ => Sib y.q x.q) xs := by
      refine pieces_settled xs (pre ++ [x]) (by rw [List.append_assoc]; exact hp) (fun y hy hry => by rw [List.append_assoc]; exact hr y (List.mem_cons_of_mem _ hy) hry) _ ?_
      rintro y xs' rfl ⟨pre', z, hz, hs⟩
      have := List.append_inj' hz rfl
      injection this.2 with h1 _
      subst h1
      exact hs
    cases xs with
    | nil =>
      intro hrig
      rcases hx hrig with h | ⟨y, xs', h, _⟩
      · exact h
      · cases h
    | cons y xs =>
      refine ⟨fun hrig => ?_, hrest⟩
      rcases hx hrig with h | ⟨y', xs', h, hs⟩
      · exact Or.inl h
      · injection h with h1 h2
        subst h1
        exact Or.inr hs

namespace PState

theorem pushAll_ok {cmp : Comparator} {acc : Cell → Bool} {n : Nat} : ∀ (xs : List Piece) (s : PState), s.Ok cmp acc n → (∀ x ∈ xs, x.Ok cmp acc n) →
    (s.top :: xs).Pairwise (fun a b => Before a.q b.q) →
    (pushAll cmp n xs s).Ok cmp acc n ∧ ∀ k, (pushAll cmp n xs s).look k = (s.look k <|> xs.findSome? (fun x => x.look k))
  | [], s, hs, _, _ => ⟨hs, fun k => by show s.look k = (s.look k <|> none); cases s.look k <;> rfl⟩
  | x :: xs, s, hs, hx, hp => by
    rw [List.pairwise_cons] at hp
    obtain ⟨h1, h2⟩ := hs.push (hx x List.mem_cons_self) (hp.1 x List.mem_cons_self)
    obtain ⟨h3, h4⟩ := pushAll_ok xs (s.push cmp n x) h1 (fun y hy => hx y (List.mem_cons_of_mem _ hy)) hp.2
    refine ⟨h3, fun k => ?_⟩
    show (pushAll cmp n xs (s.push cmp n x)).look k = _
    rw [h4, h2, List.findSome?_cons]
    cases s.look k with
    | some v => rfl
    | none => cases x.look k <;> rfl

theorem pushAll_good {cmp : Comparator} {acc : Cell → Bool} {n : Nat} : ∀ (xs : List Piece) (s : PState),
    (∀ p ∈ (pushAll cmp n xs s).sp, p.2.Good cmp acc) → ∀ p ∈ s.sp, p.2.Good cmp acc
  | [], _, h => h
  | x :: xs, s, h => push_good (pushAll_good xs (s.push cmp n x) h)

theorem addPieces_spec (cmp : Comparator) (acc : Cell → Bool) {n : Nat} (hn : n ≤ 1023) : ∀ (xs : List Piece) (s : PState) (st : List MItem) (ok : Prop),
    StackFor cmp acc n s st → (∀ x ∈ xs, x.Ok cmp acc n) → (s.top :: xs).Pairwise (fun a b => Before a.q b.q) → Settled ok (s.top :: xs) →
    (ok → ∃ T sp, s.sp = (s.top.q.length - 1, T) :: sp) →
    (∃ st', addPieces cmp acc n xs st = .ok st' ∧ StackFor cmp acc n (pushAll cmp n xs s) st' ∧
      ((pushAll cmp n xs s).top.Rigid → ∃ T sp, (pushAll cmp n xs s).sp = ((pushAll cmp n xs s).top.q.length - 1, T) :: sp)) ∨
    (∃ e, addPieces cmp acc n xs st = .error e) ∧ ∃ p ∈ (pushAll cmp n xs s).sp, ¬ p.2.Good cmp acc
  | [], s, st, ok, hst, _, _, hset, hok => Or.inl ⟨st, rfl, hst, fun hr => hok (hset hr)⟩
  | x :: xs, s, st, ok, hst, hx, hp, hset, hok => by
    rw [List.pairwise_cons] at hp
    have hxo := hx x List.mem_cons_self
    have hlt := hp.1 x List.mem_cons_self
    have hcut : s.top.Rigid → cutAt (commonPrefixLen s.top.q x.q) s.sp + 1 = s.top.q.length := by
      intro hr
      have hd := hlt.at.1
      rcases hset.1 hr with h | h
      · obtain ⟨T, sp, h2⟩ := hok h
        rw [h2]
        show max _ _ + 1 = _
        omega
      · have h1 := h.cpl.1
        cases hs : s.sp with
        | nil => exact h1
        | cons p sp =>
          have := (hst.ok.ok p (by rw [hs]; exact List.mem_cons_self)).1
          obtain ⟨e, T⟩ := p
          show max e _ + 1 = _
          have this : e < s.top.q.length := this
          omega
    have hadd : addPieces cmp acc n (x :: xs) st = (reduce cmp acc n st x.q >>= fun r => .ok (x.item cmp n r.1 :: r.2)) >>= addPieces cmp acc n xs := by
      rw [← addPiece_eq cmp acc hn hxo]; rfl
    rw [hadd]
    rcases push_spec cmp acc hn hst hxo hlt hcut with ⟨st', he, hst'⟩ | ⟨⟨e, he⟩, p, hp1, hp2⟩
    · rw [he]
      exact addPieces_spec cmp acc hn xs (s.push cmp n x) _ (Sib x.q s.top.q) hst' (fun y hy => hx y (List.mem_cons_of_mem _ hy)) hp.2 hset.2 (fun h => by
        have := h.cpl.2
        have hl : (s.push cmp n x).top.q.length - 1 = commonPrefixLen s.top.q x.q := by show x.q.length - 1 = _; omega
        rw [hl]
        exact ⟨_, _, rfl⟩)
    · right
      rw [he]
      refine ⟨⟨e, rfl⟩, Classical.byContradiction fun hc => hp2 ?_⟩
      exact pushAll_good xs (s.push cmp n x) (fun p' hp' => Classical.byContradiction fun hg => hc ⟨p', hp', hg⟩) p hp1

end PState

/-- The map of a list of pieces. -/
def piecesLook (xs : List Piece) (k : Bits) : Option Sl := xs.findSome? (fun x => x.look k)

/-- Pieces in ascending order, where every subtree that keeps its label has something below its sibling, are merged
to the canonical dictionary of their entries, if it can be built. -/
theorem pieces_build (cmp : Comparator) (acc : Cell → Bool) {n : Nat} (hn : n ≤ 1023) (xs : List Piece) (hok : ∀ x ∈ xs, x.Ok cmp acc n)
    (hp : xs.Pairwise (fun a b => Before a.q b.q)) (hr : ∀ x ∈ xs, x.Rigid → ∃ y ∈ xs, Sib x.q y.q) :
    match addPieces cmp acc n xs [] >>= finalize cmp acc n with
    | .ok d => RepresentsX cmp acc n d (piecesLook xs)
    | .error _ => ∀ d, ¬ RepresentsX cmp acc n d (piecesLook xs) := by
  have hset := pieces_settled xs [] hp hr False (by rintro x xs' _ ⟨pre', z, h, _⟩; cases pre' <;> cases h)
  cases xs with
  | nil => exact fun k _ => rfl
  | cons x xs =>
    have hx := hok x List.mem_cons_self
    let s : PState := ⟨x, []⟩
    have hs : s.Ok cmp acc n := ⟨hx, List.Pairwise.nil, by intro p hp; cases hp⟩
    have hst : PState.StackFor cmp acc n s [x.item cmp n 0] := ⟨hs, [], 0, rfl, .nil⟩
    have hok' : ∀ y ∈ xs, y.Ok cmp acc n := fun y hy => hok y (List.mem_cons_of_mem _ hy)
    have hadd : addPieces cmp acc n (x :: xs) [] = addPieces cmp acc n xs [x.item cmp n 0] := by
      show (addPiece cmp acc n [] x >>= addPieces cmp acc n xs) = _
      rw [addPiece_eq cmp acc hn hx]; rfl
    rw [hadd]
    obtain ⟨p1, p2⟩ := PState.pushAll_ok xs s hs hok' hp
    obtain ⟨t1, t2, t3⟩ := p1.trie
    have hmap : ∀ k, piecesLook (x :: xs) k = ((PState.pushAll cmp n xs s).trie cmp n).lookup k := by
      intro k
      rw [t3, p2]
      show (x :: xs).findSome? _ = (x.look k <|> _)
      rw [List.findSome?_cons]
      cases x.look k <;> rfl
    have hnot : ¬ ((PState.pushAll cmp n xs s).trie cmp n).Good cmp acc → ∀ d, ¬ RepresentsX cmp acc n d (piecesLook (x :: xs)) := by
      intro hg d hd
      cases d with
      | none =>
        obtain ⟨k, v, hk, hv⟩ := Trie.exists_key t1
        rw [← hmap, hd k hk] at hv
        cases hv
      | some c =>
        obtain ⟨t, a1, a2, a3, rfl, a4⟩ := hd
        have := Trie.canonX_unique a1 t1 a2 t2 (fun k hk => by rw [← a4 k hk, hmap])
        rw [this] at a3
        exact hg a3
    rcases PState.addPieces_spec cmp acc hn xs s _ False hst hok' hp hset (fun h => h.elim) with ⟨st', he, hst', hfin⟩ | ⟨⟨e, he⟩, p, hp1, hp2⟩
    · rw [he]
      show match finalize cmp acc n st' with | .ok d => _ | .error _ => _
      obtain ⟨f1, f2⟩ := PState.finalize_spec cmp acc hn hst' hfin
      by_cases hg : ((PState.pushAll cmp n xs s).trie cmp n).Good cmp acc
      · rw [f1 hg]
        exact ⟨_, t1, t2, hg, rfl, fun k _ => hmap k⟩
      · obtain ⟨e, he⟩ := f2 hg
        rw [he]; exact hnot hg
    · rw [he]
      refine hnot fun hg => hp2 ?_
      exact (closeDown_part cmp acc n _ 0 _ _ hg).1 p hp1

end Verif
