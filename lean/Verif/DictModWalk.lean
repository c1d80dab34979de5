import Verif.DictModTrie
/-
Bulk modification (`dict/ops/modify.rs`): the invariant of the walk. Lemmas for C28.
-/
set_option linter.unusedVariables false
set_option linter.unusedSimpArgs false
namespace Verif

open Piece (PartOf labelEnd)

/-- What has been emitted, and the items with what is left. -/
structure Walk (cmp : Comparator) (acc : Cell → Bool) (n : Nat) (em : List Piece) (fs : List Frame) : Prop where
  ok : ∀ y ∈ em, y.Ok cmp acc n
  pw : em.Pairwise (fun a b => Before a.q b.q)
  before : ∀ y ∈ em, ∀ z ∈ pendAll fs, Before y.q z.at_
  chain : Chain cmp acc n fs

/-- The branch the walk went into is either known not to be empty or what follows is emitted with free labels. -/
def Cov (em : List Piece) (fl : Bool) (f : Frame) : Prop :=
  f.state = -1 ∨ (f.state = 2 ∧ (f.flatten = true ∨ ∃ y ∈ em, f.p <+: y.q)) ∨
  ∃ l e x a b bit, f.t = .fork l e x a b ∧ f.state = (Bool.toNat bit : Int) ∧ (fl = true ∨ ∃ y ∈ em, f.p ++ l ++ [bit] <+: y.q)

/-- Subtrees that keep their labels have something below their sibling, or will have. -/
def Closed (em : List Piece) (W : Piece → Prop) : Prop := ∀ y ∈ em, y.Rigid → (∃ z ∈ em, Sib y.q z.q) ∨ W y

/-- All entries: emitted and left. -/
def total (em : List Piece) (fs : List Frame) (k : Bits) : Option Sl := piecesLook em k <|> pendLook (pendAll fs) k

/-- The walk can go on to the key. -/
def Ready (f : Frame) (K : Bits) : Prop :=
  f.state = -1 ∨ (∃ l e x a b bit, f.t = .fork l e x a b ∧ f.state = (Bool.toNat bit : Int) ∧ Before (f.p ++ l ++ [bit]) K) ∨
  (f.state = 2 ∧ Before (f.p ++ f.t.label) K)

theorem Cov.mono {em em' : List Piece} {fl fl' : Bool} {f f' : Frame} (h : Cov em fl f) (hp : f'.p = f.p) (ht : f'.t = f.t) (hs : f'.state = f.state)
    (hf : f.flatten = true → f'.flatten = true) (hfl : fl = true → fl' = true) (hem : ∀ y ∈ em, y ∈ em') : Cov em' fl' f' := by
  rcases h with h | ⟨h, h'⟩ | ⟨l, e, x, a, b, bit, h1, h2, h3⟩
  · exact Or.inl (hs.trans h)
  · refine Or.inr (Or.inl ⟨hs.trans h, ?_⟩)
    rcases h' with h' | ⟨y, hy, hy'⟩
    · exact Or.inl (hf h')
    · exact Or.inr ⟨y, hem y hy, by rw [hp]; exact hy'⟩
  · refine Or.inr (Or.inr ⟨l, e, x, a, b, bit, ht.trans h1, hs.trans h2, ?_⟩)
    rcases h3 with h' | ⟨y, hy, hy'⟩
    · exact Or.inl (hfl h')
    · exact Or.inr ⟨y, hem y hy, by rw [hp]; exact hy'⟩

theorem pend_two {f : Frame} (h : f.state = 2) : f.pend = [] := by
  unfold Frame.pend
  cases f.t with
  | leaf l e v => exact if_pos h
  | fork l e x a b =>
    dsimp only
    rw [h]; rfl

theorem pend_flatten (f : Frame) (fl : Bool) : Frame.pend { f with flatten := fl } = f.pend := rfl

theorem prefix_mid {p l : Bits} {r : Bits} : p <+: p ++ l ++ r := by rw [List.append_assoc]; exact List.prefix_append _ _

/-- All that is left of an item is emitted. -/
theorem Walk.emit {cmp : Comparator} {acc : Cell → Bool} {n : Nat} {em : List Piece} {f : Frame} {rest : List Frame} (h : Walk cmp acc n em (f :: rest))
    {fl : Bool} (hfl : f.flatten = true → fl = true) (hc : Cov em fl f) {W : Piece → Prop} (hcl : Closed em W) :
    let em' := em ++ f.pend.map (Pend.piece fl)
    (∀ y ∈ em', y.Ok cmp acc n) ∧ em'.Pairwise (fun a b => Before a.q b.q) ∧ (∀ y ∈ em', ∀ z ∈ pendAll rest, Before y.q z.at_) ∧ Closed em' W ∧
      (fl = true ∨ ∃ y ∈ em', f.p <+: y.q) ∧ ∀ k, total em' rest k = total em (f :: rest) k := by
  intro em'
  have hnew : ∀ y ∈ f.pend.map (Pend.piece fl), ∃ z ∈ f.pend, y = z.piece fl := by
    intro y hy
    obtain ⟨z, hz, rfl⟩ := List.mem_map.mp hy
    exact ⟨z, hz, rfl⟩
  have hqp : ∀ z ∈ f.pend, f.p <+: (z.piece fl).q := fun z hz =>
    (List.prefix_append f.p f.t.label).trans ((pend_prefix hz).trans (Pend.piece_q fl z))
  refine ⟨?_, ?_, ?_, ?_, ?_, ?_⟩
  · intro y hy
    rcases List.mem_append.mp hy with hy | hy
    · exact h.ok y hy
    · obtain ⟨z, hz, rfl⟩ := hnew y hy
      exact Pend.piece_ok fl (pend_ok h.chain.top hz)
  · refine List.pairwise_append.mpr ⟨h.pw, pend_pairwise f fl, ?_⟩
    intro y hy y' hy'
    obtain ⟨z, hz, rfl⟩ := hnew y' hy'
    exact (h.before y hy z (List.mem_append.mpr (Or.inl hz))).ext (List.prefix_refl _) (Pend.piece_q fl z)
  · intro y hy z hz
    rcases List.mem_append.mp hy with hy | hy
    · exact h.before y hy z (List.mem_append.mpr (Or.inr hz))
    · obtain ⟨z', hz', rfl⟩ := hnew y hy
      exact h.chain.after (hqp z' hz') hz
  · intro y hy hr
    rcases List.mem_append.mp hy with hy | hy
    · rcases hcl y hy hr with ⟨z, hz, hs⟩ | hw
      · exact Or.inl ⟨z, List.mem_append.mpr (Or.inl hz), hs⟩
      · exact Or.inr hw
    · left
      obtain ⟨z, hz, rfl⟩ := hnew y hy
      have hz0 := hz
      unfold Frame.pend at hz
      cases ht : f.t with
      | leaf l e v =>
        rw [ht] at hz
        dsimp only at hz
        split at hz
        · cases hz
        · rw [List.mem_singleton] at hz
          subst hz
          exact hr.elim
      | fork l e x a b =>
        have hflf : fl = false := by
          cases fl with
          | false => rfl
          | true => cases z <;> exact hr.elim
        subst hflf
        rw [ht] at hz
        dsimp only at hz
        have hpend : f.pend = (if f.state < 0 then [.sub (f.p ++ l ++ [false]) a] else []) ++ (if f.state < 1 then [.sub (f.p ++ l ++ [true]) b] else []) := by
          unfold Frame.pend; rw [ht]
        by_cases h0 : f.state < 0
        · rw [if_pos h0, if_pos (show f.state < 1 by omega)] at hz hpend
          have hm : ∀ z' ∈ f.pend, (z'.piece false) ∈ em' := fun z' hz' => List.mem_append.mpr (Or.inr (List.mem_map.mpr ⟨z', hz', rfl⟩))
          rcases List.mem_append.mp hz with hz | hz <;> rw [List.mem_singleton] at hz <;> subst hz
          · exact ⟨_, hm (.sub (f.p ++ l ++ [true]) b) (by rw [hpend]; simp), f.p ++ l, false, rfl, List.prefix_refl _⟩
          · exact ⟨_, hm (.sub (f.p ++ l ++ [false]) a) (by rw [hpend]; simp), f.p ++ l, true, rfl, List.prefix_refl _⟩
        · rw [if_neg h0] at hz
          by_cases h1 : f.state < 1
          · rw [if_pos h1, List.nil_append, List.mem_singleton] at hz
            subst hz
            rcases hc with h | ⟨h, _⟩ | ⟨l', e', x', a', b', bit, h2, h3, h4⟩
            · omega
            · omega
            · rw [ht] at h2
              injection h2 with i1 i2 i3 i4 i5
              subst i1
              have hb : bit = false := by cases bit with | false => rfl | true => rw [h3] at h1; simp at h1
              subst hb
              rcases h4 with h4 | ⟨y, hy, hy'⟩
              · cases h4
              · exact ⟨y, List.mem_append.mpr (Or.inl hy), f.p ++ l, true, rfl, hy'⟩
          · rw [if_neg h1] at hz; cases hz
  · rcases hc with hc | ⟨hc, hc'⟩ | ⟨l, e, x, a, b, bit, h1, h2, h3⟩
    · right
      have : ∃ z, z ∈ f.pend := by
        unfold Frame.pend
        cases f.t with
        | leaf l e v =>
          dsimp only
          rw [if_neg (by rw [hc]; decide)]
          exact ⟨_, List.mem_singleton.mpr rfl⟩
        | fork l e x a b =>
          dsimp only
          rw [if_pos (by rw [hc]; decide)]
          exact ⟨_, List.mem_append.mpr (Or.inl (List.mem_singleton.mpr rfl))⟩
      obtain ⟨z, hz⟩ := this
      exact ⟨_, List.mem_append.mpr (Or.inr (List.mem_map.mpr ⟨z, hz, rfl⟩)), hqp z hz⟩
    · rcases hc' with h | ⟨y, hy, hy'⟩
      · exact Or.inl (hfl h)
      · exact Or.inr ⟨y, List.mem_append.mpr (Or.inl hy), hy'⟩
    · rcases h3 with h | ⟨y, hy, hy'⟩
      · exact Or.inl h
      · exact Or.inr ⟨y, List.mem_append.mpr (Or.inl hy), prefix_mid.trans hy'⟩
  · intro k
    show (piecesLook em' k <|> _) = (_ <|> pendLook (pendAll (f :: rest)) k)
    rw [piecesLook_append, pendAll_cons, pendLook_append, piecesLook_pend]
    exact or_assoc' _ _ _

/-- Where a key parts from the last key, it parts from all items below. -/
theorem before_of_cpl {L K p : Bits} (h : Before L K) (hp : p <+: L) (hc : commonPrefixLen L K < p.length) : Before p K := by
  obtain ⟨c, a, b, rfl, rfl⟩ := h
  have := commonPrefixLen_split c false b a
  rw [show (!false) = true from rfl] at this
  rw [this] at hc
  have h2 : c ++ [false] <+: p := List.prefix_of_prefix_length_le (by exact ⟨a, by simp⟩) hp (by simp; omega)
  exact (before_siblings c [] b).ext h2 (List.prefix_refl _)

theorem prefix_of_cpl {L K p : Bits} (hp : p <+: L) (hc : p.length ≤ commonPrefixLen L K) (hL : L.take (commonPrefixLen L K) = K.take (commonPrefixLen L K)) : p <+: K := by
  have h1 : p <+: L.take (commonPrefixLen L K) :=
    List.prefix_of_prefix_length_le hp (List.take_prefix _ _) (by rw [List.length_take]; have := hp.length_le; omega)
  rw [hL] at h1
  exact h1.trans (List.take_prefix _ _)

/-- The unwinding loop of `seek_next`. -/
theorem unwind_spec (cmp : Comparator) (acc : Cell → Bool) {n : Nat} (hn : n ≤ 1023) {L K : Bits} (hLK : Before L K) : ∀ (rest : List Frame) (f : Frame) (em : List Piece) (fl : Bool),
    Walk cmp acc n em (f :: rest) → Cov em fl f → Ready f K → f.p <+: L → Closed em (fun _ => False) → (∀ y ∈ em, Before y.q K) →
    ∃ G f' rest', (∀ st, unwind cmp acc (commonPrefixLen L K) ((f :: rest).map (Frame.item n)) fl st K =
        (addPieces cmp acc n G st >>= fun st' => .ok ((f' :: rest').map (Frame.item n), st', K.drop f'.p.length))) ∧
      Walk cmp acc n (em ++ G) (f' :: rest') ∧ Cov (em ++ G) f'.flatten f' ∧ Ready f' K ∧ f'.p <+: K ∧ Closed (em ++ G) (fun _ => False) ∧
      (∀ y ∈ em ++ G, Before y.q K) ∧ ∀ k, total (em ++ G) (f' :: rest') k = total em (f :: rest) k := by
  intro rest
  induction rest with
  | nil =>
    intro f em fl hw hcov hready hL hcl hb
    have hp : f.p = [] := by cases hw.chain with | root hp ht => exact hp
    refine ⟨[], { f with flatten := f.flatten || fl }, [], ?_, ?_, ?_, ?_, ?_, ?_, ?_, ?_⟩
    · intro st
      show (if (f.item n).pfx.length > commonPrefixLen L K then _ else if K.length < (f.item n).pfx.length then _ else _) = _
      have h0 : (f.item n).pfx.length = 0 := by show f.p.length = 0; rw [hp]; rfl
      rw [if_neg (by omega), if_neg (by omega)]
      rfl
    · rw [List.append_nil]
      exact ⟨hw.ok, hw.pw, hw.before, hw.chain.set rfl rfl⟩
    · rw [List.append_nil]
      exact hcov.mono rfl rfl rfl (fun h => by simp [h]) (fun h => by simp [h]) (fun y hy => hy)
    · exact hready
    · show f.p <+: K
      rw [hp]; exact List.nil_prefix
    · rw [List.append_nil]; exact hcl
    · rw [List.append_nil]; exact hb
    · rw [List.append_nil]; exact fun k => rfl
  | cons g rest ih =>
    intro f em fl hw hcov hready hL hcl hb
    by_cases hc : f.p.length > commonPrefixLen L K
    · -- the item is left
      have hfK := before_of_cpl hLK hL hc
      obtain ⟨e1, e2, e3, e4, e5, e6⟩ := hw.emit (fl := fl || f.flatten) (fun h => by simp [h]) (hcov.mono rfl rfl rfl id (fun h => by simp [h]) (fun y hy => hy)) hcl
      have hcode : ∀ st, unwind cmp acc (commonPrefixLen L K) ((f :: g :: rest).map (Frame.item n)) fl st K =
          (addPieces cmp acc n (f.pend.map (Pend.piece (fl || f.flatten))) st >>= fun st => unwind cmp acc (commonPrefixLen L K) ((g :: rest).map (Frame.item n)) (fl || f.flatten) st K) := by
        intro st
        have h1 : unwind cmp acc (commonPrefixLen L K) ((f :: g :: rest).map (Frame.item n)) fl st K =
            ((if f.state ≠ 2 then (f.item n).addSubtrees cmp acc 1 (fl || f.flatten) st else .ok st) >>= fun st =>
              unwind cmp acc (commonPrefixLen L K) ((g :: rest).map (Frame.item n)) (fl || f.flatten) st K) := by
          show (if (f.item n).pfx.length > commonPrefixLen L K then _ else _) = _
          rw [if_pos (show (f.item n).pfx.length > commonPrefixLen L K from hc)]
          by_cases h2 : f.state ≠ 2
          · rw [if_pos h2, if_pos (show (f.item n).state ≠ 2 from h2)]; rfl
          · rw [if_neg h2, if_neg (show ¬ (f.item n).state ≠ 2 from h2)]; rfl
        rw [h1]
        by_cases h2 : f.state ≠ 2
        · rw [if_pos h2, addSubtrees_all cmp acc hn hw.chain.top _ h2, Bool.or_assoc, Bool.or_self]
        · rw [if_neg h2, pend_two (Classical.not_not.mp h2)]; rfl
      have hch := hw.chain
      cases hch with
      | @step _ _ _ l e x a b bit hg hp ht hs hr =>
        have hw' : Walk cmp acc n (em ++ f.pend.map (Pend.piece (fl || f.flatten))) (g :: rest) := ⟨e1, e2, e3, hr⟩
        have hcov' : Cov (em ++ f.pend.map (Pend.piece (fl || f.flatten))) (fl || f.flatten) g :=
          Or.inr (Or.inr ⟨l, e, x, a, b, bit, hg, hs, by rw [← hp]; exact e5⟩)
        have hready' : Ready g K := Or.inr (Or.inl ⟨l, e, x, a, b, bit, hg, hs, by rw [← hp]; exact hfK⟩)
        have hgL : g.p <+: L := (by rw [hp]; exact prefix_mid : g.p <+: f.p).trans hL
        have hb' : ∀ y ∈ em ++ f.pend.map (Pend.piece (fl || f.flatten)), Before y.q K := by
          intro y hy
          rcases List.mem_append.mp hy with hy | hy
          · exact hb y hy
          · obtain ⟨z, hz, rfl⟩ := List.mem_map.mp hy
            exact hfK.ext ((List.prefix_append f.p f.t.label).trans ((pend_prefix hz).trans (Pend.piece_q _ z))) (List.prefix_refl _)
        obtain ⟨G, f', rest', i1, i2, i3, i4, i5, i6, i7, i8⟩ := ih g _ _ hw' hcov' hready' hgL e4 hb'
        rw [List.append_assoc] at i2 i3 i6 i7 i8
        refine ⟨f.pend.map (Pend.piece (fl || f.flatten)) ++ G, f', rest', ?_, i2, i3, i4, i5, i6, i7, fun k => ?_⟩
        · intro st
          rw [hcode, addPieces_append]
          cases addPieces cmp acc n (f.pend.map (Pend.piece (fl || f.flatten))) st with
          | error e => rfl
          | ok st' => exact i1 st'
        · rw [i8 k, e6 k]
    · have hfK := prefix_of_cpl hL (by omega) hLK.at.2.2.2.2
      refine ⟨[], { f with flatten := f.flatten || fl }, g :: rest, ?_, ?_, ?_, ?_, ?_, ?_, ?_, ?_⟩
      · intro st
        show (if (f.item n).pfx.length > commonPrefixLen L K then _ else if K.length < (f.item n).pfx.length then _ else _) = _
        have := hfK.length_le
        rw [if_neg (show ¬ (f.item n).pfx.length > commonPrefixLen L K from hc), if_neg (show ¬ K.length < (f.item n).pfx.length by show ¬ K.length < f.p.length; omega)]
        rfl
      · rw [List.append_nil]
        exact ⟨hw.ok, hw.pw, hw.before, hw.chain.set rfl rfl⟩
      · rw [List.append_nil]
        exact hcov.mono rfl rfl rfl (fun h => by simp [h]) (fun h => by simp [h]) (fun y hy => hy)
      · exact hready
      · exact hfK
      · rw [List.append_nil]; exact hcl
      · rw [List.append_nil]; exact hb
      · rw [List.append_nil]; exact fun k => rfl

theorem seekEnd_cons (cmp : Comparator) (acc : Cell → Bool) (it : IItem) (rest : List IItem) (fl : Bool) (st : List MItem) :
    seekEnd cmp acc (it :: rest) fl st = ((if it.state ≠ 2 then it.addSubtrees cmp acc 1 (fl || it.flatten) st else .ok st) >>= fun st => seekEnd cmp acc rest (fl || it.flatten) st) := by
  conv => lhs; unfold seekEnd
  by_cases h : it.state ≠ 2
  · rw [if_pos h, if_pos h]
  · rw [if_neg h, if_neg h]

/-- `seek_end` emits everything. -/
theorem seekEnd_spec (cmp : Comparator) (acc : Cell → Bool) {n : Nat} (hn : n ≤ 1023) : ∀ (rest : List Frame) (f : Frame) (em : List Piece) (fl : Bool),
    Walk cmp acc n em (f :: rest) → Cov em fl f → Closed em (fun _ => False) →
    ∃ G, (∀ st, seekEnd cmp acc ((f :: rest).map (Frame.item n)) fl st = addPieces cmp acc n G st) ∧
      (∀ y ∈ em ++ G, y.Ok cmp acc n) ∧ (em ++ G).Pairwise (fun a b => Before a.q b.q) ∧ Closed (em ++ G) (fun _ => False) ∧
      ∀ k, piecesLook (em ++ G) k = total em (f :: rest) k := by
  intro rest
  induction rest with
  | nil =>
    intro f em fl hw hcov hcl
    obtain ⟨e1, e2, e3, e4, e5, e6⟩ := hw.emit (fl := fl || f.flatten) (fun h => by simp [h]) (hcov.mono rfl rfl rfl id (fun h => by simp [h]) (fun y hy => hy)) hcl
    refine ⟨_, fun st => ?_, e1, e2, e4, fun k => ?_⟩
    · have h1 : seekEnd cmp acc ([f].map (Frame.item n)) fl st =
          ((if f.state ≠ 2 then (f.item n).addSubtrees cmp acc 1 (fl || f.flatten) st else .ok st) >>= fun st => .ok st) := seekEnd_cons cmp acc (f.item n) _ fl st
      rw [h1]
      by_cases h2 : f.state ≠ 2
      · rw [if_pos h2, addSubtrees_all cmp acc hn hw.chain.top _ h2, Bool.or_assoc, Bool.or_self]
        cases addPieces cmp acc n (f.pend.map (Pend.piece (fl || f.flatten))) st <;> rfl
      · rw [if_neg h2, pend_two (Classical.not_not.mp h2)]; rfl
    · rw [← e6 k]
      show _ = (_ <|> none)
      cases piecesLook (em ++ f.pend.map (Pend.piece (fl || f.flatten))) k <;> rfl
  | cons g rest ih =>
    intro f em fl hw hcov hcl
    obtain ⟨e1, e2, e3, e4, e5, e6⟩ := hw.emit (fl := fl || f.flatten) (fun h => by simp [h]) (hcov.mono rfl rfl rfl id (fun h => by simp [h]) (fun y hy => hy)) hcl
    have hch := hw.chain
    cases hch with
    | @step _ _ _ l e x a b bit hg hp ht hs hr =>
      have hw' : Walk cmp acc n (em ++ f.pend.map (Pend.piece (fl || f.flatten))) (g :: rest) := ⟨e1, e2, e3, hr⟩
      have hcov' : Cov (em ++ f.pend.map (Pend.piece (fl || f.flatten))) (fl || f.flatten) g :=
        Or.inr (Or.inr ⟨l, e, x, a, b, bit, hg, hs, by rw [← hp]; exact e5⟩)
      obtain ⟨G, i1, i2, i3, i4, i5⟩ := ih g _ _ hw' hcov' e4
      rw [List.append_assoc] at i2 i3 i4 i5
      refine ⟨f.pend.map (Pend.piece (fl || f.flatten)) ++ G, fun st => ?_, i2, i3, i4, fun k => by rw [i5 k, e6 k]⟩
      have h1 : seekEnd cmp acc ((f :: g :: rest).map (Frame.item n)) fl st =
          ((if f.state ≠ 2 then (f.item n).addSubtrees cmp acc 1 (fl || f.flatten) st else .ok st) >>= fun st =>
            seekEnd cmp acc ((g :: rest).map (Frame.item n)) (fl || f.flatten) st) := seekEnd_cons cmp acc (f.item n) _ fl st
      have h3 : (if f.state ≠ 2 then (f.item n).addSubtrees cmp acc 1 (fl || f.flatten) st else .ok st) =
          addPieces cmp acc n (f.pend.map (Pend.piece (fl || f.flatten))) st := by
        by_cases h2 : f.state ≠ 2
        · rw [if_pos h2, addSubtrees_all cmp acc hn hw.chain.top _ h2, Bool.or_assoc, Bool.or_self]
        · rw [if_neg h2, pend_two (Classical.not_not.mp h2)]; rfl
      rw [h1, h3, addPieces_append]
      cases addPieces cmp acc n (f.pend.map (Pend.piece (fl || f.flatten))) st with
      | error e => rfl
      | ok st' => exact i1 st'

end Verif
