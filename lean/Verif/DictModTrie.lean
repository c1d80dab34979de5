import Verif.DictPieces
/-
Bulk modification (`dict/ops/modify.rs`): which pieces the walk over the old dictionary emits. Lemmas for C28.
-/
set_option linter.unusedVariables false
set_option linter.unusedSimpArgs false
namespace Verif

open Piece (PartOf labelEnd)

/-- An item of the walk: a node of the old dictionary, below the prefix `p`. -/
structure Frame where
  p : Bits
  t : Trie
  state : Int
  flatten : Bool

def Frame.item (n : Nat) (f : Frame) : IItem :=
  ⟨f.p, f.t.cell, f.t.label, f.state, f.flatten, labelEnd f.t, n - f.p.length - f.t.label.length⟩

/-- A part of the old dictionary that has not been emitted: the leaf of an item, or a branch of one. -/
inductive Pend
  | raw (p : Bits) (t : Trie)
  | sub (p : Bits) (t : Trie)

namespace Pend
def at_ : Pend → Bits
  | raw p t => p ++ t.label
  | sub p _ => p
def piece (fl : Bool) : Pend → Piece
  | raw p t => .flat p t
  | sub p t => if fl then .flat p t else .node p t
def look : Pend → Bits → Option Sl
  | raw p t, k | sub p t, k => lk p t k
def Ok (cmp : Comparator) (acc : Cell → Bool) (n : Nat) : Pend → Prop
  | raw p t | sub p t => PartOf cmp acc n p t

theorem piece_q (fl : Bool) (z : Pend) : z.at_ <+: (z.piece fl).q := by
  cases z with
  | raw p t => exact List.prefix_refl _
  | sub p t =>
    cases fl
    · exact List.prefix_refl _
    · exact List.prefix_append _ _

theorem piece_look (fl : Bool) (z : Pend) (k : Bits) : (z.piece fl).look k = z.look k := by
  cases z with
  | raw p t => rfl
  | sub p t => cases fl <;> rfl

theorem piece_ok {cmp : Comparator} {acc : Cell → Bool} {n : Nat} (fl : Bool) {z : Pend} (h : z.Ok cmp acc n) : (z.piece fl).Ok cmp acc n := by
  cases z with
  | raw p t => exact h
  | sub p t => cases fl <;> exact h

theorem look_prefix {z : Pend} {k : Bits} (h : (z.look k).isSome) : z.at_ <+: k := by
  cases z with
  | raw p t => exact lk_prefix h
  | sub p t => exact (List.prefix_append _ _).trans (lk_prefix h)
end Pend

/-- What an item still has to emit. -/
def Frame.pend (f : Frame) : List Pend :=
  match f.t with
  | .leaf .. => if f.state = 2 then [] else [.raw f.p f.t]
  | .fork l _ _ a b => (if f.state < 0 then [.sub (f.p ++ l ++ [false]) a] else []) ++ (if f.state < 1 then [.sub (f.p ++ l ++ [true]) b] else [])

def pendAll (fs : List Frame) : List Pend := fs.flatMap Frame.pend

def pendLook (zs : List Pend) (k : Bits) : Option Sl := zs.findSome? (fun z => z.look k)

theorem pendLook_append (xs ys : List Pend) (k : Bits) : pendLook (xs ++ ys) k = (pendLook xs k <|> pendLook ys k) := by
  unfold pendLook
  rw [List.findSome?_append]; cases List.findSome? (fun z => z.look k) xs <;> rfl

theorem piecesLook_append (xs ys : List Piece) (k : Bits) : piecesLook (xs ++ ys) k = (piecesLook xs k <|> piecesLook ys k) := by
  unfold piecesLook
  rw [List.findSome?_append]; cases List.findSome? (fun z => z.look k) xs <;> rfl

theorem piecesLook_pend (fl : Bool) (zs : List Pend) (k : Bits) : piecesLook (zs.map (Pend.piece fl)) k = pendLook zs k := by
  unfold piecesLook pendLook
  rw [List.findSome?_map]
  congr 1
  funext z
  exact Pend.piece_look fl z k

theorem pendAll_cons (f : Frame) (fs : List Frame) : pendAll (f :: fs) = f.pend ++ pendAll fs := rfl

theorem or_assoc' (a b c : Option Sl) : ((a <|> b) <|> c) = (a <|> (b <|> c)) := by cases a <;> rfl

/-! ### The code on items -/

theorem load_item (cmp : Comparator) (acc : Cell → Bool) {n : Nat} (hn : n ≤ 1023) {p : Bits} {t : Trie} (h : PartOf cmp acc n p t) :
    IItem.load p (n - p.length) t.cell = .ok (Frame.item n ⟨p, t, -1, false⟩) := by
  show (asSlice t.cell >>= fun data => readLabel data (n - p.length) >>= fun r =>
    if n - p.length < r.1.length then .error .fault else .ok _) = _
  rw [asSlice_cell]
  show (readLabel _ _ >>= _) = _
  rw [readLabel_cell h.sized (by omega)]
  exact if_neg (by have := h.sized.length_le; show ¬ _ < t.label.length; omega)

theorem rawLeaf_eq (cmp : Comparator) (acc : Cell → Bool) {n : Nat} (hn : n ≤ 1023) {p l e : Bits} {v : Sl} (h : PartOf cmp acc n p (.leaf l e v)) (st : List MItem) :
    addRawLeaf cmp acc st (p ++ l) (Trie.leaf l e v).cell (labelEnd (.leaf l e v)) = addPiece cmp acc n st (.flat p (.leaf l e v)) := by
  rw [addPiece_eq cmp acc hn (x := .flat p (.leaf l e v)) h]
  have hl : l.length = n - p.length := h.sized.1
  have hlen := h.len
  have e1 : (p ++ l).length = n := by rw [List.length_append]; omega
  show (reduce cmp acc (p ++ l).length st (p ++ l) >>= fun r => Except.ok (MItem.denorm (p ++ l) (Trie.leaf l e v).cell (labelEnd (.leaf l e v)) true r.1 :: r.2)) =
    (reduce cmp acc n st (p ++ l) >>= fun r => Except.ok (MItem.denorm (p ++ l) (Trie.leaf l e v).cell (labelEnd (.leaf l e v)) (l.length == n - p.length) r.1 :: r.2))
  rw [e1, show (l.length == n - p.length) = true by simp [hl]]

theorem Piece.PartOf.branch {cmp : Comparator} {acc : Cell → Bool} {n : Nat} {p l e : Bits} {x : Sl} {a b : Trie} (h : PartOf cmp acc n p (.fork l e x a b)) (bit : Bool) :
    PartOf cmp acc n (p ++ l ++ [bit]) (if bit then b else a) := by
  have hl : l.length < n - p.length := h.sized.1
  have hlen := h.len
  have e1 : n - (p ++ l ++ [bit]).length = n - p.length - l.length - 1 := by simp; omega
  refine ⟨by simp; omega, ?_, ?_, ?_⟩
  · rw [e1]; cases bit
    · exact h.sized.2.2.1
    · exact h.sized.2.2.2
  · rw [e1]; cases bit
    · exact h.canon.2.2.1
    · exact h.canon.2.2.2
  · cases bit
    · exact h.good.2.2.1
    · exact h.good.2.2.2

theorem addChild_eq (cmp : Comparator) (acc : Cell → Bool) {n : Nat} {f : Frame} {l e : Bits} {x : Sl} {a b : Trie} (ht : f.t = .fork l e x a b)
    (h : PartOf cmp acc n f.p f.t) (fl bit : Bool) (st : List MItem) :
    (f.item n).addChild cmp acc fl bit.toNat st = addPiece cmp acc n st ((Pend.sub (f.p ++ l ++ [bit]) (if bit then b else a)).piece (fl || f.flatten)) := by
  rw [ht] at h
  have hl : l.length < n - f.p.length := h.sized.1
  have hlen := h.len
  have e1 : n - f.p.length - l.length - 1 = n - (f.p ++ l ++ [bit]).length := by simp; omega
  have hr : (f.item n).cell.refs[bit.toNat]? = some (if bit then b else a).cell := by
    show f.t.cell.refs[bit.toNat]? = _
    rw [ht]; cases bit <;> rfl
  unfold IItem.addChild
  rw [hr]
  have hb : (bit.toNat != 0) = bit := by cases bit <;> rfl
  show (if (fl || f.flatten) = true then addFlattened cmp acc st (f.p ++ f.t.label ++ [bit.toNat != 0]) (n - f.p.length - f.t.label.length - 1) _
    else addSubtree cmp acc st (f.p ++ f.t.label ++ [bit.toNat != 0]) (n - f.p.length - f.t.label.length - 1) _) = _
  rw [hb, ht]
  show (if (fl || f.flatten) = true then addFlattened cmp acc st (f.p ++ l ++ [bit]) (n - f.p.length - l.length - 1) _
    else addSubtree cmp acc st (f.p ++ l ++ [bit]) (n - f.p.length - l.length - 1) _) = _
  rw [e1]
  cases (fl || f.flatten) <;> rfl

/-- Emitting everything that is left of an item. -/
theorem addSubtrees_all (cmp : Comparator) (acc : Cell → Bool) {n : Nat} (hn : n ≤ 1023) {f : Frame} (h : PartOf cmp acc n f.p f.t) (fl : Bool) (hs : f.state ≠ 2)
    (st : List MItem) :
    (f.item n).addSubtrees cmp acc 1 fl st = addPieces cmp acc n (f.pend.map (Pend.piece (fl || f.flatten))) st := by
  unfold IItem.addSubtrees Frame.pend
  cases ht : f.t with
  | leaf l e v =>
    have hl : l.length = n - f.p.length := by rw [ht] at h; exact h.sized.1
    have hrem : (f.item n).remaining = 0 := by
      show n - f.p.length - f.t.label.length = 0
      rw [ht]; show n - f.p.length - l.length = 0; omega
    rw [if_pos hrem]
    dsimp only
    rw [if_neg hs]
    show addRawLeaf cmp acc st (f.p ++ f.t.label) f.t.cell (labelEnd f.t) = (addPiece cmp acc n st (.flat f.p (.leaf l e v)) >>= fun st => .ok st)
    rw [ht] at h ⊢
    rw [← rawLeaf_eq cmp acc hn h]
    show addRawLeaf cmp acc st (f.p ++ l) _ _ = _
    cases addRawLeaf cmp acc st (f.p ++ l) (Trie.leaf l e v).cell (labelEnd (.leaf l e v)) <;> rfl
  | fork l e x a b =>
    have hl : l.length < n - f.p.length := by rw [ht] at h; exact h.sized.1
    have hrem : ¬ (f.item n).remaining = 0 := by
      show ¬ n - f.p.length - f.t.label.length = 0
      rw [ht]; show ¬ n - f.p.length - l.length = 0; omega
    rw [if_neg hrem]
    dsimp only
    have c0 := addChild_eq cmp acc ht h fl false
    have c1 := addChild_eq cmp acc ht h fl true
    simp only [Bool.toNat_false, Bool.toNat_true, if_true, Bool.false_eq_true, if_false] at c0 c1
    have hstate : (f.item n).state = f.state := rfl
    rw [hstate]
    by_cases h0 : f.state < 0
    · have h1 : f.state < 1 := by omega
      simp only [h0, h1, true_and, if_true, Int.le_refl, (by decide : (0:Int) ≤ 1)]
      rw [c0]
      show _ = addPieces cmp acc n [_, _] st
      show _ = (addPiece cmp acc n st _ >>= fun st => addPiece cmp acc n st _ >>= fun st => .ok st)
      cases addPiece cmp acc n st ((Pend.sub (f.p ++ l ++ [false]) a).piece (fl || f.flatten)) with
      | error e => rfl
      | ok st' =>
        show (f.item n).addChild cmp acc fl 1 st' = (addPiece cmp acc n st' _ >>= fun st => .ok st)
        rw [c1]
        cases addPiece cmp acc n st' ((Pend.sub (f.p ++ l ++ [true]) b).piece (fl || f.flatten)) <;> rfl
    · by_cases h1 : f.state < 1
      · simp only [h0, h1, false_and, true_and, if_false, if_true, Int.le_refl]
        show (f.item n).addChild cmp acc fl 1 st = (addPiece cmp acc n st _ >>= fun st => .ok st)
        rw [c1]
        cases addPiece cmp acc n st ((Pend.sub (f.p ++ l ++ [true]) b).piece (fl || f.flatten)) <;> rfl
      · simp only [h0, h1, false_and, if_false]
        rfl

/-- The left branch is emitted on the way to the right one. -/
theorem addSubtrees_left (cmp : Comparator) (acc : Cell → Bool) {n : Nat} {f : Frame} {l e : Bits} {x : Sl} {a b : Trie} (ht : f.t = .fork l e x a b)
    (h : PartOf cmp acc n f.p f.t) (fl bit : Bool) (st : List MItem) :
    (f.item n).addSubtrees cmp acc ((bit.toNat : Int) - 1) fl st =
      addPieces cmp acc n (if bit ∧ f.state < 0 then [(Pend.sub (f.p ++ l ++ [false]) a).piece (fl || f.flatten)] else []) st := by
  have hl : l.length < n - f.p.length := by rw [ht] at h; exact h.sized.1
  have hrem : ¬ (f.item n).remaining = 0 := by
    show ¬ n - f.p.length - f.t.label.length = 0
    rw [ht]; show ¬ n - f.p.length - l.length = 0; omega
  have hun : ∀ u, (f.item n).addSubtrees cmp acc u fl st = ((if f.state < 0 ∧ 0 ≤ u then (f.item n).addChild cmp acc fl 0 st else .ok st) >>= fun st =>
      if f.state < 1 ∧ 1 ≤ u then (f.item n).addChild cmp acc fl 1 st else .ok st) := by
    intro u
    have : (f.item n).addSubtrees cmp acc u fl st = ((if (f.item n).state < 0 ∧ 0 ≤ u then (f.item n).addChild cmp acc fl 0 st else .ok st) >>= fun st =>
      if (f.item n).state < 1 ∧ 1 ≤ u then (f.item n).addChild cmp acc fl 1 st else .ok st) := by
      unfold IItem.addSubtrees
      rw [if_neg hrem]
      by_cases h0 : (f.item n).state < 0 ∧ 0 ≤ u
      · rw [if_pos h0, if_pos h0]
      · rw [if_neg h0, if_neg h0]
    exact this
  rw [hun]
  have c0 := addChild_eq cmp acc ht h fl false
  simp only [Bool.toNat_false, Bool.false_eq_true, if_false] at c0
  cases bit with
  | false =>
    rw [if_neg (by simp), if_neg (by simp)]
    exact if_neg (by simp)
  | true =>
    by_cases h0 : f.state < 0
    · rw [if_pos (by simp [h0]), if_pos (by simp [h0]), c0]
      show _ = (addPiece cmp acc n st _ >>= fun st => .ok st)
      cases addPiece cmp acc n st ((Pend.sub (f.p ++ l ++ [false]) a).piece (fl || f.flatten)) with
      | error e => rfl
      | ok st' => exact if_neg (by simp)
    · rw [if_neg (by simp [h0]), if_neg (by simp [h0])]
      exact if_neg (by simp)

/-! ### Items along a path -/

/-- Items from the current node up to the root. -/
inductive Chain (cmp : Comparator) (acc : Cell → Bool) (n : Nat) : List Frame → Prop
  | root {f : Frame} (hp : f.p = []) (ht : PartOf cmp acc n f.p f.t) : Chain cmp acc n [f]
  | step {f g : Frame} {rest : List Frame} {l e : Bits} {x : Sl} {a b : Trie} {bit : Bool} (hg : g.t = .fork l e x a b) (hp : f.p = g.p ++ l ++ [bit])
      (ht : f.t = if bit then b else a) (hs : g.state = (bit.toNat : Int)) (hr : Chain cmp acc n (g :: rest)) : Chain cmp acc n (f :: g :: rest)

theorem Chain.top {cmp : Comparator} {acc : Cell → Bool} {n : Nat} {f : Frame} {rest : List Frame} (h : Chain cmp acc n (f :: rest)) : PartOf cmp acc n f.p f.t := by
  generalize hfs : f :: rest = fs at h
  induction h generalizing f rest with
  | root hp ht => injection hfs with h1 h2; subst h1; exact ht
  | @step f' g rest' l e x a b bit hg hp ht hs hr ih =>
    injection hfs with h1 h2
    subst h1
    have := ih rfl
    rw [hg] at this
    rw [hp, ht]
    exact this.branch bit

theorem Chain.tail {cmp : Comparator} {acc : Cell → Bool} {n : Nat} {f g : Frame} {rest : List Frame} (h : Chain cmp acc n (f :: g :: rest)) :
    Chain cmp acc n (g :: rest) := by
  cases h with
  | step hg hp ht hs hr => exact hr

theorem Chain.set {cmp : Comparator} {acc : Cell → Bool} {n : Nat} {f f' : Frame} {rest : List Frame} (h : Chain cmp acc n (f :: rest)) (hp : f'.p = f.p) (ht : f'.t = f.t) :
    Chain cmp acc n (f' :: rest) := by
  cases h with
  | root h1 h2 => exact .root (hp.trans h1) (by rw [hp, ht]; exact h2)
  | step hg hp' ht' hs hr => exact .step hg (hp.trans hp') (ht.trans ht') hs hr

theorem pend_prefix {f : Frame} {z : Pend} (h : z ∈ f.pend) : f.p ++ f.t.label <+: z.at_ := by
  unfold Frame.pend at h
  cases ht : f.t with
  | leaf l e v =>
    rw [ht] at h
    dsimp only at h
    by_cases hs : f.state = 2
    · rw [if_pos hs] at h; cases h
    · rw [if_neg hs, List.mem_singleton] at h
      subst h
      exact List.prefix_refl _
  | fork l e x a b =>
    rw [ht] at h
    dsimp only at h
    rcases List.mem_append.mp h with h | h
    · by_cases hs : f.state < 0
      · rw [if_pos hs, List.mem_singleton] at h
        subst h
        exact List.prefix_append _ _
      · rw [if_neg hs] at h; cases h
    · by_cases hs : f.state < 1
      · rw [if_pos hs, List.mem_singleton] at h
        subst h
        exact List.prefix_append _ _
      · rw [if_neg hs] at h; cases h

theorem pend_ok {cmp : Comparator} {acc : Cell → Bool} {n : Nat} {f : Frame} (hf : PartOf cmp acc n f.p f.t) {z : Pend} (h : z ∈ f.pend) : z.Ok cmp acc n := by
  unfold Frame.pend at h
  cases ht : f.t with
  | leaf l e v =>
    rw [ht] at h
    dsimp only at h
    by_cases hs : f.state = 2
    · rw [if_pos hs] at h; cases h
    · rw [if_neg hs, List.mem_singleton] at h
      subst h
      rw [ht] at hf
      exact hf
  | fork l e x a b =>
    rw [ht] at h hf
    dsimp only at h
    rcases List.mem_append.mp h with h | h
    · by_cases hs : f.state < 0
      · rw [if_pos hs, List.mem_singleton] at h
        subst h
        exact hf.branch false
      · rw [if_neg hs] at h; cases h
    · by_cases hs : f.state < 1
      · rw [if_pos hs, List.mem_singleton] at h
        subst h
        exact hf.branch true
      · rw [if_neg hs] at h; cases h

theorem pend_pairwise (f : Frame) (fl : Bool) : (f.pend.map (Pend.piece fl)).Pairwise (fun a b => Before a.q b.q) := by
  unfold Frame.pend
  cases f.t with
  | leaf l e v =>
    dsimp only
    split
    · exact List.Pairwise.nil
    · exact List.pairwise_singleton _ _
  | fork l e x a b =>
    dsimp only
    by_cases h0 : f.state < 0
    · rw [if_pos h0, if_pos (by omega)]
      refine List.Pairwise.cons ?_ (List.pairwise_singleton _ _)
      intro y hy
      have hy : y = (Pend.sub (f.p ++ l ++ [true]) b).piece fl := by simpa using hy
      rw [hy]
      exact (before_siblings (f.p ++ l) [] []).ext (Pend.piece_q fl (.sub (f.p ++ l ++ [false]) a)) (Pend.piece_q fl (.sub (f.p ++ l ++ [true]) b))
    · rw [if_neg h0]
      split
      · exact List.pairwise_singleton _ _
      · exact List.Pairwise.nil

/-- What items further up have to emit comes after everything below the current node. -/
theorem Chain.after {cmp : Comparator} {acc : Cell → Bool} {n : Nat} {f : Frame} {rest : List Frame} (h : Chain cmp acc n (f :: rest)) {k : Bits} (hk : f.p <+: k)
    {z : Pend} (hz : z ∈ pendAll rest) : Before k z.at_ := by
  generalize hfs : f :: rest = fs at h
  induction h generalizing f rest with
  | root hp ht => injection hfs with h1 h2; subst h1 h2; cases hz
  | @step f' g rest' l e x a b bit hg hp ht hs hr ih =>
    injection hfs with h1 h2
    subst h1 h2
    rw [pendAll_cons] at hz
    rcases List.mem_append.mp hz with hz | hz
    · unfold Frame.pend at hz
      rw [hg] at hz
      dsimp only at hz
      rw [hs] at hz
      cases bit with
      | true => rw [if_neg (by simp), if_neg (by simp)] at hz; cases hz
      | false =>
        rw [if_neg (by simp), if_pos (by simp), List.nil_append, List.mem_singleton] at hz
        subst hz
        rw [hp] at hk
        exact (before_siblings (g.p ++ l) [] []).ext hk (List.prefix_refl _)
    · exact ih (by rw [hp, List.append_assoc] at hk; exact (List.prefix_append _ _).trans hk) hz rfl

theorem lk_fork (p l e : Bits) (x : Sl) (a b : Trie) (k : Bits) :
    lk p (.fork l e x a b) k = (lk (p ++ l ++ [false]) a k <|> lk (p ++ l ++ [true]) b k) := by
  unfold lk
  rw [stripPrefix_append_left (p ++ l), stripPrefix_append_left (p ++ l), stripPrefix_append_left p]
  cases stripPrefix p k with
  | none => rfl
  | some r =>
    show Trie.lookup (.fork l e x a b) r = _
    show (match stripPrefix l r with
      | some (false :: r) => a.lookup r
      | some (true :: r) => b.lookup r
      | _ => none) = _
    cases hs : stripPrefix l r with
    | none => simp [hs]
    | some r' =>
      cases r' with
      | nil => simp [hs, stripPrefix]
      | cons y r' =>
        cases y
        · simp [hs, stripPrefix]
        · simp [hs, stripPrefix]

/-- A node that has not been entered has all its entries to emit. -/
theorem pendLook_new (p : Bits) (t : Trie) (fl : Bool) (k : Bits) : pendLook (Frame.pend ⟨p, t, -1, fl⟩) k = lk p t k := by
  cases t with
  | leaf l e v =>
    show pendLook [.raw p (.leaf l e v)] k = _
    unfold pendLook
    rw [List.findSome?_singleton]
    rfl
  | fork l e x a b =>
    rw [lk_fork]
    show pendLook [.sub (p ++ l ++ [false]) a, .sub (p ++ l ++ [true]) b] k = _
    unfold pendLook
    rw [List.findSome?_cons, List.findSome?_singleton]
    have h1 : (Pend.sub (p ++ l ++ [false]) a).look k = lk (p ++ l ++ [false]) a k := rfl
    rw [h1]
    cases lk (p ++ l ++ [false]) a k <;> rfl

end Verif
