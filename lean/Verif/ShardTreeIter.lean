import Verif.ShardTree
import Verif.TransactionProps
/-
Iteration over a tree of shards (helper lemmas, and the specification of trees).
-/
set_option linter.unusedVariables false
set_option linter.unusedSimpArgs false
namespace Verif

/-! ### Specification: a binary tree, its leaves and their paths -/

inductive ShardTree (α : Type) where
  | leaf (a : α)
  | fork (l r : ShardTree α)

namespace ShardTree
variable {α β : Type}

/-- The leaves from left to right, each with its path from the root. -/
def leaves : ShardTree α → Bits → List (Bits × α)
  | .leaf a, p => [(p, a)]
  | .fork l r, p => l.leaves (p ++ [false]) ++ r.leaves (p ++ [true])

def height : ShardTree α → Nat
  | .leaf _ => 0
  | .fork l r => max l.height r.height + 1

def map (f : α → β) : ShardTree α → ShardTree β
  | .leaf a => .leaf (f a)
  | .fork l r => .fork (l.map f) (r.map f)

/-- The cell holds the tree: a leaf is a zero bit followed by its contents, a fork is a one bit and two references. -/
def In : ShardTree Sl → Cell → Prop
  | .leaf s, c => c.exotic = false ∧ c.bits = false :: s.bits ∧ c.refs = s.refs
  | .fork l r, c => c.exotic = false ∧ (∃ x, c.bits = true :: x) ∧ ∃ a b y, c.refs = a :: b :: y ∧ l.In a ∧ r.In b

end ShardTree

/-- The shard of a workchain with this path (`block_id.rs`: the path, a one, zeros). -/
def shardAt (w : Int) (p : Bits) : ShardIdent := ⟨w, BitVec.ofNat 64 (natOfBits (p ++ true :: List.replicate (63 - p.length) false))⟩

/-! ### What an iterator lists: the leaves up to the first error -/

/-- One listing after another; an error ends it. -/
def followed {α : Type} (a b : List α × Option Err) : List α × Option Err :=
  match a.2 with
  | none => (a.1 ++ b.1, b.2)
  | some e => (a.1, some e)

theorem followed_nil {α : Type} (a : List α × Option Err) : followed ([], none) a = a := rfl
theorem followed_end {α : Type} (a : List α × Option Err) : followed a ([], none) = a := by
  obtain ⟨a1, a2⟩ := a; cases a2 <;> simp [followed]
theorem followed_err {α : Type} (e : Err) (a : List α × Option Err) : followed ([], some e) a = ([], some e) := rfl
theorem followed_assoc {α : Type} (a b c : List α × Option Err) : followed (followed a b) c = followed a (followed b c) := by
  obtain ⟨a1, a2⟩ := a; obtain ⟨b1, b2⟩ := b; obtain ⟨c1, c2⟩ := c
  cases a2 <;> cases b2 <;> simp [followed]

/-- The leaves below a cell with at most `n` levels of forks below it. -/
def walkTree : Nat → Bits → Option Cell → List (Bits × Sl) × Option Err
  | n, p, none => ([], some .cellUnderflow)
  | n, p, some c => match asSlice c with
    | .error e => ([], some e)
    | .ok s => match s.bits with
      | [] => ([], some .cellUnderflow)
      | false :: r => ([(p, ⟨r, s.refs⟩)], none)
      | true :: _ => match n with
        | 0 => ([], some .cellUnderflow)
        | n + 1 => followed (walkTree n (p ++ [false]) (s.refs[0]?)) (walkTree n (p ++ [true]) (s.refs[1]?))

theorem walk_exotic {n : Nat} {p : Bits} {c : Cell} (h : c.exotic = true) : walkTree n p (some c) = ([], some .unexpectedExoticCell) := by
  unfold walkTree asSlice; rw [if_pos h]
theorem walk_empty {n : Nat} {p : Bits} {c : Cell} (h : c.exotic = false) (hb : c.bits = []) : walkTree n p (some c) = ([], some .cellUnderflow) := by
  unfold walkTree asSlice; rw [if_neg (by simp [h])]; dsimp only; rw [hb]
theorem walk_leaf {n : Nat} {p : Bits} {c : Cell} {r : Bits} (h : c.exotic = false) (hb : c.bits = false :: r) : walkTree n p (some c) = ([(p, ⟨r, c.refs⟩)], none) := by
  unfold walkTree asSlice; rw [if_neg (by simp [h])]; dsimp only; rw [hb]
theorem walk_deep {p : Bits} {c : Cell} {r : Bits} (h : c.exotic = false) (hb : c.bits = true :: r) : walkTree 0 p (some c) = ([], some .cellUnderflow) := by
  unfold walkTree asSlice; rw [if_neg (by simp [h])]; dsimp only; rw [hb]
theorem walk_fork {n : Nat} {p : Bits} {c : Cell} {r : Bits} (h : c.exotic = false) (hb : c.bits = true :: r) :
    walkTree (n + 1) p (some c) = followed (walkTree n (p ++ [false]) (c.refs[0]?)) (walkTree n (p ++ [true]) (c.refs[1]?)) := by
  rw [walkTree]; unfold asSlice; rw [if_neg (by simp [h])]; dsimp only; rw [hb]

theorem followed_ok {α : Type} {a b : List α × Option Err} {l : List α} (h : followed a b = (l, none)) : ∃ x y, a = (x, none) ∧ b = (y, none) ∧ l = x ++ y := by
  obtain ⟨a1, a2⟩ := a; obtain ⟨b1, b2⟩ := b
  cases a2 with
  | none =>
    simp [followed] at h
    exact ⟨a1, b1, rfl, by rw [h.2], h.1.symm⟩
  | some e => simp [followed] at h

/-- A walk without an error is one over a tree. -/
theorem walk_ok_iff {n : Nat} {p : Bits} {c : Cell} {l : List (Bits × Sl)} :
    walkTree n p (some c) = (l, none) ↔ ∃ t : ShardTree Sl, t.In c ∧ t.height ≤ n ∧ l = t.leaves p := by
  constructor
  · intro h
    induction n generalizing p c l with
    | zero =>
      cases hx : c.exotic with
      | true => rw [walk_exotic hx] at h; cases h
      | false =>
        rcases hb : c.bits with _ | ⟨b, r⟩
        · rw [walk_empty hx hb] at h; cases h
        · cases b with
          | true => rw [walk_deep hx hb] at h; cases h
          | false =>
            rw [walk_leaf hx hb] at h
            cases h
            exact ⟨.leaf ⟨r, c.refs⟩, ⟨hx, hb, rfl⟩, Nat.le_refl _, rfl⟩
    | succ n ih =>
      cases hx : c.exotic with
      | true => rw [walk_exotic hx] at h; cases h
      | false =>
        rcases hb : c.bits with _ | ⟨b, r⟩
        · rw [walk_empty hx hb] at h; cases h
        · cases b with
          | false =>
            rw [walk_leaf hx hb] at h
            cases h
            exact ⟨.leaf ⟨r, c.refs⟩, ⟨hx, hb, rfl⟩, Nat.zero_le _, rfl⟩
          | true =>
            rw [walk_fork hx hb] at h
            obtain ⟨x, y, h1, h2, rfl⟩ := followed_ok h
            rcases hr : c.refs with _ | ⟨u, rest⟩
            · rw [hr] at h1; cases n <;> cases h1
            · rcases rest with _ | ⟨v, rest⟩
              · rw [hr] at h2; cases n <;> cases h2
              · rw [hr] at h1 h2
                obtain ⟨t1, a1, a2, rfl⟩ := ih h1
                obtain ⟨t2, b1, b2, rfl⟩ := ih h2
                refine ⟨.fork t1 t2, ⟨hx, ⟨r, hb⟩, u, v, rest, hr, a1, b1⟩, ?_, rfl⟩
                show max t1.height t2.height + 1 ≤ n + 1
                omega
  · rintro ⟨t, h1, h2, rfl⟩
    induction t generalizing n p c with
    | leaf s =>
      obtain ⟨a, b, d⟩ := h1
      rw [walk_leaf a b, d]; rfl
    | fork l r ih1 ih2 =>
      obtain ⟨hx, ⟨x, hb⟩, u, v, y, hr, a, b⟩ := h1
      have h2' : max l.height r.height + 1 ≤ n := h2
      obtain ⟨m, rfl⟩ : ∃ m, n = m + 1 := ⟨n - 1, by omega⟩
      rw [walk_fork hx hb, hr]
      show followed (walkTree m (p ++ [false]) (some u)) (walkTree m (p ++ [true]) (some v)) = _
      rw [ih1 a (by omega), ih2 b (by omega)]
      rfl

/-! ### The iterator's stack -/

/-- The path of the top of the stack. -/
def segPath : List ShardSeg → Bits
  | [] => []
  | g :: rest => segPath rest ++ [g.right]

theorem segPath_length (st : List ShardSeg) : (segPath st).length = st.length := by
  induction st with
  | nil => rfl
  | cons g rest ih => simp [segPath, ih]

/-- What comes after the subtree that the top of the stack points to. -/
def pendAfter : List ShardSeg → List (Bits × Sl) × Option Err
  | [] => ([], none)
  | g :: rest => followed (if g.right then ([], none) else walkTree (60 - (rest.length + 1)) (segPath rest ++ [true]) (g.cell.refs[1]?)) (pendAfter rest)

/-- What is left, from the subtree that the top of the stack points to. -/
def pendNow : List ShardSeg → List (Bits × Sl) × Option Err
  | [] => ([], none)
  | g :: rest => followed (walkTree (60 - (rest.length + 1)) (segPath rest ++ [g.right]) (g.cell.refs[g.right.toNat]?)) (pendAfter (g :: rest))

theorem pend_advance (st : List ShardSeg) : pendNow (shardAdvance st) = pendAfter st := by
  induction st with
  | nil => rfl
  | cons g rest ih =>
    obtain ⟨c, b⟩ := g
    cases b with
    | true =>
      show pendNow (shardAdvance rest) = _
      rw [ih]; rfl
    | false => rfl

theorem advance_length (st : List ShardSeg) : (shardAdvance st).length ≤ st.length := by
  induction st with
  | nil => exact Nat.le_refl _
  | cons g rest ih =>
    unfold shardAdvance
    split
    · simp; omega
    · simp

theorem descend_spec (fuel : Nat) (st : List ShardSeg) (hne : st ≠ []) (hl : st.length ≤ 60) (hf : 61 ≤ fuel + st.length) :
    (∃ e, shardDescend fuel st = .error e ∧ pendNow st = ([], some e)) ∨
    (∃ s st', shardDescend fuel st = .ok (s, st') ∧ st'.length ≤ 60 ∧ pendNow st = followed ([(segPath st', s)], none) (pendAfter st')) := by
  induction fuel generalizing st with
  | zero => omega
  | succ fuel ih =>
    rcases st with _ | ⟨g, rest⟩
    · exact absurd rfl hne
    · have hl' : rest.length + 1 ≤ 60 := hl
      rcases hr : g.cell.refs[g.right.toNat]? with _ | c
      · left
        refine ⟨.cellUnderflow, ?_, ?_⟩
        · rw [shardDescend]; unfold refSlice; rw [hr]
        · rw [pendNow, hr]; cases 60 - (rest.length + 1) <;> rfl
      · cases hx : c.exotic with
        | true =>
          left
          refine ⟨.unexpectedExoticCell, ?_, ?_⟩
          · rw [shardDescend]; unfold refSlice; rw [hr]; unfold asSlice; dsimp only; rw [if_pos hx]; rfl
          · rw [pendNow, hr, walk_exotic hx]; rfl
        | false =>
          have hs : refSlice g.cell g.right.toNat = .ok (c, ⟨c.bits, c.refs⟩) := by
            unfold refSlice; rw [hr]; unfold asSlice; dsimp only; rw [if_neg (by simp [hx])]; rfl
          rcases hb : c.bits with _ | ⟨b, r⟩
          · left
            refine ⟨.cellUnderflow, ?_, ?_⟩
            · rw [shardDescend, hs, hb]
            · rw [pendNow, hr, walk_empty hx hb]; rfl
          · cases b with
            | false =>
              right
              refine ⟨⟨r, c.refs⟩, g :: rest, ?_, hl, ?_⟩
              · rw [shardDescend, hs, hb]
              · rw [pendNow, hr, walk_leaf hx hb]; rfl
            | true =>
              by_cases h60 : (g :: rest).length < ShardIdent.maxSplitDepth
              · have h60' : rest.length + 1 < 60 := h60
                have hd : shardDescend (fuel + 1) (g :: rest) = shardDescend fuel (⟨c, false⟩ :: g :: rest) := by
                  rw [shardDescend, hs, hb]; exact if_pos h60
                have hp : pendNow (⟨c, false⟩ :: g :: rest) = pendNow (g :: rest) := by
                  obtain ⟨m, hm⟩ : ∃ m, 60 - (rest.length + 1) = m + 1 := ⟨60 - (rest.length + 1) - 1, by omega⟩
                  rw [pendNow, pendNow, hr, hm, walk_fork hx hb]
                  rw [pendAfter, followed_assoc]
                  have hm' : 60 - ((g :: rest).length + 1) = m := by
                    show 60 - (rest.length + 1 + 1) = m
                    omega
                  rw [hm']
                  rfl
                rw [hd, ← hp]
                exact ih _ (by simp) (by show rest.length + 1 + 1 ≤ 60; omega) (by
                  have hf' : 61 ≤ fuel + 1 + (rest.length + 1) := hf
                  show 61 ≤ fuel + (rest.length + 1 + 1)
                  omega)
              · left
                refine ⟨.cellUnderflow, ?_, ?_⟩
                · rw [shardDescend, hs, hb]; exact if_neg h60
                · have : 60 - (rest.length + 1) = 0 := by
                    have : ¬ rest.length + 1 < 60 := h60
                    omega
                  rw [pendNow, hr, this, walk_deep hx hb]; rfl

/-! ### Prefixes -/

/-- A bit in front of a path. -/
theorem denotes_cons {x : BitVec 64} {p : Bits} (h : ShardIdent.Denotes x p) (hp : p.length < 60) (b : Bool) :
    ShardIdent.Denotes ((if b then ShardIdent.prefixFull else 0) ||| (x >>> 1)) (b :: p) := by
  refine ShardIdent.Denotes.of_bit (by simp; omega) fun j hj => ?_
  rw [BitVec.getLsbD_or, BitVec.getLsbD_ushiftRight]
  have hfull : ∀ j, j < 64 → ShardIdent.prefixFull.getLsbD j = decide (j = 63) := by decide
  by_cases h63 : j = 63
  · subst h63
    rw [BitVec.getLsbD_of_ge x (1 + 63) (by decide)]
    rw [ShardIdent.bitOf_above (by simp)]
    cases b
    · simp
    · show (ShardIdent.prefixFull.getLsbD 63 || false) = true
      decide
  · have e : (if b = true then ShardIdent.prefixFull else 0).getLsbD j = false := by
      cases b
      · simp
      · simp [hfull j hj, h63]
    rw [e, Bool.false_or, h.bit (by omega)]
    unfold ShardIdent.bitOf
    simp only [List.length_cons]
    by_cases h1 : 63 < 1 + j + p.length
    · rw [if_pos h1, if_pos (by omega)]
      obtain ⟨k, hk⟩ : ∃ k, 63 - j = k + 1 := ⟨63 - j - 1, by omega⟩
      rw [hk, show 63 - (1 + j) = k by omega]
      rfl
    · rw [if_neg h1, if_neg (by omega)]
      congr 1
      apply propext
      omega

theorem denotes_full : ShardIdent.Denotes ShardIdent.prefixFull [] := ⟨by decide, by decide⟩

/-- The prefix of a path, built from its end. -/
def pathPrefix : Bits → BitVec 64
  | [] => ShardIdent.prefixFull
  | b :: p => (if b then ShardIdent.prefixFull else 0) ||| (pathPrefix p >>> 1)

theorem pathPrefix_denotes {p : Bits} (h : p.length ≤ 60) : ShardIdent.Denotes (pathPrefix p) p := by
  induction p with
  | nil => exact denotes_full
  | cons b p ih =>
    have h' : p.length + 1 ≤ 60 := h
    exact denotes_cons (ih (by omega)) (by omega) b

theorem buildShardPrefix_eq (st : List ShardSeg) : buildShardPrefix st = pathPrefix (segPath st) := by
  have key : ∀ (st : List ShardSeg) (q : Bits), st.foldl (fun (x : BitVec 64) g => (if g.right then ShardIdent.prefixFull else 0) ||| (x >>> 1)) (pathPrefix q) = pathPrefix (segPath st ++ q) := by
    intro st
    induction st with
    | nil => intro q; rfl
    | cons g rest ih =>
      intro q
      rw [List.foldl_cons]
      have := ih (g.right :: q)
      rw [show segPath (g :: rest) ++ q = segPath rest ++ g.right :: q by simp [segPath]]
      exact this
  have := key st []
  rw [List.append_nil] at this
  exact this

theorem shardAt_is (w : Int) {p : Bits} (h : p.length ≤ 60) : (shardAt w p).Is w p := by
  refine ⟨rfl, ?_⟩
  obtain ⟨x, hx⟩ := ShardIdent.Denotes.exists h
  have : BitVec.ofNat 64 (natOfBits (p ++ true :: List.replicate (63 - p.length) false)) = x := by
    rw [← hx.2]
    apply BitVec.eq_of_toNat_eq
    rw [wordBits_eq_natBits, natOfBits_natBits, BitVec.toNat_ofNat]
    have := x.isLt
    omega
  show ShardIdent.Denotes (BitVec.ofNat 64 _) p
  rw [this]; exact hx

theorem shard_eq {s t : ShardIdent} {w : Int} {p : Bits} (h1 : s.Is w p) (h2 : t.Is w p) : s = t := by
  obtain ⟨a, b⟩ := s; obtain ⟨c, d⟩ := t
  obtain ⟨h1, h1'⟩ := h1; obtain ⟨h2, h2'⟩ := h2
  dsimp only at *
  rw [h1, h2, h1'.inj h2']

theorem ident_eq (w : Int) {st : List ShardSeg} (h : st.length ≤ 60) : (⟨w, buildShardPrefix st⟩ : ShardIdent) = shardAt w (segPath st) := by
  have hl := segPath_length st
  refine shard_eq (w := w) (p := segPath st) ⟨rfl, ?_⟩ (shardAt_is w (by omega))
  rw [buildShardPrefix_eq]
  exact pathPrefix_denotes (by omega)

/-! ### The run -/

/-- The items for a listing. -/
def shardItems (w : Int) (x : List (Bits × Sl) × Option Err) : List (Except Err (ShardIdent × Sl)) :=
  x.1.map (fun q => .ok (shardAt w q.1, q.2)) ++ match x.2 with
    | none => []
    | some e => [.error e]

theorem items_one (w : Int) (q : Bits × Sl) (x : List (Bits × Sl) × Option Err) :
    shardItems w (followed ([q], none) x) = .ok (shardAt w q.1, q.2) :: shardItems w x := by
  obtain ⟨a, b⟩ := x; rfl

inductive TreeOk (w : Int) : ShardTreeIter → List (Except Err (ShardIdent × Sl)) → Prop
  | go (st : List ShardSeg) (h : st.length ≤ 60) : TreeOk w ⟨w, none, st, .valid⟩ (shardItems w (pendNow st))
  | single (s : Sl) : TreeOk w ⟨w, some s, [], .valid⟩ [.ok (shardAt w [], s)]
  | exotic : TreeOk w ⟨w, none, [], .unexpectedCell⟩ [.error .unexpectedExoticCell]
  | broken (l : Option Sl) (st : List ShardSeg) : TreeOk w ⟨w, l, st, .broken⟩ []

theorem treeOk_next {w : Int} {it : ShardTreeIter} {l : List (Except Err (ShardIdent × Sl))} (h : TreeOk w it l) :
    (it.next).1 = l.head? ∧ TreeOk w (it.next).2 l.tail := by
  cases h with
  | broken l st => exact ⟨rfl, .broken _ _⟩
  | exotic => exact ⟨rfl, .broken _ _⟩
  | single s =>
    refine ⟨?_, .go [] (by decide)⟩
    show some (Except.ok ((⟨w, buildShardPrefix []⟩ : ShardIdent), s)) = _
    rw [ident_eq w (by decide)]; rfl
  | go st h =>
    rcases st with _ | ⟨g, rest⟩
    · exact ⟨rfl, .go [] (by decide)⟩
    · rcases descend_spec 61 (g :: rest) (by simp) h (by omega) with ⟨e, h1, h2⟩ | ⟨s, st', h1, h2, h3⟩
      · have hn : ShardTreeIter.next ⟨w, none, g :: rest, .valid⟩ = (some (.error e), ⟨w, none, g :: rest, .broken⟩) := by
          unfold ShardTreeIter.next; dsimp only; rw [h1]
        rw [hn, h2]
        exact ⟨rfl, .broken _ _⟩
      · have hn : ShardTreeIter.next ⟨w, none, g :: rest, .valid⟩ = (some (.ok (⟨w, buildShardPrefix st'⟩, s)), ⟨w, none, shardAdvance st', .valid⟩) := by
          unfold ShardTreeIter.next; dsimp only; rw [h1]
        rw [hn, h3, items_one, ident_eq w h2, ← pend_advance]
        exact ⟨rfl, .go _ (Nat.le_trans (advance_length _) h2)⟩

theorem treeOk_yields {w : Int} {it : ShardTreeIter} {l : List (Except Err (ShardIdent × Sl))} (h : TreeOk w it l) : Yields ShardTreeIter.next it l :=
  yields_of_step (TreeOk w) (fun it h => treeOk_next h) (fun it p ps h => treeOk_next h) h

/-- What a new iterator lists. -/
def shardRun (w : Int) (root : Cell) : List (Except Err (ShardIdent × Sl)) :=
  if root.exotic = false ∧ root.bits = [] then [] else shardItems w (walkTree 60 [] (some root))

theorem treeOk_new (w : Int) (root : Cell) : TreeOk w (.new w root) (shardRun w root) := by
  unfold shardRun
  cases hx : root.exotic with
  | true =>
    rw [if_neg (by simp), walk_exotic hx]
    have : ShardTreeIter.new w root = ⟨w, none, [], .unexpectedCell⟩ := by unfold ShardTreeIter.new asSlice; rw [if_pos hx]
    rw [this]
    exact .exotic
  | false =>
    have hs : asSlice root = .ok ⟨root.bits, root.refs⟩ := by unfold asSlice; rw [if_neg (by simp [hx])]
    rcases hb : root.bits with _ | ⟨b, r⟩
    · rw [if_pos (by simp)]
      have : ShardTreeIter.new w root = ⟨w, none, [], .broken⟩ := by unfold ShardTreeIter.new; rw [hs]; dsimp only; rw [hb]
      rw [this]
      exact .broken _ _
    · rw [if_neg (by simp)]
      cases b with
      | false =>
        have : ShardTreeIter.new w root = ⟨w, some ⟨r, root.refs⟩, [], .valid⟩ := by unfold ShardTreeIter.new; rw [hs]; dsimp only; rw [hb]
        rw [this, walk_leaf hx hb]
        exact .single _
      | true =>
        have : ShardTreeIter.new w root = ⟨w, none, [⟨root, false⟩], .valid⟩ := by unfold ShardTreeIter.new; rw [hs]; dsimp only; rw [hb]
        rw [this, walk_fork hx hb]
        have h := TreeOk.go (w := w) [⟨root, false⟩] (by simp)
        rw [pendNow, pendAfter, pendAfter, followed_end] at h
        exact h

end Verif
