import Verif.ShardTreeIter
/-
Construction of a tree of shards (helper lemmas).
-/
set_option linter.unusedVariables false
set_option linter.unusedSimpArgs false
namespace Verif

namespace ShardTree
variable {α β : Type}

theorem leaves_prefix {t : ShardTree α} {p : Bits} {x : Bits × α} (h : x ∈ t.leaves p) : p <+: x.1 := by
  induction t generalizing p with
  | leaf a => simp [leaves] at h; rw [h]
  | fork l r ih1 ih2 =>
    rw [leaves, List.mem_append] at h
    rcases h with h | h
    · exact (List.prefix_append p [false]).trans (ih1 h)
    · exact (List.prefix_append p [true]).trans (ih2 h)

theorem leaves_length {t : ShardTree α} {p : Bits} {x : Bits × α} (h : x ∈ t.leaves p) : x.1.length ≤ p.length + t.height := by
  induction t generalizing p with
  | leaf a => simp [leaves] at h; rw [h]; exact Nat.le_refl _
  | fork l r ih1 ih2 =>
    rw [leaves, List.mem_append] at h
    show _ ≤ p.length + (max l.height r.height + 1)
    rcases h with h | h
    · have := ih1 h; simp at this; omega
    · have := ih2 h; simp at this; omega

theorem leaves_ne (t : ShardTree α) (p : Bits) : t.leaves p ≠ [] := by
  induction t generalizing p with
  | leaf a => simp [leaves]
  | fork l r ih1 ih2 => rw [leaves]; simp [ih1]

theorem height_le {t : ShardTree α} {p : Bits} {n : Nat} (h : ∀ x ∈ t.leaves p, x.1.length ≤ n) : p.length + t.height ≤ n := by
  induction t generalizing p with
  | leaf a => exact h (p, a) (by simp [leaves])
  | fork l r ih1 ih2 =>
    have a := ih1 (p := p ++ [false]) (fun x hx => h x (by rw [leaves]; exact List.mem_append_left _ hx))
    have b := ih2 (p := p ++ [true]) (fun x hx => h x (by rw [leaves]; exact List.mem_append_right _ hx))
    show p.length + (max l.height r.height + 1) ≤ n
    simp at a b; omega

/-- Every path meets a leaf. -/
theorem leaves_meet (t : ShardTree α) (p q : Bits) : ∃ x ∈ t.leaves p, x.1 <+: p ++ q ∨ p ++ q <+: x.1 := by
  induction t generalizing p q with
  | leaf a => exact ⟨(p, a), by simp [leaves], Or.inl (List.prefix_append _ _)⟩
  | fork l r ih1 ih2 =>
    rcases q with _ | ⟨b, q⟩
    · obtain ⟨x, hx⟩ := List.exists_mem_of_ne_nil _ (leaves_ne (.fork l r) p)
      exact ⟨x, hx, Or.inr (by rw [List.append_nil]; exact leaves_prefix hx)⟩
    · cases b with
      | false =>
        obtain ⟨x, hx, h⟩ := ih1 (p ++ [false]) q
        exact ⟨x, by rw [leaves]; exact List.mem_append_left _ hx, by simpa using h⟩
      | true =>
        obtain ⟨x, hx, h⟩ := ih2 (p ++ [true]) q
        exact ⟨x, by rw [leaves]; exact List.mem_append_right _ hx, by simpa using h⟩

/-- Every long path goes through a leaf. -/
theorem leaves_cover (t : ShardTree α) (p q : Bits) (h : t.height ≤ q.length) : ∃ x ∈ t.leaves p, x.1 <+: p ++ q := by
  induction t generalizing p q with
  | leaf a => exact ⟨(p, a), by simp [leaves], List.prefix_append _ _⟩
  | fork l r ih1 ih2 =>
    have h' : max l.height r.height + 1 ≤ q.length := h
    rcases q with _ | ⟨b, q⟩
    · simp at h'
    · have h2 : max l.height r.height + 1 ≤ q.length + 1 := h'
      cases b with
      | false =>
        obtain ⟨x, hx, h⟩ := ih1 (p ++ [false]) q (by omega)
        exact ⟨x, by rw [leaves]; exact List.mem_append_left _ hx, by simpa using h⟩
      | true =>
        obtain ⟨x, hx, h⟩ := ih2 (p ++ [true]) q (by omega)
        exact ⟨x, by rw [leaves]; exact List.mem_append_right _ hx, by simpa using h⟩

/-- The leaves are in strict order of their bits: where two paths part, the earlier has a zero. -/
theorem leaves_part (t : ShardTree α) (p : Bits) : (t.leaves p).Pairwise (fun x y => ∃ c, c ++ [false] <+: x.1 ∧ c ++ [true] <+: y.1) := by
  induction t generalizing p with
  | leaf a => simp [leaves]
  | fork l r ih1 ih2 =>
    rw [leaves, List.pairwise_append]
    exact ⟨ih1 _, ih2 _, fun x hx y hy => ⟨p, leaves_prefix hx, leaves_prefix hy⟩⟩

end ShardTree

/-- Two shards have no account in common. -/
def Apart (p q : Bits) : Prop := ¬ p <+: q ∧ ¬ q <+: p

theorem parted {a b : Bits} (h : ∃ c, c ++ [false] <+: a ∧ c ++ [true] <+: b) : Apart a b := by
  obtain ⟨c, ⟨u, rfl⟩, ⟨v, rfl⟩⟩ := h
  constructor
  · rintro ⟨t, e⟩
    simp at e
  · rintro ⟨t, e⟩
    simp at e

theorem natOfBits_part {c u v : Bits} (h : u.length = v.length) : natOfBits (c ++ false :: u) < natOfBits (c ++ true :: v) := by
  have e1 : natOfBits (c ++ false :: u) = natOfBits c * 2 ^ (u.length + 1) + natOfBits (false :: u) := by rw [natOfBits_append]; rfl
  have e2 : natOfBits (c ++ true :: v) = natOfBits c * 2 ^ (u.length + 1) + natOfBits (true :: v) := by rw [natOfBits_append, h]; rfl
  rw [e1, e2]
  have a : natOfBits (false :: u) < 2 ^ u.length := by
    have := natOfBits_lt u
    rw [show (false :: u) = [false] ++ u from rfl, natOfBits_append]
    simpa [natOfBits] using this
  have b : 2 ^ v.length ≤ natOfBits (true :: v) := by
    rw [show (true :: v) = [true] ++ v from rfl, natOfBits_append]
    simp [natOfBits]
  rw [← h] at b
  omega

theorem shardAt_toNat (w : Int) {p : Bits} (h : p.length ≤ 60) : (shardAt w p).pfx.toNat = natOfBits (p ++ true :: List.replicate (63 - p.length) false) := by
  show (BitVec.ofNat 64 _).toNat = _
  have := natOfBits_lt (p ++ true :: List.replicate (63 - p.length) false)
  rw [show (p ++ true :: List.replicate (63 - p.length) false).length = 64 by simp; omega] at this
  rw [BitVec.toNat_ofNat, Nat.mod_eq_of_lt this]

theorem shardAt_lt (w : Int) {p q : Bits} (hp : p.length ≤ 60) (hq : q.length ≤ 60) (h : ∃ c, c ++ [false] <+: p ∧ c ++ [true] <+: q) :
    (shardAt w p).pfx.toNat < (shardAt w q).pfx.toNat := by
  rw [shardAt_toNat w hp, shardAt_toNat w hq]
  obtain ⟨c, ⟨u, rfl⟩, ⟨v, rfl⟩⟩ := h
  have := natOfBits_part (c := c) (u := u ++ true :: List.replicate (63 - (c ++ [false] ++ u).length) false) (v := v ++ true :: List.replicate (63 - (c ++ [true] ++ v).length) false) (by
    simp at *; omega)
  simpa using this

theorem nil_or_snoc (p : Bits) : p = [] ∨ ∃ q b, p = q ++ [b] := by
  rcases List.eq_nil_or_concat p with h | ⟨q, b, h⟩
  · exact Or.inl h
  · exact Or.inr ⟨q, b, by rw [h]; simp⟩

/-! ### Made trees -/

/-- The cell that the code makes for a tree. -/
def MadeFrom (acc : Cell → Bool) : ShardTree ShardDescription → Cell → Prop
  | .leaf d, c => shardLeaf acc d = .ok c
  | .fork l r, c => ∃ a b, MadeFrom acc l a ∧ MadeFrom acc r b ∧ shardEdge acc a b = .ok c

/-- A list of shards, given by their paths. -/
def shardsOf (w : Int) (l : List (Bits × ShardDescription)) : List (ShardIdent × ShardDescription) := l.map fun q => (shardAt w q.1, q.2)

/-- One more tree, then the rest of the list. -/
def afterTree (acc : Cell → Bool) (st : List (ShardIdent × Cell)) (x : ShardIdent × Cell) (xs : List (ShardIdent × ShardDescription)) : Except Err Cell :=
  match settle acc st x with
  | .error e => .error e
  | .ok (.root root) => .ok root
  | .ok (.stack st) => buildShards acc st xs

theorem build_cons {acc : Cell → Bool} {st : List (ShardIdent × Cell)} {x : ShardIdent × ShardDescription} {xs : List (ShardIdent × ShardDescription)} {c : Cell}
    (h : shardLeaf acc x.2 = .ok c) : buildShards acc st (x :: xs) = afterTree acc st (x.1, c) xs := by
  rw [buildShards, h]; rfl

theorem settle_left {acc : Cell → Bool} {st : List (ShardIdent × Cell)} {s : ShardIdent} {c : Cell} (h : s.isLeftChild = true) : settle acc st (s, c) = .ok (.stack ((s, c) :: st)) := by
  cases st <;> rw [settle, if_pos h]

theorem commonParent_some {w : Int} {p q : Bits} {b : Bool} (hp : (p ++ [false]).length ≤ 60) (hq : (q ++ [b]).length ≤ 60) :
    commonParent (shardAt w (p ++ [false])) (shardAt w (q ++ [b])) = if p = q then some (shardAt w p) else none := by
  obtain ⟨⟨m1, e1, h1⟩, _⟩ := (ShardIdent.C46_merge (w := w)).2 p false (shardAt_is w hp)
  obtain ⟨⟨m2, e2, h2⟩, _⟩ := (ShardIdent.C46_merge (w := w)).2 q b (shardAt_is w hq)
  unfold commonParent
  rw [e1, e2]
  dsimp only
  by_cases h : p = q
  · subst h
    rw [if_pos rfl, if_pos (shard_eq h1 h2), shard_eq h1 (shardAt_is w (by simp at hp; omega))]
  · rw [if_neg h, if_neg (fun e => h (by subst e; exact h1.2.unique h2.2))]

theorem commonParent_full {w : Int} {s : ShardIdent} : commonParent (shardAt w []) s = none := by
  have e1 := ((ShardIdent.C46_merge (w := w)).1 (shardAt_is w (p := []) (by decide))).1
  unfold commonParent
  rw [e1]

theorem shard_inj {w : Int} {s t : ShardIdent} {p : Bits} (hs : s.Is w p) (ht : t.Is w p) : s = t := shard_eq hs ht

/-- A right child joins its sibling. -/
theorem settle_right {acc : Cell → Bool} {st : List (ShardIdent × Cell)} {w : Int} {q : Bits} {a b c : Cell} (hq : q.length < 60)
    (hc : shardEdge acc a b = .ok c) :
    settle acc ((shardAt w (q ++ [false]), a) :: st) (shardAt w (q ++ [true]), b) = if q = [] then .ok (.root c) else settle acc st (shardAt w q, c) := by
  obtain ⟨_, _, hr, hl⟩ := (ShardIdent.C46_merge (w := w)).2 q true (shardAt_is w (p := q ++ [true]) (by simp; omega))
  have hq' := shardAt_is w (p := q) (by omega)
  rw [settle, if_neg (by rw [hl]; decide), commonParent_some (by simp; omega) (by simp; omega), if_pos rfl]
  dsimp only
  rw [hc]
  dsimp only
  by_cases hn : q = []
  · rw [if_pos hn, if_pos ((ShardIdent.full_iff hq'.2).2 hn)]
  · rw [if_neg hn, if_neg (fun h => hn ((ShardIdent.full_iff hq'.2).1 h))]

theorem isLeft_at (w : Int) {q : Bits} (h : q.length < 60) : (shardAt w (q ++ [false])).isLeftChild = true :=
  ((ShardIdent.C46_merge (w := w)).2 q false (shardAt_is w (by simp; omega))).2.2.2

/-- A whole subtree settles like one shard. -/
theorem build_tree {acc : Cell → Bool} {w : Int} {t : ShardTree ShardDescription} {p : Bits} {c : Cell} (hm : MadeFrom acc t c) (hh : p.length + t.height ≤ 60)
    (hp : p ≠ []) (st : List (ShardIdent × Cell)) (xs : List (ShardIdent × ShardDescription)) :
    buildShards acc st (shardsOf w (t.leaves p) ++ xs) = afterTree acc st (shardAt w p, c) xs := by
  induction t generalizing p c st xs with
  | leaf d => exact build_cons hm
  | fork l r ih1 ih2 =>
    obtain ⟨a, b, ha, hb, hc⟩ := hm
    have hh' : p.length + (max l.height r.height + 1) ≤ 60 := hh
    rw [ShardTree.leaves, shardsOf, List.map_append, List.append_assoc]
    have h1 := ih1 (p := p ++ [false]) ha (by simp; omega) (by simp) st (shardsOf w (r.leaves (p ++ [true])) ++ xs)
    have h2 := ih2 (p := p ++ [true]) hb (by simp; omega) (by simp) ((shardAt w (p ++ [false]), a) :: st) xs
    unfold shardsOf at h1 h2
    rw [h1, afterTree, settle_left (isLeft_at w (by omega))]
    dsimp only
    rw [h2, afterTree, settle_right (by omega) hc, if_neg hp]
    rfl

/-- The first leaf of a fork is a left child. -/
theorem first_leaf {α : Type} (l r : ShardTree α) (p : Bits) : ∃ q x xs, (ShardTree.fork l r).leaves p = (p ++ q ++ [false], x) :: xs := by
  rw [ShardTree.leaves]
  induction l generalizing p r with
  | leaf a => exact ⟨[], a, _, by simp [ShardTree.leaves]; rfl⟩
  | fork a b ih1 ih2 =>
    obtain ⟨q, x, xs, h⟩ := ih1 b (p ++ [false])
    refine ⟨[false] ++ q, x, xs ++ r.leaves (p ++ [true]), ?_⟩
    rw [ShardTree.leaves, h]
    simp

theorem tryBuild_start {acc : Cell → Bool} {w : Int} {q : Bits} {b : Bool} {d : ShardDescription} {xs : List (ShardIdent × ShardDescription)} (h : (q ++ [b]).length ≤ 60) :
    tryBuild acc ((shardAt w (q ++ [b]), d) :: xs) = buildShards acc [] ((shardAt w (q ++ [b]), d) :: xs) := by
  have hi := shardAt_is w h
  rw [tryBuild, buildShards]
  have hfull : ¬ (shardAt w (q ++ [b])).isFull = true := fun hf => by
    have := (ShardIdent.full_iff hi.2).1 hf
    simp at this
  obtain ⟨_, _, hr, hl⟩ := (ShardIdent.C46_merge (w := w)).2 q b hi
  cases hc : shardLeaf acc d with
  | error e => rfl
  | ok c =>
    dsimp only
    rw [if_neg hfull, hr]
    cases b with
    | true =>
      rw [if_pos rfl]
      rw [settle, hl]
      rfl
    | false =>
      rw [if_neg (by decide), settle_left hl]

/-- The leaves of a tree build its cell, whatever follows them. -/
theorem tryBuild_tree {acc : Cell → Bool} {w : Int} {t : ShardTree ShardDescription} {c : Cell} (hm : MadeFrom acc t c) (hh : t.height ≤ 60)
    (xs : List (ShardIdent × ShardDescription)) : tryBuild acc (shardsOf w (t.leaves []) ++ xs) = .ok c := by
  cases t with
  | leaf d =>
    show tryBuild acc ((shardAt w [], d) :: xs) = _
    rw [tryBuild]
    have : shardLeaf acc d = .ok c := hm
    rw [this]
    dsimp only
    rw [if_pos ((ShardIdent.full_iff (shardAt_is w (p := []) (by decide)).2).2 rfl)]
  | fork l r =>
    obtain ⟨a, b, ha, hb, hc⟩ := hm
    have hh' : max l.height r.height + 1 ≤ 60 := hh
    obtain ⟨q, x, ys, hq⟩ := first_leaf l r []
    have hlen : ([] ++ q ++ [false]).length ≤ 60 := by
      have := ShardTree.leaves_length (t := .fork l r) (p := []) (x := ([] ++ q ++ [false], x)) (by rw [hq]; exact List.mem_cons_self)
      have h2 : ([] ++ q ++ [false]).length ≤ 0 + (max l.height r.height + 1) := this
      omega
    have e : tryBuild acc (shardsOf w ((ShardTree.fork l r).leaves []) ++ xs) = buildShards acc [] (shardsOf w ((ShardTree.fork l r).leaves []) ++ xs) := by
      rw [hq]
      exact tryBuild_start (q := [] ++ q) hlen
    rw [e, ShardTree.leaves, shardsOf, List.map_append, List.append_assoc]
    have h1 := build_tree (w := w) (p := [] ++ [false]) ha (by simp; omega) (by simp) [] (shardsOf w (r.leaves ([] ++ [true])) ++ xs)
    have h2 := build_tree (w := w) (p := [] ++ [true]) hb (by simp; omega) (by simp) [(shardAt w ([] ++ [false]), a)] xs
    unfold shardsOf at h1 h2
    rw [h1, afterTree, settle_left (isLeft_at w (by decide))]
    dsimp only
    rw [h2, afterTree, settle_right (by decide) hc, if_pos rfl]

/-! ### The converse -/

/-- A stack with the trees of its cells; all of them are left children (or the full shard). -/
inductive StackOk (acc : Cell → Bool) (w : Int) : List (ShardIdent × Cell) → List (Bits × ShardTree ShardDescription) → Prop
  | nil : StackOk acc w [] []
  | cons {st ts p t c} (h : StackOk acc w st ts) (hp : p.length ≤ 60) (hleft : ∀ q, p ≠ q ++ [true]) (hm : MadeFrom acc t c) :
      StackOk acc w ((shardAt w p, c) :: st) ((p, t) :: ts)

/-- The leaves of a stack, from its bottom. -/
def stackLeaves : List (Bits × ShardTree ShardDescription) → List (Bits × ShardDescription)
  | [] => []
  | (p, t) :: ts => stackLeaves ts ++ t.leaves p

theorem settle_inv {acc : Cell → Bool} {w : Int} {st : List (ShardIdent × Cell)} {ts : List (Bits × ShardTree ShardDescription)} (hs : StackOk acc w st ts)
    {p : Bits} {t : ShardTree ShardDescription} {c : Cell} (hp : p.length ≤ 60) (hm : MadeFrom acc t c) {out : Settle} (h : settle acc st (shardAt w p, c) = .ok out) :
    match out with
    | .root root => ∃ pre t', stackLeaves ts ++ t.leaves p = pre ++ t'.leaves [] ∧ MadeFrom acc t' root
    | .stack st' => ∃ ts', StackOk acc w st' ts' ∧ stackLeaves ts' = stackLeaves ts ++ t.leaves p := by
  induction hs generalizing p t c with
  | nil =>
    rcases nil_or_snoc p with rfl | ⟨q, b, rfl⟩
    · have := ((ShardIdent.C46_merge (w := w)).1 (shardAt_is w hp)).2.2.2
      rw [settle_left this] at h
      injection h with h
      subst h
      exact ⟨[([], t)], .cons .nil hp (by simp) hm, rfl⟩
    · obtain ⟨_, _, hr, hl⟩ := (ShardIdent.C46_merge (w := w)).2 q b (shardAt_is w hp)
      cases b with
      | false =>
        rw [settle_left (isLeft_at w (by simp at hp; omega))] at h
        injection h with h
        subst h
        exact ⟨[(q ++ [false], t)], .cons .nil hp (by simp) hm, rfl⟩
      | true =>
        rw [settle, hl] at h
        cases h
  | @cons st ts p' t' c' hs hp' hleft hm' ih =>
    rcases nil_or_snoc p with rfl | ⟨q, b, rfl⟩
    · have := ((ShardIdent.C46_merge (w := w)).1 (shardAt_is w hp)).2.2.2
      rw [settle_left this] at h
      injection h with h
      subst h
      exact ⟨([], t) :: (p', t') :: ts, StackOk.cons (p := []) (StackOk.cons (p := p') hs hp' hleft hm') hp (by simp) hm, rfl⟩
    · obtain ⟨⟨m2, e2, h2⟩, _, hr, hl⟩ := (ShardIdent.C46_merge (w := w)).2 q b (shardAt_is w hp)
      cases b with
      | false =>
        rw [settle_left (isLeft_at w (by simp at hp; omega))] at h
        injection h with h
        subst h
        exact ⟨(q ++ [false], t) :: (p', t') :: ts, StackOk.cons (p := q ++ [false]) (StackOk.cons (p := p') hs hp' hleft hm') hp (by simp) hm, rfl⟩
      | true =>
        have hq : q.length < 60 := by simp at hp; omega
        rcases nil_or_snoc p' with rfl | ⟨q', b', rfl⟩
        · rw [settle, if_neg (by rw [hl]; decide), commonParent_full] at h
          cases h
        · have hb' : b' = false := by
            cases b'
            · rfl
            · exact absurd rfl (hleft q')
          subst hb'
          have hcp := commonParent_some (w := w) hp' hp
          by_cases hqq : q' = q
          · subst hqq
            cases he : shardEdge acc c' c with
            | error e =>
              exfalso
              rw [settle, if_neg (by rw [hl]; decide), hcp, if_pos rfl] at h
              dsimp only at h
              rw [he] at h
              cases h
            | ok pc =>
              rw [settle_right hq he] at h
              have hmf : MadeFrom acc (.fork t' t) pc := ⟨c', c, hm', hm, he⟩
              by_cases hn : q' = []
              · rw [if_pos hn] at h
                injection h with h
                subst h hn
                refine ⟨stackLeaves ts, .fork t' t, ?_, hmf⟩
                rw [stackLeaves, List.append_assoc]; rfl
              · rw [if_neg hn] at h
                have := ih (by omega) hmf h
                have el : (ShardTree.fork t' t).leaves q' = t'.leaves (q' ++ [false]) ++ t.leaves (q' ++ [true]) := rfl
                cases out with
                | root root =>
                  obtain ⟨pre, u, hu, hm2⟩ := this
                  exact ⟨pre, u, by rw [← hu, stackLeaves, el, List.append_assoc], hm2⟩
                | stack st' =>
                  obtain ⟨ts', hu, hm2⟩ := this
                  exact ⟨ts', hu, by rw [hm2, stackLeaves, el, List.append_assoc]⟩
          · exfalso
            rw [settle, if_neg (by rw [hl]; decide), hcp, if_neg hqq] at h
            cases h

theorem build_inv {acc : Cell → Bool} {w : Int} {l : List (Bits × ShardDescription)} (hl : ∀ x ∈ l, x.1.length ≤ 60) {st : List (ShardIdent × Cell)}
    {ts : List (Bits × ShardTree ShardDescription)} (hs : StackOk acc w st ts) {root : Cell} (h : buildShards acc st (shardsOf w l) = .ok root) :
    ∃ pre t post, stackLeaves ts ++ l = pre ++ t.leaves [] ++ post ∧ MadeFrom acc t root := by
  induction l generalizing st ts with
  | nil => rw [shardsOf, List.map_nil, buildShards] at h; cases h
  | cons x l ih =>
    cases hc : shardLeaf acc x.2 with
    | error e =>
      have : buildShards acc st (shardsOf w (x :: l)) = .error e := by
        show buildShards acc st ((shardAt w x.1, x.2) :: shardsOf w l) = _
        rw [buildShards, hc]
      rw [this] at h; cases h
    | ok c =>
      have e : buildShards acc st (shardsOf w (x :: l)) = afterTree acc st (shardAt w x.1, c) (shardsOf w l) := build_cons (x := (shardAt w x.1, x.2)) hc
      rw [e, afterTree] at h
      cases hst : settle acc st (shardAt w x.1, c) with
      | error e => rw [hst] at h; cases h
      | ok out =>
        rw [hst] at h
        have hx : x.1.length ≤ 60 := hl x List.mem_cons_self
        have hi := settle_inv hs (t := .leaf x.2) hx hc hst
        cases out with
        | root r =>
          dsimp only at h
          injection h with h
          subst h
          obtain ⟨pre, t', h1, h2⟩ := hi
          refine ⟨pre, t', l, ?_, h2⟩
          rw [← h1, List.append_assoc]; rfl
        | stack st' =>
          dsimp only at h
          obtain ⟨ts', h1, h2⟩ := hi
          obtain ⟨pre, t, post, h3, h4⟩ := ih (fun y hy => hl y (List.mem_cons_of_mem _ hy)) h1 h
          refine ⟨pre, t, post, ?_, h4⟩
          rw [← h3, h2, List.append_assoc]; rfl

theorem tryBuild_inv {acc : Cell → Bool} {w : Int} {l : List (Bits × ShardDescription)} (hl : ∀ x ∈ l, x.1.length ≤ 60) {root : Cell}
    (h : tryBuild acc (shardsOf w l) = .ok root) : ∃ pre t post, l = pre ++ t.leaves [] ++ post ∧ MadeFrom acc t root := by
  rcases l with _ | ⟨⟨p, d⟩, l⟩
  · cases h
  · rcases nil_or_snoc p with rfl | ⟨q, b, rfl⟩
    · have e : shardsOf w (([], d) :: l) = (shardAt w [], d) :: shardsOf w l := rfl
      rw [e, tryBuild] at h
      cases hc : shardLeaf acc d with
      | error e => rw [hc] at h; cases h
      | ok c =>
        rw [hc] at h
        dsimp only at h
        rw [if_pos ((ShardIdent.full_iff (shardAt_is w (p := []) (by decide)).2).2 rfl)] at h
        injection h with h
        subst h
        exact ⟨[], .leaf d, l, rfl, hc⟩
    · have hq : (q ++ [b]).length ≤ 60 := hl _ List.mem_cons_self
      have e : shardsOf w ((q ++ [b], d) :: l) = (shardAt w (q ++ [b]), d) :: shardsOf w l := rfl
      rw [e, tryBuild_start hq, ← e] at h
      exact build_inv hl .nil h

end Verif
