import Verif.DictIter
import Verif.DictFindLemmas
/-
The iterators run through the entries of the trie in order.
-/
set_option linter.unusedVariables false
set_option linter.unusedSimpArgs false
namespace Verif

/-- Put a path in front of a key. -/
def atPath (path : Bits) (p : Bits × Sl) : Bits × Sl := (path ++ p.1, p.2)

/-- `c` is a cell of which the value `v` is the end. -/
def EndOf (c : Cell) (v : Sl) : Prop := ∃ pre, c.bits = pre ++ v.bits ∧ c.refs = v.refs

theorem body_end {t : Trie} : EndOf t.cell t.body := by
  cases t with
  | leaf l e v => exact ⟨e, rfl, rfl⟩
  | fork l e x a b => exact ⟨e, rfl, rfl⟩

/-- The segment of a fork whose label was read and of which `off` branches were taken. -/
def forkSeg (l e : Bits) (x : Sl) (a b : Trie) (m off : Nat) : IterSeg :=
  ⟨(Trie.fork l e x a b).cell, ⟨x.bits, (a.cell :: b.cell :: x.refs).drop off⟩, m, some l⟩

theorem forkSeg_off (l e : Bits) (x : Sl) (a b : Trie) (m off : Nat) (h : off ≤ 2) : (forkSeg l e x a b m off).off = off := by
  unfold IterSeg.off forkSeg Trie.cell Cell.refs
  simp only [List.length_drop, List.length_cons]
  omega

/-- What is still to come from a fork. -/
def forkRest (rev s : Bool) (l : Bits) (a b : Trie) (path : Bits) (off : Nat) : List (Bits × Sl) :=
  (if off = 0 then ((Trie.side (Trie.firstBit rev s l) a b).entries rev false).map (atPath (path ++ [Trie.firstBit rev s l])) else []) ++
  (if off ≤ 1 then ((Trie.side (!Trie.firstBit rev s l) a b).entries rev false).map (atPath (path ++ [!Trie.firstBit rev s l])) else [])

/-- The stack stands for these entries to come; `path` are the key bits down to the top of the stack. -/
inductive Pending (rev s : Bool) : List IterSeg → Bits → List (Bits × Sl) → Prop
  | nil (path : Bits) : Pending rev s [] path []
  | root {l e : Bits} {x : Sl} {a b : Trie} {m off : Nat} (ha : a.Sized m) (hb : b.Sized m) (hoff : off ≤ 2) (hm : l.length + 1 + m ≤ 1023) :
      Pending rev s [forkSeg l e x a b m off] l (forkRest rev s l a b l off)
  | cons {l e : Bits} {x : Sl} {a b : Trie} {m off : Nat} {q : Bits} {bit : Bool} {g : IterSeg} {rest : List IterSeg} {out : List (Bits × Sl)}
      (ha : a.Sized m) (hb : b.Sized m) (hoff : off ≤ 2) (hr : Pending rev s (g :: rest) q out)
      (hm : (q ++ bit :: l).length + 1 + m ≤ 1023) :
      Pending rev s (forkSeg l e x a b m off :: g :: rest) (q ++ bit :: l) (forkRest rev false l a b (q ++ bit :: l) off ++ out)

/-- How many steps the loop may take. -/
def need : List IterSeg → Nat
  | [] => 1
  | g :: rest => if g.off < 2 then g.remaining + 2 else need rest + 1

theorem need_lt_fuel : ∀ st : List IterSeg, need st < iterFuel st
  | [] => by unfold need iterFuel; simp
  | g :: rest => by
    have := need_lt_fuel rest
    rw [need]
    unfold iterFuel at *
    simp only [List.length_cons, List.map_cons, List.sum_cons] at *
    split <;> omega

theorem entries_fork (rev s : Bool) (l e : Bits) (x : Sl) (a b : Trie) (path : Bits) :
    ((Trie.fork l e x a b).entries rev s).map (atPath path) = forkRest rev s l a b (path ++ l) 0 := by
  have h : ∀ (bit : Bool) (u : Trie), ((u.entries rev false).map (Trie.under l bit)).map (atPath path) = (u.entries rev false).map (atPath (path ++ l ++ [bit])) := by
    intro bit u
    rw [List.map_map]
    apply List.map_congr_left
    intro p _
    simp [atPath, Trie.under]
  have h2 : forkRest rev s l a b (path ++ l) 0 = ((Trie.side (Trie.firstBit rev s l) a b).entries rev false).map (atPath (path ++ l ++ [Trie.firstBit rev s l])) ++
      ((Trie.side (!Trie.firstBit rev s l) a b).entries rev false).map (atPath (path ++ l ++ [!Trie.firstBit rev s l])) := rfl
  rw [h2, Trie.entries]
  cases Trie.firstBit rev s l
  · rw [if_neg (by simp), List.map_append, h, h]; rfl
  · rw [if_pos rfl, List.map_append, h, h]; rfl

theorem iterRead_leaf {l e : Bits} {v : Sl} {n : Nat} (hs : (Trie.leaf l e v).Sized n) (b : Bits) (h : b.length + n ≤ 1023) :
    iterRead ⟨(Trie.leaf l e v).cell, ⟨(Trie.leaf l e v).cell.bits, (Trie.leaf l e v).cell.refs⟩, n, none⟩ b = .ok (.value (b ++ l) v) := by
  have hl : l.length = n := hs.1
  unfold iterRead
  dsimp only
  rw [readLabel_cell hs (by omega)]
  show (if n < l.length then _ else _) = _
  rw [if_neg (by omega), if_pos (show n = (Trie.leaf l e v).label.length from hl.symm)]
  show (pushBits b l >>= _) = _
  rw [pushBits_ok (by omega)]
  rfl

theorem iterRead_fork {l e : Bits} {x : Sl} {a c : Trie} {n : Nat} (hs : (Trie.fork l e x a c).Sized n) (b : Bits) (h : b.length + n ≤ 1023) :
    iterRead ⟨(Trie.fork l e x a c).cell, ⟨(Trie.fork l e x a c).cell.bits, (Trie.fork l e x a c).cell.refs⟩, n, none⟩ b =
      .ok (.node (forkSeg l e x a c (n - l.length - 1) 0) (b ++ l)) := by
  have hl : l.length < n := hs.1
  unfold iterRead
  dsimp only
  rw [readLabel_cell hs (by omega)]
  show (if n < l.length then _ else _) = _
  rw [if_neg (by omega), if_neg (show ¬ n = (Trie.fork l e x a c).label.length from fun h => by have : n = l.length := h; omega),
    if_neg (by simp [Trie.body])]
  show (pushBits b l >>= _) = _
  rw [pushBits_ok (by omega)]
  rfl

theorem rewindKey_ok {k : Nat} {b : Bits} (h : k ≤ b.length) : rewindKey k b = .ok (b.take (b.length - k)) := by
  unfold rewindKey; rw [if_neg (by omega)]

/-- The branch taken in the parent's cell. -/
def parentOf (rev s : Bool) (root : Cell) : List IterSeg → Except Err Cell
  | [] => .ok root
  | seg :: rest =>
    match seg.cell.refs[(decide (seg.off ≠ 1) ^^ rev ^^ (s && rest.isEmpty && (seg.pfx.getD []).isEmpty)).toNat]? with
    | none => .error .cellUnderflow
    | some c => .ok c

/-- One call: the next entry of those to come, with the right parent cell. -/
theorem iterGo_spec (rev s : Bool) : ∀ (fuel : Nat) {st : List IterSeg} {builder : Bits} {toRewind : Nat} {path : Bits} {out : List (Bits × Sl)},
    Pending rev s st path out → builder.take (builder.length - toRewind) = path → toRewind ≤ builder.length → need st ≤ fuel →
    match out with
    | [] => ∃ b, iterGo rev s fuel st builder toRewind = .ok (none, [], b)
    | p :: ps => ∃ st' b, iterGo rev s fuel st builder toRewind = .ok (some p, st', b) ∧ Pending rev s st' b ps ∧
        ∀ root, ∃ c, parentOf rev s root st' = .ok c ∧ EndOf c p.2
  | 0, st, builder, toRewind, path, out, hp, hpath, hle, hf => by
    exfalso
    cases st with
    | nil => simp [need] at hf
    | cons g rest => unfold need at hf; split at hf <;> omega
  | fuel + 1, st, builder, toRewind, path, out, hp, hpath, hle, hf => by
    -- taking a branch
    have branch : ∀ {l e : Bits} {x : Sl} {a b : Trie} {m off : Nat} {rest : List IterSeg} {path : Bits} {out' : List (Bits × Sl)},
        a.Sized m → b.Sized m → off < 2 → path.length + 1 + m ≤ 1023 → builder.take (builder.length - toRewind) = path →
        m + 2 ≤ fuel + 1 →
        Pending rev s (forkSeg l e x a b m (off + 1) :: rest) path (forkRest rev (s && rest.isEmpty) l a b path (off + 1) ++ out') →
        ∃ p ps, forkRest rev (s && rest.isEmpty) l a b path off ++ out' = p :: ps ∧
          ∃ st' b', iterGo rev s (fuel + 1) (forkSeg l e x a b m off :: rest) builder toRewind = .ok (some p, st', b') ∧ Pending rev s st' b' ps ∧
            ∀ root, ∃ c, parentOf rev s root st' = .ok c ∧ EndOf c p.2 := by
      intro l e x a b m off rest path out' ha hb hoff hm hpath hfu hnext
      have hoffe := forkSeg_off l e x a b m off (by omega)
      generalize hbit : Trie.firstBit rev (s && rest.isEmpty) l = first at *
      -- the bit of this step
      have hnb : (decide (off ≠ 0) ^^ rev ^^ (s && rest.isEmpty && l.isEmpty)) = if off = 0 then first else !first := by
        rw [← hbit]; unfold Trie.firstBit
        rcases (show off = 0 ∨ off = 1 by omega) with rfl | rfl <;> cases rev <;> cases (s && rest.isEmpty && l.isEmpty) <;> rfl
      have hstep : iterGo rev s (fuel + 1) (forkSeg l e x a b m off :: rest) builder toRewind =
          (iterRead ⟨(Trie.side (if off = 0 then first else !first) a b).cell, ⟨(Trie.side (if off = 0 then first else !first) a b).cell.bits, (Trie.side (if off = 0 then first else !first) a b).cell.refs⟩, m, none⟩ (path ++ [if off = 0 then first else !first]) >>= fun r =>
            iterAfter (fun st b => iterGo rev s fuel st b 0) (forkSeg l e x a b m (off + 1) :: rest) (path ++ [if off = 0 then first else !first]) r) := by
        rw [iterGo]
        show (if (forkSeg l e x a b m off).off < 2 then _ else _) = _
        rw [if_pos (by omega)]
        show (match (Trie.fork l e x a b).cell.refs[(decide ((forkSeg l e x a b m off).off ≠ 0) ^^ rev ^^ (s && rest.isEmpty && l.isEmpty)).toNat]? with
          | none => _
          | some child => _) = _
        rw [hoffe, hnb, side_cell]
        dsimp only
        rw [asSlice_cell]
        show (rewindKey toRewind builder >>= _) = _
        rw [rewindKey_ok hle, hpath]
        show (pushBits path _ >>= _) = _
        rw [pushBits_ok (by simp; omega)]
        have hseg : ({ forkSeg l e x a b m off with data := ⟨(forkSeg l e x a b m off).data.bits, (forkSeg l e x a b m off).data.refs.drop 1⟩ } : IterSeg) = forkSeg l e x a b m (off + 1) := by
          unfold forkSeg
          simp only [List.drop_drop]
        rw [← hseg]
        rfl
      have hsz : (Trie.side (if off = 0 then first else !first) a b).Sized m := by
        cases (if off = 0 then first else !first)
        · exact ha
        · exact hb
      -- the list of this step
      have hlist : forkRest rev (s && rest.isEmpty) l a b path off ++ out' =
          ((Trie.side (if off = 0 then first else !first) a b).entries rev false).map (atPath (path ++ [if off = 0 then first else !first])) ++
            (forkRest rev (s && rest.isEmpty) l a b path (off + 1) ++ out') := by
        unfold forkRest
        rw [hbit]
        rcases (show off = 0 ∨ off = 1 by omega) with rfl | rfl <;> simp
      have hpar : ∀ root v, EndOf (Trie.side (if off = 0 then first else !first) a b).cell v →
          ∃ c, parentOf rev s root (forkSeg l e x a b m (off + 1) :: rest) = .ok c ∧ EndOf c v := by
        intro root v hv
        refine ⟨_, ?_, hv⟩
        show (match (Trie.fork l e x a b).cell.refs[(decide ((forkSeg l e x a b m (off + 1)).off ≠ 1) ^^ rev ^^ (s && rest.isEmpty && l.isEmpty)).toNat]? with
          | none => _
          | some c => _) = _
        rw [forkSeg_off l e x a b m (off + 1) (by omega)]
        have : (decide (off + 1 ≠ 1) ^^ rev ^^ (s && rest.isEmpty && l.isEmpty)) = if off = 0 then first else !first := by
          rw [← hnb]
          rcases (show off = 0 ∨ off = 1 by omega) with rfl | rfl <;> rfl
        rw [this, side_cell]
      generalize (if off = 0 then first else !first) = bit at *
      generalize hu : Trie.side bit a b = u at *
      rw [hlist, hstep]
      cases u with
      | leaf l1 e1 v1 =>
        rw [iterRead_leaf hsz _ (by simp; omega)]
        refine ⟨(path ++ [bit] ++ l1, v1), _, rfl, forkSeg l e x a b m (off + 1) :: rest, path, ?_, hnext, fun root => hpar root v1 (body_end (t := .leaf l1 e1 v1))⟩
        show (rewindKey 1 (path ++ [bit]) >>= _) = _
        rw [rewindKey_ok (by simp)]
        simp
        rfl
      | fork l1 e1 x1 a1 b1 =>
        rw [iterRead_fork hsz _ (by simp; omega)]
        have hl1 : l1.length < m := hsz.1
        have hpend : Pending rev s (forkSeg l1 e1 x1 a1 b1 (m - l1.length - 1) 0 :: forkSeg l e x a b m (off + 1) :: rest) (path ++ bit :: l1)
            (forkRest rev false l1 a1 b1 (path ++ bit :: l1) 0 ++ (forkRest rev (s && rest.isEmpty) l a b path (off + 1) ++ out')) :=
          Pending.cons hsz.2.2.1 hsz.2.2.2 (by omega) hnext (by simp only [List.length_append, List.length_cons]; omega)
        have hent : ((Trie.fork l1 e1 x1 a1 b1).entries rev false).map (atPath (path ++ [bit])) = forkRest rev false l1 a1 b1 (path ++ bit :: l1) 0 := by
          rw [entries_fork]; simp
        rw [hent]
        have hb : (path ++ [bit] ++ l1).take ((path ++ [bit] ++ l1).length - 0) = path ++ bit :: l1 := by
          rw [Nat.sub_zero, List.take_length]; simp
        have ih := iterGo_spec rev s fuel hpend hb (by omega) (by unfold need; rw [forkSeg_off _ _ _ _ _ _ _ (by omega), if_pos (by omega)]; show m - l1.length - 1 + 2 ≤ fuel; omega)
        obtain ⟨q, hq⟩ := Trie.entries_ne_nil rev false (Trie.fork l1 e1 x1 a1 b1)
        have hne : ∃ p ps, forkRest rev false l1 a1 b1 (path ++ bit :: l1) 0 ++ (forkRest rev (s && rest.isEmpty) l a b path (off + 1) ++ out') = p :: ps := by
          rw [← hent, hq]; exact ⟨_, _, rfl⟩
        obtain ⟨p, ps, hpps⟩ := hne
        rw [hpps] at ih ⊢
        exact ⟨p, ps, rfl, ih⟩
    cases hp with
    | nil path => exact ⟨builder, by rw [iterGo]⟩
    | @root _ e x a b m off ha hb hoff hm =>
      rw [need, forkSeg_off _ _ _ _ _ _ _ hoff] at hf
      by_cases h2 : off < 2
      · rw [if_pos h2] at hf
        have hn : Pending rev s (forkSeg path e x a b m (off + 1) :: []) path (forkRest rev (s && ([] : List IterSeg).isEmpty) path a b path (off + 1) ++ []) := by
          rw [List.append_nil, show (s && ([] : List IterSeg).isEmpty) = s from by cases s <;> rfl]
          exact Pending.root ha hb (by omega) hm
        obtain ⟨p, ps, h3, h4⟩ := branch ha hb h2 hm hpath hf hn
        rw [List.append_nil, show (s && ([] : List IterSeg).isEmpty) = s from by cases s <;> rfl] at h3
        rw [h3]
        exact h4
      · have h2 : off = 2 := by omega
        subst h2
        have : forkRest rev s path a b path 2 = [] := rfl
        rw [this]
        dsimp only
        rw [iterGo]
        show ∃ b', (if (forkSeg path e x a b m 2).off < 2 then _ else iterGo rev s fuel [] builder _) = _
        rw [if_neg (by rw [forkSeg_off _ _ _ _ _ _ _ (by omega)]; omega)]
        rw [if_neg (by omega), need] at hf
        cases fuel with
        | zero => omega
        | succ fuel => exact ⟨builder, by rw [iterGo]⟩
    | @cons l e x a b m off q bit g rest out ha hb hoff hr hm =>
      rw [need, forkSeg_off _ _ _ _ _ _ _ hoff] at hf
      by_cases h2 : off < 2
      · rw [if_pos h2] at hf
        have hs0 : (s && (g :: rest).isEmpty) = false := by cases s <;> rfl
        have hn : Pending rev s (forkSeg l e x a b m (off + 1) :: g :: rest) (q ++ bit :: l) (forkRest rev (s && (g :: rest).isEmpty) l a b (q ++ bit :: l) (off + 1) ++ out) := by
          rw [hs0]
          exact Pending.cons ha hb (by omega) hr hm
        obtain ⟨p, ps, h3, h4⟩ := branch ha hb h2 hm hpath hf hn
        rw [hs0] at h3
        rw [h3]
        exact h4
      · have h2 : off = 2 := by omega
        subst h2
        have : forkRest rev false l a b (q ++ bit :: l) 2 ++ out = out := rfl
        rw [this]
        have hstep : iterGo rev s (fuel + 1) (forkSeg l e x a b m 2 :: g :: rest) builder toRewind = iterGo rev s fuel (g :: rest) builder (toRewind + l.length + 1) := by
          rw [iterGo]
          show (if (forkSeg l e x a b m 2).off < 2 then _ else iterGo rev s fuel (g :: rest) builder _) = _
          rw [if_neg (by rw [forkSeg_off _ _ _ _ _ _ _ (by omega)]; omega)]
          rfl
        rw [hstep]
        rw [if_neg (by omega)] at hf
        have hlen : builder.length - toRewind = q.length + (l.length + 1) := by
          have := congrArg List.length hpath
          rw [List.length_take, List.length_append, List.length_cons] at this
          omega
        refine iterGo_spec rev s fuel hr ?_ (by omega) (by omega)
        have hq : builder.length - (toRewind + l.length + 1) = q.length := by omega
        have : (builder.take (builder.length - toRewind)).take q.length = q := by rw [hpath, List.take_left]
        rw [hq]
        rw [List.take_take] at this
        rwa [Nat.min_eq_left (by omega)] at this

end Verif
