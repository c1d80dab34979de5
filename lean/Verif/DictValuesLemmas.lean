import Verif.DictIterLemmas
/-
What the value iterators yield.
-/
set_option linter.unusedVariables false
set_option linter.unusedSimpArgs false
namespace Verif

theorem LabelEnc.ne_nil {n : Nat} {l e : Bits} (h : LabelEnc n l e) : e ≠ [] := by
  cases h <;> simp

def vals (rev : Bool) (t : Trie) : List Sl := (t.entries rev false).map (·.2)

/-- The segment of a fork whose label was read and of which `off` branches were taken. -/
def valSeg (l e : Bits) (x : Sl) (a b : Trie) (m off : Nat) : ValSeg :=
  ⟨(Trie.fork l e x a b).cell, ⟨x.bits, (a.cell :: b.cell :: x.refs).drop off⟩, m⟩

theorem valSeg_off (l e : Bits) (x : Sl) (a b : Trie) (m off : Nat) (h : off ≤ 2) : (valSeg l e x a b m off).off = off := by
  unfold ValSeg.off valSeg Trie.cell Cell.refs
  simp only [List.length_drop, List.length_cons]
  omega

def valRest (rev first : Bool) (a b : Trie) (off : Nat) : List Sl :=
  (if off = 0 then vals rev (Trie.side first a b) else []) ++ (if off ≤ 1 then vals rev (Trie.side (!first) a b) else [])

/-- The branch that the value iterator takes first at the root. -/
def valFirst (rev s : Bool) (x : Sl) : Bool := rev ^^ (s && x.bits.isEmpty)

/-- All values in the order of the value iterator. -/
def valList (rev s : Bool) : Trie → List Sl
  | .leaf l e v => [v]
  | .fork l e x a b => valRest rev (valFirst rev s x) a b 0

inductive VPend (rev s : Bool) : List ValSeg → List Sl → Prop
  | nil : VPend rev s [] []
  | root {l e : Bits} {x : Sl} {a b : Trie} {m off : Nat} (he : e ≠ []) (ha : a.Sized m) (hb : b.Sized m) (hoff : off ≤ 2) (hm : m ≤ 1023) :
      VPend rev s [valSeg l e x a b m off] (valRest rev (valFirst rev s x) a b off)
  | cons {l e : Bits} {x : Sl} {a b : Trie} {m off : Nat} {g : ValSeg} {rest : List ValSeg} {out : List Sl}
      (he : e ≠ []) (ha : a.Sized m) (hb : b.Sized m) (hoff : off ≤ 2) (hr : VPend rev s (g :: rest) out) (hm : m ≤ 1023) :
      VPend rev s (valSeg l e x a b m off :: g :: rest) (valRest rev rev a b off ++ out)

def vneed : List ValSeg → Nat
  | [] => 1
  | g :: rest => if g.off < 2 then g.remaining + 2 else vneed rest + 1

theorem vneed_lt_fuel : ∀ st : List ValSeg, vneed st < valFuel st
  | [] => by unfold vneed valFuel; simp
  | g :: rest => by
    have := vneed_lt_fuel rest
    rw [vneed]
    unfold valFuel at *
    simp only [List.length_cons, List.map_cons, List.sum_cons] at *
    split <;> omega

theorem valRead_leaf {l e : Bits} {v : Sl} {n : Nat} (hs : (Trie.leaf l e v).Sized n) (h : n ≤ 1023) :
    valRead ⟨(Trie.leaf l e v).cell, ⟨(Trie.leaf l e v).cell.bits, (Trie.leaf l e v).cell.refs⟩, n⟩ = .ok (.value v) := by
  have hl : l.length = n := hs.1
  unfold valRead
  dsimp only
  rw [readLabel_cell hs (by omega)]
  show (if n < l.length then _ else _) = _
  rw [if_neg (by omega), if_pos (show n = (Trie.leaf l e v).label.length from hl.symm)]
  rfl

theorem valRead_fork {l e : Bits} {x : Sl} {a c : Trie} {n : Nat} (hs : (Trie.fork l e x a c).Sized n) (h : n ≤ 1023) :
    valRead ⟨(Trie.fork l e x a c).cell, ⟨(Trie.fork l e x a c).cell.bits, (Trie.fork l e x a c).cell.refs⟩, n⟩ =
      .ok (.node (valSeg l e x a c (n - l.length - 1) 0)) := by
  have hl : l.length < n := hs.1
  unfold valRead
  dsimp only
  rw [readLabel_cell hs (by omega)]
  show (if n < l.length then _ else _) = _
  rw [if_neg (by omega), if_neg (show ¬ n = (Trie.fork l e x a c).label.length from fun h => by have : n = l.length := h; omega),
    if_neg (by simp [Trie.body])]
  rfl

theorem vals_fork (rev : Bool) (l e : Bits) (x : Sl) (a b : Trie) : vals rev (.fork l e x a b) = valRest rev rev a b 0 := by
  have h : ∀ bit (u : Trie), ((u.entries rev false).map (Trie.under l bit)).map (·.2) = vals rev u := by
    intro bit u
    rw [List.map_map]; rfl
  unfold vals
  rw [Trie.entries]
  have : Trie.firstBit rev false l = rev := by unfold Trie.firstBit; cases rev <;> rfl
  rw [this]
  cases rev
  · rw [if_neg (by simp), List.map_append, h, h]; rfl
  · rw [if_pos rfl, List.map_append, h, h]; rfl

theorem vals_ne_nil (rev : Bool) (t : Trie) : ∃ p ps, vals rev t = p :: ps := by
  obtain ⟨ps, h⟩ := Trie.entries_ne_nil rev false t
  unfold vals
  rw [h]; exact ⟨_, _, rfl⟩

def vparent (root : Cell) : List ValSeg → Except Err Cell
  | [] => .ok root
  | seg :: rest => match seg.cell.refs[seg.off - 1]? with
    | none => .error .cellUnderflow
    | some c => .ok c

theorem valGo_spec (rev s : Bool) : ∀ (fuel : Nat) {st : List ValSeg} {out : List Sl},
    VPend rev s st out → vneed st ≤ fuel →
    match out with
    | [] => valGo rev s fuel st = .ok (none, [])
    | p :: ps => ∃ st', valGo rev s fuel st = .ok (some p, st') ∧ VPend rev s st' ps ∧
        (rev = false → s = false → ∀ root, ∃ c, vparent root st' = .ok c ∧ EndOf c p)
  | 0, st, out, hp, hf => by
    exfalso
    cases st with
    | nil => simp [vneed] at hf
    | cons g rest => unfold vneed at hf; split at hf <;> omega
  | fuel + 1, st, out, hp, hf => by
    have branch : ∀ {l e : Bits} {x : Sl} {a b : Trie} {m off : Nat} {rest : List ValSeg} {out' : List Sl} {first : Bool},
        e ≠ [] → a.Sized m → b.Sized m → off < 2 → m ≤ 1023 → m + 2 ≤ fuel + 1 →
        (rev ^^ (s && rest.isEmpty && x.bits.isEmpty)) = first →
        VPend rev s (valSeg l e x a b m (off + 1) :: rest) (valRest rev first a b (off + 1) ++ out') →
        ∃ p ps, valRest rev first a b off ++ out' = p :: ps ∧
          ∃ st', valGo rev s (fuel + 1) (valSeg l e x a b m off :: rest) = .ok (some p, st') ∧ VPend rev s st' ps ∧
            (rev = false → s = false → ∀ root, ∃ c, vparent root st' = .ok c ∧ EndOf c p) := by
      intro l e x a b m off rest out' first he ha hb hoff hm hfu hfirst hnext
      have hoffe := valSeg_off l e x a b m off (by omega)
      have hnb : (decide (off ≠ 0) ^^ rev ^^ (s && rest.isEmpty && x.bits.isEmpty)) = if off = 0 then first else !first := by
        rw [← hfirst]
        rcases (show off = 0 ∨ off = 1 by omega) with rfl | rfl <;> cases rev <;> cases (s && rest.isEmpty && x.bits.isEmpty) <;> rfl
      have hstep : valGo rev s (fuel + 1) (valSeg l e x a b m off :: rest) =
          (valRead ⟨(Trie.side (if off = 0 then first else !first) a b).cell, ⟨(Trie.side (if off = 0 then first else !first) a b).cell.bits, (Trie.side (if off = 0 then first else !first) a b).cell.refs⟩, m⟩ >>= fun r =>
            valAfter (valGo rev s fuel) (valSeg l e x a b m (off + 1) :: rest) r) := by
        rw [valGo]
        have hfresh : ¬ (valSeg l e x a b m off).cell.bits.length - (valSeg l e x a b m off).data.bits.length = 0 := by
          have : e.length ≠ 0 := fun h => he (List.length_eq_zero_iff.mp h)
          simp only [valSeg, Trie.cell, Cell.bits, List.length_append]
          omega
        rw [if_neg hfresh, if_pos (by omega)]
        show (match (Trie.fork l e x a b).cell.refs[(decide ((valSeg l e x a b m off).off ≠ 0) ^^ rev ^^ (s && rest.isEmpty && x.bits.isEmpty)).toNat]? with
          | none => _
          | some child => _) = _
        rw [hoffe, hnb, side_cell]
        dsimp only
        rw [asSlice_cell]
        have hseg : ({ valSeg l e x a b m off with data := ⟨(valSeg l e x a b m off).data.bits, (valSeg l e x a b m off).data.refs.drop 1⟩ } : ValSeg) = valSeg l e x a b m (off + 1) := by
          unfold valSeg
          simp only [List.drop_drop]
        rw [← hseg]
        rfl
      have hsz : (Trie.side (if off = 0 then first else !first) a b).Sized m := by
        cases (if off = 0 then first else !first)
        · exact ha
        · exact hb
      have hlist : valRest rev first a b off ++ out' = vals rev (Trie.side (if off = 0 then first else !first) a b) ++ (valRest rev first a b (off + 1) ++ out') := by
        unfold valRest
        rcases (show off = 0 ∨ off = 1 by omega) with rfl | rfl <;> simp
      have hpar : rev = false → s = false → ∀ root v, EndOf (Trie.side (if off = 0 then first else !first) a b).cell v →
          ∃ c, vparent root (valSeg l e x a b m (off + 1) :: rest) = .ok c ∧ EndOf c v := by
        intro h1 h2 root v hv
        refine ⟨_, ?_, hv⟩
        show (match (Trie.fork l e x a b).cell.refs[(valSeg l e x a b m (off + 1)).off - 1]? with
          | none => _
          | some c => _) = _
        rw [valSeg_off l e x a b m (off + 1) (by omega)]
        have hf0 : first = false := by rw [← hfirst, h1, h2]; rfl
        have : off + 1 - 1 = (if off = 0 then first else !first).toNat := by
          rw [hf0]
          rcases (show off = 0 ∨ off = 1 by omega) with rfl | rfl <;> rfl
        rw [this, side_cell]
      generalize (if off = 0 then first else !first) = bit at *
      generalize hu : Trie.side bit a b = u at *
      rw [hlist, hstep]
      cases u with
      | leaf l1 e1 v1 =>
        rw [valRead_leaf hsz hm]
        exact ⟨v1, _, rfl, valSeg l e x a b m (off + 1) :: rest, rfl, hnext, fun h1 h2 root => hpar h1 h2 root v1 (body_end (t := .leaf l1 e1 v1))⟩
      | fork l1 e1 x1 a1 b1 =>
        rw [valRead_fork hsz hm]
        have hl1 : l1.length < m := hsz.1
        have hpend : VPend rev s (valSeg l1 e1 x1 a1 b1 (m - l1.length - 1) 0 :: valSeg l e x a b m (off + 1) :: rest)
            (valRest rev rev a1 b1 0 ++ (valRest rev first a b (off + 1) ++ out')) :=
          VPend.cons hsz.2.1.ne_nil hsz.2.2.1 hsz.2.2.2 (by omega) hnext (by omega)
        rw [← vals_fork rev l1 e1 x1 a1 b1] at hpend
        have ih := valGo_spec rev s fuel hpend (by unfold vneed; rw [valSeg_off _ _ _ _ _ _ _ (by omega), if_pos (by omega)]; show m - l1.length - 1 + 2 ≤ fuel; omega)
        obtain ⟨p, ps, hps⟩ := vals_ne_nil rev (Trie.fork l1 e1 x1 a1 b1)
        rw [hps] at ih ⊢
        exact ⟨p, _, rfl, ih⟩
    cases hp with
    | nil => rw [valGo]
    | @root l e x a b m off he ha hb hoff hm =>
      rw [vneed, valSeg_off _ _ _ _ _ _ _ hoff] at hf
      by_cases h2 : off < 2
      · rw [if_pos h2] at hf
        have hn : VPend rev s (valSeg l e x a b m (off + 1) :: []) (valRest rev (valFirst rev s x) a b (off + 1) ++ []) := by
          rw [List.append_nil]
          exact VPend.root he ha hb (by omega) hm
        obtain ⟨p, ps, h3, h4⟩ := branch he ha hb h2 hm hf (by unfold valFirst; cases s <;> rfl) hn
        rw [List.append_nil] at h3
        rw [h3]
        exact h4
      · have h2 : off = 2 := by omega
        subst h2
        have : valRest rev (valFirst rev s x) a b 2 = [] := rfl
        rw [this]
        dsimp only
        rw [valGo]
        have hfresh : ¬ (valSeg l e x a b m 2).cell.bits.length - (valSeg l e x a b m 2).data.bits.length = 0 := by
          have : e.length ≠ 0 := fun h => he (List.length_eq_zero_iff.mp h)
          simp only [valSeg, Trie.cell, Cell.bits, List.length_append]
          omega
        rw [if_neg hfresh, if_neg (by rw [valSeg_off _ _ _ _ _ _ _ (by omega)]; omega)]
        rw [if_neg (by omega), vneed] at hf
        cases fuel with
        | zero => omega
        | succ fuel => rw [valGo]
    | @cons l e x a b m off g rest out he ha hb hoff hr hm =>
      rw [vneed, valSeg_off _ _ _ _ _ _ _ hoff] at hf
      by_cases h2 : off < 2
      · rw [if_pos h2] at hf
        have hn : VPend rev s (valSeg l e x a b m (off + 1) :: g :: rest) (valRest rev rev a b (off + 1) ++ out) :=
          VPend.cons he ha hb (by omega) hr hm
        obtain ⟨p, ps, h3, h4⟩ := branch he ha hb h2 hm hf (by cases s <;> cases rev <;> rfl) hn
        rw [h3]
        exact h4
      · have h2 : off = 2 := by omega
        subst h2
        have : valRest rev rev a b 2 ++ out = out := rfl
        rw [this]
        have hstep : valGo rev s (fuel + 1) (valSeg l e x a b m 2 :: g :: rest) = valGo rev s fuel (g :: rest) := by
          rw [valGo]
          have hfresh : ¬ (valSeg l e x a b m 2).cell.bits.length - (valSeg l e x a b m 2).data.bits.length = 0 := by
            have : e.length ≠ 0 := fun h => he (List.length_eq_zero_iff.mp h)
            simp only [valSeg, Trie.cell, Cell.bits, List.length_append]
            omega
          rw [if_neg hfresh, if_neg (by rw [valSeg_off _ _ _ _ _ _ _ (by omega)]; omega)]
        rw [hstep]
        rw [if_neg (by omega)] at hf
        exact valGo_spec rev s fuel hr (by omega)

end Verif
