import Verif.DictFind
import Verif.DictLemmas
import Verif.DictOrder
/-
Refinement of bound and neighbour search to the trie specification of `DictOrder.lean`.
-/
set_option linter.unusedVariables false
set_option linter.unusedSimpArgs false
namespace Verif

theorem pushBits_ok {key b : Bits} (h : key.length + b.length ≤ 1023) : pushBits key b = .ok (key ++ b) := if_pos h

/-- The way up, without the key lengths. -/
def wayUp (st : List Seg) : List (Cell × Bool) := st.map (fun s => (s.data, s.right))

theorem rebuildOne_shape (acc : Cell → Bool) {s s' : Seg} (h : (s.data, s.right) = (s'.data, s'.right)) (c : Cell) : rebuildOne acc s c = rebuildOne acc s' c := by
  injection h with h1 h2
  unfold rebuildOne
  rw [h1, h2]

theorem rebuildRemoved_shape (acc : Cell → Bool) {s s' : Seg} (h : (s.data, s.right) = (s'.data, s'.right)) (a b : Nat) :
    rebuildRemoved acc s a b = rebuildRemoved acc s' a b := by
  injection h with h1 h2
  unfold rebuildRemoved
  rw [h1, h2]

theorem rebuild_shape (acc : Cell → Bool) : ∀ {st st' : List Seg} (c : Cell), wayUp st = wayUp st' → rebuild acc st c = rebuild acc st' c
  | [], [], c, h => rfl
  | [], _ :: _, c, h => by cases h
  | _ :: _, [], c, h => by cases h
  | s :: st, s' :: st', c, h => by
    simp only [wayUp, List.map_cons, List.cons.injEq] at h
    rw [rebuild, rebuild, rebuildOne_shape acc h.1]
    cases rebuildOne acc s' c with
    | error e => rfl
    | ok c' => exact rebuild_shape acc c' h.2

theorem side_cell (bit : Bool) (l e : Bits) (x : Sl) (a b : Trie) : (Trie.fork l e x a b).cell.refs[bit.toNat]? = some (Trie.side bit a b).cell := by
  cases bit <;> rfl

theorem first_fork (rev s : Bool) (l e : Bits) (x : Sl) (a b : Trie) :
    (Trie.fork l e x a b).first rev s = Trie.under l (Trie.firstBit rev s l) ((Trie.side (Trie.firstBit rev s l) a b).first rev false) := by
  rw [Trie.first]
  cases Trie.firstBit rev s l <;> rfl

theorem first_long (rev s : Bool) {t : Trie} (h : t.label ≠ []) : t.first rev s = t.first rev false := by
  cases t with
  | leaf l e v => rfl
  | fork l e x a b =>
    have hl : l ≠ [] := h
    cases l with
    | nil => exact absurd rfl hl
    | cons c l => cases s <;> rfl

theorem updateDirection_spec {max s : Bool} {pfx : Bits} {dir : Option Bool} (h : dir = none ∨ dir = some max) :
    updateDirection max s pfx dir = (Trie.firstBit max (s && dir.isNone) pfx, some max) := by
  rcases h with rfl | rfl
  · unfold updateDirection Trie.firstBit
    cases s <;> cases pfx <;> cases max <;> rfl
  · unfold updateDirection Trie.firstBit
    cases s <;> cases pfx <;> cases max <;> rfl

theorem boundGo_step (max s : Bool) {n : Nat} {t : Trie} (hs : t.Sized n) (hn : n ≤ 1023) (fuel : Nat) {dir : Option Bool}
    (hd : dir = none ∨ dir = some max) (key : Bits) (hk : key.length + n ≤ 1023) (stack : List Seg) (prev : Nat) :
    boundGo max s (fuel + 1) dir n t.cell key stack prev = (
      if n = t.label.length then .ok ⟨stack, t.body, key ++ t.label, n, prev⟩
      else if t.body.refs.length < 2 then .error .cellUnderflow
      else pushBits (key ++ t.label) [Trie.firstBit max (s && dir.isNone) t.label] >>= fun key' =>
        match t.cell.refs[(Trie.firstBit max (s && dir.isNone) t.label).toNat]? with
        | none => .error .cellUnderflow
        | some child => boundGo max s fuel (some max) (n - t.label.length - 1) child key'
            (⟨t.cell, Trie.firstBit max (s && dir.isNone) t.label, 0⟩ :: stack) n) := by
  have hl := hs.length_le
  rw [boundGo, asSlice_cell]
  show (readLabel _ n >>= _) = _
  rw [readLabel_cell hs hn]
  show (pushBits key t.label >>= _) = _
  rw [pushBits_ok (by omega)]
  show (if n < t.label.length then _ else _) = _
  rw [if_neg (by omega), updateDirection_spec hd]; rfl

theorem boundGo_spec (max s : Bool) : ∀ {n : Nat} {t : Trie}, t.Sized n → n ≤ 1023 → ∀ fuel, n < fuel → ∀ {dir : Option Bool}, (dir = none ∨ dir = some max) →
    ∀ key : Bits, key.length + n ≤ 1023 → ∀ (stack : List Seg) (prev : Nat), ∃ r,
      boundGo max s fuel dir n t.cell key stack prev = .ok r ∧
      r.key = key ++ (t.first max (s && dir.isNone)).1 ∧ r.value = (t.first max (s && dir.isNone)).2 ∧
      ∀ stack0, wayUp stack0 = wayUp stack → ∃ r0, dictFindRemove fuel (t.first max (s && dir.isNone)).1 t.cell stack0 prev = .ok (some r0) ∧
        r0.value = r.value ∧ r0.key.length = r.keyLen ∧ r0.prev = r.prev ∧ wayUp r0.stack = wayUp r.stack
  | n, t, hs, hn, 0, hf, _, _, _, _, _, _ => absurd hf (by omega)
  | n, .leaf l e v, hs, hn, fuel + 1, hf, dir, hd, key, hk, stack, prev => by
    rw [boundGo_step max s hs hn fuel hd key hk stack prev]
    have hl : l.length = n := hs.1
    rw [if_pos (show n = (Trie.leaf l e v).label.length from hl.symm)]
    refine ⟨_, rfl, rfl, rfl, fun stack0 h0 => ?_⟩
    have hc : commonPrefixLen l (Trie.leaf l e v).label = l.length := by
      have := commonPrefixLen_full l []
      rwa [List.append_nil] at this
    refine ⟨⟨stack0, v, l, prev⟩, ?_, rfl, hl, rfl, h0⟩
    show dictFindRemove (fuel + 1) l _ _ _ = _
    rw [dictFindRemove_step hs hn hl, if_pos hc]
    rfl
  | n, .fork l e x a b, hs, hn, fuel + 1, hf, dir, hd, key, hk, stack, prev => by
    have hlt := hs.1
    rw [boundGo_step max s hs hn fuel hd key hk stack prev]
    rw [if_neg (show ¬ n = (Trie.fork l e x a b).label.length from fun h => by have : n = l.length := h; omega), if_neg (by simp [Trie.body]), pushBits_ok (by simp [Trie.label]; omega), first_fork]
    generalize hbit : Trie.firstBit max (s && dir.isNone) l = bit
    have hbit' : Trie.firstBit max (s && dir.isNone) (Trie.fork l e x a b).label = bit := hbit
    rw [hbit']
    have hrun : (Except.ok (key ++ (Trie.fork l e x a b).label ++ [bit]) >>= fun key' =>
        match (Trie.fork l e x a b).cell.refs[bit.toNat]? with
        | none => (.error .cellUnderflow : Except Err BoundOut)
        | some child => boundGo max s fuel (some max) (n - (Trie.fork l e x a b).label.length - 1) child key' (⟨(Trie.fork l e x a b).cell, bit, 0⟩ :: stack) n) =
        boundGo max s fuel (some max) (n - l.length - 1) (Trie.side bit a b).cell (key ++ l ++ [bit]) (⟨(Trie.fork l e x a b).cell, bit, 0⟩ :: stack) n := by
      rw [side_cell]; rfl
    rw [hrun]
    have hsz := Trie.side_sized hs bit
    have ih : ∀ key : Bits, key.length + (n - l.length - 1) ≤ 1023 → ∀ (stack : List Seg) (prev : Nat), ∃ r,
        boundGo max s fuel (some max) (n - l.length - 1) (Trie.side bit a b).cell key stack prev = .ok r ∧
        r.key = key ++ ((Trie.side bit a b).first max false).1 ∧ r.value = ((Trie.side bit a b).first max false).2 ∧
        ∀ stack0, wayUp stack0 = wayUp stack → ∃ r0, dictFindRemove fuel ((Trie.side bit a b).first max false).1 (Trie.side bit a b).cell stack0 prev = .ok (some r0) ∧
          r0.value = r.value ∧ r0.key.length = r.keyLen ∧ r0.prev = r.prev ∧ wayUp r0.stack = wayUp r.stack := by
      intro key hk stack prev
      have : (s && (some max).isNone) = false := by cases s <;> rfl
      cases bit
      · have := boundGo_spec max s (t := a) hs.2.2.1 (by omega) fuel (by omega) (dir := some max) (Or.inr rfl) key hk stack prev
        rwa [‹(s && (some max).isNone) = false›] at this
      · have := boundGo_spec max s (t := b) hs.2.2.2 (by omega) fuel (by omega) (dir := some max) (Or.inr rfl) key hk stack prev
        rwa [‹(s && (some max).isNone) = false›] at this
    obtain ⟨r, h1, h2, h3, h4⟩ := ih (key ++ l ++ [bit]) (by simp; omega) (⟨(Trie.fork l e x a b).cell, bit, 0⟩ :: stack) n
    refine ⟨r, h1, ?_, h3, fun stack0 h0 => ?_⟩
    · rw [h2]; simp [Trie.under]
    · obtain ⟨r0, g1, g2⟩ := h4 (⟨(Trie.fork l e x a b).cell, bit, n⟩ :: stack0) (by simp only [wayUp, List.map_cons] at h0 ⊢; rw [h0])
      refine ⟨r0, ?_, g2⟩
      have hfl := Trie.lookup_some_length hsz (Trie.first_spec max false hsz).1
      have hkl : (Trie.under l bit ((Trie.side bit a b).first max false)).1.length = n := by
        simp only [Trie.under, List.length_append, List.length_cons]; omega
      rw [dictFindRemove_step hs hn hkl]
      have hc : commonPrefixLen (Trie.under l bit ((Trie.side bit a b).first max false)).1 (Trie.fork l e x a b).label = l.length := commonPrefixLen_full l _
      rw [hc, hkl, if_neg (by omega), if_neg (by simp [Trie.label]), if_neg (by simp [Trie.cell, Cell.refs])]
      have hdr : (Trie.under l bit ((Trie.side bit a b).first max false)).1.drop l.length = bit :: ((Trie.side bit a b).first max false).1 := List.drop_left
      rw [hdr]
      dsimp only
      rw [side_cell]
      exact g1

/-! ### Neighbours -/

def rewindAll (orig : Bits) (N : Nat) (rev s : Bool) (stack : List Seg) : Except Err (Option (Bits × Sl)) :=
  match findRewind s rev N stack with
  | none => .ok none
  | some st => findFinish orig rev st

theorem findGo_step (s : Bool) {n : Nat} {t : Trie} (hs : t.Sized n) (hn : n ≤ 1023) {key : Bits} (hk : key.length = n) (fuel : Nat) (stack : List Seg) :
    findGo s (fuel + 1) key t.cell stack = (
      if commonPrefixLen key t.label = key.length then .ok ⟨.value t.body, key, t.cell, stack⟩
      else if commonPrefixLen key t.label < t.label.length then
        match key.drop (commonPrefixLen key t.label) with
        | [] => .error .cellUnderflow
        | bit :: _ => .ok ⟨.divergence (if s && stack.isEmpty && decide (commonPrefixLen key t.label = 0) then !bit else bit), key, t.cell, stack⟩
      else if t.cell.refs.length < 2 then .error .cellUnderflow
      else match key.drop (commonPrefixLen key t.label) with
        | [] => .error .cellUnderflow
        | bit :: key' => match t.cell.refs[bit.toNat]? with
          | none => .error .cellUnderflow
          | some child => findGo s fuel key' child (⟨t.cell, bit, key'.length⟩ :: stack)) := by
  rw [findGo, asSlice_cell]
  show (readLabel _ key.length >>= _) = _
  rw [hk, readLabel_cell hs hn]
  rw [← hk]
  rfl

theorem findFinish_none {orig pre key : Bits} (ho : orig = pre ++ key) (hN : orig.length ≤ 1023) (rev : Bool) {t : Trie} (hs : t.Sized key.length) :
    findFinish orig rev ⟨t.cell, key.length, orig.length - key.length, none⟩ = .ok (some (pre ++ (t.first rev false).1, (t.first rev false).2)) := by
  have hp : orig.take (orig.length - key.length) = pre := by rw [ho]; simp
  have hol : orig.length = pre.length + key.length := by rw [ho]; simp
  unfold findFinish
  dsimp only
  rw [hp, pushBits_ok (by simp; omega)]
  show (boundGo rev false (key.length + 1) (some rev) key.length t.cell pre [] key.length >>= _) = _
  obtain ⟨r, h1, h2, h3, _⟩ := boundGo_spec rev false hs (by omega) (key.length + 1) (by omega) (dir := some rev) (Or.inr rfl) pre (by omega) [] key.length
  rw [h1]
  show Except.ok (some (r.key, r.value)) = _
  rw [h2, h3]; rfl

theorem findFinish_some {orig pre r : Bits} {bit : Bool} (ho : orig = pre ++ bit :: r) (hN : orig.length ≤ 1023) (rev : Bool) {l e : Bits} {x : Sl} {a b : Trie}
    (hs : (Trie.side (!bit) a b).Sized r.length) :
    findFinish orig rev ⟨(Trie.fork l e x a b).cell, r.length, orig.length - r.length - 1, some (!bit)⟩ =
      .ok (some (pre ++ (!bit) :: ((Trie.side (!bit) a b).first rev false).1, ((Trie.side (!bit) a b).first rev false).2)) := by
  have hp : orig.take (orig.length - r.length - 1) = pre := by
    rw [ho]
    have : (pre ++ bit :: r).length - r.length - 1 = pre.length := by simp only [List.length_append, List.length_cons]; omega
    rw [this, List.take_left]
  have hol : orig.length = pre.length + r.length + 1 := by rw [ho]; simp only [List.length_append, List.length_cons]; omega
  unfold findFinish
  dsimp only
  rw [hp, pushBits_ok (by simp; omega)]
  show (pushBits pre [!bit] >>= _) = _
  rw [pushBits_ok (by simp; omega), side_cell]
  show (boundGo rev false (r.length + 1) (some rev) r.length (Trie.side (!bit) a b).cell (pre ++ [!bit]) [] r.length >>= _) = _
  obtain ⟨q, h1, h2, h3, _⟩ := boundGo_spec rev false hs (by omega) (r.length + 1) (by omega) (dir := some rev) (Or.inr rfl) (pre ++ [!bit]) (by simp; omega) [] r.length
  rw [h1]
  show Except.ok (some (q.key, q.value)) = _
  rw [h2, h3, List.append_assoc]; rfl

theorem findGo_spec (max incl s : Bool) (orig : Bits) (hN : orig.length ≤ 1023) : ∀ {n : Nat} {t : Trie}, t.Sized n →
    ∀ {key : Bits}, key.length = n → ∀ fuel, n < fuel → ∀ (pre : Bits) (stack : List Seg), orig = pre ++ key → (stack.isEmpty = pre.isEmpty) →
    (findGo s fuel key t.cell stack >>= findRest orig orig.length max incl s) =
      (match t.next (!max) incl (s && stack.isEmpty) key with
        | some p => .ok (some (pre ++ p.1, p.2))
        | none => rewindAll orig orig.length (!max) s stack)
  | n, t, hs, key, hk, 0, hf, _, _, _, _ => absurd hf (by omega)
  | n, t, hs, key, hk, fuel + 1, hf, pre, stack, ho, hst => by
    have hol : orig.length = pre.length + n := by rw [ho, List.length_append, hk]
    rw [findGo_step s hs (by omega) hk]
    rcases Trie.key_cases hs hk with ⟨e, w, rfl⟩ | ⟨l, e, x, a, b, bit, r, rfl, h, hr⟩ | ⟨c, bit, l', k', h1, h2⟩
    · have hc : commonPrefixLen key (Trie.leaf key e w).label = key.length := by
        have := commonPrefixLen_full key []
        rwa [List.append_nil] at this
      rw [if_pos hc, Trie.next]
      show findRest orig orig.length max incl s ⟨.value w, key, _, stack⟩ = _
      unfold findRest
      dsimp only
      cases incl with
      | true =>
        rw [if_pos rfl, if_pos (Or.inl ⟨rfl, rfl⟩), pushBits_ok (by simp; omega), ho]
        rfl
      | false =>
        rw [if_neg (by simp), if_neg (fun h => h.elim (fun h => by cases h.1) (keyBefore_irrefl _ _ _))]
        rfl
    · have hc : commonPrefixLen key (Trie.fork l e x a b).label = l.length := by rw [h]; exact commonPrefixLen_full l _
      have hlt := hs.1
      have hd : key.drop l.length = bit :: r := by rw [h, List.drop_left]
      rw [hc, if_neg (by omega), if_neg (by simp [Trie.label]), if_neg (by simp [Trie.cell, Cell.refs]), hd]
      dsimp only
      rw [side_cell]
      dsimp only
      have hso := Trie.side_sized hs (!bit)
      rw [← hr] at hso
      have ih : (findGo s fuel r (Trie.side bit a b).cell (⟨(Trie.fork l e x a b).cell, bit, r.length⟩ :: stack) >>= findRest orig orig.length max incl s) =
          (match (Trie.side bit a b).next (!max) incl false r with
            | some p => .ok (some ((pre ++ l ++ [bit]) ++ p.1, p.2))
            | none => rewindAll orig orig.length (!max) s (⟨(Trie.fork l e x a b).cell, bit, r.length⟩ :: stack)) := by
        have e1 : (s && (⟨(Trie.fork l e x a b).cell, bit, r.length⟩ :: stack : List Seg).isEmpty) = false := by cases s <;> rfl
        cases bit
        · have := findGo_spec max incl s orig hN (t := a) hs.2.2.1 hr fuel (by omega) (pre ++ l ++ [false]) (⟨(Trie.fork l e x a b).cell, false, r.length⟩ :: stack) (by rw [ho, h]; simp) (by simp)
          rw [e1] at this
          exact this
        · have := findGo_spec max incl s orig hN (t := b) hs.2.2.2 hr fuel (by omega) (pre ++ l ++ [true]) (⟨(Trie.fork l e x a b).cell, true, r.length⟩ :: stack) (by rw [ho, h]; simp) (by simp)
          rw [e1] at this
          exact this
      rw [ih, h, Trie.next_fork]
      cases (Trie.side bit a b).next (!max) incl false r with
      | some p => simp [Trie.under]
      | none =>
        dsimp only
        have ho' : orig = (pre ++ l) ++ bit :: r := by rw [ho, h]; simp
        have hfin := findFinish_some (orig := orig) ho' hN (!max) (l := l) (e := e) (x := x) hso
        have hpl : orig.length - r.length = pre.length + l.length + 1 := by omega
        have hsr : (s && decide (orig.length - r.length = 1)) = (s && stack.isEmpty && l.isEmpty) := by
          rw [hpl, hst]
          cases s <;> cases pre <;> cases l <;> simp

        unfold rewindAll
        rw [findRewind]
        dsimp only
        rw [hsr]
        have hfb : Trie.firstBit (!max) (s && stack.isEmpty) l = ((!max) ^^ (s && stack.isEmpty && l.isEmpty)) := rfl
        rw [hfb]
        cases hsv : (s && stack.isEmpty && l.isEmpty) with
        | true =>
          simp only [true_and, Bool.true_eq_false, false_and, if_false, Bool.xor_true]
          by_cases hb : bit = !(!max)
          · have hb' : bit ≠ (!max) := by rw [hb]; cases max <;> simp
            have hb2 : (!max) = !bit := by rw [hb]; simp
            rw [if_pos hb', if_pos hb]
            dsimp only
            rw [show (some (!max) : Option Bool) = some (!bit) from by rw [hb2], hfin]
            simp [Trie.under]
          · have hb' : ¬ bit ≠ (!max) := by cases bit <;> cases max <;> simp at hb ⊢
            rw [if_neg hb', if_neg hb]
        | false =>
          simp only [Bool.false_eq_true, false_and, if_false, true_and, Bool.xor_false]
          by_cases hb : bit = (!max)
          · rw [if_pos hb, if_pos hb]
            dsimp only
            rw [show (some (!(!max)) : Option Bool) = some (!bit) from by rw [hb], hfin]
            simp [Trie.under]
          · rw [if_neg hb, if_neg hb]
    · have hc : commonPrefixLen key t.label = c.length := by rw [h1, h2]; exact commonPrefixLen_split c bit l' k'
      have hcl : c.length < key.length := by rw [h2]; simp
      have hcl2 : c.length < t.label.length := by rw [h1]; simp
      have hd : key.drop c.length = bit :: k' := by rw [h2, List.drop_left]
      have hcd : decide (c.length = 0) = c.isEmpty := by cases c <;> simp
      rw [hc, if_neg (by omega), if_pos hcl2, hd]
      show findRest orig orig.length max incl s ⟨.divergence _, key, t.cell, stack⟩ = _
      rw [h2, Trie.next_split (!max) incl (s && stack.isEmpty) hs (h2 ▸ hk) h1, ← h2, hcd]
      unfold findRest
      dsimp only
      have hfin := findFinish_none (orig := orig) ho hN (!max) (t := t) (hk ▸ hs)
      rw [first_long (!max) (s && stack.isEmpty) (by rw [h1]; simp)]
      have hcond : ((if (s && stack.isEmpty && c.isEmpty) = true then !bit else bit) = !max) ↔ bit = Trie.firstBit (!max) (s && stack.isEmpty) c := by
        unfold Trie.firstBit
        cases (s && stack.isEmpty && c.isEmpty) <;> cases bit <;> cases max <;> simp
      by_cases hb : bit = Trie.firstBit (!max) (s && stack.isEmpty) c
      · rw [if_pos (hcond.mpr hb), if_pos hb]
        exact hfin
      · rw [if_neg (fun h => hb (hcond.mp h)), if_neg hb]
        rfl
termination_by n t => t
decreasing_by all_goals (subst_vars; simp_wf; try omega)

end Verif
