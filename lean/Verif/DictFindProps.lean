import Verif.DictFindLemmas
import Verif.DictProps
/-
C25 (minimum and maximum) and C26 (neighbours of a key). `keyInt`, `keyBefore` and `IsNext` in `DictOrder.lean` are the
specification: keys are read as big-endian numbers, unsigned or in two's complement.
-/
set_option linter.unusedVariables false
set_option linter.unusedSimpArgs false
namespace Verif

/-- What a bound lookup must return: nothing for an empty map, otherwise the least (`max = false`) or greatest key
with its value. -/
def IsBound (max s : Bool) (m : DMap) (n : Nat) : Option (Bits × Sl) → Prop
  | none => ∀ k, k.length = n → m k = none
  | some (k0, v) => k0.length = n ∧ m k0 = some v ∧
      ∀ k, k.length = n → (m k).isSome = true → if max then keyInt s k ≤ keyInt s k0 else keyInt s k0 ≤ keyInt s k

theorem isBound_unique {max s : Bool} {m : DMap} {n : Nat} {x y : Option (Bits × Sl)} (hx : IsBound max s m n x) (hy : IsBound max s m n y) : x = y := by
  cases x with
  | none => cases y with
    | none => rfl
    | some p =>
      obtain ⟨k, v⟩ := p
      have h := hy.2.1
      rw [hx k hy.1] at h
      cases h
  | some p =>
    obtain ⟨k, v⟩ := p
    cases y with
    | none =>
      have h := hx.2.1
      rw [hy k hx.1] at h
      cases h
    | some q =>
      obtain ⟨k', v'⟩ := q
      have h1 := hx.2.2 k' hy.1 (by rw [hy.2.1]; rfl)
      have h2 := hy.2.2 k hx.1 (by rw [hx.2.1]; rfl)
      have hk : k = k' := by
        refine keyInt_inj (s := s) (by rw [hx.1, hy.1]) ?_
        cases max
        · exact Int.le_antisymm h1 h2
        · exact Int.le_antisymm h2 h1
      subst hk
      have := hx.2.1.symm.trans hy.2.1
      injection this with this
      rw [this]

theorem findBound_full {n : Nat} (hn : n ≤ 1023) {t : Trie} (hs : t.Sized n) (max s : Bool) :
    dictFindBound (some t.cell) n max s = .ok (some (t.first max s)) := by
  obtain ⟨r, h1, h2, h3, _⟩ := boundGo_spec max s hs hn (n + 1) (by omega) (dir := none) (Or.inl rfl) [] (by simpa using hn) [] n
  unfold dictFindBound
  dsimp only
  rw [h1]
  show Except.ok (some (r.key, r.value)) = _
  rw [h2, h3]
  simp

/-- The least or greatest key is found with its value; only an empty dictionary has none. -/
theorem C25_find_bound (acc : Cell → Bool) {n : Nat} (hn : n ≤ 1023) {d : Option Cell} {m : DMap} (hd : Represents acc n d m) (max s : Bool) :
    ∃ res, dictFindBound d n max s = .ok res ∧ IsBound max s m n res := by
  cases d with
  | none => exact ⟨none, rfl, hd⟩
  | some c =>
    obtain ⟨t, hs, hf, rfl, hm⟩ := hd
    refine ⟨_, findBound_full hn hs max s, ?_⟩
    obtain ⟨f1, f2⟩ := Trie.first_spec max s hs
    have hl := Trie.lookup_some_length hs f1
    refine ⟨hl, by rw [hm _ hl]; exact f1, fun k hk hv => ?_⟩
    obtain ⟨v, hv⟩ := Option.isSome_iff_exists.mp hv
    rw [hm k hk] at hv
    rcases f2 k v hv with h | h
    · rw [h]; cases max <;> exact Int.le_refl _
    · unfold keyBefore at h
      cases max
      · exact Int.le_of_lt h
      · exact Int.le_of_lt h

/-- `removeBound` does exactly what finding the bound and removing that key does. -/
theorem removeBound_eq (acc : Cell → Bool) {n : Nat} (hn : n ≤ 1023) {t : Trie} (hs : t.Sized n) (max s : Bool) :
    dictRemoveBound acc (some t.cell) n max s =
      ((dictRemoveOwned acc (some t.cell) (t.first max s).1 n false).1.map (fun _ => some (t.first max s)),
       (dictRemoveOwned acc (some t.cell) (t.first max s).1 n false).2) := by
  obtain ⟨r, h1, h2, h3, h4⟩ := boundGo_spec max s hs hn (n + 1) (by omega) (dir := none) (Or.inl rfl) [] (by simpa using hn) [] n
  have hs' : (s && (none : Option Bool).isNone) = s := by cases s <;> rfl
  rw [hs'] at h2 h3 h4
  obtain ⟨r0, g1, g2, g3, g4, g5⟩ := h4 [] rfl
  have hfl := Trie.lookup_some_length hs (Trie.first_spec max s hs).1
  unfold dictRemoveBound dictRemoveOwned
  rw [if_neg (by simp [hfl])]
  dsimp only
  rw [h1, hfl, g1]
  dsimp only
  have hres : (r.key, r.value) = t.first max s := by rw [h2, h3]; rfl
  rw [hres]
  cases hst : r.stack with
  | nil =>
    have : r0.stack = [] := by
      rw [hst] at g5
      cases h : r0.stack with
      | nil => rfl
      | cons a b => rw [h] at g5; cases g5
    rw [this]; rfl
  | cons sg st =>
    rw [hst] at g5
    cases h0 : r0.stack with
    | nil => rw [h0] at g5; cases g5
    | cons sg0 st0 =>
      rw [h0] at g5
      simp only [wayUp, List.map_cons, List.cons.injEq] at g5
      dsimp only
      rw [g3, g4, rebuildRemoved_shape acc g5.1]
      cases rebuildRemoved acc sg r.keyLen r.prev with
      | error e => rfl
      | ok leaf =>
        dsimp only
        rw [rebuild_shape acc leaf (st := st0) (st' := st) g5.2]
        cases rebuild acc st leaf with
        | error e => rfl
        | ok c => rfl

/-- Removing a bound: an empty dictionary stays empty; otherwise precisely the least or greatest entry is returned and
removed, or the call fails and nothing changes, which happens only if the smaller dictionary cannot be built. -/
theorem C25_remove_bound (acc : Cell → Bool) {n : Nat} (hn : n ≤ 1023) {d : Option Cell} {m : DMap} (hd : RepresentsC acc n d m) (max s : Bool) :
    ∃ res, IsBound max s m n res ∧ match res with
      | none => dictRemoveBound acc d n max s = (.ok none, none)
      | some (k, v) =>
        ((dictRemoveBound acc d n max s).1 = .ok (some (k, v)) ∧ RepresentsC acc n (dictRemoveBound acc d n max s).2 (m.put k none)) ∨
        ((∃ e, dictRemoveBound acc d n max s = (.error e, d)) ∧ ¬ ∃ d', RepresentsC acc n d' (m.put k none)) := by
  cases d with
  | none => exact ⟨none, hd, rfl⟩
  | some c =>
    obtain ⟨t, hs, hc, hf, rfl, hm⟩ := hd
    have hd' : RepresentsC acc n (some t.cell) m := ⟨t, hs, hc, hf, rfl, hm⟩
    obtain ⟨res, h1, h2⟩ := C25_find_bound acc hn (d := some t.cell) (m := m) ⟨t, hs, hf, rfl, hm⟩ max s
    rw [findBound_full hn hs max s] at h1
    injection h1 with h1
    subst h1
    refine ⟨_, h2, ?_⟩
    have hfl := Trie.lookup_some_length hs (Trie.first_spec max s hs).1
    have hst := C22_step acc hn hd' (.remove (t.first max s).1)
    have he := removeBound_eq acc hn hs max s
    have hrun : DOp.run acc n (some t.cell) (.remove (t.first max s).1) =
      ((dictRemoveOwned acc (some t.cell) (t.first max s).1 n false).1.map .value, (dictRemoveOwned acc (some t.cell) (t.first max s).1 n false).2) := rfl
    rw [hrun] at hst
    dsimp only
    rw [he]
    generalize dictRemoveOwned acc (some t.cell) (t.first max s).1 n false = o at hst
    obtain ⟨o1, o2⟩ := o
    rcases hst with ⟨_, a2, a3⟩ | ⟨a1, ⟨e, a2⟩, a3⟩
    · left
      cases o1 with
      | error e => cases a2
      | ok w => exact ⟨rfl, a3⟩
    · right
      rcases a1 with a1 | a1
      · exact absurd hfl a1
      · refine ⟨⟨e, ?_⟩, a1⟩
        cases o1 with
        | error e' =>
          have h : e' = e := by injection a2
          have h2 : o2 = some t.cell := a3
          rw [h, h2]; rfl
        | ok w => cases a2

/-- A failing removal of a bound changes nothing, whatever the cells are. -/
theorem C34_remove_bound (acc : Cell → Bool) (n : Nat) (d : Option Cell) (max s : Bool) (e : Err)
    (h : (dictRemoveBound acc d n max s).1 = .error e) : (dictRemoveBound acc d n max s).2 = d := by
  unfold dictRemoveBound at *
  cases d with
  | none => rfl
  | some root =>
    dsimp only at *
    cases hb : boundGo max s (n + 1) none n root [] [] n with
    | error e => rfl
    | ok r =>
      rw [hb] at h
      dsimp only at *
      cases hst : r.stack with
      | nil => rw [hst] at h; cases h
      | cons sg st =>
        rw [hst] at h
        dsimp only at *
        cases hr : rebuildRemoved acc sg r.keyLen r.prev with
        | error e => rfl
        | ok leaf =>
          rw [hr] at h
          dsimp only at *
          cases hr2 : rebuild acc st leaf with
          | error e => rfl
          | ok c => rw [hr2] at h; cases h

/-! ## C26: neighbours -/

/-- For every key of the right length, present or not: the closest entry towards the maximum (`max`) or minimum,
strictly or including the key, in unsigned or signed order. -/
theorem C26_neighbour (acc : Cell → Bool) {n : Nat} (hn : n ≤ 1023) {d : Option Cell} {m : DMap} (hd : Represents acc n d m)
    {k : Bits} (hk : k.length = n) (max inclusive s : Bool) :
    ∃ res, dictFind d n k max inclusive s = .ok res ∧ IsNext (!max) s inclusive m n k res := by
  unfold dictFind
  have hkn : ¬ k.length ≠ n := by simpa using hk
  rw [if_neg hkn]
  cases d with
  | none => exact ⟨none, rfl, fun k' hk' _ => hd k' hk'⟩
  | some c =>
    obtain ⟨t, hs, hf, rfl, hm⟩ := hd
    dsimp only
    have h := findGo_spec max inclusive s k (by omega) hs hk (n + 1) (by omega) [] [] rfl rfl
    rw [hk] at h
    have hs' : (s && ([] : List Seg).isEmpty) = s := by cases s <;> rfl
    rw [hs'] at h
    refine ⟨t.next (!max) inclusive s k, ?_, ?_⟩
    · have h' : (findGo s (n + 1) k t.cell [] >>= fun r => findRest k n max inclusive s r) = _ := h
      rw [h']
      cases hx : t.next (!max) inclusive s k with
      | none => rfl
      | some p => rfl
    · have hsp := Trie.next_spec (!max) inclusive s hs hk
      cases hx : t.next (!max) inclusive s k with
      | none =>
        rw [hx] at hsp
        intro k' hk' hc
        rw [hm k' hk']
        exact hsp k' hk' hc
      | some p =>
        obtain ⟨k0, v⟩ := p
        rw [hx] at hsp
        obtain ⟨a1, a2, a3, a4⟩ := hsp
        exact ⟨a1, by rw [hm k0 a1]; exact a2, a3, fun k' hk' hc hv => a4 k' hk' hc (by rw [← hm k' hk']; exact hv)⟩

/-- The specification determines the result. -/
theorem C26_unique {rev s incl : Bool} {m : DMap} {n : Nat} {k : Bits} {x y : Option (Bits × Sl)}
    (hx : IsNext rev s incl m n k x) (hy : IsNext rev s incl m n k y) : x = y := by
  have key : ∀ {k1 v1} {z : Option (Bits × Sl)}, IsNext rev s incl m n k (some (k1, v1)) → IsNext rev s incl m n k z → z = some (k1, v1) := by
    intro k1 v1 z h hz
    obtain ⟨a1, a2, a3, a4⟩ := h
    cases z with
    | none => rw [hz k1 a1 a3] at a2; cases a2
    | some q =>
      obtain ⟨k2, v2⟩ := q
      obtain ⟨b1, b2, b3, b4⟩ := hz
      have e : k2 = k1 := by
        rcases a4 k2 b1 b3 (by rw [b2]; rfl) with h | h
        · exact h
        · rcases b4 k1 a1 a3 (by rw [a2]; rfl) with h' | h'
          · exact h'.symm
          · exact absurd (keyBefore_trans h h') (keyBefore_irrefl _ _ _)
      subst e
      have := a2.symm.trans b2
      injection this with this
      rw [this]
  cases x with
  | some p => exact (key (k1 := p.1) (v1 := p.2) hx hy).symm
  | none => cases y with
    | none => rfl
    | some q => exact key (k1 := q.1) (v1 := q.2) hy hx

/-- A key of another length is refused. -/
theorem C26_wrong_length (d : Option Cell) (n : Nat) (k : Bits) (max inclusive s : Bool) (hk : k.length ≠ n) :
    dictFind d n k max inclusive s = .error .cellUnderflow := if_pos hk

/-- Three keys, signed: the minimum is the negative one, its successor the smallest positive, and a key that is not
there has neighbours too. -/
example :
    let v (b : Bool) : Sl := ⟨[b], []⟩
    let d := (runHistory (fun _ => true) 3 none [.insert .set [true, false, true] (v true), .insert .set [false, true, true] (v false),
      .insert .set [false, false, true] (v false)]).2
    let show' (r : Except Err (Option (Bits × Sl))) := r.toOption.map (fun o => o.map (fun p => p.1))
    show' (dictFindBound d 3 false true) = some (some [true, false, true]) ∧
    show' (dictFindBound d 3 false false) = some (some [false, false, true]) ∧
    show' (dictFind d 3 [true, false, true] true false true) = some (some [false, false, true]) ∧
    show' (dictFind d 3 [true, true, true] true true true) = some (some [false, false, true]) ∧
    show' (dictFind d 3 [true, true, true] true true false) = some none ∧
    show' (dictFind d 3 [false, true, false] false false true) = some (some [false, false, true]) ∧
    show' (dictRemoveBound (fun _ => true) d 3 true true).1 = some (some [false, true, true]) := by decide

end Verif
