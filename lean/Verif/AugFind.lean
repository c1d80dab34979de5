import Verif.AugRootProps
import Verif.DictFind
/-
Model of the search of an augmented dictionary by extras (`dict/ops/find.rs:336-463`, `dict/mod.rs:190-231`, `dict/aug.rs:286-308`).
-/
set_option linter.unusedVariables false
set_option linter.unusedSimpArgs false
namespace Verif

/-! ### Model -/

/-- A `SearchByExtra` object (`dict/mod.rs:190-201`): the methods take `&mut self`, so they also give the new state. A branch is its bit, `none` is `ControlFlow::Break`. -/
structure Flow (σ A : Type) where
  onLeaf : σ → A → Bool × σ
  onEdge : σ → A → A → Option Bool × σ

/-- `dict/mod.rs:215-220`: the implementation for `Branch`, with the default `on_leaf`. -/
def Flow.branch {A : Type} (b : Bool) : Flow Unit A where
  onLeaf s _ := (true, s)
  onEdge s _ _ := (some b, s)

/-- `dict/mod.rs:222-231`: the implementation for `Ordering`, with the order `cmp` of the extras. -/
def Flow.ordering {A : Type} (cmp : A → A → Ordering) (o : Ordering) : Flow Unit A where
  onLeaf s _ := (true, s)
  onEdge s a b := (some (if o = cmp a b then false else true), s)

/-- `Next` (`find.rs:346-363`) -/
inductive AugNext (A : Type)
  | leaf (pfx : Bits) (extra : A) (value : Sl)
  | edge (pfx : Bits) (n : Nat) (extra : A) (left right : Cell)

/-- `find.rs:366-371` -/
def AugNext.pfx {A : Type} : AugNext A → Bits
  | .leaf p _ _ | .edge p _ _ _ _ => p

/-- `find.rs:373-378` -/
def AugNext.extra {A : Type} : AugNext A → A
  | .leaf _ a _ | .edge _ _ a _ _ => a

/-- `find.rs:381-421` `preload_branch`; `load` is `A::load_from`: the extra and the rest of the slice. -/
def preloadBranch {A : Type} (load : Sl → Except Err (A × Sl)) (c : Cell) (n : Nat) : Except Err (AugNext A) :=
  asSlice c >>= fun s => readLabel s n >>= fun r =>
    if n < r.1.length then .error .cellUnderflow
    else if n = r.1.length then load r.2 >>= fun x => .ok (.leaf r.1 x.1 x.2)
    else match r.2.refs with
      | a :: b :: refs => load ⟨r.2.bits, refs⟩ >>= fun x => .ok (.edge r.1 (n - r.1.length - 1) x.1 a b)
      | _ => .error .cellUnderflow

/-- The loop (`find.rs:431-462`). The first argument bounds the number of rounds: every round but the last shortens the key. -/
def findByExtraGo {σ A : Type} (load : Sl → Except Err (A × Sl)) (flow : Flow σ A) : Nat → σ → AugNext A → Bits → Except Err (Option (Bits × A × Sl))
  | 0, _, _, _ => .error .fault
  | fuel + 1, st, next, key => pushBits key next.pfx >>= fun key => match next with
    | .leaf _ x v => if (flow.onLeaf st x).1 then .ok (some (key, x, v)) else .ok none
    | .edge _ n _ l r => preloadBranch load l n >>= fun l => preloadBranch load r n >>= fun r => match flow.onEdge st l.extra r.extra with
      | (none, _) => .ok none
      | (some bit, st) => pushBits key [bit] >>= fun key => findByExtraGo load flow fuel st (if bit then r else l) key

/-- `find.rs:336-463` `aug_dict_find_by_extra`. `AugDict::find_by_extra` (`aug.rs:286-308`) then decodes the key and the value. -/
def findByExtra {σ A : Type} (load : Sl → Except Err (A × Sl)) (flow : Flow σ A) (st : σ) (dict : Option Cell) (n : Nat) : Except Err (Option (Bits × A × Sl)) :=
  match dict with
  | none => .ok none
  | some c => preloadBranch load c n >>= fun next => findByExtraGo load flow (n + 1) st next []

/-- `A::load_from` of an extra type that is given by a reader. -/
def Rd.split {A : Type} (load : Rd Cell A) (s : Sl) : Except Err (A × Sl) :=
  match load s.reader with
  | (.ok a, s') => .ok (a, ⟨s'.contents.1, s'.contents.2⟩)
  | (.error e, _) => .error e

/-! ### Specification -/

/-- Loading takes the extra from the front and leaves the value. -/
def AugType.Splits {A : Type} (T : AugType A) (valid : A → Prop) (load : Sl → Except Err (A × Sl)) : Prop :=
  ∀ a, valid a → ∀ v, ((T.store a).then v).Small → load ((T.store a).then v) = .ok (a, v)

/-- A search among the keys of `n` bits that start with `p`, whose extras combine to `a`: where keys differ in the next bit, the search object sees the combined extras of
both sides and says where to go; at the last key it says whether to take it. -/
inductive Search {σ A : Type} (flow : Flow σ A) (comb : A → A → Option A) (n : Nat) (m : AMap A) : σ → Bits → A → Option (Bits × A × Sl) → Prop
  | found {st : σ} {p : Bits} {a : A} {v : Sl} : p.length = n → m p = some (a, v) → (flow.onLeaf st a).1 = true → Search flow comb n m st p a (some (p, a, v))
  | refused {st : σ} {p : Bits} {a : A} {v : Sl} : p.length = n → m p = some (a, v) → (flow.onLeaf st a).1 = false → Search flow comb n m st p a none
  | one {st : σ} {p : Bits} {a : A} {r : Option (Bits × A × Sl)} (bit : Bool) : (∀ k, k.length = n → (p ++ [!bit]) <+: k → m k = none) →
      Search flow comb n m st (p ++ [bit]) a r → Search flow comb n m st p a r
  | both {st st' : σ} {p : Bits} {a b c : A} {r : Option (Bits × A × Sl)} (bit : Bool) : Total comb n m (p ++ [false]) a → Total comb n m (p ++ [true]) b → comb a b = some c →
      flow.onEdge st a b = (some bit, st') → Search flow comb n m st' (p ++ [bit]) (if bit then b else a) r → Search flow comb n m st p c r
  | stop {st st' : σ} {p : Bits} {a b c : A} : Total comb n m (p ++ [false]) a → Total comb n m (p ++ [true]) b → comb a b = some c →
      flow.onEdge st a b = (none, st') → Search flow comb n m st p c none

/-! ### The search does what the specification says -/

theorem Search.label {σ A : Type} {flow : Flow σ A} {comb : A → A → Option A} {n : Nat} {m : AMap A} {st : σ} {a : A} {o : Option (Bits × A × Sl)} : ∀ (l p : Bits),
    Search flow comb n m st (p ++ l) a o → (∀ k, (p ++ k).length = n → m (p ++ k) ≠ none → ∃ r, k = l ++ r) → Search flow comb n m st p a o
  | [], p, h, _ => by rwa [List.append_nil] at h
  | bit :: l, p, h, hk => by
    refine .one bit ?_ (Search.label l (p ++ [bit]) (by simpa using h) ?_)
    · rintro k hn ⟨r, rfl⟩
      refine Classical.byContradiction fun hne => ?_
      obtain ⟨r', hr'⟩ := hk ((!bit) :: r) (by simpa using hn) (by simpa using hne)
      have : (!bit) = bit := by injection hr'
      cases bit <;> cases this
    · intro k hn hne
      obtain ⟨r', hr'⟩ := hk (bit :: k) (by simpa using hn) (by simpa using hne)
      injection hr' with _ hr'
      exact ⟨r', hr'⟩

/-- What is preloaded of a branch. -/
def nextOf {A : Type} (n : Nat) (a : A) (v : Sl) : Trie → AugNext A
  | .leaf l _ _ => .leaf l a v
  | .fork l _ _ x y => .edge l (n - l.length - 1) a x.cell y.cell

theorem nextOf_extra {A : Type} (n : Nat) (a : A) (v : Sl) (t : Trie) : (nextOf n a v t).extra = a := by cases t <;> rfl

theorem nextOf_pfx {A : Type} (n : Nat) (a : A) (v : Sl) (t : Trie) : (nextOf n a v t).pfx = t.label := by cases t <;> rfl

theorem preload_cell {A : Type} {T : AugType A} {valid : A → Prop} {load : Sl → Except Err (A × Sl)} (hsp : T.Splits valid load) {cmp : Comparator} {acc : Cell → Bool}
    {n : Nat} (hn : n ≤ 1023) {t : Trie} (hs : t.Sized n) (hg : t.Good cmp acc) {a : A} {v : Sl} (ha : valid a) (he : t.ext = (T.store a).then v) :
    preloadBranch load t.cell n = .ok (nextOf n a v t) := by
  unfold preloadBranch
  rw [asSlice_cell]
  show (readLabel _ n >>= _) = _
  rw [readLabel_cell hs hn]
  have hl := hsp a ha v (he ▸ hg.small)
  rw [← he] at hl
  cases t with
  | leaf l e w =>
    have h1 : l.length = n := hs.1
    show (if n < l.length then _ else if n = l.length then load w >>= _ else _) = _
    rw [if_neg (by omega), if_pos h1.symm]
    replace hl : load w = .ok (a, v) := hl
    rw [hl]
    rfl
  | fork l e x y z =>
    have h1 : l.length < n := hs.1
    show (if n < l.length then _ else if n = l.length then _ else load x >>= fun r => Except.ok (AugNext.edge l (n - l.length - 1) r.1 y.cell z.cell)) = _
    rw [if_neg (by omega), if_neg (by omega)]
    replace hl : load x = .ok (a, v) := hl
    rw [hl]
    rfl

theorem byExtraGo_spec {σ A : Type} {T : AugType A} {valid : A → Prop} {comb : A → A → Option A} (law : T.Lawful valid comb) {load : Sl → Except Err (A × Sl)}
    (hsp : T.Splits valid load) {acc : Cell → Bool} (flow : Flow σ A) {N : Nat} (hN1 : N ≤ 1023) {m : AMap A}
    (hv : ∀ k p, k.length = N → m k = some p → valid p.1) : ∀ {n : Nat} {t : Trie} (p : Bits) (fuel : Nat) (st : σ), t.Sized n → t.CanonX (some T.compAdd) n →
    t.Good (some T.compAdd) acc → p.length + n = N → (∀ k, k.length = n → m.stored T (p ++ k) = t.lookup k) → n < fuel → ∀ a v, valid a → t.ext = (T.store a).then v →
    Total comb N m p a → ∃ o, findByExtraGo load flow fuel st (nextOf n a v t) p = .ok o ∧ Search flow comb N m st p a o
  | n, t, p, 0, st, _, _, _, _, _, h, _, _, _, _, _ => absurd h (by omega)
  | n, .leaf l e w, p, fuel + 1, st, hs, hc, hg, hN, hl, hf, a, v, ha, he, ht => by
    have hs1 : l.length = n := hs.1
    have h1 := hl l hs.1
    rw [Trie.lookup_leaf, if_pos rfl] at h1
    unfold AMap.stored at h1
    have hlen : (p ++ l).length = N := by rw [List.length_append, hs.1, hN]
    have hsm := hg.small
    replace he : w = (T.store a).then v := he
    cases hm : m (p ++ l) with
    | none => rw [hm] at h1; cases h1
    | some q =>
      rw [hm] at h1
      injection h1 with h1
      replace h1 : (T.store q.1).then q.2 = w := h1
      have hq : q = (a, v) := by
        have hsm' : ((T.store q.1).then q.2).Small := by rw [h1]; exact hsm
        have e1 := hsp q.1 (hv _ _ hlen hm) q.2 hsm'
        have e2 := hsp a ha v (by rw [← he]; exact hsm)
        rw [h1, he, e2] at e1
        injection e1 with e1
        exact e1.symm
      subst hq
      have hlab : ∀ k, (p ++ k).length = N → m (p ++ k) ≠ none → ∃ r, k = l ++ r := by
        intro k hk hne
        have hkn : k.length = n := by rw [List.length_append] at hk; omega
        have h2 := hl k hkn
        rw [Trie.lookup_leaf] at h2
        by_cases hkl : k = l
        · exact ⟨[], by rw [hkl, List.append_nil]⟩
        · rw [if_neg hkl] at h2
          unfold AMap.stored at h2
          cases hm2 : m (p ++ k) with
          | none => exact absurd hm2 hne
          | some q => rw [hm2] at h2; cases h2
      have hrun : findByExtraGo load flow (fuel + 1) st (nextOf n a v (.leaf l e w)) p =
          if (flow.onLeaf st a).1 then .ok (some (p ++ l, a, v)) else .ok none := by
        rw [findByExtraGo]
        show (pushBits p l >>= _) = _
        unfold pushBits
        rw [if_pos (by rw [List.length_append] at hlen; omega)]
        rfl
      rw [hrun]
      cases hfl : (flow.onLeaf st a).1
      · exact ⟨none, rfl, Search.label l p (.refused hlen hm hfl) hlab⟩
      · exact ⟨_, rfl, Search.label l p (.found hlen hm hfl) hlab⟩
  | n, .fork l e x y z, p, fuel + 1, st, hs, hc, hg, hN, hl, hf, a, v, ha, he, ht => by
    have hlt := hs.1
    have hbr : ∀ (bit : Bool) (k : Bits), k.length = n - l.length - 1 → m.stored T ((p ++ l ++ [bit]) ++ k) = (if bit then z else y).lookup k := by
      intro bit k hk
      have := hl (l ++ bit :: k) (by simp; omega)
      rw [Trie.lookup_fork] at this
      rw [← this]
      simp
    have hpl : ∀ bit : Bool, (p ++ l ++ [bit]).length + (n - l.length - 1) = N := by intro bit; simp; omega
    obtain ⟨xa, va, hva, hea, hta⟩ := total_trie law hv (p ++ l ++ [false]) hs.2.2.1 hc.2.2.1 hg.2.2.1 (hpl false) (hbr false)
    obtain ⟨xb, vb, hvb, heb, htb⟩ := total_trie law hv (p ++ l ++ [true]) hs.2.2.2 hc.2.2.2 hg.2.2.2 (hpl true) (hbr true)
    obtain ⟨w, hw⟩ := hg.2.1 _ rfl
    have hcomp := law.comp xa xb hva hvb va vb (hea ▸ hg.2.2.1.small) (heb ▸ hg.2.2.2.small)
    rw [hea, heb] at hw
    have hlab : ∀ k, (p ++ k).length = N → m (p ++ k) ≠ none → ∃ r, k = l ++ r := by
      intro k hk hne
      have hkn : k.length = n := by rw [List.length_append] at hk; omega
      have h2 := hl k hkn
      by_cases hpre : ∃ bit r, k = l ++ bit :: r
      · obtain ⟨bit, r, rfl⟩ := hpre
        exact ⟨_, rfl⟩
      · rw [Trie.lookup_fork_none (fun bit r h => hpre ⟨bit, r, h⟩)] at h2
        unfold AMap.stored at h2
        cases hm2 : m (p ++ k) with
        | none => exact absurd hm2 hne
        | some q => rw [hm2] at h2; cases h2
    have hcb : comb xa xb = some a := by
      cases hcb : comb xa xb with
      | none =>
        rw [hcb] at hcomp
        obtain ⟨e, he⟩ := hcomp
        rw [hw] at he; cases he
      | some c =>
        have h2 : Total comb N m p c := Total.label l p (.both hta htb hcb) hlab
        rw [ht.unique h2]
    have hn' : n - l.length - 1 ≤ 1023 := by omega
    have pa := preload_cell hsp hn' hs.2.2.1 hg.2.2.1 hva hea
    have pb := preload_cell hsp hn' hs.2.2.2 hg.2.2.2 hvb heb
    have hpush : pushBits p l = .ok (p ++ l) := by
      unfold pushBits
      rw [if_pos (by omega)]
    have hpush2 : ∀ bit : Bool, pushBits (p ++ l) [bit] = .ok (p ++ l ++ [bit]) := by
      intro bit
      unfold pushBits
      rw [if_pos (by simp; omega)]
    have hrun : ∀ ob st', flow.onEdge st xa xb = (ob, st') → findByExtraGo load flow (fuel + 1) st (nextOf n a v (.fork l e x y z)) p = match ob with
        | none => .ok none
        | some bit => findByExtraGo load flow fuel st' (if bit then nextOf (n - l.length - 1) xb vb z else nextOf (n - l.length - 1) xa va y) (p ++ l ++ [bit]) := by
      intro ob st' hfl
      rw [findByExtraGo]
      show (pushBits p l >>= fun key => preloadBranch load y.cell (n - l.length - 1) >>= fun l' => preloadBranch load z.cell (n - l.length - 1) >>= fun r =>
        match flow.onEdge st l'.extra r.extra with
        | (none, _) => .ok none
        | (some bit, st) => pushBits key [bit] >>= fun key => findByExtraGo load flow fuel st (if bit then r else l') key) = _
      rw [hpush, pa, pb]
      show (match flow.onEdge st (nextOf _ xa va y).extra (nextOf _ xb vb z).extra with
        | (none, _) => Except.ok none
        | (some bit, st) => pushBits (p ++ l) [bit] >>= fun key =>
          findByExtraGo load flow fuel st (if bit then nextOf (n - l.length - 1) xb vb z else nextOf (n - l.length - 1) xa va y) key) = _
      rw [nextOf_extra, nextOf_extra, hfl]
      cases ob with
      | none => rfl
      | some bit =>
        dsimp only
        rw [hpush2]
        rfl
    rcases hfl : flow.onEdge st xa xb with ⟨ob, st'⟩
    rw [hrun ob st' hfl]
    cases ob with
    | none => exact ⟨none, rfl, Search.label l p (.stop hta htb hcb hfl) hlab⟩
    | some bit =>
      cases bit with
      | false =>
        obtain ⟨o, e1, e2⟩ := byExtraGo_spec law hsp flow hN1 hv (p ++ l ++ [false]) fuel st' hs.2.2.1 hc.2.2.1 hg.2.2.1 (hpl false) (hbr false) (by omega) xa va hva hea hta
        exact ⟨o, e1, Search.label l p (.both false hta htb hcb hfl e2) hlab⟩
      | true =>
        obtain ⟨o, e1, e2⟩ := byExtraGo_spec law hsp flow hN1 hv (p ++ l ++ [true]) fuel st' hs.2.2.2 hc.2.2.2 hg.2.2.2 (hpl true) (hbr true) (by omega) xb vb hvb heb htb
        exact ⟨o, e1, Search.label l p (.both true hta htb hcb hfl e2) hlab⟩

end Verif
