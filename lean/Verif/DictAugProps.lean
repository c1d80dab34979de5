import Verif.DictAugOps
/-
Augmented dictionaries (`dict/aug.rs`): the key/value view is a map and the root extra is the fold of all extras in key order.
-/
set_option linter.unusedVariables false
set_option linter.unusedSimpArgs false
namespace Verif

/-- One slice after another. -/
def Sl.then (a b : Sl) : Sl := ⟨a.bits ++ b.bits, a.refs ++ b.refs⟩

/-! ### Model -/

/-- What the code uses of an extra type (`AugDictExtra`, `dict/aug.rs:17-31`, with `Store` and `Load`): the comparator of
`comp_add`, the result of loading a value from the front of a slice, what is stored and the default value. -/
structure AugType (A : Type) where
  compAdd : AugFn
  load : Sl → Except Err A
  store : A → Sl
  dflt : A

/-- `AugDict` (`dict/aug.rs:49-54`) -/
structure AugDict (A : Type) where
  root : Option Cell
  extra : A

/-- `dict/aug.rs:187-200` `update_root_extra`: the new extra. -/
def AugType.rootExtra {A : Type} (T : AugType A) (n : Nat) (root : Option Cell) : Except Err A :=
  match root with
  | none => .ok T.dflt
  | some c => asSlice c >>= fun s => readLabel s n >>= fun r => (if r.1.length ≠ n then r.2.skip 0 2 else .ok r.2) >>= T.load

/-- `dict/aug.rs:572-598` `insert_impl`, the common part of `set`, `replace` and `add`: the result and the dictionary left behind. -/
def AugDict.insert {A : Type} (T : AugType A) (acc : Cell → Bool) (n : Nat) (s : AugDict A) (mode : SetMode) (key : Bits) (extra : A) (value : Sl) :
    Except Err Bool × AugDict A :=
  match augInsert T.compAdd acc s.root key n ((T.store extra).then value) mode with
  | (.error e, d) => (.error e, ⟨d, s.extra⟩)
  | (.ok false, d) => (.ok false, ⟨d, s.extra⟩)
  | (.ok true, d) => match T.rootExtra n d with
    | .error e => (.error e, ⟨d, s.extra⟩)
    | .ok x => (.ok true, ⟨d, x⟩)

/-- `dict/aug.rs:600-621` `remove_impl`. -/
def AugDict.remove {A : Type} (T : AugType A) (acc : Cell → Bool) (n : Nat) (s : AugDict A) (key : Bits) : Except Err (Option Sl) × AugDict A :=
  match augRemove T.compAdd acc s.root key n false with
  | (.error e, d) => (.error e, ⟨d, s.extra⟩)
  | (.ok none, d) => (.ok none, ⟨d, s.extra⟩)
  | (.ok (some v), d) => match T.rootExtra n d with
    | .error e => (.error e, ⟨d, s.extra⟩)
    | .ok x => (.ok (some v), ⟨d, x⟩)

/-- `dict/aug.rs:121-128` `AugDict::new` -/
def AugDict.new {A : Type} (T : AugType A) : AugDict A := ⟨none, T.dflt⟩

/-- Operations of an augmented dictionary; `get` is that of the dictionary below (`dict/aug.rs:270-277`). -/
inductive AOp (A : Type)
  | get (k : Bits)
  | insert (mode : SetMode) (k : Bits) (x : A) (v : Sl)
  | remove (k : Bits)

inductive AOut
  | value (v : Option Sl)
  | flag (changed : Bool)

def AOp.run {A : Type} (T : AugType A) (acc : Cell → Bool) (n : Nat) (s : AugDict A) : AOp A → Except Err AOut × AugDict A
  | .get k => ((dictGet s.root n k).map .value, s)
  | .insert mode k x v => let r := s.insert T acc n mode k x v; (r.1.map .flag, r.2)
  | .remove k => let r := s.remove T acc n k; (r.1.map .value, r.2)

def AOp.key {A : Type} : AOp A → Bits
  | .get k | .insert _ k _ _ | .remove k => k

/-- A history: all results and the final dictionary. -/
def AugDict.runs {A : Type} (T : AugType A) (acc : Cell → Bool) (n : Nat) : AugDict A → List (AOp A) → List (Except Err AOut) × AugDict A
  | s, [] => ([], s)
  | s, op :: ops =>
    let r := op.run T acc n s
    let rs := AugDict.runs T acc n r.2 ops
    (r.1 :: rs.1, rs.2)

/-! ### Specification -/

/-- A slice of a cell. -/
def Sl.Small (s : Sl) : Prop := s.bits.length ≤ 1023 ∧ s.refs.length ≤ 4

/-- The laws of an extra type on its valid values: `comb` is the combination of extras that `comp_add` computes from the fronts of the branches; it may be undefined. -/
structure AugType.Lawful {A : Type} (T : AugType A) (valid : A → Prop) (comb : A → A → Option A) : Prop where
  load : ∀ a, valid a → ∀ v, ((T.store a).then v).Small → T.load ((T.store a).then v) = .ok a
  comp : ∀ a b, valid a → valid b → ∀ v w, ((T.store a).then v).Small → ((T.store b).then w).Small → match comb a b with
    | some c => T.compAdd ((T.store a).then v) ((T.store b).then w) = .ok (T.store c)
    | none => ∃ e, T.compAdd ((T.store a).then v) ((T.store b).then w) = .error e
  valid : ∀ a b c, valid a → valid b → comb a b = some c → valid c

/-- A finite map from keys to extras and values. -/
abbrev AMap (A : Type) := Bits → Option (A × Sl)

def AMap.put {A : Type} (m : AMap A) (k : Bits) (v : Option (A × Sl)) : AMap A := fun k' => if k' = k then v else m k'

def AMap.writes {A : Type} (m : AMap A) (mode : SetMode) (k : Bits) : Bool :=
  match mode with
  | .set => true
  | .replace => (m k).isSome
  | .add => (m k).isNone

/-- What is stored for a key. -/
def AMap.stored {A : Type} (T : AugType A) (m : AMap A) : DMap := fun k => (m k).map fun p => (T.store p.1).then p.2

/-- Specification of the operations on the map. -/
def AOp.spec {A : Type} (T : AugType A) (m : AMap A) : AOp A → AOut × AMap A
  | .get k => (.value (m.stored T k), m)
  | .insert mode k x v => (.flag (m.writes mode k), if m.writes mode k then m.put k (some (x, v)) else m)
  | .remove k => (.value (m.stored T k), m.put k none)

/-- The combination of the extras of all keys of `n` bits that start with `p`: one key gives its own extra, where keys differ in the next bit the
extras of both sides are combined. -/
inductive Total {A : Type} (comb : A → A → Option A) (n : Nat) (m : AMap A) : Bits → A → Prop
  | key {p : Bits} {a : A} {v : Sl} : p.length = n → m p = some (a, v) → Total comb n m p a
  | one {p : Bits} {a : A} (bit : Bool) : (∀ k, k.length = n → (p ++ [!bit]) <+: k → m k = none) → Total comb n m (p ++ [bit]) a → Total comb n m p a
  | both {p : Bits} {a b c : A} : Total comb n m (p ++ [false]) a → Total comb n m (p ++ [true]) b → comb a b = some c → Total comb n m p c

/-- The dictionary `s` stands for the map `m`: its tree is the canonical one, in which every fork stores what the comparator yields for its branches, and its
extra is the combination of all extras. -/
structure AugDict.Is {A : Type} (T : AugType A) (valid : A → Prop) (comb : A → A → Option A) (acc : Cell → Bool) (n : Nat) (s : AugDict A) (m : AMap A) : Prop where
  tree : RepresentsX (some T.compAdd) acc n s.root (m.stored T)
  valid : ∀ k p, k.length = n → m k = some p → valid p.1
  empty : (∀ k, k.length = n → m k = none) → s.extra = T.dflt
  extra : (∃ k, k.length = n ∧ (m k).isSome) → Total comb n m [] s.extra

/-! ### The operations on roots -/

theorem augInsert_full (f : AugFn) (acc : Cell → Bool) {n : Nat} (hn : n ≤ 1023) {d : Option Cell} {m : DMap} (hd : RepresentsX (some f) acc n d m)
    {k : Bits} (hk : k.length = n) (v : Sl) (mode : SetMode) :
    (m.writes mode k = false → augInsert f acc d k n v mode = (.ok false, d)) ∧
    (m.writes mode k = true → (∃ d', augInsert f acc d k n v mode = (.ok true, d') ∧ RepresentsX (some f) acc n d' (m.put k (some v))) ∨
      ((∃ e, augInsert f acc d k n v mode = (.error e, d)) ∧ ∀ d', ¬ RepresentsX (some f) acc n d' (m.put k (some v)))) := by
  have hkn : ¬ k.length ≠ n := by simpa using hk
  cases d with
  | none =>
    have hm : ∀ k, k.length = n → m k = none := hd
    have hb := makeLeaf_builds acc k v (n := n) (by omega)
    have he : (Trie.mkLeaf k v).cell = .mk false (labelBits k n ++ v.bits) v.refs := by rw [← hk]; rfl
    rw [← he] at hb
    have hc : (Trie.mkLeaf k v).CanonX (some f) n := by
      show _ = _
      rw [hk]
    have hl : ∀ k', k'.length = n → m.put k (some v) k' = (Trie.mkLeaf k v).lookup k' := by
      intro k' hk'
      rw [Trie.mkLeaf, Trie.lookup_leaf, DMap.put]
      by_cases h : k' = k
      · rw [if_pos h, if_pos h]
      · rw [if_neg h, if_neg h, hm k' hk']
    have hs : (Trie.mkLeaf k v).Sized n := hk ▸ Trie.sized_mkLeaf k v
    rw [writes_false, writes_iff, hm k hk, refused_none]
    unfold augInsert
    rw [if_neg hkn]
    dsimp only
    refine ⟨fun hr => by rw [hr]; rfl, fun hr => ?_⟩
    have hr : mode.canAdd = true := by simpa using hr
    rw [if_pos hr]
    by_cases h : okCell acc (Trie.mkLeaf k v).cell
    · left
      rw [hb.1 h]
      exact ⟨_, rfl, _, hs, hc, h, rfl, hl⟩
    · right
      obtain ⟨e, he⟩ := hb.2 h
      rw [he]
      exact ⟨⟨e, rfl⟩, not_representsX hs hc h hl⟩
  | some c =>
    obtain ⟨t, hs, hc, hg, rfl, hm⟩ := hd
    have hl : ∀ k', k'.length = n → m.put k (some v) k' = (t.setX (some f) k v).lookup k' := by
      intro k' hk'
      rw [Trie.lookup_setX (some f) v hs hc hk k' hk', ← hm k' hk']; rfl
    obtain ⟨i1, i2⟩ := augInsertGo_spec f acc mode v hs hn hc hg hk (n + 1) (by omega) []
    rw [writes_false, writes_iff, hm k hk]
    unfold augInsert
    rw [if_neg hkn]
    dsimp only
    refine ⟨fun hr => by rw [i1 hr], fun hr => ?_⟩
    obtain ⟨j1, j2⟩ := i2 hr
    generalize augInsertGo f acc mode v (n + 1) k t.cell [] = y at *
    by_cases h : (t.setX (some f) k v).Good (some f) acc
    · left
      have j := j1 h
      rcases y with e | _ | ⟨leaf, stack⟩
      · cases j
      · change Except.ok none = Except.ok (some _) at j
        injection j with j
        cases j
      · change (rebuildX f acc stack leaf >>= fun c => Except.ok (some c)) = Except.ok (some (t.setX (some f) k v).cell) at j
        dsimp only
        cases hr : rebuildX f acc stack leaf with
        | error e => rw [hr] at j; cases j
        | ok c =>
          rw [hr] at j
          change Except.ok (some c) = _ at j
          injection j with j
          injection j with j
          exact ⟨_, rfl, _, Trie.sized_setX (some f) v hs hc hk, Trie.canonX_setX (some f) v hs hc hk, h, j, hl⟩
    · right
      refine ⟨?_, not_representsX (Trie.sized_setX (some f) v hs hc hk) (Trie.canonX_setX (some f) v hs hc hk) h hl⟩
      obtain ⟨e, j⟩ := j2 h
      rcases y with e | _ | ⟨leaf, stack⟩
      · exact ⟨e, rfl⟩
      · cases j
      · change (rebuildX f acc stack leaf >>= fun c => Except.ok (some c)) = Except.error e at j
        dsimp only
        cases hr : rebuildX f acc stack leaf with
        | error e' => exact ⟨e', rfl⟩
        | ok c => rw [hr] at j; cases j

theorem augRemove_full (f : AugFn) (acc : Cell → Bool) {n : Nat} (hn : n ≤ 1023) {d : Option Cell} {m : DMap} (hd : RepresentsX (some f) acc n d m)
    {k : Bits} (hk : k.length = n) :
    (∃ d', augRemove f acc d k n false = (.ok (m k), d') ∧ RepresentsX (some f) acc n d' (m.put k none) ∧ (m k = none → d' = d)) ∨
    ((∃ e, augRemove f acc d k n false = (.error e, d)) ∧ ∀ d', ¬ RepresentsX (some f) acc n d' (m.put k none)) := by
  cases d with
  | none =>
    have hm : ∀ k, k.length = n → m k = none := hd
    left
    refine ⟨none, ?_, fun k' hk' => ?_, fun _ => rfl⟩
    · unfold augRemove
      rw [if_neg (by simp [hk]), hm k hk]
    · unfold DMap.put
      split
      · rfl
      · exact hm k' hk'
  | some c =>
    obtain ⟨t, hs, hc, hg, rfl, hm⟩ := hd
    obtain ⟨i1, i2⟩ := augFindRemove_spec f acc hs hn hc hg hk (k.length + 1) (by omega) [] k.length
    unfold augRemove
    rw [if_neg (by simp [hk]), hm k hk]
    dsimp only
    cases hl : t.lookup k with
    | none =>
      left
      rw [i1 hl]
      refine ⟨_, rfl, ⟨t, hs, hc, hg, rfl, fun k' hk' => ?_⟩, fun _ => rfl⟩
      unfold DMap.put
      split
      · rename_i h; rw [h, hl]
      · exact hm k' hk'
    | some w =>
      obtain ⟨j1, j2⟩ := i2 w hl
      have hlook := Trie.lookup_removeX (some f) hs hc hl
      cases hr : t.removeX (some f) k with
      | none =>
        rw [j1 hr]
        rw [hr] at hlook
        refine Or.inl ⟨none, rfl, fun k' hk' => ?_, fun h => by cases h⟩
        unfold DMap.put
        rw [hm k' hk', ← hlook k' hk']
      | some t' =>
        have hs' := Trie.sized_removeX (some f) hs hc hl hr
        have hc' := Trie.canonX_removeX (some f) hs hc hl hr
        have hput : ∀ k', k'.length = n → m.put k none k' = t'.lookup k' := by
          intro k' hk'
          have := hlook k' hk'
          rw [hr] at this
          dsimp only at this
          rw [this, ← hm k' hk']; rfl
        obtain ⟨r, g1, g2, g3⟩ := j2 t' hr
        rw [g1]
        dsimp only
        obtain ⟨st, val, key', prev⟩ := r
        by_cases h : t'.Good (some f) acc
        · left
          have g := g2 h
          cases st with
          | nil =>
            change Except.ok (none, val) = Except.ok (some _, w) at g
            injection g with g
            injection g with g _
            cases g
          | cons s st =>
            dsimp only
            simp only [remFinishX] at g
            cases hr1 : rebuildRemoved acc s key'.length prev with
            | error e => rw [hr1] at g; cases g
            | ok leaf =>
              rw [hr1] at g
              change (rebuildX f acc st leaf >>= fun c => Except.ok (some c, val)) = Except.ok (some t'.cell, w) at g
              dsimp only
              cases hr2 : rebuildX f acc st leaf with
              | error e => rw [hr2] at g; cases g
              | ok c =>
                rw [hr2] at g
                change Except.ok (some c, val) = Except.ok (some t'.cell, w) at g
                injection g with g
                injection g with h1 h2
                injection h1 with h1
                rw [h1, h2]
                exact ⟨_, rfl, ⟨t', hs', hc', h, rfl, hput⟩, fun h => by cases h⟩
        · right
          refine ⟨?_, not_representsX hs' hc' h hput⟩
          obtain ⟨e, g⟩ := g3 h
          cases st with
          | nil => cases g
          | cons s st =>
            dsimp only
            simp only [remFinishX] at g
            cases hr1 : rebuildRemoved acc s key'.length prev with
            | error e => exact ⟨e, rfl⟩
            | ok leaf =>
              rw [hr1] at g
              change (rebuildX f acc st leaf >>= fun c => Except.ok (some c, val)) = Except.error e at g
              dsimp only
              cases hr2 : rebuildX f acc st leaf with
              | error e => exact ⟨e, rfl⟩
              | ok c => rw [hr2] at g; cases g

/-! ### The root extra -/

theorem Total.label {A : Type} {comb : A → A → Option A} {n : Nat} {m : AMap A} {a : A} : ∀ (l p : Bits), Total comb n m (p ++ l) a →
    (∀ k, (p ++ k).length = n → m (p ++ k) ≠ none → ∃ r, k = l ++ r) → Total comb n m p a
  | [], p, h, _ => by rwa [List.append_nil] at h
  | bit :: l, p, h, hk => by
    refine .one bit ?_ (Total.label l (p ++ [bit]) (by simpa using h) ?_)
    · rintro k hn ⟨r, rfl⟩
      refine Classical.byContradiction fun hne => ?_
      obtain ⟨r', hr'⟩ := hk ((!bit) :: r) (by simpa using hn) (by simpa using hne)
      have : (!bit) = bit := by injection hr'
      cases bit <;> cases this
    · intro k hn hne
      obtain ⟨r', hr'⟩ := hk (bit :: k) (by simpa using hn) (by simpa using hne)
      injection hr' with _ hr'
      exact ⟨r', hr'⟩

theorem Trie.Good.small {cmp : Comparator} {acc : Cell → Bool} {t : Trie} (h : t.Good cmp acc) : t.ext.Small := by
  cases t with
  | leaf l e v =>
    obtain ⟨h1, h2, _⟩ := h
    simp only [Trie.cell, Cell.bits, Cell.refs, List.length_append] at h1 h2
    exact ⟨Nat.le_trans (Nat.le_add_left _ _) h1, h2⟩
  | fork l e x a b =>
    obtain ⟨⟨h1, h2, _⟩, _⟩ := h
    simp only [Trie.cell, Cell.bits, Cell.refs, List.length_append, List.length_cons] at h1 h2
    exact ⟨Nat.le_trans (Nat.le_add_left _ _) h1, by show x.refs.length ≤ 4; omega⟩

/-- The front of what a branch shows to the comparator. -/
theorem total_trie {A : Type} {T : AugType A} {valid : A → Prop} {comb : A → A → Option A} (law : T.Lawful valid comb) {acc : Cell → Bool} {N : Nat} {m : AMap A}
    (hv : ∀ k p, k.length = N → m k = some p → valid p.1) : ∀ {n : Nat} {t : Trie} (p : Bits), t.Sized n → t.CanonX (some T.compAdd) n → t.Good (some T.compAdd) acc →
    p.length + n = N → (∀ k, k.length = n → m.stored T (p ++ k) = t.lookup k) → ∃ a v, valid a ∧ t.ext = (T.store a).then v ∧ Total comb N m p a
  | n, .leaf l e v, p, hs, hc, hg, hN, hl => by
    have h1 := hl l hs.1
    rw [Trie.lookup_leaf, if_pos rfl] at h1
    unfold AMap.stored at h1
    have hlen : (p ++ l).length = N := by rw [List.length_append, hs.1, hN]
    cases hm : m (p ++ l) with
    | none => rw [hm] at h1; cases h1
    | some q =>
      rw [hm] at h1
      injection h1 with h1
      refine ⟨q.1, q.2, hv _ _ hlen hm, h1.symm, Total.label l p (.key hlen hm) (fun k hk hne => ?_)⟩
      have hkn : k.length = n := by rw [List.length_append] at hk; omega
      have h2 := hl k hkn
      rw [Trie.lookup_leaf] at h2
      by_cases hkl : k = l
      · exact ⟨[], by rw [hkl, List.append_nil]⟩
      · rw [if_neg hkl] at h2
        unfold AMap.stored at h2
        cases hm2 : m (p ++ k) with
        | none => exact absurd hm2 hne
        | some q => rw [hm2] at h2; cases h2
  | n, .fork l e x a b, p, hs, hc, hg, hN, hl => by
    have hlt := hs.1
    have hbr : ∀ (bit : Bool) (k : Bits), k.length = n - l.length - 1 → m.stored T ((p ++ l ++ [bit]) ++ k) = (if bit then b else a).lookup k := by
      intro bit k hk
      have := hl (l ++ bit :: k) (by simp; omega)
      rw [Trie.lookup_fork] at this
      rw [← this]
      simp
    have hpl : ∀ bit : Bool, (p ++ l ++ [bit]).length + (n - l.length - 1) = N := by intro bit; simp; omega
    obtain ⟨xa, va, hva, hea, hta⟩ := total_trie law hv (p ++ l ++ [false]) hs.2.2.1 hc.2.2.1 hg.2.2.1 (hpl false) (hbr false)
    obtain ⟨xb, vb, hvb, heb, htb⟩ := total_trie law hv (p ++ l ++ [true]) hs.2.2.2 hc.2.2.2 hg.2.2.2 (hpl true) (hbr true)
    obtain ⟨y, hy⟩ := hg.2.1 _ rfl
    have hcomp := law.comp xa xb hva hvb va vb (hea ▸ hg.2.2.1.small) (heb ▸ hg.2.2.2.small)
    rw [hea, heb] at hy
    cases hcb : comb xa xb with
    | none =>
      rw [hcb] at hcomp
      obtain ⟨e, he⟩ := hcomp
      rw [hy] at he; cases he
    | some c =>
      rw [hcb] at hcomp
      dsimp only at hcomp
      refine ⟨c, .empty, law.valid _ _ _ hva hvb hcb, ?_, ?_⟩
      · show x = _
        rw [hc.2.1, hea, heb]
        unfold Comparator.get
        dsimp only
        rw [hcomp]
        show T.store c = _
        unfold Sl.then Sl.empty
        simp
      · refine Total.label l p (.both hta htb hcb) (fun k hk hne => ?_)
        have hkn : k.length = n := by rw [List.length_append] at hk; omega
        have h2 := hl k hkn
        by_cases hpre : ∃ bit r, k = l ++ bit :: r
        · obtain ⟨bit, r, rfl⟩ := hpre
          exact ⟨_, rfl⟩
        · rw [Trie.lookup_fork_none (fun bit r h => hpre ⟨bit, r, h⟩)] at h2
          unfold AMap.stored at h2
          cases hm2 : m (p ++ k) with
          | none => exact absurd hm2 hne
          | some q => rw [hm2] at h2; cases h2

/-- The recomputed root extra. -/
theorem rootExtra_spec {A : Type} {T : AugType A} {valid : A → Prop} {comb : A → A → Option A} (law : T.Lawful valid comb) {acc : Cell → Bool} {n : Nat} (hn : n ≤ 1023)
    {d : Option Cell} {m : AMap A} (hd : RepresentsX (some T.compAdd) acc n d (m.stored T)) (hv : ∀ k p, k.length = n → m k = some p → valid p.1) :
    ∃ x, T.rootExtra n d = .ok x ∧ AugDict.Is T valid comb acc n ⟨d, x⟩ m := by
  cases d with
  | none =>
    refine ⟨T.dflt, rfl, hd, hv, fun _ => rfl, fun ⟨k, hk, hs⟩ => ?_⟩
    have := hd k hk
    unfold AMap.stored at this
    cases hm : m k with
    | none => rw [hm] at hs; cases hs
    | some p => rw [hm] at this; cases this
  | some c =>
    have hd' := hd
    obtain ⟨t, hs, hc, hg, rfl, hm⟩ := hd'
    obtain ⟨a, v, hva, he, ht⟩ := total_trie law hv (N := n) [] hs hc hg (by simp) (fun k hk => by rw [List.nil_append]; exact hm k hk)
    have hrun : T.rootExtra n (some t.cell) = T.load t.ext := by
      unfold AugType.rootExtra
      dsimp only
      rw [asSlice_cell]
      show (readLabel _ n >>= _) = _
      rw [readLabel_cell hs hn]
      cases t with
      | leaf l e v =>
        show ((if l.length ≠ n then (Trie.leaf l e v).body.skip 0 2 else .ok (Trie.leaf l e v).body) >>= T.load) = _
        rw [if_neg (by simp [hs.1])]
        rfl
      | fork l e x a b =>
        show ((if l.length ≠ n then (Trie.fork l e x a b).body.skip 0 2 else .ok (Trie.fork l e x a b).body) >>= T.load) = _
        rw [if_pos (by have := hs.1; omega)]
        unfold Sl.skip
        rw [if_neg (by simp [Trie.body])]
        rfl
    refine ⟨a, by rw [hrun, he, law.load a hva v (he ▸ hg.small)], hd, hv, fun hall => ?_, fun _ => ht⟩
    exfalso
    obtain ⟨k, w, hk, hw⟩ := Trie.exists_key hs
    have := hm k hk
    unfold AMap.stored at this
    rw [hall k hk, hw] at this
    cases this

theorem stored_put {A : Type} (T : AugType A) (m : AMap A) (k : Bits) (v : Option (A × Sl)) :
    (m.put k v).stored T = (m.stored T).put k (v.map fun p => (T.store p.1).then p.2) := by
  funext k'
  unfold AMap.stored AMap.put DMap.put
  split <;> rfl

theorem stored_writes {A : Type} (T : AugType A) (m : AMap A) (mode : SetMode) (k : Bits) : (m.stored T).writes mode k = m.writes mode k := by
  unfold AMap.stored AMap.writes DMap.writes
  cases mode <;> simp only [Option.isSome_map, Option.isNone_map]

/-! ## C33 -/

/-- The values that an operation brings in are valid. -/
def AOp.Valid {A : Type} (valid : A → Prop) : AOp A → Prop
  | .insert _ _ x _ => valid x
  | _ => True

/-- What a step may do: give the specified result and stand for the specified map; or fail and change nothing, and then the key has the wrong
length or no tree (with right extras) exists for the specified map. -/
def AStepOk {A : Type} (T : AugType A) (valid : A → Prop) (comb : A → A → Option A) (acc : Cell → Bool) (n : Nat) (s : AugDict A) (m : AMap A) (op : AOp A)
    (r : Except Err AOut × AugDict A) : Prop :=
  (op.key.length = n ∧ r.1 = .ok (op.spec T m).1 ∧ AugDict.Is T valid comb acc n r.2 (op.spec T m).2) ∨
  ((op.key.length ≠ n ∨ ∀ d, ¬ RepresentsX (some T.compAdd) acc n d ((op.spec T m).2.stored T)) ∧ (∃ e, r.1 = .error e) ∧ r.2 = s)

/-- Every operation on an augmented dictionary behaves as specified; in particular the root extra is again the combination of all extras. -/
theorem C33_step {A : Type} {T : AugType A} {valid : A → Prop} {comb : A → A → Option A} (law : T.Lawful valid comb) (acc : Cell → Bool) {n : Nat} (hn : n ≤ 1023)
    {s : AugDict A} {m : AMap A} (h : AugDict.Is T valid comb acc n s m) (op : AOp A) (hop : op.Valid valid) :
    AStepOk T valid comb acc n s m op (op.run T acc n s) := by
  cases op with
  | get k =>
    by_cases hk : k.length = n
    · refine Or.inl ⟨hk, ?_, h⟩
      show (dictGet s.root n k).map AOut.value = _
      unfold dictGet
      rw [if_neg (by simpa using hk)]
      have ht := h.tree
      cases hr : s.root with
      | none =>
        rw [hr] at ht
        show Except.ok (AOut.value none) = Except.ok (AOut.value (m.stored T k))
        rw [ht k hk]
      | some c =>
        rw [hr] at ht
        obtain ⟨t, hs, hc, hg, rfl, hm⟩ := ht
        dsimp only
        rw [dictGetGo_spec hs hn hk (n + 1) (by omega)]
        show Except.ok (AOut.value _) = Except.ok (AOut.value (m.stored T k))
        rw [hm k hk]
    · refine Or.inr ⟨Or.inl hk, ?_, rfl⟩
      show ∃ e, (dictGet s.root n k).map AOut.value = .error e
      unfold dictGet
      rw [if_pos hk]
      exact ⟨_, rfl⟩
  | insert mode k x v =>
    by_cases hk : k.length = n
    rotate_left
    · have hrun : (AOp.insert mode k x v).run T acc n s = (.error .cellUnderflow, s) := by
        have : augInsert T.compAdd acc s.root k n ((T.store x).then v) mode = (.error .cellUnderflow, s.root) := if_pos hk
        unfold AOp.run AugDict.insert
        dsimp only
        rw [this]
        rfl
      rw [hrun]
      exact Or.inr ⟨Or.inl hk, ⟨_, rfl⟩, rfl⟩
    obtain ⟨i1, i2⟩ := augInsert_full T.compAdd acc hn h.tree hk ((T.store x).then v) mode
    rw [stored_writes] at i1 i2
    unfold AOp.run AugDict.insert AStepOk AOp.spec
    dsimp only
    cases hw : m.writes mode k with
    | false =>
      rw [i1 hw]
      exact Or.inl ⟨hk, rfl, h⟩
    | true =>
      have hsp : ((m.put k (some (x, v))).stored T) = (m.stored T).put k (some ((T.store x).then v)) := stored_put T m k _
      rcases i2 hw with ⟨d', e1, e2⟩ | ⟨⟨e, e1⟩, e2⟩
      · rw [e1]
        dsimp only
        rw [← hsp] at e2
        obtain ⟨x', g1, g2⟩ := rootExtra_spec law hn e2 (fun k' p hk' hp => by
          unfold AMap.put at hp
          split at hp
          · injection hp with hp; rw [← hp]; exact hop
          · exact h.valid k' p hk' hp)
        rw [g1]
        exact Or.inl ⟨hk, rfl, g2⟩
      · rw [e1]
        refine Or.inr ⟨Or.inr ?_, ⟨e, rfl⟩, rfl⟩
        rw [if_pos rfl, hsp]
        exact e2
  | remove k =>
    by_cases hk : k.length = n
    rotate_left
    · have hrun : (AOp.remove k : AOp A).run T acc n s = (.error .cellUnderflow, s) := by
        have : augRemove T.compAdd acc s.root k n false = (.error .cellUnderflow, s.root) := if_pos ⟨rfl, hk⟩
        unfold AOp.run AugDict.remove
        dsimp only
        rw [this]
        rfl
      rw [hrun]
      exact Or.inr ⟨Or.inl hk, ⟨_, rfl⟩, rfl⟩
    unfold AOp.run AugDict.remove AStepOk AOp.spec
    dsimp only
    have hsp : ((m.put k none).stored T) = (m.stored T).put k none := stored_put T m k _
    have hval : ∀ k' p, k'.length = n → m.put k none k' = some p → valid p.1 := by
      intro k' p hk' hp
      unfold AMap.put at hp
      split at hp
      · cases hp
      · exact h.valid k' p hk' hp
    rcases augRemove_full T.compAdd acc hn h.tree hk with ⟨d', e1, e2, e3⟩ | ⟨⟨e, e1⟩, e2⟩
    · rw [e1]
      cases hm : m.stored T k with
      | none =>
        dsimp only
        refine Or.inl ⟨hk, rfl, ?_⟩
        have hmk : m.put k none = m := by
          funext k'
          unfold AMap.put
          split
          · rename_i h'
            unfold AMap.stored at hm
            cases hm2 : m k with
            | none => rw [h', hm2]
            | some q => rw [hm2] at hm; cases hm
          · rfl
        rw [hmk, e3 hm]
        exact h
      | some w =>
        dsimp only
        rw [← hsp] at e2
        obtain ⟨x', g1, g2⟩ := rootExtra_spec law hn e2 hval
        rw [g1]
        exact Or.inl ⟨hk, rfl, g2⟩
    · rw [e1]
      refine Or.inr ⟨Or.inr ?_, ⟨e, rfl⟩, rfl⟩
      rw [hsp]
      exact e2

/-- A list of results explained by the map: every step gives the specified result, or fails (for one of the permitted reasons) and leaves the map as it is. -/
inductive AExplains {A : Type} (T : AugType A) (acc : Cell → Bool) (n : Nat) : AMap A → List (AOp A) → List (Except Err AOut) → AMap A → Prop
  | nil (m : AMap A) : AExplains T acc n m [] [] m
  | ok {m m' : AMap A} {op : AOp A} {ops rs} : op.key.length = n → AExplains T acc n (op.spec T m).2 ops rs m' →
      AExplains T acc n m (op :: ops) (.ok (op.spec T m).1 :: rs) m'
  | fail {m m' : AMap A} {op : AOp A} {ops rs} {e : Err} : (op.key.length ≠ n ∨ ∀ d, ¬ RepresentsX (some T.compAdd) acc n d ((op.spec T m).2.stored T)) →
      AExplains T acc n m ops rs m' → AExplains T acc n m (op :: ops) (.error e :: rs) m'

/-- Any history: the results are those of a map from keys to extras and values, and at the end the tree stores right extras everywhere and the root extra is the combination of all
extras (the default if there are none). -/
theorem C33_history {A : Type} {T : AugType A} {valid : A → Prop} {comb : A → A → Option A} (law : T.Lawful valid comb) (acc : Cell → Bool) {n : Nat} (hn : n ≤ 1023) :
    ∀ (ops : List (AOp A)), (∀ op ∈ ops, op.Valid valid) → ∀ {s : AugDict A} {m : AMap A}, AugDict.Is T valid comb acc n s m →
    ∃ m', AExplains T acc n m ops (s.runs T acc n ops).1 m' ∧ AugDict.Is T valid comb acc n (s.runs T acc n ops).2 m'
  | [], _, s, m, h => ⟨m, .nil m, h⟩
  | op :: ops, hv, s, m, h => by
    have hstep := C33_step law acc hn h op (hv op (by simp))
    unfold AugDict.runs
    dsimp only
    generalize op.run T acc n s = r at *
    obtain ⟨r1, r2⟩ := r
    rcases hstep with ⟨hk, h1, h2⟩ | ⟨hk, ⟨e, h1⟩, h2⟩
    · have h1 : r1 = _ := h1
      subst h1
      obtain ⟨m', g1, g2⟩ := C33_history law acc hn ops (fun o ho => hv o (by simp [ho])) h2
      exact ⟨m', .ok hk g1, g2⟩
    · have h1 : r1 = _ := h1
      have h2 : r2 = s := h2
      subst h1 h2
      obtain ⟨m', g1, g2⟩ := C33_history law acc hn ops (fun o ho => hv o (by simp [ho])) h
      exact ⟨m', .fail hk g1, g2⟩

/-- The empty dictionary stands for the empty map. -/
theorem C33_new {A : Type} (T : AugType A) (valid : A → Prop) (comb : A → A → Option A) (acc : Cell → Bool) (n : Nat) :
    AugDict.Is T valid comb acc n (AugDict.new T) (fun _ => none) :=
  ⟨fun _ _ => rfl, fun _ _ _ h => (by cases h), fun _ => rfl, fun ⟨_, _, h⟩ => (by cases h)⟩

/-! ### The combination as a fold -/

/-- All keys with `d` bits after `p`, in increasing order. -/
def keysUnder (p : Bits) : Nat → List Bits
  | 0 => [p]
  | d + 1 => keysUnder (p ++ [false]) d ++ keysUnder (p ++ [true]) d

/-- The extras of a map in key order. -/
def AMap.extras {A : Type} (m : AMap A) (p : Bits) (d : Nat) : List A := (keysUnder p d).filterMap fun k => (m k).map Prod.fst

/-- The fold of a non-empty list. -/
def fold1 {A : Type} (op : A → A → A) : List A → Option A
  | [] => none
  | a :: l => some (l.foldl op a)

theorem fold1_append {A : Type} {op : A → A → A} (assoc : ∀ a b c, op (op a b) c = op a (op b c)) {l l' : List A} {a b : A} (h : fold1 op l = some a) (h' : fold1 op l' = some b) :
    fold1 op (l ++ l') = some (op a b) := by
  cases l with
  | nil => cases h
  | cons x l =>
    cases l' with
    | nil => cases h'
    | cons y l' =>
      injection h with h
      injection h' with h'
      show some ((l ++ y :: l').foldl op x) = _
      rw [List.foldl_append, h, ← h']
      congr 1
      clear h h'
      show l'.foldl op (op a y) = _
      induction l' generalizing y with
      | nil => rfl
      | cons z l' ih =>
        show l'.foldl op (op (op a y) z) = op a (l'.foldl op (op y z))
        rw [assoc, ih]

theorem keysUnder_prefix : ∀ (d : Nat) (p k : Bits), k ∈ keysUnder p d ↔ p <+: k ∧ k.length = p.length + d
  | 0, p, k => by
    simp only [keysUnder, List.mem_singleton, Nat.add_zero]
    constructor
    · rintro rfl; exact ⟨List.prefix_refl _, rfl⟩
    · rintro ⟨⟨r, rfl⟩, h⟩
      have : r = [] := List.length_eq_zero_iff.mp (by rw [List.length_append] at h; omega)
      rw [this, List.append_nil]
  | d + 1, p, k => by
    rw [keysUnder, List.mem_append, keysUnder_prefix d, keysUnder_prefix d]
    constructor
    · rintro (⟨⟨r, rfl⟩, h⟩ | ⟨⟨r, rfl⟩, h⟩)
      · exact ⟨⟨false :: r, by simp⟩, by rw [h]; simp; omega⟩
      · exact ⟨⟨true :: r, by simp⟩, by rw [h]; simp; omega⟩
    · rintro ⟨⟨r, rfl⟩, h⟩
      cases r with
      | nil => simp at h
      | cons bit r =>
        cases bit
        · exact Or.inl ⟨⟨r, by simp⟩, by simp at h ⊢; omega⟩
        · exact Or.inr ⟨⟨r, by simp⟩, by simp at h ⊢; omega⟩

theorem extras_none {A : Type} {m : AMap A} {p : Bits} {d n : Nat} (hn : p.length + d = n) (h : ∀ k, k.length = n → p <+: k → m k = none) : m.extras p d = [] := by
  unfold AMap.extras
  rw [List.filterMap_eq_nil_iff]
  intro k hk
  obtain ⟨h1, h2⟩ := (keysUnder_prefix d p k).mp hk
  rw [h k (by omega) h1]
  rfl

/-- If the combination is an associative operation, the combined extra is the fold of all extras in key order. -/
theorem total_fold {A : Type} {op : A → A → A} (assoc : ∀ a b c, op (op a b) c = op a (op b c)) {comb : A → A → Option A} (hop : ∀ a b c, comb a b = some c → c = op a b)
    {n : Nat} {m : AMap A} {p : Bits} {a : A} (h : Total comb n m p a) : p.length ≤ n ∧ fold1 op (m.extras p (n - p.length)) = some a := by
  induction h with
  | key hk hm =>
    refine ⟨Nat.le_of_eq hk, ?_⟩
    rw [hk, Nat.sub_self]
    unfold AMap.extras keysUnder
    simp [hm, fold1]
  | @one p a bit hnone _ ih =>
    obtain ⟨h1, h2⟩ := ih
    simp only [List.length_append, List.length_singleton] at h1 h2
    refine ⟨by omega, ?_⟩
    have e : n - p.length = (n - (p.length + 1)) + 1 := by omega
    have hsplit : m.extras p (n - p.length) = m.extras (p ++ [false]) (n - (p.length + 1)) ++ m.extras (p ++ [true]) (n - (p.length + 1)) := by
      rw [e]
      unfold AMap.extras
      rw [keysUnder, List.filterMap_append]
    have hno := extras_none (m := m) (p := p ++ [!bit]) (d := n - (p.length + 1)) (n := n) (by simp; omega) hnone
    rw [hsplit]
    cases bit
    · rw [show ([true] : Bits) = [!false] from rfl, hno, List.append_nil]; exact h2
    · rw [show ([false] : Bits) = [!true] from rfl, hno, List.nil_append]; exact h2
  | @both p a b c _ _ hc ih1 ih2 =>
    obtain ⟨h1, h2⟩ := ih1
    obtain ⟨_, h3⟩ := ih2
    simp only [List.length_append, List.length_singleton] at h1 h2 h3
    refine ⟨by omega, ?_⟩
    have e : n - p.length = (n - (p.length + 1)) + 1 := by omega
    have hsplit : m.extras p (n - p.length) = m.extras (p ++ [false]) (n - (p.length + 1)) ++ m.extras (p ++ [true]) (n - (p.length + 1)) := by
      rw [e]
      unfold AMap.extras
      rw [keysUnder, List.filterMap_append]
    rw [hsplit, hop a b c hc]
    exact fold1_append assoc h2 h3

/-- With an associative combination, the root extra after any history is the fold of the extras of all keys in key order, and the default value if there are none. -/
theorem C33_fold {A : Type} {T : AugType A} {valid : A → Prop} {comb : A → A → Option A} {op : A → A → A} (assoc : ∀ a b c, op (op a b) c = op a (op b c))
    (hop : ∀ a b c, comb a b = some c → c = op a b) {acc : Cell → Bool} {n : Nat} {s : AugDict A} {m : AMap A} (h : AugDict.Is T valid comb acc n s m) :
    s.extra = (fold1 op (m.extras [] n)).getD T.dflt := by
  by_cases hk : ∃ k, k.length = n ∧ (m k).isSome
  · have := (total_fold assoc hop (h.extra hk)).2
    rw [show n - ([] : Bits).length = n from rfl] at this
    rw [this]; rfl
  · have hnone : ∀ k, k.length = n → m k = none := by
      intro k hkn
      cases hm : m k with
      | none => rfl
      | some p => exact absurd ⟨k, hkn, by rw [hm]; rfl⟩ hk
    rw [h.empty hnone, extras_none (by simp) (fun k hkn _ => hnone k hkn)]
    rfl

end Verif
