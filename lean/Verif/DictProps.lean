import Verif.DictLemmas
/-
Properties of dictionaries: labels (C21), finite-map behaviour (C22), canonical cells (C23), atomicity (C34).
-/
set_option linter.unusedVariables false
set_option linter.unusedSimpArgs false
namespace Verif

/-! ## C21: labels -/

/-- Writing a label appends bits that depend on the label and the key length only, or fails if they do not fit. -/
theorem C21_write (l : Bits) {n : Nat} (hn : n ≤ 1023) : ∃ e : Bits, ∀ b : Sl,
    (b.bits.length + e.length ≤ 1023 → writeLabel l n b = .ok ⟨b.bits ++ e, b.refs⟩) ∧
    (¬ b.bits.length + e.length ≤ 1023 → ∃ err, writeLabel l n b = .error err) :=
  ⟨labelBits l n, writeLabel_appends l (by omega)⟩

/-- What was written reads back, and the reader stops exactly behind the label. -/
theorem C21_round_trip (l : Bits) {n : Nat} (hl : l.length ≤ n) (hn : n ≤ 1023) (r : Sl)
    (hw : writeLabel l n .empty = .ok r) (rest : Bits) (refs : List Cell) :
    readLabel ⟨r.bits ++ rest, refs⟩ n = .ok (l, ⟨rest, refs⟩) := by
  have ha := writeLabel_appends l (n := n) (by omega) .empty
  by_cases h : (labelBits l n).length ≤ 1023
  · rw [ha.1 (by simpa [Sl.empty] using h)] at hw
    injection hw with hw
    rw [← hw]
    exact readLabel_labelBits l n hl hn rest refs
  · obtain ⟨e, he⟩ := ha.2 (by simpa [Sl.empty] using h)
    rw [he] at hw; cases hw

/-- Every legal encoding of a label is read. -/
theorem C21_read_any (l e : Bits) {n : Nat} (h : LabelEnc n l e) (hl : l.length ≤ n) (hn : n ≤ 1023) (rest : Bits) (refs : List Cell) :
    readLabel ⟨e ++ rest, refs⟩ n = .ok (l, ⟨rest, refs⟩) := readLabel_enc h hl hn rest refs

/-- The encoding that is written is legal and no legal encoding is shorter. -/
theorem C21_minimal (l : Bits) {n : Nat} (hl : l.length ≤ n) (hn : n ≤ 1023) (r : Sl) (hw : writeLabel l n .empty = .ok r) :
    LabelEnc n l r.bits ∧ ∀ e, LabelEnc n l e → r.bits.length ≤ e.length := by
  have ha := writeLabel_appends l (n := n) (by omega) .empty
  by_cases h : (labelBits l n).length ≤ 1023
  · rw [ha.1 (by simpa [Sl.empty] using h)] at hw
    injection hw with hw
    rw [← hw]
    exact ⟨labelBits_enc l n hl, fun e he => labelBits_min l n hl he⟩
  · obtain ⟨e, he⟩ := ha.2 (by simpa [Sl.empty] using h)
    rw [he] at hw; cases hw

/-- A label made of two parts around a bit is written like the whole label. -/
theorem C21_parts (pfx : Bits) (bit : Bool) (rem : Bits) {n : Nat} (h0 : n ≠ 0) (hn : n ≤ 1023) (b : Sl) :
    (∀ r, writeLabelParts pfx bit rem n b = .ok r ↔ writeLabel (pfx ++ bit :: rem) n b = .ok r) := by
  intro r
  have h1 := writeLabelParts_appends pfx bit rem (n := n) (by omega) h0 b
  have h2 := writeLabel_appends (pfx ++ bit :: rem) (n := n) (by omega) b
  by_cases h : b.bits.length + (labelBits (pfx ++ bit :: rem) n).length ≤ 1023
  · rw [h1.1 h, h2.1 h]
  · obtain ⟨e1, he1⟩ := h1.2 h
    obtain ⟨e2, he2⟩ := h2.2 h
    rw [he1, he2]
    constructor <;> intro hh <;> cases hh

/-- The three forms are all in use: a mixed label, a long mixed label and a uniform one. -/
example : labelBits [true, false] 8 = [false, true, true, false, true, false] ∧
    labelBits [true, false, true, true, true, false] 8 = [true, false, false, true, true, false, true, false, true, true, true, false] ∧
    labelBits (List.replicate 8 true) 8 = [true, true, true, true, false, false, false] := by decide

/-- The reader also takes a label that is longer than the key (nothing checks this): here five bits for a key of
three. -/
theorem C21_read_overlong : ∃ s, readLabel s 3 = .ok (List.replicate 5 true, ⟨[], []⟩) :=
  ⟨⟨[false, true, true, true, true, true, false, true, true, true, true, true], []⟩, rfl⟩

/-! ## C22: a dictionary is a finite map -/

/-- Operations of a dictionary with keys of a fixed length. -/
inductive DOp
  | get (k : Bits)
  | insert (mode : SetMode) (k : Bits) (v : Sl)
  | insertOwned (mode : SetMode) (k : Bits) (v : Sl)
  | remove (k : Bits)

/-- Their results. -/
inductive DOut
  | value (v : Option Sl)
  | flag (changed : Bool)
  | flagOld (changed : Bool) (old : Option Sl)

def DOp.key : DOp → Bits
  | .get k | .insert _ k _ | .insertOwned _ k _ | .remove k => k

/-- Run an operation of the code. -/
def DOp.run (acc : Cell → Bool) (n : Nat) (d : Option Cell) : DOp → DictRes DOut
  | .get k => ((dictGet d n k).map .value, d)
  | .insert mode k v => let r := dictInsert acc d k n v mode; (r.1.map .flag, r.2)
  | .insertOwned mode k v => let r := dictInsertOwned acc d k n v mode; (r.1.map (fun p => .flagOld p.1 p.2), r.2)
  | .remove k => let r := dictRemoveOwned acc d k n false; (r.1.map .value, r.2)

/-- A finite map from keys to values. -/
abbrev DMap := Bits → Option Sl

def DMap.put (m : DMap) (k : Bits) (v : Option Sl) : DMap := fun k' => if k' = k then v else m k'

/-- What insertion in a mode does to the map: `set` always writes, `replace` only over an old value, `add` only a new one. -/
def DMap.writes (m : DMap) (mode : SetMode) (k : Bits) : Bool :=
  match mode with
  | .set => true
  | .replace => (m k).isSome
  | .add => (m k).isNone

/-- Specification of the operations on the map. -/
def DOp.spec (m : DMap) : DOp → DOut × DMap
  | .get k => (.value (m k), m)
  | .insert mode k v => (.flag (m.writes mode k), if m.writes mode k then m.put k (some v) else m)
  | .insertOwned mode k v => (.flagOld (m.writes mode k) (m k), if m.writes mode k then m.put k (some v) else m)
  | .remove k => (.value (m k), m.put k none)

/-- The root `d` is a dictionary with `n`-bit keys for the map `m`, in any of the legal label encodings. -/
def Represents (acc : Cell → Bool) (n : Nat) (d : Option Cell) (m : DMap) : Prop :=
  match d with
  | none => ∀ k, k.length = n → m k = none
  | some c => ∃ t : Trie, t.Sized n ∧ t.Fits acc ∧ c = t.cell ∧ ∀ k, k.length = n → m k = t.lookup k

/-- The same in canonical form. -/
def RepresentsC (acc : Cell → Bool) (n : Nat) (d : Option Cell) (m : DMap) : Prop :=
  match d with
  | none => ∀ k, k.length = n → m k = none
  | some c => ∃ t : Trie, t.Sized n ∧ t.Canon n ∧ t.Fits acc ∧ c = t.cell ∧ ∀ k, k.length = n → m k = t.lookup k

theorem writes_iff (m : DMap) (mode : SetMode) (k : Bits) : m.writes mode k = true ↔ ¬ refused mode (m k) := by
  unfold DMap.writes refused
  cases mode <;> cases m k <;> simp [SetMode.canReplace, SetMode.canAdd]

theorem writes_false (m : DMap) (mode : SetMode) (k : Bits) : m.writes mode k = false ↔ refused mode (m k) := by
  unfold DMap.writes refused
  cases mode <;> cases m k <;> simp [SetMode.canReplace, SetMode.canAdd]

/-- Insertion, in full: the flag, the old value and the new dictionary; an error only if the new dictionary does not
fit, and then nothing changes. -/
theorem insert_full (acc : Cell → Bool) {n : Nat} (hn : n ≤ 1023) {t : Trie} (hs : t.Sized n) (hf : t.Fits acc) {k : Bits} (hk : k.length = n)
    (v : Sl) (mode : SetMode) :
    (refused mode (t.lookup k) → dictInsertOwned acc (some t.cell) k n v mode = (.ok (false, t.lookup k), some t.cell) ∧
      dictInsert acc (some t.cell) k n v mode = (.ok false, some t.cell)) ∧
    (¬ refused mode (t.lookup k) → 
      ((t.set k v).Fits acc → dictInsertOwned acc (some t.cell) k n v mode = (.ok (true, t.lookup k), some (t.set k v).cell) ∧
        dictInsert acc (some t.cell) k n v mode = (.ok true, some (t.set k v).cell)) ∧
      (¬ (t.set k v).Fits acc → ∃ e, dictInsertOwned acc (some t.cell) k n v mode = (.error e, some t.cell) ∧
        dictInsert acc (some t.cell) k n v mode = (.error e, some t.cell))) := by
  obtain ⟨i1, i2⟩ := dictInsertGo_spec acc mode v hs hn hf hk (n + 1) (by omega) []
  unfold dictInsertOwned dictInsert
  have hkn : ¬ k.length ≠ n := by simpa using hk
  rw [if_neg hkn, if_neg hkn]
  dsimp only
  refine ⟨fun hr => ?_, fun hr => ?_⟩
  · rw [i1 hr]; exact ⟨rfl, rfl⟩
  · obtain ⟨j1, j2⟩ := i2 hr
    generalize dictInsertGo acc mode v (n + 1) k t.cell [] = y at *
    refine ⟨fun h => ?_, fun h => ?_⟩
    · have j := j1 h
      cases y with
      | error e => cases j
      | ok o =>
        cases o with
        | stop old => 
          change Except.ok (none, old) = Except.ok (some _, _) at j
          injection j with j
          injection j with j _
          cases j
        | found leaf old stack =>
          change (rebuild acc stack leaf >>= fun c => Except.ok (some c, old)) = Except.ok (some (t.set k v).cell, t.lookup k) at j
          dsimp only
          cases hr : rebuild acc stack leaf with
          | error e => rw [hr] at j; cases j
          | ok c =>
            rw [hr] at j
            change Except.ok (some c, old) = _ at j
            injection j with j
            injection j with j1 j2
            injection j1 with j1
            rw [j1, j2]
            exact ⟨rfl, rfl⟩
    · obtain ⟨e, j⟩ := j2 h
      cases y with
      | error e => exact ⟨e, rfl, rfl⟩
      | ok o =>
        cases o with
        | stop old => cases j
        | found leaf old stack =>
          change (rebuild acc stack leaf >>= fun c => Except.ok (some c, old)) = Except.error e at j
          dsimp only
          cases hr : rebuild acc stack leaf with
          | error e' => exact ⟨e', rfl, rfl⟩
          | ok c => rw [hr] at j; cases j

theorem insert_none (acc : Cell → Bool) {n : Nat} (hn : n ≤ 1023) {k : Bits} (hk : k.length = n) (v : Sl) (mode : SetMode) :
    (refused mode none → dictInsertOwned acc none k n v mode = (.ok (false, none), none) ∧ dictInsert acc none k n v mode = (.ok false, none)) ∧
    (¬ refused mode none → 
      ((Trie.mkLeaf k v).Fits acc → dictInsertOwned acc none k n v mode = (.ok (true, none), some (Trie.mkLeaf k v).cell) ∧
        dictInsert acc none k n v mode = (.ok true, some (Trie.mkLeaf k v).cell)) ∧
      (¬ (Trie.mkLeaf k v).Fits acc → ∃ e, dictInsertOwned acc none k n v mode = (.error e, none) ∧
        dictInsert acc none k n v mode = (.error e, none))) := by
  have hb := makeLeaf_builds acc k v (n := n) (by omega)
  have he : (Trie.mkLeaf k v).cell = .mk false (labelBits k n ++ v.bits) v.refs := by rw [← hk]; rfl
  rw [← he] at hb
  unfold dictInsertOwned dictInsert
  have hkn : ¬ k.length ≠ n := by simpa using hk
  rw [if_neg hkn, if_neg hkn, refused_none]
  dsimp only
  refine ⟨fun hr => ?_, fun hr => ⟨fun h => ?_, fun h => ?_⟩⟩
  · rw [hr]; exact ⟨rfl, rfl⟩
  · have hr : mode.canAdd = true := by simpa using hr
    rw [if_pos hr, if_pos hr, hb.1 h]; exact ⟨rfl, rfl⟩
  · have hr : mode.canAdd = true := by simpa using hr
    obtain ⟨e, hbe⟩ := hb.2 h
    rw [if_pos hr, if_pos hr, hbe]; exact ⟨e, rfl, rfl⟩

theorem remove_full (acc : Cell → Bool) {n : Nat} (hn : n ≤ 1023) {t : Trie} (hs : t.Sized n) (hf : t.Fits acc) {k : Bits} (hk : k.length = n) :
    (t.lookup k = none → dictRemoveOwned acc (some t.cell) k n false = (.ok none, some t.cell)) ∧
    (∀ w, t.lookup k = some w → 
      (t.remove k = none → dictRemoveOwned acc (some t.cell) k n false = (.ok (some w), none)) ∧
      (∀ t', t.remove k = some t' →
        (t'.Fits acc → dictRemoveOwned acc (some t.cell) k n false = (.ok (some w), some t'.cell)) ∧
        (¬ t'.Fits acc → ∃ e, dictRemoveOwned acc (some t.cell) k n false = (.error e, some t.cell)))) := by
  obtain ⟨i1, i2⟩ := dictFindRemove_spec acc hs hn hf hk (k.length + 1) (by omega) [] k.length
  unfold dictRemoveOwned
  rw [if_neg (by simp [hk])]
  dsimp only
  refine ⟨fun h => by rw [i1 h], fun w hw => ?_⟩
  obtain ⟨j1, j2⟩ := i2 w hw
  refine ⟨fun h => by rw [j1 h], fun t' ht => ?_⟩
  obtain ⟨r, g1, g2, g3⟩ := j2 t' ht
  rw [g1]
  dsimp only
  obtain ⟨st, val, key', prev⟩ := r
  cases st with
  | nil =>
    refine ⟨fun h => ?_, fun h => ?_⟩
    · have := g2 h
      change Except.ok (none, val) = Except.ok (some _, w) at this
      injection this with this
      injection this with this _
      cases this
    · obtain ⟨e, he⟩ := g3 h
      cases he
  | cons s st =>
    dsimp only
    simp only [remFinish] at g2 g3
    cases hr : rebuildRemoved acc s key'.length prev with
    | error e =>
      rw [hr] at g2
      refine ⟨fun h => ?_, fun h => ⟨e, rfl⟩⟩
      have := g2 h
      cases this
    | ok leaf =>
      rw [hr] at g2 g3
      dsimp only
      cases hr2 : rebuild acc st leaf with
      | error e =>
        refine ⟨fun h => ?_, fun h => ⟨e, rfl⟩⟩
        have := g2 h
        change (rebuild acc st leaf >>= fun c => Except.ok (some c, val)) = _ at this
        rw [hr2] at this
        cases this
      | ok c =>
        refine ⟨fun h => ?_, fun h => ?_⟩
        · have := g2 h
          change (rebuild acc st leaf >>= fun c => Except.ok (some c, val)) = _ at this
          rw [hr2] at this
          change Except.ok (some c, val) = Except.ok (some t'.cell, w) at this
          injection this with this
          injection this with h1 h2
          injection h1 with h1
          rw [h1, h2]
        · obtain ⟨e, he⟩ := g3 h
          change (rebuild acc st leaf >>= fun c => Except.ok (some c, val)) = _ at he
          rw [hr2] at he
          cases he

/-- What a step may do: give the specified result and represent the specified map; or fail and change nothing. -/
def StepOk (R : Option Cell → DMap → Prop) (n : Nat) (d : Option Cell) (m : DMap) (op : DOp) (r : DictRes DOut) : Prop :=
  (op.key.length = n ∧ r.1 = .ok (op.spec m).1 ∧ R r.2 (op.spec m).2) ∨
  ((op.key.length ≠ n ∨ ¬ ∃ d', R d' (op.spec m).2) ∧ (∃ e, r.1 = .error e) ∧ r.2 = d)

theorem run_wrong_length (acc : Cell → Bool) (n : Nat) (d : Option Cell) (op : DOp) (h : op.key.length ≠ n) :
    op.run acc n d = (.error .cellUnderflow, d) := by
  cases op with
  | get k => have h : k.length ≠ n := h; simp only [DOp.run, dictGet]; rw [if_pos h]; rfl
  | insert mode k v => have h : k.length ≠ n := h; simp only [DOp.run, dictInsert]; rw [if_pos h]; rfl
  | insertOwned mode k v => have h : k.length ≠ n := h; simp only [DOp.run, dictInsertOwned]; rw [if_pos h]; rfl
  | remove k => have h : k.length ≠ n := h; simp only [DOp.run, dictRemoveOwned, true_and]; rw [if_pos h]; rfl

/-- Both representations have at most one trie for what an operation produces, so failing to fit means that the
result is not representable. -/
theorem canon_fits {acc : Cell → Bool} {n : Nat} {t : Trie} {m : DMap} (hs : t.Sized n) (hc : t.Canon n) (hm : ∀ k, k.length = n → m k = t.lookup k)
    (h : ¬ t.Fits acc) : ¬ ∃ d', RepresentsC acc n d' m := by
  rintro ⟨d', hd⟩
  cases d' with
  | none =>
    obtain ⟨k, v, hk, hv⟩ := Trie.exists_key hs
    rw [← hm k hk, hd k hk] at hv
    cases hv
  | some c =>
    obtain ⟨t', hs', hc', hf', _, hm'⟩ := hd
    have : t = t' := Trie.canon_unique hs hs' hc hc' (fun k hk => by rw [← hm k hk, ← hm' k hk])
    exact h (this ▸ hf')

theorem put_lookup {n : Nat} {t : Trie} {m : DMap} (hs : t.Sized n) (hm : ∀ k, k.length = n → m k = t.lookup k) {k : Bits} (hk : k.length = n) (v : Sl) :
    ∀ k', k'.length = n → m.put k (some v) k' = (t.set k v).lookup k' := by
  intro k' hk'
  rw [Trie.lookup_set v hs hk k' hk', ← hm k' hk']
  rfl

/-- Every operation on a canonical dictionary behaves as specified. -/
theorem C22_step (acc : Cell → Bool) {n : Nat} (hn : n ≤ 1023) {d : Option Cell} {m : DMap} (hd : RepresentsC acc n d m) (op : DOp) :
    StepOk (RepresentsC acc n) n d m op (op.run acc n d) := by
  by_cases hk : op.key.length = n
  rotate_left
  · rw [run_wrong_length acc n d op hk]
    exact Or.inr ⟨Or.inl hk, ⟨_, rfl⟩, rfl⟩
  cases d with
  | none =>
    have hm : ∀ k, k.length = n → m k = none := hd
    have hleaf : ∀ k v, k.length = n → (Trie.mkLeaf k v).Sized n ∧ (Trie.mkLeaf k v).Canon n ∧
        ∀ k', k'.length = n → m.put k (some v) k' = (Trie.mkLeaf k v).lookup k' := by
      intro k v hk
      refine ⟨hk ▸ Trie.sized_mkLeaf k v, ?_, fun k' hk' => ?_⟩
      · show _ = _
        rw [hk]
      · rw [Trie.mkLeaf, Trie.lookup_leaf, DMap.put]
        by_cases h : k' = k
        · rw [if_pos h, if_pos h]
        · rw [if_neg h, if_neg h, hm k' hk']
    cases op with
    | get k =>
      have hk : k.length = n := hk
      left
      refine ⟨hk, ?_, hd⟩
      simp only [DOp.run, dictGet, DOp.spec]
      rw [if_neg (by simpa using hk), hm k hk]; rfl
    | remove k =>
      have hk : k.length = n := hk
      left
      have hrm : dictRemoveOwned acc none k n false = (.ok none, none) := by
        unfold dictRemoveOwned
        rw [if_neg (by simp [hk])]
      refine ⟨hk, ?_, ?_⟩
      · simp only [DOp.run, DOp.spec, hrm, hm k hk]; rfl
      · simp only [DOp.run, DOp.spec, hrm]
        intro k' hk'
        simp only [DMap.put]
        split
        · rfl
        · exact hm k' hk'
    | insert mode k v =>
      have hk : k.length = n := hk
      obtain ⟨i1, i2⟩ := insert_none acc hn hk v mode
      obtain ⟨l1, l2, l3⟩ := hleaf k v hk
      rw [← hm k hk] at i1 i2
      rw [← writes_false] at i1
      rw [← writes_iff] at i2
      cases hw : m.writes mode k with
      | false =>
        have e := (i1 hw).2
        left
        refine ⟨hk, ?_, ?_⟩
        · simp only [DOp.run, DOp.spec, e, hw]; rfl
        · simp only [DOp.run, DOp.spec, e, hw, Bool.false_eq_true, if_false]; exact hd
      | true =>
        obtain ⟨j1, j2⟩ := i2 hw
        by_cases hfit : (Trie.mkLeaf k v).Fits acc
        · have e := (j1 hfit).2
          left
          refine ⟨hk, ?_, ?_⟩
          · simp only [DOp.run, DOp.spec, e, hw]; rfl
          · simp only [DOp.run, DOp.spec, e, hw, if_true]
            exact ⟨_, l1, l2, hfit, rfl, l3⟩
        · obtain ⟨er, _, e⟩ := j2 hfit
          right
          refine ⟨Or.inr ?_, ⟨er, ?_⟩, ?_⟩
          · simp only [DOp.spec, hw, if_true]
            exact canon_fits l1 l2 l3 hfit
          · simp only [DOp.run, e]; rfl
          · simp only [DOp.run, e]
    | insertOwned mode k v =>
      have hk : k.length = n := hk
      obtain ⟨i1, i2⟩ := insert_none acc hn hk v mode
      obtain ⟨l1, l2, l3⟩ := hleaf k v hk
      rw [← hm k hk] at i1 i2
      rw [← writes_false] at i1
      rw [← writes_iff] at i2
      cases hw : m.writes mode k with
      | false =>
        have e := (i1 hw).1
        left
        refine ⟨hk, ?_, ?_⟩
        · simp only [DOp.run, DOp.spec, e, hw]; rfl
        · simp only [DOp.run, DOp.spec, e, hw, Bool.false_eq_true, if_false]; exact hd
      | true =>
        obtain ⟨j1, j2⟩ := i2 hw
        by_cases hfit : (Trie.mkLeaf k v).Fits acc
        · have e := (j1 hfit).1
          left
          refine ⟨hk, ?_, ?_⟩
          · simp only [DOp.run, DOp.spec, e, hw]; rfl
          · simp only [DOp.run, DOp.spec, e, hw, if_true]
            exact ⟨_, l1, l2, hfit, rfl, l3⟩
        · obtain ⟨er, e, _⟩ := j2 hfit
          right
          refine ⟨Or.inr ?_, ⟨er, ?_⟩, ?_⟩
          · simp only [DOp.spec, hw, if_true]
            exact canon_fits l1 l2 l3 hfit
          · simp only [DOp.run, e]; rfl
          · simp only [DOp.run, e]
  | some c =>
    obtain ⟨t, hs, hc, hf, rfl, hm⟩ := hd
    have hd : RepresentsC acc n (some t.cell) m := ⟨t, hs, hc, hf, rfl, hm⟩
    cases op with
    | get k =>
      have hk : k.length = n := hk
      left
      refine ⟨hk, ?_, hd⟩
      simp only [DOp.run, dictGet, DOp.spec]
      rw [if_neg (by simpa using hk), dictGetGo_spec hs hn hk (n + 1) (by omega), hm k hk]; rfl
    | remove k =>
      have hk : k.length = n := hk
      obtain ⟨i1, i2⟩ := remove_full acc hn hs hf hk
      cases hl : t.lookup k with
      | none =>
        left
        refine ⟨hk, ?_, ?_⟩
        · simp only [DOp.run, DOp.spec, i1 hl, hm k hk, hl]; rfl
        · simp only [DOp.run, DOp.spec, i1 hl]
          refine ⟨t, hs, hc, hf, rfl, fun k' hk' => ?_⟩
          unfold DMap.put
          by_cases h : k' = k
          · rw [if_pos h, h, hl]
          · rw [if_neg h, hm k' hk']
      | some w =>
        obtain ⟨j1, j2⟩ := i2 w hl
        have hlr := Trie.lookup_remove hs hl
        cases hr : t.remove k with
        | none =>
          rw [hr] at hlr
          left
          refine ⟨hk, ?_, ?_⟩
          · simp only [DOp.run, DOp.spec, j1 hr, hm k hk, hl]; rfl
          · simp only [DOp.run, DOp.spec, j1 hr]
            intro k' hk'
            unfold DMap.put
            have := hlr k' hk'
            rw [← hm k' hk'] at this
            exact this.symm
        | some t' =>
          rw [hr] at hlr
          obtain ⟨g1, g2⟩ := j2 t' hr
          have hs' := Trie.sized_remove hs hl hr
          have hc' := Trie.canon_remove hs hc hl hr
          have hm' : ∀ k', k'.length = n → m.put k none k' = t'.lookup k' := by
            intro k' hk'
            have := hlr k' hk'
            rw [← hm k' hk'] at this
            exact this.symm
          by_cases hfit : t'.Fits acc
          · left
            refine ⟨hk, ?_, ?_⟩
            · simp only [DOp.run, DOp.spec, g1 hfit, hm k hk, hl]; rfl
            · simp only [DOp.run, DOp.spec, g1 hfit]
              exact ⟨t', hs', hc', hfit, rfl, hm'⟩
          · obtain ⟨e, he⟩ := g2 hfit
            right
            refine ⟨Or.inr (canon_fits hs' hc' hm' hfit), ⟨e, ?_⟩, ?_⟩
            · simp only [DOp.run, he]; rfl
            · simp only [DOp.run, he]
    | insert mode k v =>
      have hk : k.length = n := hk
      obtain ⟨i1, i2⟩ := insert_full acc hn hs hf hk v mode
      rw [← hm k hk] at i1 i2
      rw [← writes_false] at i1
      rw [← writes_iff] at i2
      have l1 := Trie.sized_set v hs hk
      have l2 := Trie.canon_set v hs hc hk
      have l3 := put_lookup hs hm hk v
      cases hw : m.writes mode k with
      | false =>
        have e := (i1 hw).2
        left
        refine ⟨hk, ?_, ?_⟩
        · simp only [DOp.run, DOp.spec, e, hw]; rfl
        · simp only [DOp.run, DOp.spec, e, hw, Bool.false_eq_true, if_false]; exact hd
      | true =>
        obtain ⟨j1, j2⟩ := i2 hw
        by_cases hfit : (t.set k v).Fits acc
        · have e := (j1 hfit).2
          left
          refine ⟨hk, ?_, ?_⟩
          · simp only [DOp.run, DOp.spec, e, hw]; rfl
          · simp only [DOp.run, DOp.spec, e, hw, if_true]
            exact ⟨_, l1, l2, hfit, rfl, l3⟩
        · obtain ⟨er, _, e⟩ := j2 hfit
          right
          refine ⟨Or.inr ?_, ⟨er, ?_⟩, ?_⟩
          · simp only [DOp.spec, hw, if_true]
            exact canon_fits l1 l2 l3 hfit
          · simp only [DOp.run, e]; rfl
          · simp only [DOp.run, e]
    | insertOwned mode k v =>
      have hk : k.length = n := hk
      obtain ⟨i1, i2⟩ := insert_full acc hn hs hf hk v mode
      rw [← hm k hk] at i1 i2
      rw [← writes_false] at i1
      rw [← writes_iff] at i2
      have l1 := Trie.sized_set v hs hk
      have l2 := Trie.canon_set v hs hc hk
      have l3 := put_lookup hs hm hk v
      cases hw : m.writes mode k with
      | false =>
        have e := (i1 hw).1
        left
        refine ⟨hk, ?_, ?_⟩
        · simp only [DOp.run, DOp.spec, e, hw]; rfl
        · simp only [DOp.run, DOp.spec, e, hw, Bool.false_eq_true, if_false]; exact hd
      | true =>
        obtain ⟨j1, j2⟩ := i2 hw
        by_cases hfit : (t.set k v).Fits acc
        · have e := (j1 hfit).1
          left
          refine ⟨hk, ?_, ?_⟩
          · simp only [DOp.run, DOp.spec, e, hw]; rfl
          · simp only [DOp.run, DOp.spec, e, hw, if_true]
            exact ⟨_, l1, l2, hfit, rfl, l3⟩
        · obtain ⟨er, e, _⟩ := j2 hfit
          right
          refine ⟨Or.inr ?_, ⟨er, ?_⟩, ?_⟩
          · simp only [DOp.spec, hw, if_true]
            exact canon_fits l1 l2 l3 hfit
          · simp only [DOp.run, e]; rfl
          · simp only [DOp.run, e]

/-- Run a history, collecting the results. -/
def runHistory (acc : Cell → Bool) (n : Nat) : Option Cell → List DOp → List (Except Err DOut) × Option Cell
  | d, [] => ([], d)
  | d, op :: ops =>
    let r := op.run acc n d
    let rest := runHistory acc n r.2 ops
    (r.1 :: rest.1, rest.2)

/-- A list of results is what the map specification gives from `m`, ending in `m'`: operations that report an error
are skipped, and an error is only reported for a key of the wrong length or a result without a dictionary. -/
inductive Explains (R : Option Cell → DMap → Prop) (n : Nat) : DMap → List DOp → List (Except Err DOut) → DMap → Prop
  | nil (m) : Explains R n m [] [] m
  | ok {m m' op ops outs} (hk : op.key.length = n) (h : Explains R n (op.spec m).2 ops outs m') :
      Explains R n m (op :: ops) (.ok (op.spec m).1 :: outs) m'
  | err {m m' op ops outs} (e : Err) (hk : op.key.length ≠ n ∨ ¬ ∃ d', R d' (op.spec m).2) (h : Explains R n m ops outs m') :
      Explains R n m (op :: ops) (.error e :: outs) m'

/-- After any history the results are those of a finite map, and the dictionary represents that map. -/
theorem C22_history (acc : Cell → Bool) {n : Nat} (hn : n ≤ 1023) (ops : List DOp) :
    ∀ {d : Option Cell} {m : DMap}, RepresentsC acc n d m →
    ∃ m', Explains (RepresentsC acc n) n m ops (runHistory acc n d ops).1 m' ∧ RepresentsC acc n (runHistory acc n d ops).2 m' := by
  induction ops with
  | nil => intro d m hd; exact ⟨m, .nil m, hd⟩
  | cons op ops ih =>
    intro d m hd
    rcases C22_step acc hn hd op with ⟨h1, h2, h3⟩ | ⟨h1, ⟨e, h2⟩, h3⟩
    · obtain ⟨m', g1, g2⟩ := ih h3
      refine ⟨m', ?_, g2⟩
      simp only [runHistory, h2]
      exact .ok h1 g1
    · rw [← h3] at hd
      obtain ⟨m', g1, g2⟩ := ih hd
      refine ⟨m', ?_, g2⟩
      simp only [runHistory, h2]
      exact .err e h1 g1

/-- The empty dictionary represents the empty map. -/
theorem C22_empty (acc : Cell → Bool) (n : Nat) : RepresentsC acc n none (fun _ => none) := fun _ _ => rfl

theorem bitsForLen_mono {a b : Nat} (h : a ≤ b) : bitsForLen a ≤ bitsForLen b := by
  unfold bitsForLen
  by_cases ha : a = 0
  · rw [if_pos ha]; omega
  · rw [if_neg ha, if_neg (by omega)]
    have : a.log2 < b.log2 + 1 := (Nat.log2_lt ha).mpr (Nat.lt_of_le_of_lt h Nat.lt_log2_self)
    omega

theorem labelBits_le (l : Bits) (n : Nat) (h : l.length ≤ n) : (labelBits l n).length ≤ 2 + bitsForLen n + l.length := by
  have := labelBits_min l n h (LabelEnc.long l)
  simp only [List.length_append, List.length_cons, List.length_nil, natBits_length] at this
  omega

/-- A value of at most `B` bits and four references. -/
def SmallVal (B : Nat) (v : Sl) : Prop := v.bits.length ≤ B ∧ v.refs.length ≤ 4

theorem canon_small_fits {acc : Cell → Bool} (hacc : ∀ c, acc c = true) {N B : Nat} (hB : 2 + bitsForLen N + N + B ≤ 1023) :
    ∀ {n : Nat} {t : Trie}, n ≤ N → t.Sized n → t.Canon n → (∀ k v, t.lookup k = some v → SmallVal B v) → t.Fits acc
  | n, .leaf l e v, hn, hs, hc, hv => by
    have hsm := hv l v (by rw [Trie.lookup_leaf, if_pos rfl])
    have h1 := labelBits_le l n (Nat.le_of_eq hs.1)
    have h2 := bitsForLen_mono hn
    have h3 := hs.1
    have hc : e = labelBits l n := hc
    refine ⟨?_, hsm.2, hacc _⟩
    show (e ++ v.bits).length ≤ 1023
    have := hsm.1
    rw [hc, List.length_append]
    omega
  | n, .fork l e x a b, hn, hs, hc, hv => by
    have h1 := labelBits_le l n (Nat.le_of_lt hs.1)
    have h2 := bitsForLen_mono hn
    have h3 := hs.1
    refine ⟨⟨?_, ?_, hacc _⟩, ?_, ?_⟩
    · show (e ++ x.bits).length ≤ 1023
      rw [hc.1, hc.2.1, Sl.empty, List.append_nil]
      omega
    · show (a.cell :: b.cell :: x.refs).length ≤ 4
      rw [hc.2.1]; simp [Sl.empty]
    · exact canon_small_fits hacc hB (by omega) hs.2.2.1 hc.2.2.1 fun k v hk => hv (l ++ false :: k) v (by rw [Trie.lookup_fork]; exact hk)
    · exact canon_small_fits hacc hB (by omega) hs.2.2.2 hc.2.2.2 fun k v hk => hv (l ++ true :: k) v (by rw [Trie.lookup_fork]; exact hk)

/-- The value an operation inserts, if any, is small. -/
def DOp.Small (B : Nat) : DOp → Prop
  | .insert _ _ v | .insertOwned _ _ v => SmallVal B v
  | _ => True

/-- Every canonical trie over values in `Q` can be built. -/
def FitsAll (acc : Cell → Bool) (n : Nat) (Q : Sl → Prop) : Prop :=
  ∀ t : Trie, t.Sized n → t.Canon n → (∀ k v, t.lookup k = some v → Q v) → t.Fits acc

theorem representable_put {acc : Cell → Bool} {n : Nat} {Q : Sl → Prop} (hfit : FitsAll acc n Q) {d : Option Cell} {m : DMap}
    (hd : RepresentsC acc n d m) (hv : ∀ k v, k.length = n → m k = some v → Q v) {k : Bits} (hk : k.length = n) {v : Sl} (hsv : Q v) :
    ∃ d', RepresentsC acc n d' (m.put k (some v)) := by
  have hput : ∀ k' w, k'.length = n → m.put k (some v) k' = some w → Q w := by
    intro k' w hk' hw
    unfold DMap.put at hw
    by_cases h : k' = k
    · rw [if_pos h] at hw; injection hw with hw; exact hw ▸ hsv
    · rw [if_neg h] at hw; exact hv k' w hk' hw
  have fin : ∀ t : Trie, t.Sized n → t.Canon n → (∀ k', k'.length = n → m.put k (some v) k' = t.lookup k') → ∃ d', RepresentsC acc n d' (m.put k (some v)) := by
    intro t h1 h2 h3
    refine ⟨some t.cell, t, h1, h2, hfit t h1 h2 fun k' w hw => ?_, rfl, h3⟩
    have := Trie.lookup_some_length h1 hw
    exact hput k' w this (by rw [h3 k' this]; exact hw)
  cases d with
  | none =>
    refine fin (Trie.mkLeaf k v) (hk ▸ Trie.sized_mkLeaf k v) ?_ fun k' hk' => ?_
    · show _ = _
      rw [hk]
    · rw [Trie.mkLeaf, Trie.lookup_leaf, DMap.put]
      by_cases h : k' = k
      · rw [if_pos h, if_pos h]
      · rw [if_neg h, if_neg h, hd k' hk']
  | some c =>
    obtain ⟨t, hs, hc, hf, rfl, hm⟩ := hd
    exact fin (t.set k v) (Trie.sized_set v hs hk) (Trie.canon_set v hs hc hk) (put_lookup hs hm hk v)

theorem representable_del {acc : Cell → Bool} {n : Nat} {Q : Sl → Prop} (hfit : FitsAll acc n Q) {d : Option Cell} {m : DMap}
    (hd : RepresentsC acc n d m) (hv : ∀ k v, k.length = n → m k = some v → Q v) {k : Bits} (hk : k.length = n) :
    ∃ d', RepresentsC acc n d' (m.put k none) := by
  have same : (m k = none) → RepresentsC acc n d (m.put k none) := by
    intro h0
    have : ∀ k', m.put k none k' = m k' := by
      intro k'
      unfold DMap.put
      by_cases h : k' = k
      · rw [if_pos h, h, h0]
      · rw [if_neg h]
    have : m.put k none = m := funext this
    rw [this]; exact hd
  cases d with
  | none => exact ⟨none, same (hd k hk)⟩
  | some c =>
    obtain ⟨t, hs, hc, hf, rfl, hm⟩ := hd
    cases hl : t.lookup k with
    | none => exact ⟨_, same (by rw [hm k hk, hl])⟩
    | some w =>
      have hlr := Trie.lookup_remove hs hl
      cases hr : t.remove k with
      | none =>
        rw [hr] at hlr
        refine ⟨none, fun k' hk' => ?_⟩
        have := hlr k' hk'
        rw [← hm k' hk'] at this
        exact this.symm
      | some t' =>
        rw [hr] at hlr
        have hs' := Trie.sized_remove hs hl hr
        have hc' := Trie.canon_remove hs hc hl hr
        have hm' : ∀ k', k'.length = n → m.put k none k' = t'.lookup k' := by
          intro k' hk'
          have := hlr k' hk'
          rw [← hm k' hk'] at this
          exact this.symm
        refine ⟨some t'.cell, t', hs', hc', hfit t' hs' hc' fun k' x hx => ?_, rfl, hm'⟩
        have hk' := Trie.lookup_some_length hs' hx
        rw [← hm' k' hk'] at hx
        unfold DMap.put at hx
        by_cases h : k' = k
        · rw [if_pos h] at hx; cases hx
        · rw [if_neg h] at hx; exact hv k' x hk' hx

/-- If all values leave room for a label of the whole key, no operation fails. -/
theorem C22_no_errors {acc : Cell → Bool} (hacc : ∀ c, acc c = true) {n B : Nat} (hB : 2 + bitsForLen n + n + B ≤ 1023) (ops : List DOp)
    (hops : ∀ op ∈ ops, op.key.length = n ∧ op.Small B) :
    ∀ r ∈ (runHistory acc n none ops).1, ∃ o, r = .ok o := by
  have hfit : FitsAll acc n (SmallVal B) := fun t h1 h2 h3 => canon_small_fits hacc hB (Nat.le_refl n) h1 h2 h3
  have main : ∀ (ops : List DOp), (∀ op ∈ ops, op.key.length = n ∧ op.Small B) → ∀ {d : Option Cell} {m : DMap}, RepresentsC acc n d m →
      (∀ k v, k.length = n → m k = some v → SmallVal B v) → ∀ r ∈ (runHistory acc n d ops).1, ∃ o, r = .ok o := by
    intro ops
    induction ops with
    | nil => intro _ d m _ _ r hr; cases hr
    | cons op ops ih =>
      intro hops d m hd hv r hr
      obtain ⟨hk, hsm⟩ := hops op (by simp)
      have hex : ∃ d', RepresentsC acc n d' (op.spec m).2 := by
        cases op with
        | get k => exact ⟨d, hd⟩
        | remove k => exact representable_del hfit hd hv hk
        | insert mode k v =>
          simp only [DOp.spec]
          split
          · exact representable_put hfit hd hv hk hsm
          · exact ⟨d, hd⟩
        | insertOwned mode k v =>
          simp only [DOp.spec]
          split
          · exact representable_put hfit hd hv hk hsm
          · exact ⟨d, hd⟩
      have hv' : ∀ k v, k.length = n → (op.spec m).2 k = some v → SmallVal B v := by
        have hput : ∀ (k : Bits) (w : Option Sl), (∀ v, w = some v → SmallVal B v) → ∀ k' x, k'.length = n → m.put k w k' = some x → SmallVal B x := by
          intro k w hw k' x hk' hx
          unfold DMap.put at hx
          by_cases h : k' = k
          · rw [if_pos h] at hx; exact hw x hx
          · rw [if_neg h] at hx; exact hv k' x hk' hx
        cases op with
        | get k => exact hv
        | remove k => exact hput k none fun v h => (by cases h)
        | insert mode k v =>
          simp only [DOp.spec]
          split
          · exact hput k (some v) fun v' h => by injection h with h; exact h ▸ hsm
          · exact hv
        | insertOwned mode k v =>
          simp only [DOp.spec]
          split
          · exact hput k (some v) fun v' h => by injection h with h; exact h ▸ hsm
          · exact hv
      rcases C22_step acc (by omega) hd op with ⟨h1, h2, h3⟩ | ⟨h1, _, _⟩
      · rcases List.mem_cons.mp hr with hr | hr
        · exact ⟨_, hr.trans h2⟩
        · exact ih (fun o ho => hops o (by simp [ho])) h3 hv' r hr
      · rcases h1 with h1 | h1
        · exact absurd hk h1
        · exact absurd hex h1
  exact main ops hops (C22_empty acc n) (fun k v _ h => by cases h)

/-- A history with a split of an edge, a replacement and a removal: what it returns and what is left. -/
example :
    let v (b : Bool) : Sl := ⟨[b], []⟩
    let ops : List DOp := [.insert .set [true, false, true] (v true), .insert .add [true, true, true] (v false),
      .insert .add [true, true, true] (v true), .insertOwned .replace [true, false, true] (v false), .get [true, true, true],
      .remove [true, true, true], .get [true, true, true], .insert .replace [false, false, false] (v true)]
    (runHistory (fun _ => true) 3 none ops).1.map (fun r => match r with
      | .ok (.flag b) => some (Sum.inl b)
      | .ok (.value x) => some (Sum.inr (x.map (·.bits)))
      | .ok (.flagOld b x) => some (Sum.inr (x.map (·.bits)))
      | .error _ => none) =
    [some (.inl true), some (.inl true), some (.inl false), some (.inr (some [true])), some (.inr (some [false])),
      some (.inr (some [false])), some (.inr none), some (.inl false)] := by decide

/-- The hypotheses of `C22_no_errors` for 32-bit keys and values of up to 900 bits. -/
example : 2 + bitsForLen 32 + 32 + 900 ≤ 1023 := by decide

/-- The single steps for dictionaries with any legal label encodings (written by other implementations): lookups
are those of the map, an insertion or removal either has the specified effect or fails without one. -/
theorem C22_any_encoding (acc : Cell → Bool) {n : Nat} (hn : n ≤ 1023) {d : Option Cell} {m : DMap} (hd : Represents acc n d m) (op : DOp)
    (hk : op.key.length = n) :
    ((op.run acc n d).1 = .ok (op.spec m).1 ∧ Represents acc n (op.run acc n d).2 (op.spec m).2) ∨
    ((∃ e, (op.run acc n d).1 = .error e) ∧ (op.run acc n d).2 = d ∧ ∀ k, op ≠ .get k) := by
  cases d with
  | none =>
    rcases C22_step acc hn (d := none) (m := m) hd op with ⟨_, h2, h3⟩ | ⟨h1, h2, h3⟩
    · left
      refine ⟨h2, ?_⟩
      cases hx : (op.run acc n none).2 with
      | none => rw [hx] at h3; exact h3
      | some c =>
        rw [hx] at h3
        obtain ⟨t, a, b, c, d, e⟩ := h3
        exact ⟨t, a, c, d, e⟩
    · right
      refine ⟨h2, h3, fun k hop => ?_⟩
      subst hop
      obtain ⟨e, he⟩ := h2
      have hk : k.length = n := hk
      simp only [DOp.run, dictGet] at he
      rw [if_neg (by simpa using hk)] at he
      cases he
  | some c =>
    obtain ⟨t, hs, hf, rfl, hm⟩ := hd
    have hd : Represents acc n (some t.cell) m := ⟨t, hs, hf, rfl, hm⟩
    cases op with
    | get k =>
      have hk : k.length = n := hk
      left
      refine ⟨?_, hd⟩
      simp only [DOp.run, dictGet, DOp.spec]
      rw [if_neg (by simpa using hk), dictGetGo_spec hs hn hk (n + 1) (by omega), hm k hk]; rfl
    | remove k =>
      have hk : k.length = n := hk
      obtain ⟨i1, i2⟩ := remove_full acc hn hs hf hk
      cases hl : t.lookup k with
      | none =>
        left
        refine ⟨?_, ?_⟩
        · simp only [DOp.run, DOp.spec, i1 hl, hm k hk, hl]; rfl
        · simp only [DOp.run, DOp.spec, i1 hl]
          refine ⟨t, hs, hf, rfl, fun k' hk' => ?_⟩
          unfold DMap.put
          by_cases h : k' = k
          · rw [if_pos h, h, hl]
          · rw [if_neg h, hm k' hk']
      | some w =>
        obtain ⟨j1, j2⟩ := i2 w hl
        have hlr := Trie.lookup_remove hs hl
        cases hr : t.remove k with
        | none =>
          rw [hr] at hlr
          left
          refine ⟨?_, ?_⟩
          · simp only [DOp.run, DOp.spec, j1 hr, hm k hk, hl]; rfl
          · simp only [DOp.run, DOp.spec, j1 hr]
            intro k' hk'
            unfold DMap.put
            have := hlr k' hk'
            rw [← hm k' hk'] at this
            exact this.symm
        | some t' =>
          rw [hr] at hlr
          obtain ⟨g1, g2⟩ := j2 t' hr
          have hs' := Trie.sized_remove hs hl hr
          have hm' : ∀ k', k'.length = n → m.put k none k' = t'.lookup k' := by
            intro k' hk'
            have := hlr k' hk'
            rw [← hm k' hk'] at this
            exact this.symm
          by_cases hfit : t'.Fits acc
          · left
            refine ⟨?_, ?_⟩
            · simp only [DOp.run, DOp.spec, g1 hfit, hm k hk, hl]; rfl
            · simp only [DOp.run, DOp.spec, g1 hfit]
              exact ⟨t', hs', hfit, rfl, hm'⟩
          · obtain ⟨e, he⟩ := g2 hfit
            right
            refine ⟨⟨e, ?_⟩, ?_, fun k h => (by cases h)⟩
            · simp only [DOp.run, he]; rfl
            · simp only [DOp.run, he]
    | insert mode k v =>
      have hk : k.length = n := hk
      obtain ⟨i1, i2⟩ := insert_full acc hn hs hf hk v mode
      rw [← hm k hk] at i1 i2
      rw [← writes_false] at i1
      rw [← writes_iff] at i2
      have l1 := Trie.sized_set v hs hk
      have l3 := put_lookup hs hm hk v
      cases hw : m.writes mode k with
      | false =>
        have e := (i1 hw).2
        left
        refine ⟨?_, ?_⟩
        · simp only [DOp.run, DOp.spec, e, hw]; rfl
        · simp only [DOp.run, DOp.spec, e, hw, Bool.false_eq_true, if_false]; exact hd
      | true =>
        obtain ⟨j1, j2⟩ := i2 hw
        by_cases hfit : (t.set k v).Fits acc
        · have e := (j1 hfit).2
          left
          refine ⟨?_, ?_⟩
          · simp only [DOp.run, DOp.spec, e, hw]; rfl
          · simp only [DOp.run, DOp.spec, e, hw, if_true]
            exact ⟨_, l1, hfit, rfl, l3⟩
        · obtain ⟨er, _, e⟩ := j2 hfit
          right
          refine ⟨⟨er, ?_⟩, ?_, fun k h => (by cases h)⟩
          · simp only [DOp.run, e]; rfl
          · simp only [DOp.run, e]
    | insertOwned mode k v =>
      have hk : k.length = n := hk
      obtain ⟨i1, i2⟩ := insert_full acc hn hs hf hk v mode
      rw [← hm k hk] at i1 i2
      rw [← writes_false] at i1
      rw [← writes_iff] at i2
      have l1 := Trie.sized_set v hs hk
      have l3 := put_lookup hs hm hk v
      cases hw : m.writes mode k with
      | false =>
        have e := (i1 hw).1
        left
        refine ⟨?_, ?_⟩
        · simp only [DOp.run, DOp.spec, e, hw]; rfl
        · simp only [DOp.run, DOp.spec, e, hw, Bool.false_eq_true, if_false]; exact hd
      | true =>
        obtain ⟨j1, j2⟩ := i2 hw
        by_cases hfit : (t.set k v).Fits acc
        · have e := (j1 hfit).1
          left
          refine ⟨?_, ?_⟩
          · simp only [DOp.run, DOp.spec, e, hw]; rfl
          · simp only [DOp.run, DOp.spec, e, hw, if_true]
            exact ⟨_, l1, hfit, rfl, l3⟩
        · obtain ⟨er, e, _⟩ := j2 hfit
          right
          refine ⟨⟨er, ?_⟩, ?_, fun k h => (by cases h)⟩
          · simp only [DOp.run, e]; rfl
          · simp only [DOp.run, e]

/-! ## C23: canonical cells -/

/-- The dictionary depends on the map only. -/
theorem C23_canonical {acc acc' : Cell → Bool} {n : Nat} {d d' : Option Cell} {m m' : DMap}
    (h : RepresentsC acc n d m) (h' : RepresentsC acc' n d' m') (hm : ∀ k, k.length = n → m k = m' k) : d = d' := by
  cases d with
  | none =>
    cases d' with
    | none => rfl
    | some c' =>
      obtain ⟨t, hs, _, _, _, hl⟩ := h'
      obtain ⟨k, v, hk, hv⟩ := Trie.exists_key hs
      rw [← hl k hk, ← hm k hk, h k hk] at hv
      cases hv
  | some c =>
    obtain ⟨t, hs, hc, _, rfl, hl⟩ := h
    cases d' with
    | none =>
      obtain ⟨k, v, hk, hv⟩ := Trie.exists_key hs
      rw [← hl k hk, hm k hk, h' k hk] at hv
      cases hv
    | some c' =>
      obtain ⟨t', hs', hc', _, rfl, hl'⟩ := h'
      rw [Trie.canon_unique hs hs' hc hc' (fun k hk => by rw [← hl k hk, ← hl' k hk, hm k hk])]

/-- Two histories from the empty dictionary that end in the same contents end in the same root cell. -/
theorem C23_histories (acc : Cell → Bool) {n : Nat} (hn : n ≤ 1023) (ops ops' : List DOp)
    (h : ∀ k, k.length = n → dictGet (runHistory acc n none ops).2 n k = dictGet (runHistory acc n none ops').2 n k) :
    (runHistory acc n none ops).2 = (runHistory acc n none ops').2 := by
  obtain ⟨m, _, h1⟩ := C22_history acc hn ops (C22_empty acc n)
  obtain ⟨m', _, h2⟩ := C22_history acc hn ops' (C22_empty acc n)
  refine C23_canonical h1 h2 fun k hk => ?_
  have hg : ∀ {d : Option Cell} {m : DMap}, RepresentsC acc n d m → dictGet d n k = .ok (m k) := by
    intro d m hd
    rcases C22_step acc hn hd (.get k) with ⟨_, e, _⟩ | ⟨h', _, _⟩
    · simp only [DOp.run, DOp.spec] at e
      cases hx : dictGet d n k with
      | error e' => rw [hx] at e; cases e
      | ok v =>
        rw [hx] at e
        change Except.ok (DOut.value v) = _ at e
        injection e with e
        injection e with e
        rw [e]
    · rcases h' with h' | h'
      · exact absurd hk h'
      · exact absurd ⟨d, hd⟩ h'
  have := h k hk
  rw [hg h1, hg h2] at this
  injection this

/-- A removed key leaves no trace: inserting a new key and removing it again gives the same root. -/
theorem C23_insert_remove (acc : Cell → Bool) {n : Nat} (hn : n ≤ 1023) {d : Option Cell} {m : DMap} (hd : RepresentsC acc n d m)
    {k : Bits} (hk : k.length = n) (hnew : m k = none) (v : Sl) {d1 : Option Cell}
    (h1 : dictInsert acc d k n v .add = (.ok true, d1)) : dictRemoveOwned acc d1 k n false = (.ok (some v), d) := by
  have hw : m.writes .add k = true := by simp [DMap.writes, hnew]
  rcases C22_step acc hn hd (.insert .add k v) with ⟨_, _, g⟩ | ⟨_, ⟨e, he⟩, _⟩
  · simp only [DOp.run, DOp.spec, h1, hw, if_true] at g
    have hback : RepresentsC acc n d ((m.put k (some v)).put k none) := by
      have : ∀ k', k'.length = n → ((m.put k (some v)).put k none) k' = m k' := by
        intro k' hk'
        unfold DMap.put
        by_cases h : k' = k
        · rw [if_pos h, h, hnew]
        · rw [if_neg h, if_neg h]
      cases d with
      | none => exact fun k' hk' => (this k' hk').trans (hd k' hk')
      | some c =>
        obtain ⟨t, a, b, cc, dd, ee⟩ := hd
        exact ⟨t, a, b, cc, dd, fun k' hk' => (this k' hk').trans (ee k' hk')⟩
    rcases C22_step acc hn g (.remove k) with ⟨_, g2, g3⟩ | ⟨g1, _, _⟩
    · simp only [DOp.run, DOp.spec] at g2 g3
      have e1 := C23_canonical g3 hback (fun _ _ => rfl)
      have e2 : (m.put k (some v)) k = some v := by simp [DMap.put]
      rw [e2] at g2
      generalize dictRemoveOwned acc d1 k n false = y at *
      obtain ⟨y1, y2⟩ := y
      dsimp only at e1 g2
      rw [e1]
      cases y1 with
      | error e => cases g2
      | ok w =>
        change Except.ok (DOut.value w) = _ at g2
        injection g2 with g2
        injection g2 with g2
        rw [g2]
    · rcases g1 with g1 | g1
      · exact absurd hk g1
      · exact absurd ⟨d, hback⟩ g1
  · simp only [DOp.run, h1] at he
    cases he

/-- Two different orders and a detour give the same root (both sides are non-empty). -/
example :
    let v (b : Bool) : Sl := ⟨[b], []⟩
    (runHistory (fun _ => true) 3 none [.insert .set [true, false, true] (v true), .insert .set [true, true, true] (v false),
      .insert .set [false, true, true] (v false)]).2 =
    (runHistory (fun _ => true) 3 none [.insert .set [false, true, true] (v true), .insert .set [true, true, false] (v true),
      .insert .set [true, true, true] (v false), .insert .set [false, true, true] (v false), .remove [true, true, false],
      .insert .set [true, false, true] (v true)]).2 := by rfl

/-! ## C34: failing operations change nothing -/

/-- Any dictionary (also malformed), any key, any operation so far. -/
theorem C34_basic (acc : Cell → Bool) (n : Nat) (d : Option Cell) (op : DOp) (e : Err) (h : (op.run acc n d).1 = .error e) :
    (op.run acc n d).2 = d := by
  cases op with
  | get k => rfl
  | insert mode k v =>
    simp only [DOp.run] at h ⊢
    unfold dictInsert at h ⊢
    split
    · rfl
    · rename_i hk
      rw [if_neg hk] at h
      cases d with
      | none =>
        dsimp only at h ⊢
        split
        · rename_i hm
          rw [if_pos hm] at h
          cases hl : makeLeaf acc k n v with
          | error e => rfl
          | ok c => rw [hl] at h; cases h
        · rfl
      | some root =>
        dsimp only at h ⊢
        cases hg : dictInsertGo acc mode v (n + 1) k root [] with
        | error e => rfl
        | ok o =>
          rw [hg] at h
          cases o with
          | stop old => rfl
          | found leaf old stack =>
            dsimp only at h ⊢
            cases hb : rebuild acc stack leaf with
            | error e => rfl
            | ok c => rw [hb] at h; cases h
  | insertOwned mode k v =>
    simp only [DOp.run] at h ⊢
    unfold dictInsertOwned at h ⊢
    split
    · rfl
    · rename_i hk
      rw [if_neg hk] at h
      cases d with
      | none =>
        dsimp only at h ⊢
        split
        · rename_i hm
          rw [if_pos hm] at h
          cases hl : makeLeaf acc k n v with
          | error e => rfl
          | ok c => rw [hl] at h; cases h
        · rfl
      | some root =>
        dsimp only at h ⊢
        cases hg : dictInsertGo acc mode v (n + 1) k root [] with
        | error e => rfl
        | ok o =>
          rw [hg] at h
          cases o with
          | stop old => rfl
          | found leaf old stack =>
            dsimp only at h ⊢
            cases hb : rebuild acc stack leaf with
            | error e => rfl
            | ok c => rw [hb] at h; cases h
  | remove k =>
    simp only [DOp.run] at h ⊢
    unfold dictRemoveOwned at h ⊢
    split
    · rfl
    · rename_i hk
      rw [if_neg hk] at h
      cases d with
      | none => rfl
      | some root =>
        dsimp only at h ⊢
        cases hg : dictFindRemove (k.length + 1) k root [] k.length with
        | error e => rfl
        | ok o =>
          rw [hg] at h
          cases o with
          | none => rfl
          | some r =>
            dsimp only at h ⊢
            cases hst : r.stack with
            | nil => rw [hst] at h; cases h
            | cons s st =>
              rw [hst] at h
              dsimp only at h ⊢
              cases hb : rebuildRemoved acc s r.key.length r.prev with
              | error e => rfl
              | ok leaf =>
                rw [hb] at h
                dsimp only at h ⊢
                cases hb2 : rebuild acc st leaf with
                | error e => rfl
                | ok c => rw [hb2] at h; cases h

end Verif
