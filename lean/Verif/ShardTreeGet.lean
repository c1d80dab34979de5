import Verif.ShardTreeProps
import Verif.TypedDictProps
/-
The shards of one workchain (`models/block/shard_hashes.rs`), against the iteration over all workchains.
-/
set_option linter.unusedVariables false
namespace Verif

/-! ### Model -/

/-- `Dict<i32, Cell>`, the dictionary in `ShardHashes` (`models/block/shard_hashes.rs:11`). -/
def shardRoots : DictType Int Cell := ⟨Key.i32, Wr.ref, Rd.ref⟩

/-- `models/block/shard_hashes.rs:84-93` `get_workchain_shards`: the root of the tree; the workchain is kept beside it. -/
def getWorkchainShards (d : Option Cell) (w : Int) : Except Err (Option (Int × Cell)) :=
  (shardRoots.get d w).map fun r => r.map fun root => (w, root)

/-- `models/block/shard_hashes.rs:96-98` `contains_workchain` -/
def containsWorkchain (d : Option Cell) (w : Int) : Except Err Bool := shardRoots.contains d w

/-- `models/block/shard_hashes.rs:761-766` `WorkchainShardsTreeKeysIter::next` -/
def ShardTreeIter.nextKey (it : ShardTreeIter) : Option (Except Err ShardIdent) × ShardTreeIter :=
  match it.next with
  | (none, it) => (none, it)
  | (some (.error e), it) => (some (.error e), it)
  | (some (.ok (s, _)), it) => (some (.ok s), it)

/-- `models/block/shard_hashes.rs:787-792` `WorkchainShardsTreeRawValuesIter::next` -/
def ShardTreeIter.nextValue (it : ShardTreeIter) : Option (Except Err Sl) × ShardTreeIter :=
  match it.next with
  | (none, it) => (none, it)
  | (some (.error e), it) => (some (.error e), it)
  | (some (.ok (_, v)), it) => (some (.ok v), it)

/-! ### Lemmas -/

theorem get32_any {acc : Cell → Bool} {d : Option Cell} {m : DMap} (hd : Represents acc 32 d m) {k : Bits} (hk : k.length = 32) : dictGet d 32 k = .ok (m k) := by
  have hs := C22_any_encoding acc (by decide) hd (.get k) hk
  have hr : (DOp.get k).run acc 32 d = ((dictGet d 32 k).map .value, d) := rfl
  rw [hr] at hs
  rcases hs with ⟨h1, _⟩ | ⟨_, _, h3⟩
  · cases hg : dictGet d 32 k with
    | error e => rw [hg] at h1; cases h1
    | ok r =>
      rw [hg] at h1
      injection h1 with h1
      injection h1 with h1
      rw [h1]
  · exact absurd rfl (h3 k)

theorem keyOf_wc {w : Int} (hw : IsI32 w) : shardRoots.keyOf w = .ok (wcKey w) := by
  have hk : KeyCodes Key.i32 (IsSigned 32) (fun v => natBits 32 (twos 32 v)) := C56_keys.2.2.2.2.2.2.2.2.1
  obtain ⟨b, h1, h2, _⟩ := (C56_faithful hk (by decide)).2 w hw
  have h1 : shardRoots.key.store w .new = (.ok (), b) := h1
  have h2 : wcKey w = b.bits := h2.symm
  unfold DictType.keyOf
  rw [h1, h2]

theorem parse_root (bits : Bits) (root : Cell) (y : List Cell) : shardRoots.parse ⟨bits, root :: y⟩ = .ok root := by
  unfold DictType.parse
  show (CSlice.loadReference _).1 = _
  unfold CSlice.loadReference Sl.reader
  simp

theorem wcKey_length (w : Int) : (wcKey w).length = 32 := natBits_length _ _

theorem key_of_wc {k : Bits} (hk : k.length = 32) {w : Int} (h : u32ToI32 (natOfBits k) = w) : k = wcKey w := by
  have hlt : natOfBits k < 2 ^ 32 := by rw [← hk]; exact natOfBits_lt k
  unfold wcKey
  rw [← h, (ShardIdent.u32_round hlt).1, ← hk, natBits_natOfBits]

/-- Keeps what concerns one workchain. -/
def ofWorkchain (w : Int) : Except Err (ShardIdent × Sl) → Bool
  | .ok (s, _) => decide (s.workchain = w)
  | .error _ => false

theorem mapped_yields {σ α γ : Type} {next : σ → Option α × σ} {next' : σ → Option γ × σ} (f : α → γ) (h : ∀ it, next' it = ((next it).1.map f, (next it).2))
    {it : σ} {l : List α} (hy : Yields next it l) : Yields next' it (l.map f) := by
  refine yields_of_step (fun it out => ∃ l : List α, Yields next it l ∧ out = l.map f) ?_ ?_ ⟨l, hy, rfl⟩
  · rintro it ⟨l, hy, e⟩
    have e' : l = [] := List.map_eq_nil_iff.mp e.symm
    subst e'
    obtain ⟨h0, h1⟩ := yieldsT_nil hy
    rw [h it, h0]
    exact ⟨rfl, [], h1, rfl⟩
  · rintro it p ps ⟨l, hy, e⟩
    cases l with
    | nil => cases e
    | cons a l =>
      rw [List.map_cons] at e
      injection e with e1 e2
      obtain ⟨g0, g1⟩ := yieldsT_cons hy
      rw [h it, g0, e1]
      exact ⟨rfl, l, g1, e2⟩

/-! ### Property theorems -/

/-- **C64, one workchain.** Whether a workchain is there, and its shards, is the same through the iteration over everything and through
its own tree: the shards listed for all workchains, restricted to one of them, are what its tree lists. -/
theorem C64_workchain {acc : Cell → Bool} {d : Option Cell} {m : DMap} (hd : Represents acc 32 d m) (T : Bits → ShardTree Sl)
    (hT : ∀ k v, k.length = 32 → m k = some v → ∃ root y, v.refs = root :: y ∧ (T k).In root ∧ (T k).height ≤ 60) :
    ∃ items, Yields ShardsIter.next (.new d) items ∧ ∀ w, IsI32 w →
      ((getWorkchainShards d w = .ok none ∧ containsWorkchain d w = .ok false ∧ items.filter (ofWorkchain w) = []) ∨
      ∃ root, getWorkchainShards d w = .ok (some (w, root)) ∧ containsWorkchain d w = .ok true ∧ items.filter (ofWorkchain w) ≠ [] ∧
        Yields ShardTreeIter.next (.new w root) (items.filter (ofWorkchain w))) := by
  obtain ⟨ks, h1, h2, h3⟩ := C64_all hd T hT
  refine ⟨_, h3, fun w hw => ?_⟩
  have hget : dictGet d 32 (wcKey w) = .ok (m (wcKey w)) := get32_any hd (wcKey_length w)
  have hcontains : containsWorkchain d w = .ok (m (wcKey w)).isSome := by
    unfold containsWorkchain DictType.contains
    rw [keyOf_wc hw]
    show (do let r ← dictGet d 32 (wcKey w); Except.ok r.isSome) = _
    rw [hget]
    rfl
  have hshards : getWorkchainShards d w = ((shardRoots.parseOpt (m (wcKey w))).map fun r => r.map fun root => (w, root)) := by
    unfold getWorkchainShards DictType.get
    rw [keyOf_wc hw]
    show (do let r ← dictGet d 32 (wcKey w); shardRoots.parseOpt r).map _ = _
    rw [hget]
    rfl
  have hone : ∀ k, (((T k).leaves []).map (fun q => (Except.ok (shardAt (u32ToI32 (natOfBits k)) q.1, q.2) : Except Err (ShardIdent × Sl)))).filter (ofWorkchain w) =
      if u32ToI32 (natOfBits k) = w then ((T k).leaves []).map (fun q => .ok (shardAt w q.1, q.2)) else [] := by
    intro k
    by_cases hk : u32ToI32 (natOfBits k) = w
    · rw [if_pos hk, hk, List.filter_eq_self.mpr]
      intro a ha
      obtain ⟨q, _, rfl⟩ := List.mem_map.mp ha
      exact decide_eq_true rfl
    · rw [if_neg hk, List.filter_eq_nil_iff]
      intro a ha
      obtain ⟨q, _, rfl⟩ := List.mem_map.mp ha
      exact fun h => hk (of_decide_eq_true h)
  rw [hcontains, hshards, List.filter_flatMap]
  simp only [hone]
  cases hm : m (wcKey w) with
  | none =>
    refine Or.inl ⟨rfl, rfl, ?_⟩
    rw [List.flatMap_eq_nil_iff]
    intro k hk
    refine if_neg fun e => ?_
    obtain ⟨g1, g2⟩ := (h2 k).mp hk
    rw [key_of_wc g1 e, hm] at g2
    cases g2
  | some v =>
    obtain ⟨root, y, e1, e2, e3⟩ := hT _ v (wcKey_length w) hm
    obtain ⟨bits, refs⟩ := v
    dsimp only at e1
    subst e1
    have hmem : wcKey w ∈ ks := (h2 _).mpr ⟨wcKey_length w, by rw [hm]; rfl⟩
    have hlist : (ks.flatMap fun k => if u32ToI32 (natOfBits k) = w then ((T k).leaves []).map (fun q => (Except.ok (shardAt w q.1, q.2) : Except Err (ShardIdent × Sl))) else []) =
        ((T (wcKey w)).leaves []).map (fun q => .ok (shardAt w q.1, q.2)) := by
      obtain ⟨pre, post, rfl⟩ := List.append_of_mem hmem
      rw [List.pairwise_append, List.pairwise_cons] at h1
      have hpre : ∀ k ∈ pre, k ≠ wcKey w := fun k hk e => Nat.lt_irrefl _ (e ▸ h1.2.2 k hk _ List.mem_cons_self)
      have hpost : ∀ k ∈ post, k ≠ wcKey w := fun k hk e => Nat.lt_irrefl _ (e ▸ h1.2.1.1 k hk)
      rw [List.flatMap_append, List.flatMap_cons, if_pos (wcKey_wc hw), List.flatMap_eq_nil_iff.mpr, List.flatMap_eq_nil_iff.mpr, List.nil_append, List.append_nil]
      · intro k hk
        exact if_neg fun e => hpost k hk (key_of_wc ((h2 k).mp (List.mem_append_right _ (List.mem_cons_of_mem _ hk))).1 e)
      · intro k hk
        exact if_neg fun e => hpre k hk (key_of_wc ((h2 k).mp (List.mem_append_left _ hk)).1 e)
    rw [hlist]
    refine Or.inr ⟨root, ?_, rfl, ?_, (C64_iter w e2 e3).1⟩
    · unfold DictType.parseOpt
      dsimp only
      rw [parse_root]
      rfl
    · intro h0
      have h0 := List.map_eq_nil_iff.mp h0
      have : (T (wcKey w)).leaves [] ≠ [] := by
        obtain ⟨x, hx, _⟩ := (T (wcKey w)).leaves_meet [] []
        exact List.ne_nil_of_mem hx
      exact this h0

/-- **C64, keys and values.** On any cell at all, the iterators over the keys and over the values of a tree give the two halves of what the iterator
over the entries gives. -/
theorem C64_halves (w : Int) (root : Cell) : ∃ items, Yields ShardTreeIter.next (.new w root) items ∧
    Yields ShardTreeIter.nextKey (.new w root) (items.map fun r => r.map (·.1)) ∧ Yields ShardTreeIter.nextValue (.new w root) (items.map fun r => r.map (·.2)) := by
  obtain ⟨items, err, hy, _⟩ := C64_iter_exact w root
  refine ⟨_, hy, mapped_yields _ (fun it => ?_) hy, mapped_yields _ (fun it => ?_) hy⟩
  · unfold ShardTreeIter.nextKey
    rcases it.next with ⟨_ | ⟨_ | _⟩, _⟩ <;> rfl
  · unfold ShardTreeIter.nextValue
    rcases it.next with ⟨_ | ⟨_ | _⟩, _⟩ <;> rfl

/-! ### Non-vacuity -/

/-- A dictionary with a tree of two shards for the workchain 0, and one of one shard for the masterchain: what is found, and the keys. -/
example : (let leaf (b : Bool) : Cell := .mk false [false, b] []
    let fork : Cell := .mk false [true] [leaf true, leaf false]
    let d1 := (shardRoots.insert (fun _ => true) none 0 fork .set).2
    let d := (shardRoots.insert (fun _ => true) d1 (-1) (leaf true) .set).2
    decide (((containsWorkchain d 0).toOption, (containsWorkchain d (-1)).toOption, (containsWorkchain d 5).toOption) = (some true, some true, some false)) &&
    decide ((runIter ShardsIter.next 9 (.new d)).map (fun r => r.toOption.map fun x => (x.1.workchain, x.1.pfx.toNat, x.2.bits)) =
      [some (0, 2 ^ 62, [true]), some (0, 2 ^ 63 + 2 ^ 62, [false]), some (-1, 2 ^ 63, [true])]) &&
    decide (((getWorkchainShards d 0).toOption.map fun r => r.map fun x => (runIter ShardTreeIter.nextKey 9 (.new x.1 x.2)).map (fun r => r.toOption.map fun x => x.pfx.toNat)) =
      some (some [some (2 ^ 62), some (2 ^ 63 + 2 ^ 62)]))) = true := by decide +kernel

end Verif
