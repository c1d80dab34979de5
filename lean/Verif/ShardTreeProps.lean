import Verif.ShardTreeLemmas
/-
Properties of shard descriptions and trees of shards (C64).

Specification (ShardTreeIter.lean): a `ShardTree` is a binary tree; `leaves` lists its leaves with their paths; `In` says that a
cell holds a tree; `shardAt w p` is the shard with the path `p`, `ShardIdent.Is w p` (C46) says so. `shardsOf w l` is the list of
such shards. `Yields next it l` (C24): the calls of `next` give just the items of `l` and then `none` for ever.
-/
set_option linter.unusedVariables false
set_option linter.unusedSimpArgs false
namespace Verif

/-! ### Descriptions -/

/-- Descriptions of shards are read back as they were written; the loader accepts just the grammar (two tags, one ignored flag). -/
theorem C64_codecs (acc : Cell → Bool) : futureSplitMerge.Sound ∧ (shardDescription acc).Sound :=
  ⟨futureSplitMerge_sound, shardDescription_sound acc⟩

/-- `latest_blocks` gives the identifiers of the blocks which the descriptions name: whenever a description can be loaded, the
short parser finds the same block. -/
theorem C64_latest {acc : Cell → Bool} {s : ShardIdent} {v : Sl} (hb : v.bits.length ≤ 1023) (hr : v.refs.length ≤ 4) {d : ShardDescription}
    (h : loadDescr acc s v = .ok d) : parseBlockId s v = .ok (d.asBlockId s) := by
  obtain ⟨w, ct⟩ := Sl.reader_spec hb hr
  unfold loadDescr at h
  have hp : (shardDescription acc).load v.reader = (.ok d, ((shardDescription acc).load v.reader).2) := by rw [← h]
  obtain ⟨e, hR, hc, _⟩ := (shardDescription_sound acc).ld.exact v.reader _ d w hp
  rw [ct] at hc
  rcases hR with ⟨_, _, rfl, ⟨e1, e2, ht, _, rfl⟩, rfl⟩ | ⟨_, _, rfl, ⟨e1, e2, ht, _, rfl⟩, rfl⟩
  · exact parse_of ht hb hr (tag := 0xa) (f := e2 ++ (((shardDescription acc).load v.reader).2).contents) (by rw [hc]; simp only [Enc.append_assoc])
  · exact parse_of ht hb hr (tag := 0xb) (f := e2 ++ (((shardDescription acc).load v.reader).2).contents) (by rw [hc]; simp only [Enc.append_assoc])

/-! ### One workchain -/

/-- Iteration over a workchain lists the leaves of its tree from left to right, each with the shard of its path, and ends. -/
theorem C64_iter (w : Int) {root : Cell} {t : ShardTree Sl} (h : t.In root) (hh : t.height ≤ 60) :
    Yields ShardTreeIter.next (.new w root) ((t.leaves []).map fun q => .ok (shardAt w q.1, q.2)) ∧
    ∀ q ∈ t.leaves [], (shardAt w q.1).Is w q.1 := by
  have := treeOk_yields (treeOk_new w root)
  rw [run_tree h hh] at this
  refine ⟨this, fun q hq => shardAt_is w ?_⟩
  have := ShardTree.leaves_length hq
  simp at this
  omega

/-- On any cell at all: there are some shards, then at most one error, then nothing more. There is no error just if the cell holds a
tree of at most 60 levels (all of whose leaves were then listed), or is an ordinary cell without data. -/
theorem C64_iter_exact (w : Int) (root : Cell) : ∃ (items : List (Bits × Sl)) (err : Option Err),
    Yields ShardTreeIter.next (.new w root) (items.map (fun q => .ok (shardAt w q.1, q.2)) ++ err.toList.map .error) ∧
    (err = none ↔ (root.exotic = false ∧ root.bits = []) ∨ ∃ t : ShardTree Sl, t.In root ∧ t.height ≤ 60 ∧ items = t.leaves []) := by
  have hy := treeOk_yields (treeOk_new w root)
  by_cases h0 : root.exotic = false ∧ root.bits = []
  · have : shardRun w root = [] := if_pos h0
    rw [this] at hy
    exact ⟨[], none, hy, ⟨fun _ => Or.inl h0, fun _ => rfl⟩⟩
  · have : shardRun w root = shardItems w (walkTree 60 [] (some root)) := if_neg h0
    rw [this] at hy
    cases hw : walkTree 60 [] (some root) with
    | mk l e =>
      rw [hw] at hy
      refine ⟨l, e, ?_, ?_⟩
      · cases e <;> exact hy
      · constructor
        · rintro rfl
          exact Or.inr (walk_ok_iff.1 hw)
        · rintro (h | h)
          · exact absurd h h0
          · rw [walk_ok_iff.2 h] at hw
            exact (Prod.mk.inj hw).2.symm

/-- The shards of a tree come in strictly ascending order, no two intersect, and every account belongs to exactly one. -/
theorem C64_partition {α : Type} (w : Int) {t : ShardTree α} (hh : t.height ≤ 60) :
    ((t.leaves []).Pairwise fun a b => (shardAt w a.1).pfx.toNat < (shardAt w b.1).pfx.toNat ∧ (shardAt w a.1).intersects (shardAt w b.1) = false) ∧
    ∀ account : List Byte, 8 ≤ account.length → ∃ q ∈ t.leaves [], (shardAt w q.1).containsAccount account = true ∧
      ∀ q' ∈ t.leaves [], (shardAt w q'.1).containsAccount account = true → q'.1 = q.1 := by
  have len : ∀ q ∈ t.leaves [], q.1.length ≤ 60 := fun q hq => by
    have := ShardTree.leaves_length hq
    simp at this; omega
  have hpart := (t.leaves_part []).imp_of_mem (S := fun a b => (shardAt w a.1).pfx.toNat < (shardAt w b.1).pfx.toNat ∧ (shardAt w a.1).intersects (shardAt w b.1) = false)
    fun {a b} ha hb h => ⟨shardAt_lt w (len a ha) (len b hb) h, by
      rw [← Bool.not_eq_true, ShardIdent.C46_intersects (shardAt_is w (len a ha)) (shardAt_is w (len b hb))]
      rintro ⟨_, h1⟩
      have := parted h
      rcases h1 with h1 | h1
      · exact this.1 h1
      · exact this.2 h1⟩
  refine ⟨hpart, fun account ha => ?_⟩
  obtain ⟨q, hq, hp⟩ := t.leaves_cover [] (bytesToBits account) (by rw [bytesToBits_length]; omega)
  rw [List.nil_append] at hp
  refine ⟨q, hq, ((ShardIdent.C46_contains (shardAt_is w (len q hq))).1 account ha).2 hp, fun q' hq' hc => ?_⟩
  have hp' := ((ShardIdent.C46_contains (shardAt_is w (len q' hq'))).1 account ha).1 hc
  have key : ∀ {l : List (Bits × α)}, l.Pairwise (fun x y => ∃ c, c ++ [false] <+: x.1 ∧ c ++ [true] <+: y.1) → ∀ a ∈ l, ∀ b ∈ l, (a.1 <+: b.1 ∨ b.1 <+: a.1) → b.1 = a.1 := by
    intro l hl
    induction l with
    | nil => intro a ha; cases ha
    | cons x xs ih =>
      rw [List.pairwise_cons] at hl
      intro a ha b hb hab
      rcases List.mem_cons.1 ha with rfl | ha
      · rcases List.mem_cons.1 hb with rfl | hb
        · rfl
        · have := parted (hl.1 b hb)
          rcases hab with h | h
          · exact absurd h this.1
          · exact absurd h this.2
      · rcases List.mem_cons.1 hb with rfl | hb
        · have := parted (hl.1 a (by assumption))
          rcases hab with h | h
          · exact absurd h this.2
          · exact absurd h this.1
        · exact ih hl.2 a ha b hb hab
  refine key (t.leaves_part []) q hq q' hq' ?_
  rcases Nat.le_total q.1.length q'.1.length with h | h
  · exact Or.inl (List.prefix_of_prefix_length_le hp hp' h)
  · exact Or.inr (List.prefix_of_prefix_length_le hp' hp h)

/-- Building a tree from a list of shards of which no two intersect: it succeeds just if they are all the leaves of one binary tree
in order (so together they cover the workchain), and the cell then holds that tree with the descriptions as given. -/
theorem C64_build {acc : Cell → Bool} (hacc : ∀ c, acc c = true) (w : Int) {l : List (Bits × ShardDescription)}
    (hok : ∀ x ∈ l, x.1.length ≤ 60 ∧ (shardDescription acc).ok x.2) (hl : l.Pairwise fun a b => Apart a.1 b.1) (root : Cell) :
    tryBuild acc (shardsOf w l) = .ok root ↔ ∃ t, l = t.leaves [] ∧ (t.map (leafSl acc)).In root ∧ root = treeCell acc t := by
  have all : ∀ {t : ShardTree ShardDescription}, l = t.leaves [] → t.All (shardDescription acc).ok := fun e x hx => (hok x (by rw [e]; exact hx)).2
  constructor
  · intro h
    obtain ⟨pre, t, post, e, hm⟩ := tryBuild_inv (fun x hx => (hok x hx).1) h
    have hpre : pre = [] := by
      rcases pre with _ | ⟨p, pre⟩
      · rfl
      · exfalso
        obtain ⟨x, hx, hxy⟩ := t.leaves_meet [] p.1
        rw [e, List.append_assoc, List.cons_append, List.pairwise_cons] at hl
        have := hl.1 x (by simp [hx])
        rw [List.nil_append] at hxy
        rcases hxy with h | h
        · exact this.2 h
        · exact this.1 h
    have hpost : post = [] := by
      rcases post with _ | ⟨p, post⟩
      · rfl
      · exfalso
        obtain ⟨x, hx, hxy⟩ := t.leaves_meet [] p.1
        rw [e, List.pairwise_append] at hl
        have := hl.2.2 x (by simp [hx]) p (by simp)
        rw [List.nil_append] at hxy
        rcases hxy with h | h
        · exact this.1 h
        · exact this.2 h
    rw [hpre, hpost, List.nil_append, List.append_nil] at e
    exact ⟨t, e, (made_in hm (all e)).1, made_unique hm (treeCell_made hacc (all e))⟩
  · rintro ⟨t, e, _, rfl⟩
    have hh : t.height ≤ 60 := by
      have := ShardTree.height_le (t := t) (p := []) (n := 60) fun x hx => (hok x (by rw [e]; exact hx)).1
      simpa using this
    have := tryBuild_tree (w := w) (treeCell_made hacc (all e)) hh []
    rw [List.append_nil, ← e] at this
    exact this

/-! ### All workchains -/

/-- Iteration over all workchains: if every entry of the dictionary refers to a tree, the workchains come in the order of their keys
as unsigned numbers, and for each all its shards. -/
theorem C64_all {acc : Cell → Bool} {d : Option Cell} {m : DMap} (hd : Represents acc 32 d m) (T : Bits → ShardTree Sl)
    (hT : ∀ k v, k.length = 32 → m k = some v → ∃ root y, v.refs = root :: y ∧ (T k).In root ∧ (T k).height ≤ 60) :
    ∃ ks : List Bits, (ks.Pairwise fun a b => natOfBits a < natOfBits b) ∧ (∀ k, k ∈ ks ↔ k.length = 32 ∧ (m k).isSome) ∧
      Yields ShardsIter.next (.new d) (ks.flatMap fun k => ((T k).leaves []).map fun q => .ok (shardAt (u32ToI32 (natOfBits k)) q.1, q.2)) := by
  obtain ⟨l, ⟨hs, hm⟩, hy⟩ := C24_iter acc (n := 32) (by decide) hd false false
  refine ⟨l.map (·.1), ?_, ?_, ?_⟩
  · rw [List.pairwise_map]
    refine hs.imp fun {a b} h => ?_
    unfold keyBefore keyInt at h
    simp at h
    exact h
  · intro k
    rw [List.mem_map]
    constructor
    · rintro ⟨⟨k, v⟩, h, rfl⟩
      obtain ⟨h1, h2⟩ := (hm k v).1 h
      exact ⟨h1, by rw [h2]; rfl⟩
    · rintro ⟨h1, h2⟩
      obtain ⟨v, hv⟩ := Option.isSome_iff_exists.1 h2
      exact ⟨(k, v), (hm k v).2 ⟨h1, hv⟩, rfl⟩
  · have := shardsOk_yields (ShardsOk.mk (tree := none) (w := 0) (x := []) (ts := l.map fun e => (e.1, T e.1)) hy (by simp) (fun q hq => by
      obtain ⟨h1, h2⟩ := zip_self hq
      obtain ⟨h3, h4⟩ := (hm q.1.1 q.1.2).1 h1
      rw [h2]
      exact hT _ _ h3 h4) (Or.inl ⟨rfl, rfl⟩))
    rw [List.nil_append, List.flatMap_map] at this
    rw [List.flatMap_map]
    exact this

/-- `from_shards`: the shards of any number of complete trees, in whatever order they come and in whatever order the hash map gives
the workchains, are stored, and iteration gives back all of them: workchain by workchain in the order of the keys. -/
theorem C64_from_shards {acc : Cell → Bool} (hacc : ∀ c, acc c = true) {trees : List (Int × ShardTree ShardDescription)} (hn : (trees.map (·.1)).Nodup)
    (ht : ∀ x ∈ trees, IsI32 x.1 ∧ x.2.height ≤ 60 ∧ x.2.All (shardDescription acc).ok) {shards : List (ShardIdent × ShardDescription)}
    (hp : shards.Perm (trees.flatMap fun x => shardsOf x.1 (x.2.leaves []))) {order : List Int} (ho : order.Perm (trees.map (·.1))) :
    ∃ d m, fromShards acc order shards = .ok d ∧ RepresentsC acc 32 d m ∧
      (∀ x ∈ trees, m (natBits 32 (i32ToU32 x.1)) = some ⟨[], [treeCell acc x.2]⟩) ∧
      ∃ ts : List (Int × ShardTree ShardDescription), (ts.Pairwise fun a b => i32ToU32 a.1 < i32ToU32 b.1) ∧ (∀ x, x ∈ ts ↔ x ∈ trees) ∧
        Yields (ShardsIter.parsed (loadDescr acc)) (.new d) (ts.flatMap fun x => (shardsOf x.1 (x.2.leaves [])).map .ok) := by
  -- the tree of each workchain
  let f : Int → Cell := fun w => match treeFor trees w with | some t => treeCell acc t | none => .mk false [] []
  have hf : ∀ x ∈ trees, f x.1 = treeCell acc x.2 := fun x hx => by
    show (match treeFor trees x.1 with | some t => treeCell acc t | none => _) = _
    rw [(treeFor_mem hn).2 hx]
  have hb : ∀ w ∈ order, tryBuild acc ((shards.filter fun x => x.1.workchain = w).mergeSort fun a b => a.1.le b.1) = .ok (f w) := by
    intro w hw
    obtain ⟨x, hx, rfl⟩ := List.mem_map.1 (ho.mem_iff.1 hw)
    obtain ⟨_, h2, h3⟩ := ht x hx
    have e := (hp.filter fun y => y.1.workchain = x.1)
    rw [filter_trees hn (t := x.2) hx] at e
    rw [sort_perm (w := x.1) (fun y hy => shardsOf_workchain hy) (shardsOf_sorted x.1 x.2 h2) e, hf x hx]
    have := tryBuild_tree (w := x.1) (treeCell_made hacc h3) h2 []
    rwa [List.append_nil] at this
  obtain ⟨d, hd, hr⟩ := fromShards_go hacc order hb (d := none) (m := fun _ => none) (fun k _ => rfl) (fun k v _ h => (by cases h))
  refine ⟨d, _, hd, hr, ?_, ?_⟩
  all_goals
    have hnod : order.reverse.Nodup := (List.reverse_perm order).nodup_iff.2 (ho.nodup_iff.2 hn)
    have hfind : ∀ w ∈ trees.map (·.1), order.reverse.find? (fun v => wcKey v = wcKey w) = some w := by
      intro w hw
      have hwo : w ∈ order.reverse := List.mem_reverse.2 (ho.mem_iff.2 hw)
      cases hq : order.reverse.find? (fun v => wcKey v = wcKey w) with
      | none =>
        rw [List.find?_eq_none] at hq
        exact absurd (hq w hwo) (by simp)
      | some v =>
        have h1 := List.find?_some hq
        have h2 := List.mem_of_find?_eq_some hq
        have h3 : v ∈ trees.map (·.1) := ho.mem_iff.1 (List.mem_reverse.1 h2)
        obtain ⟨x, hx, rfl⟩ := List.mem_map.1 hw
        obtain ⟨y, hy, rfl⟩ := List.mem_map.1 h3
        rw [wcKey_inj (ht y hy).1 (ht x hx).1 (by simpa using h1)]
  · intro x hx
    show (match order.reverse.find? (fun v => wcKey v = wcKey x.1) with | some w => some (⟨[], [f w]⟩ : Sl) | none => none) = _
    rw [hfind x.1 (List.mem_map_of_mem hx)]
    dsimp only
    rw [hf x hx]
  · let T : Bits → ShardTree ShardDescription := fun k => match treeFor trees (u32ToI32 (natOfBits k)) with | some t => t | none => .leaf ⟨⟨0, 0, 0, 0, [], [], ⟨false, false, false, false, false⟩, 0, 0, 0, 0, none⟩, ⟨0, none⟩, ⟨0, none⟩⟩
    have hTk : ∀ x ∈ trees, T (wcKey x.1) = x.2 := fun x hx => by
      show (match treeFor trees (u32ToI32 (natOfBits (wcKey x.1))) with | some t => t | none => _) = _
      rw [wcKey_wc (ht x hx).1, (treeFor_mem hn).2 hx]
    have key_of : ∀ k v, (match order.reverse.find? (fun v => wcKey v = k) with | some w => some (⟨[], [f w]⟩ : Sl) | none => none) = some v →
        ∃ x ∈ trees, k = wcKey x.1 ∧ v = ⟨[], [treeCell acc x.2]⟩ := by
      intro k v h
      cases hq : order.reverse.find? (fun v => wcKey v = k) with
      | none => rw [hq] at h; cases h
      | some w =>
        rw [hq] at h
        injection h with h
        have h2 := List.mem_of_find?_eq_some hq
        obtain ⟨x, hx, rfl⟩ := List.mem_map.1 (ho.mem_iff.1 (List.mem_reverse.1 h2))
        have h1 := List.find?_some hq
        exact ⟨x, hx, (by simpa using h1 : wcKey x.1 = k).symm, by rw [← h, hf x hx]⟩
    obtain ⟨ks, k1, k2, k3⟩ := C64_all (representsC_any hr) (fun k => (T k).map (leafSl acc)) (fun k v hk hv => by
      obtain ⟨x, hx, rfl, rfl⟩ := key_of k v hv
      obtain ⟨_, h2, h3⟩ := ht x hx
      refine ⟨treeCell acc x.2, [], rfl, ?_, ?_⟩
      · rw [hTk x hx]; exact (made_in (treeCell_made hacc h3) h3).1
      · rw [hTk x hx, map_height]; exact h2)
    have mem_ks : ∀ k, k ∈ ks ↔ ∃ x ∈ trees, k = wcKey x.1 := by
      intro k
      rw [k2]
      constructor
      · rintro ⟨_, h⟩
        obtain ⟨v, hv⟩ := Option.isSome_iff_exists.1 h
        obtain ⟨x, hx, e, _⟩ := key_of k v hv
        exact ⟨x, hx, e⟩
      · rintro ⟨x, hx, rfl⟩
        refine ⟨by simp [wcKey], ?_⟩
        show (match order.reverse.find? (fun v => wcKey v = wcKey x.1) with | some w => some (⟨[], [f w]⟩ : Sl) | none => none).isSome = true
        rw [hfind x.1 (List.mem_map_of_mem hx)]
        rfl
    have back : ∀ k ∈ ks, ∃ x ∈ trees, k = wcKey x.1 ∧ (u32ToI32 (natOfBits k), T k) = x := by
      intro k hk
      obtain ⟨x, hx, rfl⟩ := (mem_ks k).1 hk
      exact ⟨x, hx, rfl, by rw [wcKey_wc (ht x hx).1, hTk x hx]⟩
    refine ⟨ks.map fun k => (u32ToI32 (natOfBits k), T k), ?_, ?_, ?_⟩
    · rw [List.pairwise_map]
      refine k1.imp_of_mem fun {a b} ha hb h => ?_
      obtain ⟨x, hx, rfl, e1⟩ := back a ha
      obtain ⟨y, hy, rfl, e2⟩ := back b hb
      rw [e1, e2]
      unfold wcKey at h
      rwa [natOfBits_natBits, natOfBits_natBits, Nat.mod_eq_of_lt (ShardIdent.i32_lt _), Nat.mod_eq_of_lt (ShardIdent.i32_lt _)] at h
    · intro x
      rw [List.mem_map]
      constructor
      · rintro ⟨k, hk, rfl⟩
        obtain ⟨x, hx, _, e⟩ := back k hk
        rw [e]; exact hx
      · intro hx
        have hk : wcKey x.1 ∈ ks := (mem_ks _).2 ⟨x, hx, rfl⟩
        exact ⟨wcKey x.1, hk, by rw [wcKey_wc (ht x hx).1, hTk x hx]⟩
    · have := parsed_yields (f := loadDescr acc) (it := .new d)
        (l := ks.flatMap fun k => ((T k).leaves []).map fun q => (shardAt (u32ToI32 (natOfBits k)) q.1, leafSl acc q.2, q.2)) (by
          rw [List.map_flatMap]
          simp only [map_leaves, List.map_map] at k3 ⊢
          exact k3) (fun x hx => by
          obtain ⟨k, hk, hx⟩ := List.mem_flatMap.1 hx
          obtain ⟨q, hq, rfl⟩ := List.mem_map.1 hx
          obtain ⟨y, hy, _, e⟩ := back k hk
          have hok : (shardDescription acc).ok q.2 := (ht y hy).2.2 q (by rw [← e]; exact hq)
          refine loadDescr_leaf hok ?_ _
          have := descr_fits hok
          exact ⟨by have := this.1; simp [Enc.bits] at this; omega, by have := this.2; simp [Enc.bits] at this; omega⟩)
      rw [List.map_flatMap] at this
      rw [List.flatMap_map]
      unfold shardsOf
      simp only [List.map_map] at this ⊢
      exact this

/-! ### Where the code falls short -/

theorem drop_both {acc : Cell → Bool} {d : ShardDescription} {c r : Cell} {xs : List (ShardIdent × ShardDescription)} {x y z : ShardIdent}
    (h1 : x.isFull = false) (h2 : x.isRightChild = false) (h3 : y.isLeftChild = true)
    (hl : shardLeaf acc d = .ok c) (e : settle acc [(y, c), (x, c)] (z, c) = .ok (.root r)) :
    tryBuild acc ((x, d) :: (y, d) :: (z, d) :: xs) = .ok r := by
  rw [tryBuild, hl]
  dsimp only
  rw [h1, h2, if_neg (by decide), if_neg (by decide), build_cons (x := (y, d)) hl, afterTree, settle_left h3]
  dsimp only
  rw [build_cons (x := (z, d)) hl, afterTree, e]

/-- Every other shard of the list is ignored once the tree is complete: intersecting shards are accepted and silently lost. -/
theorem C64_dropped {acc : Cell → Bool} (hacc : ∀ c, acc c = true) {d : ShardDescription} (hd : (shardDescription acc).ok d) :
    let shard p := (shardAt 0 p, d)
    fromShards acc [0] [shard [false, false], shard [false], shard [true], shard [true, true]] = fromShards acc [0] [shard [false], shard [true]] ∧
    (shardAt 0 [true]).intersects (shardAt 0 [true, true]) = true := by
  refine ⟨?_, (ShardIdent.C46_intersects (shardAt_is 0 (by decide)) (shardAt_is 0 (by decide))).2 ⟨rfl, Or.inl ⟨[true], rfl⟩⟩⟩
  have hm : MadeFrom acc (.fork (.leaf d) (.leaf d)) _ := treeCell_made hacc (all_fork.2 ⟨fun x hx => by simp [ShardTree.leaves] at hx; rw [hx]; exact hd,
    fun x hx => by simp [ShardTree.leaves] at hx; rw [hx]; exact hd⟩)
  have hl : shardLeaf acc d = .ok _ := treeCell_made (t := .leaf d) hacc (fun x hx => by simp [ShardTree.leaves] at hx; rw [hx]; exact hd)
  have b2 : tryBuild acc [(shardAt 0 [false], d), (shardAt 0 [true], d)] = .ok (treeCell acc (.fork (.leaf d) (.leaf d))) := tryBuild_tree (w := 0) hm (by simp [ShardTree.height]) []
  have b3 : tryBuild acc [(shardAt 0 [false], d), (shardAt 0 [true], d), (shardAt 0 [true, true], d)] = .ok (treeCell acc (.fork (.leaf d) (.leaf d))) :=
    tryBuild_tree (w := 0) hm (by simp [ShardTree.height]) [(shardAt 0 [true, true], d)]
  have hlt : (shardAt 0 [false, false]).pfx.toNat < (shardAt 0 [false]).pfx.toNat ∧ (shardAt 0 [false]).pfx.toNat < (shardAt 0 [true]).pfx.toNat ∧
    (shardAt 0 [true]).pfx.toNat < (shardAt 0 [true, true]).pfx.toNat := by decide +kernel
  have f1 : (shardAt 0 [false, false]).isFull = false ∧ (shardAt 0 [false, false]).isRightChild = false ∧ (shardAt 0 [false]).isLeftChild = true := by decide +kernel
  have b4 : tryBuild acc [(shardAt 0 [false, false], d), (shardAt 0 [false], d), (shardAt 0 [true], d), (shardAt 0 [true, true], d)] = .ok (treeCell acc (.fork (.leaf d) (.leaf d))) :=
    drop_both f1.1 f1.2.1 f1.2.2 hl (by
      have e := settle_right (acc := acc) (w := 0) (q := []) (st := [(shardAt 0 [false, false], treeCell acc (.leaf d))]) (by decide) (shardEdge_ok hacc (treeCell acc (.leaf d)) (treeCell acc (.leaf d)))
      rw [List.nil_append, List.nil_append, if_pos rfl] at e
      exact e)
  have s2 := sort_perm (w := 0) (l := [(shardAt 0 [false], d), (shardAt 0 [true], d)]) (by simp [shardAt]) (by simp [hlt.2.1]) (List.Perm.refl _)
  have s4 := sort_perm (w := 0) (l := [(shardAt 0 [false, false], d), (shardAt 0 [false], d), (shardAt 0 [true], d), (shardAt 0 [true, true], d)]) (by simp [shardAt])
    (by simp only [List.pairwise_cons, List.mem_cons, List.not_mem_nil, or_false, forall_eq_or_imp, forall_eq, List.Pairwise.nil, and_true, false_implies, implies_true]; omega) (List.Perm.refl _)
  dsimp only
  unfold fromShards
  rw [fromShards.go, fromShards.go]
  have g2 : [(shardAt 0 [false], d), (shardAt 0 [true], d)].filter (fun x => decide (x.1.workchain = 0)) = [(shardAt 0 [false], d), (shardAt 0 [true], d)] := by
    rw [List.filter_eq_self]; simp [shardAt]
  have g4 : [(shardAt 0 [false, false], d), (shardAt 0 [false], d), (shardAt 0 [true], d), (shardAt 0 [true, true], d)].filter (fun x => decide (x.1.workchain = 0)) =
      [(shardAt 0 [false, false], d), (shardAt 0 [false], d), (shardAt 0 [true], d), (shardAt 0 [true, true], d)] := by
    rw [List.filter_eq_self]; simp [shardAt]
  rw [g2, g4, s2, s4, b2, b4]
  rfl

/-- An ordinary cell without data holds no tree, but iteration over it ends at once without an error. -/
theorem C64_silent (w : Int) (refs : List Cell) :
    Yields ShardTreeIter.next (.new w (.mk false [] refs)) [] ∧ ¬ ∃ t : ShardTree Sl, t.In (.mk false [] refs) := by
  have hy := treeOk_yields (treeOk_new w (.mk false [] refs))
  refine ⟨hy, ?_⟩
  rintro ⟨t, h⟩
  cases t with
  | leaf s => cases h.2.1
  | fork l r => obtain ⟨_, ⟨x, e⟩, _⟩ := h; cases e

/-- The shards of the basechain come before those of the masterchain, although the identifiers compare the other way around. -/
theorem C64_order {acc : Cell → Bool} (hacc : ∀ c, acc c = true) {d d' : ShardDescription} (hd : (shardDescription acc).ok d) (hd' : (shardDescription acc).ok d') :
    (∃ dict, fromShards acc [-1, 0] [(shardAt (-1) [], d'), (shardAt 0 [], d)] = .ok dict ∧
      Yields (ShardsIter.parsed (loadDescr acc)) (.new dict) [.ok (shardAt 0 [], d), .ok (shardAt (-1) [], d')]) ∧
    (shardAt (-1) []).le (shardAt 0 []) = true ∧ (shardAt 0 []).le (shardAt (-1) []) = false := by
  refine ⟨?_, by decide +kernel, by decide +kernel⟩
  obtain ⟨dict, m, h1, _, _, ts, h2, h3, h4⟩ := C64_from_shards hacc (trees := [(-1, .leaf d'), (0, .leaf d)]) (by simp) (by
    intro x hx
    simp only [List.mem_cons, List.not_mem_nil, or_false] at hx
    rcases hx with rfl | rfl
    · exact ⟨(by unfold IsI32; decide : IsI32 (-1)), by simp [ShardTree.height], fun x hx => by simp [ShardTree.leaves] at hx; rw [hx]; exact hd'⟩
    · exact ⟨(by unfold IsI32; decide : IsI32 0), by simp [ShardTree.height], fun x hx => by simp [ShardTree.leaves] at hx; rw [hx]; exact hd⟩)
    (shards := [(shardAt (-1) [], d'), (shardAt 0 [], d)]) (List.Perm.refl _) (order := [-1, 0]) (List.Perm.refl _)
  refine ⟨dict, h1, ?_⟩
  have e : ts = [(0, .leaf d), (-1, .leaf d')] := by
    have e0 : i32ToU32 0 = 0 := rfl
    have e1 : i32ToU32 (-1) = 4294967295 := rfl
    have m0 := (h3 (0, .leaf d)).2 (by simp)
    have m1 := (h3 (-1, .leaf d')).2 (by simp)
    have only : ∀ x ∈ ts, x = (-1, .leaf d') ∨ x = (0, .leaf d) := fun x hx => by simpa using (h3 x).1 hx
    rcases ts with _ | ⟨x, _ | ⟨y, _ | ⟨z, ts⟩⟩⟩
    · cases m0
    · simp at m0 m1
      rw [← m0] at m1; cases m1
    · simp only [List.pairwise_cons, List.mem_cons, List.not_mem_nil, or_false, forall_eq] at h2
      rcases only x (by simp) with rfl | rfl <;> rcases only y (by simp) with rfl | rfl
      · exact absurd h2.1 (Nat.lt_irrefl _)
      · exact absurd h2.1 (by dsimp only; rw [e0, e1]; decide)
      · rfl
      · exact absurd h2.1 (Nat.lt_irrefl _)
    · exfalso
      simp only [List.pairwise_cons, List.mem_cons] at h2
      have a := h2.1 y (Or.inl rfl)
      have b := h2.2.1 z (Or.inl rfl)
      have c := h2.1 z (Or.inr (Or.inl rfl))
      rcases only x (by simp) with rfl | rfl <;> rcases only y (by simp) with rfl | rfl <;> rcases only z (by simp) with rfl | rfl <;>
        simp only [e0, e1] at a b c <;> omega
  rw [e] at h4
  exact h4

/-- An error in the tree of one workchain does not end the iteration over all of them, unlike any other error. -/
theorem C64_after_error :
    let d := (runHistory (fun _ => true) 32 none [.insert .set (natBits 32 0) ⟨[], [.mk true [] []]⟩, .insert .set (natBits 32 1) ⟨[], [.mk false [false] []]⟩]).2
    ((calls ShardsIter.next 3 (.new d)).map fun x => x.map fun y => (y.toOption.map fun z => z.1.workchain)) = [some none, some (some 1), none] := by
  decide +kernel

/-- The parser of block identifiers does not look at the tag: it accepts what no description begins with. -/
theorem C64_no_tag : (parseBlockId (shardAt 0 []) ⟨List.replicate 940 false, []⟩).isOk = true ∧ (loadDescr (fun _ => true) (shardAt 0 []) ⟨List.replicate 940 false, []⟩).isOk = false := by
  decide +kernel

/-! ### The hypotheses are met -/

/-- A description with all its parts; its currencies are in the child cell. -/
def exShard : ShardDescription :=
  ⟨⟨7, 9, 47244640000, 47244640256, List.replicate 32 0x5a, List.replicate 32 0xc3, ⟨true, false, false, true, true⟩, 3, 2 ^ 63, 8, 1700000000, some ⟨true, 1700000100, 60⟩⟩, ⟨1000, none⟩, ⟨5, none⟩⟩

theorem exShard_ok : (shardDescription (fun _ => true)).ok exShard := by
  refine ⟨⟨?_, ?_, ?_, ?_, rfl, rfl, trivial, ?_, ?_, ?_, ?_, ?_⟩, ?_, ?_, rfl⟩
  all_goals first
    | decide
    | exact ⟨trivial, (by decide : 1700000100 < 2 ^ 32), (by decide : 60 < 2 ^ 32)⟩
    | exact ⟨(by show _ ≤ _; decide), (by show _ ≤ _; decide)⟩
    | tlb_ok

/-- A tree of three shards and one of a single shard. -/
def exForest : List (Int × ShardTree ShardDescription) := [(0, .fork (.fork (.leaf exShard) (.leaf exShard)) (.leaf exShard)), (-1, .leaf exShard)]

theorem exForest_ok : (exForest.map (·.1)).Nodup ∧ ∀ x ∈ exForest, IsI32 x.1 ∧ x.2.height ≤ 60 ∧ x.2.All (shardDescription (fun _ => true)).ok := by
  refine ⟨by decide, fun x hx => ?_⟩
  simp only [exForest, List.mem_cons, List.not_mem_nil, or_false] at hx
  rcases hx with rfl | rfl
  · refine ⟨by unfold IsI32; decide, by simp [ShardTree.height], fun x hx => ?_⟩
    simp [ShardTree.leaves] at hx
    rcases hx with rfl | rfl | rfl <;> exact exShard_ok
  · refine ⟨by unfold IsI32; decide, by simp [ShardTree.height], fun x hx => ?_⟩
    simp [ShardTree.leaves] at hx
    rw [hx]; exact exShard_ok

example : ∃ d, fromShards (fun _ => true) [-1, 0] (exForest.flatMap fun x => shardsOf x.1 (x.2.leaves [])).reverse = .ok d := by
  obtain ⟨d, _, h, _⟩ := C64_from_shards (fun _ => rfl) exForest_ok.1 exForest_ok.2 (List.reverse_perm _) (order := [-1, 0]) (List.Perm.swap _ _ _)
  exact ⟨d, h⟩

example : (ShardTree.map (leafSl fun _ => true) (.fork (.leaf exShard) (.leaf exShard))).In (treeCell (fun _ => true) (.fork (.leaf exShard) (.leaf exShard))) :=
  (made_in (treeCell_made (fun _ => rfl) (exForest_all)) exForest_all).1
where
  exForest_all : (ShardTree.fork (.leaf exShard) (.leaf exShard)).All (shardDescription (fun _ => true)).ok := fun x hx => by
    simp [ShardTree.leaves] at hx
    rcases hx with rfl | rfl <;> exact exShard_ok

example : ((leafSl (fun _ => true) exShard).bits.length ≤ 1023 ∧ (leafSl (fun _ => true) exShard).refs.length ≤ 4) ∧ (loadDescr (fun _ => true) (shardAt 0 []) (leafSl (fun _ => true) exShard)).isOk = true := by
  decide +kernel

end Verif
