import Verif.ShardTreeBuild
import Verif.CurrencyProps
/-
All workchains: grouping, the dictionary, and iteration over it (helper lemmas).
-/
set_option linter.unusedVariables false
set_option linter.unusedSimpArgs false
namespace Verif

/-! ### Cells of trees -/

theorem bit_then_stored {acc : Cell → Bool} {w : Wr Cell Unit} {e : Enc Cell} (hw : Writes w e) {c : Cell} (h : w.toSl >>= buildSl acc = .ok c) :
    c = Tlb.cellOf e ∧ e.Fits := by
  by_cases hf : e.Fits
  · rw [Wr.toSl_ok hw hf] at h
    have h : buildSl acc ⟨e.1, e.2⟩ = .ok c := h
    unfold buildSl at h
    split at h
    · injection h with h; exact ⟨h.symm, hf⟩
    · cases h
  · have h0 : (CellB.new : CellB Cell).contents = Enc.nil := rfl
    obtain ⟨b', r, _⟩ := (hw .new CellB.wf_new).2 (by rw [h0, Enc.nil_append]; exact hf)
    unfold Wr.toSl at h
    rw [r] at h
    cases h

/-- The contents of the leaf for a description. -/
def leafSl (acc : Cell → Bool) (d : ShardDescription) : Sl := ⟨((shardDescription acc).enc d).1, ((shardDescription acc).enc d).2⟩

theorem shardLeaf_inv {acc : Cell → Bool} {d : ShardDescription} (hd : (shardDescription acc).ok d) {c : Cell} (h : shardLeaf acc d = .ok c) :
    c = .mk false (false :: (leafSl acc d).bits) (leafSl acc d).refs ∧ ((shardDescription acc).enc d).Fits := by
  unfold shardLeaf at h
  obtain ⟨h1, h2⟩ := bit_then_stored ((Wr.writes_bit false).writes.seq ((shardDescription_sound acc).st.writes d hd)) h
  refine ⟨?_, ?_⟩
  · rw [h1]
    show Cell.mk false ([false] ++ _) ([] ++ _) = _
    rfl
  · have h2 : ([false] ++ ((shardDescription acc).enc d).1).length ≤ 1023 ∧ ([] ++ ((shardDescription acc).enc d).2).length ≤ 4 := h2
    simp at h2
    exact ⟨by omega, h2.2⟩

theorem shardEdge_inv {acc : Cell → Bool} {a b c : Cell} (h : shardEdge acc a b = .ok c) : c = .mk false [true] [a, b] := by
  unfold shardEdge at h
  exact (bit_then_stored ((Wr.writes_bit true).writes.seq ((Wr.writes_ref a).writes.seq (Wr.writes_ref b).writes)) h).1

theorem shardEdge_ok {acc : Cell → Bool} (hacc : ∀ c, acc c = true) (a b : Cell) : shardEdge acc a b = .ok (.mk false [true] [a, b]) := by
  unfold shardEdge
  rw [Wr.toSl_ok ((Wr.writes_bit true).writes.seq ((Wr.writes_ref a).writes.seq (Wr.writes_ref b).writes)) (by constructor <;> simp [Enc.bits, Enc.ref])]
  show buildSl acc _ = _
  unfold buildSl
  rw [if_pos (hacc _)]
  rfl

/-- All the values of a tree. -/
def ShardTree.All {α : Type} (P : α → Prop) (t : ShardTree α) : Prop := ∀ x ∈ t.leaves [], P x.2

theorem leaves_snd {α : Type} (t : ShardTree α) (p q : Bits) : (t.leaves p).map (·.2) = (t.leaves q).map (·.2) := by
  induction t generalizing p q with
  | leaf a => rfl
  | fork l r ih1 ih2 => rw [ShardTree.leaves, ShardTree.leaves, List.map_append, List.map_append, ih1 _ (q ++ [false]), ih2 _ (q ++ [true])]

theorem all_of {α : Type} {P : α → Prop} {t : ShardTree α} {p : Bits} : t.All P ↔ ∀ x ∈ t.leaves p, P x.2 := by
  have e := leaves_snd t p []
  constructor
  · intro h x hx
    have : x.2 ∈ (t.leaves p).map (·.2) := List.mem_map_of_mem hx
    rw [e] at this
    obtain ⟨y, hy, e⟩ := List.mem_map.1 this
    rw [← e]; exact h y hy
  · intro h x hx
    have : x.2 ∈ (t.leaves []).map (·.2) := List.mem_map_of_mem hx
    rw [← e] at this
    obtain ⟨y, hy, e⟩ := List.mem_map.1 this
    rw [← e]; exact h y hy

theorem all_fork {α : Type} {P : α → Prop} {l r : ShardTree α} : (ShardTree.fork l r).All P ↔ l.All P ∧ r.All P := by
  rw [all_of (t := l) (p := [false]), all_of (t := r) (p := [true])]
  unfold ShardTree.All
  rw [ShardTree.leaves]
  constructor
  · intro h; exact ⟨fun x hx => h x (List.mem_append_left _ hx), fun x hx => h x (List.mem_append_right _ hx)⟩
  · rintro ⟨a, b⟩ x hx
    rcases List.mem_append.1 hx with h | h
    · exact a x h
    · exact b x h

theorem made_in {acc : Cell → Bool} {t : ShardTree ShardDescription} {c : Cell} (h : MadeFrom acc t c) (hok : t.All (shardDescription acc).ok) :
    (t.map (leafSl acc)).In c ∧ t.All fun d => ((shardDescription acc).enc d).Fits := by
  induction t generalizing c with
  | leaf d =>
    have hd : (shardDescription acc).ok d := hok ([], d) (by simp [ShardTree.leaves])
    obtain ⟨e, hf⟩ := shardLeaf_inv hd h
    refine ⟨?_, fun x hx => ?_⟩
    · rw [e]; exact ⟨rfl, rfl, rfl⟩
    · simp [ShardTree.leaves] at hx; rw [hx]; exact hf
  | fork l r ih1 ih2 =>
    obtain ⟨a, b, ha, hb, hc⟩ := h
    obtain ⟨o1, o2⟩ := all_fork.1 hok
    obtain ⟨a1, a2⟩ := ih1 ha o1
    obtain ⟨b1, b2⟩ := ih2 hb o2
    refine ⟨?_, all_fork.2 ⟨a2, b2⟩⟩
    rw [shardEdge_inv hc]
    exact ⟨rfl, ⟨[], rfl⟩, a, b, [], rfl, a1, b1⟩

theorem map_leaves {α β : Type} (f : α → β) (t : ShardTree α) (p : Bits) : (t.map f).leaves p = (t.leaves p).map fun q => (q.1, f q.2) := by
  induction t generalizing p with
  | leaf a => rfl
  | fork l r ih1 ih2 => rw [ShardTree.map, ShardTree.leaves, ShardTree.leaves, List.map_append, ih1, ih2]

theorem map_height {α β : Type} (f : α → β) (t : ShardTree α) : (t.map f).height = t.height := by
  induction t with
  | leaf a => rfl
  | fork l r ih1 ih2 => simp [ShardTree.map, ShardTree.height, ih1, ih2]

theorem loadDescr_leaf {acc : Cell → Bool} {d : ShardDescription} (hd : (shardDescription acc).ok d) (hf : ((shardDescription acc).enc d).Fits) (s : ShardIdent) :
    loadDescr acc s (leafSl acc d) = .ok d := by
  obtain ⟨w, ct⟩ := Tlb.reader_contents (b := ((shardDescription acc).enc d).1) (r := ((shardDescription acc).enc d).2) hf
  obtain ⟨s', q, _⟩ := (shardDescription_sound acc).ld.reads d _ ((shardDescription_sound acc).st.canon d hd) _ Enc.nil w (by rw [ct, Enc.append_nil])
  unfold loadDescr leafSl
  rw [q]

/-! ### Sorting -/

theorem le_trans' (a b c : ShardIdent × ShardDescription) (h1 : a.1.le b.1 = true) (h2 : b.1.le c.1 = true) : a.1.le c.1 = true := by
  unfold ShardIdent.le at *
  simp only [decide_eq_true_eq] at *
  omega

theorem le_total' (a b : ShardIdent × ShardDescription) : (a.1.le b.1 || b.1.le a.1) = true := by
  unfold ShardIdent.le
  simp only [Bool.or_eq_true, decide_eq_true_eq]
  omega

/-- Sorting a permutation of a strictly sorted list gives that list. -/
theorem sort_perm {l l' : List (ShardIdent × ShardDescription)} {w : Int} (hw : ∀ x ∈ l, x.1.workchain = w)
    (hl : l.Pairwise fun a b => a.1.pfx.toNat < b.1.pfx.toNat) (hp : l'.Perm l) :
    (l'.mergeSort fun a b => a.1.le b.1) = l := by
  have h1 := List.mergeSort_perm l' fun a b => a.1.le b.1
  have h2 := List.pairwise_mergeSort (le := fun (a b : ShardIdent × ShardDescription) => a.1.le b.1) le_trans' le_total' l'
  have h3 : l.Pairwise fun a b => a.1.le b.1 = true := hl.imp_of_mem fun ha hb h => by
    unfold ShardIdent.le
    rw [hw _ ha, hw _ hb]
    simp; omega
  refine List.Perm.eq_of_pairwise (le := fun a b => a.1.le b.1 = true) ?_ h2 h3 (h1.trans hp)
  intro a b ha hb hab hba
  have ha : a ∈ l := (h1.trans hp).mem_iff.1 ha
  unfold ShardIdent.le at hab hba
  rw [hw _ ha, hw _ hb] at hab hba
  simp at hab hba
  have he : a.1.pfx.toNat = b.1.pfx.toNat := by omega
  -- two members with the same prefix are the same
  clear h1 h2 h3 hp hab hba hw
  induction l with
  | nil => cases ha
  | cons x xs ih =>
    rw [List.pairwise_cons] at hl
    rcases List.mem_cons.1 ha with rfl | ha
    · rcases List.mem_cons.1 hb with h | hb
      · exact h.symm
      · have := hl.1 _ hb; omega
    · rcases List.mem_cons.1 hb with rfl | hb
      · have := hl.1 _ ‹a ∈ xs›; omega
      · exact ih hl.2 hb ha

theorem shardsOf_sorted (w : Int) (t : ShardTree ShardDescription) (h : t.height ≤ 60) :
    (shardsOf w (t.leaves [])).Pairwise (fun a b => a.1.pfx.toNat < b.1.pfx.toNat) := by
  unfold shardsOf
  rw [List.pairwise_map]
  refine (t.leaves_part []).imp_of_mem fun ha hb h => ?_
  have l1 := ShardTree.leaves_length ha
  have l2 := ShardTree.leaves_length hb
  simp at l1 l2
  exact shardAt_lt w (by omega) (by omega) h

theorem shardsOf_workchain {w : Int} {l : List (Bits × ShardDescription)} {x : ShardIdent × ShardDescription} (h : x ∈ shardsOf w l) : x.1.workchain = w := by
  unfold shardsOf at h
  obtain ⟨q, _, rfl⟩ := List.mem_map.1 h
  rfl

theorem filter_trees {w : Int} {t : ShardTree ShardDescription} : ∀ {trees : List (Int × ShardTree ShardDescription)}, (trees.map (·.1)).Nodup → (w, t) ∈ trees →
    (trees.flatMap fun x => shardsOf x.1 (x.2.leaves [])).filter (fun x => x.1.workchain = w) = shardsOf w (t.leaves []) := by
  have none_of : ∀ (trees : List (Int × ShardTree ShardDescription)), w ∉ trees.map (·.1) →
      (trees.flatMap fun x => shardsOf x.1 (x.2.leaves [])).filter (fun x => x.1.workchain = w) = [] := by
    intro trees h
    rw [List.filter_eq_nil_iff]
    intro x hx hxw
    obtain ⟨y, hy, hxy⟩ := List.mem_flatMap.1 hx
    have := shardsOf_workchain hxy
    simp only [decide_eq_true_eq] at hxw
    exact h (List.mem_map.2 ⟨y, hy, by rw [← this, hxw]⟩)
  intro trees
  induction trees with
  | nil => intro _ h; cases h
  | cons y ys ih =>
    intro hn h
    rw [List.map_cons, List.nodup_cons] at hn
    rw [List.flatMap_cons, List.filter_append]
    rcases List.mem_cons.1 h with rfl | h
    · rw [none_of ys hn.1, List.append_nil, List.filter_eq_self.2]
      intro x hx
      simpa using shardsOf_workchain hx
    · rw [ih hn.2 h]
      have : (shardsOf y.1 (y.2.leaves [])).filter (fun x => x.1.workchain = w) = [] := by
        rw [List.filter_eq_nil_iff]
        intro x hx hxw
        simp only [decide_eq_true_eq] at hxw
        have := shardsOf_workchain hx
        exact hn.1 (List.mem_map.2 ⟨(w, t), h, by dsimp only; rw [← hxw, this]⟩)
      rw [this, List.nil_append]

/-! ### The dictionary of workchains -/

/-- The key of a workchain. -/
def wcKey (w : Int) : Bits := natBits 32 (i32ToU32 w)

theorem wcKey_wc {w : Int} (h : IsI32 w) : u32ToI32 (natOfBits (wcKey w)) = w := by
  unfold wcKey
  rw [natOfBits_natBits, Nat.mod_eq_of_lt (ShardIdent.i32_lt w), ShardIdent.i32_round h]

theorem wcKey_inj {w v : Int} (hw : IsI32 w) (hv : IsI32 v) (h : wcKey w = wcKey v) : w = v := by
  rw [← wcKey_wc hw, h, wcKey_wc hv]

/-- Inserting a reference never fails. -/
theorem insert_ok {acc : Cell → Bool} (hacc : ∀ c, acc c = true) {d : Option Cell} {m : DMap} (hd : RepresentsC acc 32 d m)
    (hv : ∀ k v, k.length = 32 → m k = some v → SmallVal 0 v) {k : Bits} (hk : k.length = 32) (c : Cell) :
    (∃ b, (dictInsert acc d k 32 ⟨[], [c]⟩ .set).1 = .ok b) ∧ RepresentsC acc 32 (dictInsert acc d k 32 ⟨[], [c]⟩ .set).2 (m.put k (some ⟨[], [c]⟩)) := by
  have hfit : FitsAll acc 32 (SmallVal 0) := fun t h1 h2 h3 => canon_small_fits hacc (N := 32) (B := 0) (by decide) (Nat.le_refl 32) h1 h2 h3
  have hw : m.writes .set k = true := by unfold DMap.writes; cases m k <;> rfl
  have hs : (DOp.insert .set k ⟨[], [c]⟩).spec m = (.flag true, m.put k (some ⟨[], [c]⟩)) := by
    show (DOut.flag (m.writes .set k), if m.writes .set k then m.put k (some ⟨[], [c]⟩) else m) = _
    rw [hw]; rfl
  rcases C22_step acc (n := 32) (by decide) hd (.insert .set k ⟨[], [c]⟩) with ⟨_, h1, h2⟩ | ⟨h1 | h1, _, _⟩
  · rw [hs] at h1 h2
    have h1 : (dictInsert acc d k 32 ⟨[], [c]⟩ .set).1.map DOut.flag = .ok (.flag true) := h1
    refine ⟨?_, h2⟩
    cases hx : (dictInsert acc d k 32 ⟨[], [c]⟩ .set).1 with
    | error e => rw [hx] at h1; cases h1
    | ok b => exact ⟨b, rfl⟩
  · exact absurd hk h1
  · rw [hs] at h1
    exact absurd (representable_put hfit hd hv hk (v := ⟨[], [c]⟩) ⟨by simp, by simp⟩) h1

/-- The dictionary after the workchains `ws`, each with the cell `f w`. -/
theorem fromShards_go {acc : Cell → Bool} (hacc : ∀ c, acc c = true) {shards : List (ShardIdent × ShardDescription)} {f : Int → Cell} :
    ∀ (ws : List Int), (∀ w ∈ ws, tryBuild acc ((shards.filter fun x => x.1.workchain = w).mergeSort fun a b => a.1.le b.1) = .ok (f w)) →
    ∀ {d : Option Cell} {m : DMap}, RepresentsC acc 32 d m → (∀ k v, k.length = 32 → m k = some v → SmallVal 0 v) →
    ∃ d', fromShards.go acc shards ws d = .ok d' ∧ RepresentsC acc 32 d' (fun k => match ws.reverse.find? fun w => wcKey w = k with | some w => some ⟨[], [f w]⟩ | none => m k) := by
  intro ws
  induction ws with
  | nil => intro _ d m hd _; exact ⟨d, rfl, hd⟩
  | cons w ws ih =>
    intro hb d m hd hv
    obtain ⟨⟨b, h1⟩, h2⟩ := insert_ok hacc hd hv (k := wcKey w) (by simp [wcKey]) (f w)
    have hv' : ∀ k v, k.length = 32 → (m.put (wcKey w) (some ⟨[], [f w]⟩)) k = some v → SmallVal 0 v := by
      intro k v hk h
      unfold DMap.put at h
      split at h
      · injection h with h; subst h; exact ⟨by simp, by simp⟩
      · exact hv k v hk h
    obtain ⟨d', h3, h4⟩ := ih (fun w hw => hb w (List.mem_cons_of_mem _ hw)) h2 hv'
    refine ⟨d', ?_, ?_⟩
    · rw [fromShards.go, hb w List.mem_cons_self]
      show (match (dictInsert acc d (wcKey w) 32 ⟨[], [f w]⟩ .set).1 with
        | .error e => (.error e : Except Err (Option Cell))
        | .ok _ => fromShards.go acc shards ws (dictInsert acc d (wcKey w) 32 ⟨[], [f w]⟩ .set).2) = _
      rw [h1]
      exact h3
    · have e : (fun k => match (w :: ws).reverse.find? fun w => wcKey w = k with | some w => some ⟨[], [f w]⟩ | none => m k) =
          (fun k => match ws.reverse.find? fun w => wcKey w = k with | some w => some ⟨[], [f w]⟩ | none => (m.put (wcKey w) (some ⟨[], [f w]⟩)) k : DMap) := by
        funext k
        rw [List.reverse_cons, List.find?_append]
        cases hq : ws.reverse.find? fun w => wcKey w = k with
        | some u => rfl
        | none =>
          unfold DMap.put
          by_cases hk : k = wcKey w
          · rw [if_pos hk]
            simp [hk]
          · have : ¬ wcKey w = k := fun e => hk e.symm
            rw [if_neg hk]
            simp [this]
      rw [e]; exact h4

/-! ### Iteration over all workchains -/

/-- The entry of a workchain and what its tree lists. -/
def Entry (e : Bits × Sl) (t : ShardTree Sl) : Prop := ∃ root y, e.2.refs = root :: y ∧ t.In root ∧ t.height ≤ 60

def entryItems (e : Bits × ShardTree Sl) : List (Except Err (ShardIdent × Sl)) :=
  (e.2.leaves []).map fun q => .ok (shardAt (u32ToI32 (natOfBits e.1)) q.1, q.2)

theorem run_tree {w : Int} {root : Cell} {t : ShardTree Sl} (h : t.In root) (hh : t.height ≤ 60) :
    shardRun w root = (t.leaves []).map fun q => .ok (shardAt w q.1, q.2) := by
  unfold shardRun
  rw [if_neg, walk_ok_iff.2 ⟨t, h, hh, rfl⟩]
  · simp [shardItems]
  · rintro ⟨_, h2⟩
    cases t with
    | leaf s => obtain ⟨_, e, _⟩ := h; rw [e] at h2; cases h2
    | fork l r => obtain ⟨_, ⟨x, e⟩, _⟩ := h; rw [e] at h2; cases h2

theorem go_item {fuel : Nat} {it : ShardsIter} {t : ShardTreeIter} {x : Except Err (ShardIdent × Sl)} (h : it.tree = some t) (hx : t.next.1 = some x) :
    shardsGo (fuel + 1) it = (some x, { it with tree := some t.next.2 }) := by
  rw [shardsGo, h]
  show (match (some t.next : Option (Option (Except Err (ShardIdent × Sl)) × ShardTreeIter)) with
    | some (some x, t) => (some x, { it with tree := some t })
    | _ => _) = _
  generalize t.next = o at hx ⊢
  obtain ⟨a, b⟩ := o
  dsimp only at hx
  subst hx
  rfl

/-- No item is left in the current tree. -/
def TreeDone (o : Option ShardTreeIter) : Prop := ∀ t, o = some t → t.next.1 = none

theorem go_dict {fuel : Nat} {it : ShardsIter} (h : TreeDone it.tree) :
    shardsGo (fuel + 1) it = match it.dictIter.next with
      | (none, d) => (none, { it with dictIter := d, tree := none })
      | (some (.error e), d) => (some (.error e), { it with dictIter := d, tree := none, status := .broken })
      | (some (.ok (key, value)), d) => match value.refs with
        | [] => (some (.error .cellUnderflow), { it with dictIter := d, tree := none, status := .broken })
        | root :: _ => shardsGo fuel { it with dictIter := d, tree := some (.new (u32ToI32 (natOfBits key)) root) } := by
  rw [shardsGo]
  cases ht : it.tree with
  | none => rfl
  | some t =>
    have := h t ht
    show (match (some t.next : Option (Option (Except Err (ShardIdent × Sl)) × ShardTreeIter)) with
      | some (some x, t) => _
      | _ => _) = _
    generalize t.next = o at this ⊢
    obtain ⟨a, b⟩ := o
    dsimp only at this
    subst this
    rfl

inductive ShardsOk : ShardsIter → List (Except Err (ShardIdent × Sl)) → Prop
  | mk {di : RawIter} {tree : Option ShardTreeIter} {w : Int} {x : List (Except Err (ShardIdent × Sl))} {es : List (Bits × Sl)} {ts : List (Bits × ShardTree Sl)}
      (hd : Yields RawIter.next di (es.map .ok)) (ht : es.map (·.1) = ts.map (·.1)) (he : ∀ q ∈ es.zip ts, Entry q.1 q.2.2)
      (hx : (tree = none ∧ x = []) ∨ ∃ t, tree = some t ∧ TreeOk w t x) : ShardsOk ⟨di, tree, .valid⟩ (x ++ ts.flatMap entryItems)

theorem shardsOk_next {it : ShardsIter} {l : List (Except Err (ShardIdent × Sl))} (h : ShardsOk it l) : it.next.1 = l.head? ∧ ShardsOk it.next.2 l.tail := by
  obtain ⟨hd, ht, he, hx⟩ := h
  rename_i di tree w x es ts
  obtain ⟨n, hn⟩ : ∃ n, 2 ^ 32 + 2 = n + 2 := ⟨2 ^ 32, rfl⟩
  have e : ShardsIter.next ⟨di, tree, .valid⟩ = shardsGo (n + 2) ⟨di, tree, .valid⟩ := by rw [← hn]; rfl
  rw [e]
  rcases x with _ | ⟨a, x⟩
  · have hdone : TreeDone tree := by
      rcases hx with ⟨rfl, _⟩ | ⟨t, rfl, ht⟩
      · intro t h; cases h
      · intro t' h; injection h with h; subst h; exact (treeOk_next ht).1
    rw [go_dict (it := ⟨di, tree, .valid⟩) hdone]
    rcases es with _ | ⟨kv, es⟩
    · cases ts with
      | cons q ts => cases ht
      | nil =>
        obtain ⟨h1, h2⟩ := yields_done hd
        dsimp only
        generalize di.next = o at h1 h2 ⊢
        obtain ⟨a, b⟩ := o
        dsimp only at h1 h2 ⊢
        subst h1
        exact ⟨rfl, ShardsOk.mk (w := w) (x := []) (es := []) (ts := []) h2 rfl (fun q hq => (by cases hq)) (Or.inl ⟨rfl, rfl⟩)⟩
    · rcases ts with _ | ⟨q, ts⟩
      · cases ht
      · obtain ⟨h1, h2⟩ := yields_cons (x := Except.ok (ε := Err) kv) (l := es.map .ok) hd
        rw [List.map_cons, List.map_cons] at ht
        injection ht with hk ht
        obtain ⟨root, y, hr, hin, hh⟩ := he (kv, q) (by simp)
        have he' : ∀ q ∈ es.zip ts, Entry q.1 q.2.2 := fun p hp => he p (by rw [List.zip_cons_cons]; exact List.mem_cons_of_mem _ hp)
        dsimp only
        generalize di.next = o at h1 h2 ⊢
        obtain ⟨a, b⟩ := o
        obtain ⟨k, v⟩ := kv
        dsimp only at h1 h2 hk hr ⊢
        subst h1
        dsimp only
        rw [hr]
        dsimp only
        have hnew := treeOk_new (u32ToI32 (natOfBits k)) root
        rw [run_tree hin hh] at hnew
        have hitems : entryItems q = (q.2.leaves []).map fun p => .ok (shardAt (u32ToI32 (natOfBits k)) p.1, p.2) := by unfold entryItems; rw [hk]
        obtain ⟨i1, i2⟩ := treeOk_next hnew
        rw [← hitems] at i1 i2
        rw [List.nil_append, List.flatMap_cons]
        rcases hc : entryItems q with _ | ⟨c, cs⟩
        · exfalso
          rw [hitems] at hc
          exact ShardTree.leaves_ne q.2 [] (List.map_eq_nil_iff.1 hc)
        · rw [hc] at i1 i2
          rw [go_item (it := ⟨b, some _, .valid⟩) rfl i1]
          exact ⟨rfl, ShardsOk.mk (w := u32ToI32 (natOfBits k)) h2 ht he' (Or.inr ⟨_, rfl, i2⟩)⟩
  · rcases hx with ⟨_, h⟩ | ⟨t, rfl, hto⟩
    · cases h
    · obtain ⟨i1, i2⟩ := treeOk_next hto
      rw [go_item (it := ⟨di, some t, .valid⟩) rfl i1]
      exact ⟨rfl, ShardsOk.mk (w := w) hd ht he (Or.inr ⟨_, rfl, i2⟩)⟩

theorem shardsOk_yields {it : ShardsIter} {l : List (Except Err (ShardIdent × Sl))} (h : ShardsOk it l) : Yields ShardsIter.next it l :=
  yields_of_step ShardsOk (fun it h => shardsOk_next h) (fun it p ps h => shardsOk_next h) h

/-- Parsing every item. -/
theorem parsed_yields {α : Type} {f : ShardIdent → Sl → Except Err α} {it : ShardsIter} {l : List (ShardIdent × Sl × α)}
    (h : Yields ShardsIter.next it (l.map fun x => .ok (x.1, x.2.1))) (hg : ∀ x ∈ l, f x.1 x.2.1 = .ok x.2.2) :
    Yields (ShardsIter.parsed f) it (l.map fun x => .ok (x.1, x.2.2)) := by
  refine yields_of_step (fun it out => ∃ l : List (ShardIdent × Sl × α), Yields ShardsIter.next it (l.map fun x => .ok (x.1, x.2.1)) ∧
    (∀ x ∈ l, f x.1 x.2.1 = .ok x.2.2) ∧ out = l.map fun x => .ok (x.1, x.2.2)) ?_ ?_ ⟨l, h, hg, rfl⟩
  · rintro it ⟨l, h, hg, e⟩
    cases l with
    | cons x l => cases e
    | nil =>
      obtain ⟨h1, h2⟩ := yields_done h
      unfold ShardsIter.parsed
      generalize it.next = o at h1 h2 ⊢
      obtain ⟨a, b⟩ := o
      dsimp only at h1 h2 ⊢
      subst h1
      exact ⟨rfl, [], h2, fun x hx => (by cases hx), rfl⟩
  · rintro it p ps ⟨l, h, hg, e⟩
    cases l with
    | nil => cases e
    | cons x l =>
      obtain ⟨h1, h2⟩ := yields_cons (x := Except.ok (ε := Err) (x.1, x.2.1)) (l := l.map fun x => .ok (x.1, x.2.1)) h
      rw [List.map_cons] at e
      injection e with e1 e2
      subst e1 e2
      unfold ShardsIter.parsed
      generalize it.next = o at h1 h2 ⊢
      obtain ⟨a, b⟩ := o
      obtain ⟨s, v, y⟩ := x
      dsimp only at h1 h2 ⊢
      subst h1
      dsimp only
      rw [show f s v = .ok y from hg (s, v, y) List.mem_cons_self]
      exact ⟨rfl, l, h2, fun x hx => hg x (List.mem_cons_of_mem _ hx), rfl⟩

/-! ### A tree can always be made -/

theorem opt_bits (o : Option FutureSplitMerge) : (futureSplitMerge.opt.enc o).1.length ≤ 66 ∧ (futureSplitMerge.opt.enc o).2 = [] := by
  cases o with
  | none => exact ⟨by decide, rfl⟩
  | some m =>
    refine ⟨?_, rfl⟩
    show ([true] ++ ([m.merge] ++ (natBits 32 m.utime ++ natBits 32 m.interval))).length ≤ 66
    simp

/-- A description always fits in a leaf. -/
theorem descr_fits {acc : Cell → Bool} {d : ShardDescription} (h : (shardDescription acc).ok d) : (Enc.bits [false] ++ (shardDescription acc).enc d).Fits := by
  obtain ⟨ht, _⟩ := h
  obtain ⟨_, _, _, _, h1, h2, _⟩ := ht
  have h1 : d.tip.rootHash.length = 32 := h1
  have h2 : d.tip.fileHash.length = 32 := h2
  obtain ⟨o1, o2⟩ := opt_bits d.tip.splitMergeAt
  constructor
  · show ([false] ++ (natBits 4 0xa ++ ((natBits 32 d.tip.seqno ++ (natBits 32 d.tip.regMcSeqno ++ (natBits 64 d.tip.startLt ++ (natBits 64 d.tip.endLt ++
      (bytesToBits d.tip.rootHash ++ (bytesToBits d.tip.fileHash ++ ([d.tip.flags.beforeSplit, d.tip.flags.beforeMerge, d.tip.flags.wantSplit, d.tip.flags.wantMerge, d.tip.flags.nxCcUpdated, false, false, false] ++
      (natBits 32 d.tip.nextCatchainSeqno ++ (natBits 64 d.tip.nextValidatorShard ++ (natBits 32 d.tip.minRefMcSeqno ++ (natBits 32 d.tip.genUtime ++ (futureSplitMerge.opt.enc d.tip.splitMergeAt).1))))))))))) ++ []))).length ≤ 1023
    simp only [List.length_append, natBits_length, bytesToBits_length, List.length_cons, List.length_nil, h1, h2]
    omega
  · show ([] ++ ([] ++ (([] ++ ([] ++ ([] ++ ([] ++ ([] ++ ([] ++ ([] ++ ([] ++ ([] ++ ([] ++ ([] ++ (futureSplitMerge.opt.enc d.tip.splitMergeAt).2))))))))))) ++ [Tlb.cellOf _]))).length ≤ 4
    rw [o2]
    simp

/-- The cell of a tree. -/
def treeCell (acc : Cell → Bool) : ShardTree ShardDescription → Cell
  | .leaf d => .mk false (false :: (leafSl acc d).bits) (leafSl acc d).refs
  | .fork l r => .mk false [true] [treeCell acc l, treeCell acc r]

theorem treeCell_made {acc : Cell → Bool} (hacc : ∀ c, acc c = true) {t : ShardTree ShardDescription} (h : t.All (shardDescription acc).ok) : MadeFrom acc t (treeCell acc t) := by
  induction t with
  | leaf d =>
    have hd : (shardDescription acc).ok d := h ([], d) (by simp [ShardTree.leaves])
    show shardLeaf acc d = _
    unfold shardLeaf
    rw [Wr.toSl_ok ((Wr.writes_bit false).writes.seq ((shardDescription_sound acc).st.writes d hd)) (descr_fits hd)]
    show buildSl acc _ = _
    unfold buildSl
    rw [if_pos (hacc _)]
    rfl
  | fork l r ih1 ih2 =>
    obtain ⟨o1, o2⟩ := all_fork.1 h
    exact ⟨_, _, ih1 o1, ih2 o2, shardEdge_ok hacc _ _⟩

theorem made_unique {acc : Cell → Bool} {t : ShardTree ShardDescription} {c c' : Cell} (h : MadeFrom acc t c) (h' : MadeFrom acc t c') : c = c' := by
  induction t generalizing c c' with
  | leaf d =>
    have h : shardLeaf acc d = .ok c := h
    have h' : shardLeaf acc d = .ok c' := h'
    rw [h] at h'; injection h'
  | fork l r ih1 ih2 =>
    obtain ⟨a, b, ha, hb, hc⟩ := h
    obtain ⟨a', b', ha', hb', hc'⟩ := h'
    obtain rfl := ih1 ha ha'
    obtain rfl := ih2 hb hb'
    rw [hc] at hc'; injection hc'

/-- The tree of a workchain. -/
def treeFor (trees : List (Int × ShardTree ShardDescription)) (w : Int) : Option (ShardTree ShardDescription) := (trees.find? fun x => x.1 = w).map (·.2)

theorem treeFor_mem {trees : List (Int × ShardTree ShardDescription)} (hn : (trees.map (·.1)).Nodup) {w : Int} {t : ShardTree ShardDescription} :
    treeFor trees w = some t ↔ (w, t) ∈ trees := by
  induction trees with
  | nil => simp [treeFor]
  | cons x xs ih =>
    rw [List.map_cons, List.nodup_cons] at hn
    unfold treeFor at ih ⊢
    rw [List.find?_cons]
    obtain ⟨v, u⟩ := x
    by_cases hx : v = w
    · subst hx
      simp only [decide_true, Option.map_some, List.mem_cons, Prod.mk.injEq, true_and]
      constructor
      · intro h; injection h with h; exact Or.inl h.symm
      · rintro (rfl | h)
        · rfl
        · exact absurd (List.mem_map_of_mem h) hn.1
    · rw [show decide (((v, u) : Int × ShardTree ShardDescription).1 = w) = false by simpa using hx]
      dsimp only
      rw [ih hn.2]
      constructor
      · intro h; exact List.mem_cons_of_mem _ h
      · intro h
        rcases List.mem_cons.1 h with h | h
        · injection h with h1 h2; exact absurd h1.symm hx
        · exact h

theorem zip_self {α β : Type} {f : α → β} : ∀ {l : List α} {q : α × β}, q ∈ l.zip (l.map f) → q.1 ∈ l ∧ q.2 = f q.1
  | [], q, h => by cases h
  | x :: xs, q, h => by
    rw [List.map_cons, List.zip_cons_cons] at h
    rcases List.mem_cons.1 h with rfl | h
    · exact ⟨List.mem_cons_self, rfl⟩
    · obtain ⟨a, b⟩ := zip_self h
      exact ⟨List.mem_cons_of_mem _ a, b⟩

/-! ### The identifier of the last block of a shard -/

theorem Rd.reads_skip {l : Bits} (hl : l.length ≤ 1023) : Reads (Rd.skip l.length 0 : Rd Cell Unit) (Enc.bits l) () := by
  intro s rest hs hc
  have hb : s.bits = l ++ rest.1 := congrArg Prod.fst hc
  have hr : s.refList = rest.2 := congrArg Prod.snd hc
  have c := C03_read hs (.skipFirst l.length 0) ⟨by omega, by omega⟩
  simp only [LoadOp.run, LoadOp.spec, LoadOp.specBoth, LoadOp.view] at c
  rw [if_pos ⟨by rw [hb]; simp, by omega⟩] at c
  obtain ⟨c1, c2, c3, c4⟩ := c
  show ∃ s', s.skipFirst l.length 0 = _ ∧ _
  cases hk : s.skipFirst l.length 0 with
  | mk r s' =>
    rw [hk] at c1 c2 c3 c4
    cases r with
    | error e => simp [Except.map] at c1
    | ok u =>
      simp only [Prod.mk.injEq] at c2
      exact ⟨s', rfl, c3, by unfold CSlice.contents; rw [c2.1, c2.2, hb, hr]; simp, c4.2.1, c4.2.2⟩

/-- Where the fields of `parse_block_id` are in a description with any tag. -/
theorem parse_reads {s : ShardIdent} {t : ShardTip} {tag : Nat} {e f : Enc Cell} (he : shardTip.R t e) :
    ∃ rest, (Enc.bits (natBits 4 tag) ++ e : Enc Cell) ++ f = (Enc.bits (natBits 4 tag) ++ (Enc.bits (natBits 32 t.seqno) ++
      (Enc.bits (natBits 32 t.regMcSeqno ++ natBits 64 t.startLt ++ natBits 64 t.endLt) ++ (Enc.bits (bytesToBits t.rootHash) ++ Enc.bits (bytesToBits t.fileHash))))) ++ rest ∧
      t.seqno < 2 ^ 32 ∧ t.rootHash.length = 32 ∧ t.fileHash.length = 32 := by
  obtain ⟨_, _, ⟨h1, rfl⟩, ⟨_, _, ⟨_, rfl⟩, ⟨_, _, ⟨_, rfl⟩, ⟨_, _, ⟨_, rfl⟩, ⟨_, _, ⟨h2, rfl⟩, ⟨_, r, ⟨h3, rfl⟩, _, rfl⟩, rfl⟩, rfl⟩, rfl⟩, rfl⟩, rfl⟩ := he
  refine ⟨r ++ f, ?_, h1, h2, h3⟩
  simp only [Enc.append_assoc, ← Enc.bits_append]

theorem parse_of {s : ShardIdent} {t : ShardTip} {tag : Nat} {e f : Enc Cell} (he : shardTip.R t e) {v : Sl} (hv : v.bits.length ≤ 1023) (hr : v.refs.length ≤ 4)
    (hc : ((v.bits, v.refs) : Enc Cell) = (Enc.bits (natBits 4 tag) ++ e) ++ f) : parseBlockId s v = .ok ⟨s, t.seqno, t.rootHash, t.fileHash⟩ := by
  obtain ⟨rest, h, h1, h2, h3⟩ := parse_reads (s := s) (tag := tag) (f := f) he
  obtain ⟨w, ct⟩ := Sl.reader_spec hv hr
  have l1 : (natBits 4 tag).length = 4 := by simp
  have l2 : (natBits 32 t.regMcSeqno ++ natBits 64 t.startLt ++ natBits 64 t.endLt).length = 160 := by simp
  have r1 := Rd.reads_skip (l := natBits 4 tag) (by omega)
  have r2 := Rd.reads_skip (l := natBits 32 t.regMcSeqno ++ natBits 64 t.startLt ++ natBits 64 t.endLt) (by omega)
  rw [l1] at r1
  rw [l2] at r2
  have := Reads.bind (f := fun _ => Rd.u32 >>= fun seqno => Rd.skip 160 0 >>= fun _ => Rd.u256 >>= fun root => Rd.u256 >>= fun file => pure (⟨s, seqno, root, file⟩ : ShardIdent.BlockId)) r1
    (Reads.bind (f := fun seqno => Rd.skip 160 0 >>= fun _ => Rd.u256 >>= fun root => Rd.u256 >>= fun file => pure (⟨s, seqno, root, file⟩ : ShardIdent.BlockId)) (Rd.takes_u32.reads_nat h1)
    (Reads.bind (f := fun _ => Rd.u256 >>= fun root => Rd.u256 >>= fun file => pure (⟨s, t.seqno, root, file⟩ : ShardIdent.BlockId)) r2
    (Reads.bind (f := fun root => Rd.u256 >>= fun file => pure (⟨s, t.seqno, root, file⟩ : ShardIdent.BlockId)) (Rd.reads_u256 h2)
    (Reads.bind (f := fun file => pure (⟨s, t.seqno, t.rootHash, file⟩ : ShardIdent.BlockId)) (Rd.reads_u256 h3) (Reads.pure _)))))
  rw [Enc.append_nil] at this
  obtain ⟨s', q, _⟩ := this v.reader rest w (by rw [ct, hc, h])
  unfold parseBlockId parseBlockIdRd
  rw [q]

end Verif
