import Verif.MerkleUpdateProps
/-
The counters of cells removed by an update (`merkle/update.rs:279-367`), and a store of cells with reference counters to compare them with.
-/
set_option linter.unusedVariables false
set_option linter.unusedSimpArgs false
namespace Verif
namespace Merkle
open Boc (Below Clash below_apart)

/-! ### Specification: a store with counters

A store keeps each cell once, under its hash, with a counter: the number of references to it from stored cells, and of trees stored with it as the root
(`RefsStorage` in the tests of `merkle/update.rs`). -/

/-- How often a cell refers to a hash. -/
def slots (x : CCell) (h : Hash) : Nat := (x.refs.map CCell.reprHash).count h

/-- The same for all cells of a list. -/
def slotsOf (S : List CCell) (h : Hash) : Nat := (S.map fun x => slots x h).sum

/-- `S` has all cells of the trees with these roots, each once. -/
structure Lists (S roots : List CCell) : Prop where
  once : (S.map CCell.reprHash).Nodup
  sub : ∀ x ∈ S, Below roots x
  all : ∀ x, Below roots x → x.reprHash ∈ S.map CCell.reprHash

/-- The counter of a hash in a store that holds the trees with these roots, whose cells are `S`. -/
def refCount (roots S : List CCell) (h : Hash) : Nat := (roots.map CCell.reprHash).count h + slotsOf S h

/-- The counter in a result of `compute_removed_cells`. -/
def removedCount (m : List (Hash × Nat)) (h : Hash) : Nat := (find m h).getD 0

/-- The hash is one of a cell of the tree. -/
def InTree (root : CCell) (h : Hash) : Prop := ∃ x, Below [root] x ∧ x.reprHash = h

/-! ### Counters -/

theorem find_count (h k : Hash) : ∀ m : List (Hash × Nat), removedCount (count h m) k = removedCount m k + if k = h then 1 else 0
  | [] => by
    unfold removedCount count find
    by_cases e : h = k
    · rw [if_pos e, if_pos e.symm]; rfl
    · rw [if_neg e, if_neg (fun e' => e e'.symm)]; rfl
  | (a, n) :: m => by
    have ih := find_count h k m
    unfold count
    by_cases ea : a = h
    · rw [if_pos ea]
      unfold removedCount find
      by_cases ek : a = k
      · rw [if_pos ek, if_pos ek, if_pos (by rw [← ek, ea])]; rfl
      · rw [if_neg ek, if_neg ek, if_neg (fun e => ek (by rw [e, ea]))]; rfl
    · rw [if_neg ea]
      unfold removedCount find
      by_cases ek : a = k
      · rw [if_pos ek, if_pos ek, if_neg (fun e => ea (by rw [ek, e]))]; rfl
      · rw [if_neg ek, if_neg ek]
        exact ih

/-- Counters in a map are positive. -/
def Pos (m : List (Hash × Nat)) : Prop := ∀ h n, find m h = some n → 0 < n

theorem pos_count {m : List (Hash × Nat)} (hp : Pos m) (h : Hash) : Pos (count h m) := by
  intro k n hk
  have e := find_count h k m
  unfold removedCount at e
  rw [hk] at e
  replace e : n = (find m k).getD 0 + if k = h then 1 else 0 := e
  by_cases hkh : k = h
  · rw [if_pos hkh] at e; omega
  · rw [if_neg hkh] at e
    cases hf : find m k with
    | none =>
      rw [hf] at e
      replace e : n = 0 := e
      exfalso
      -- a hash that is not there stays away
      have : ∀ m : List (Hash × Nat), find m k = none → find (count h m) k = none := by
        intro m
        induction m with
        | nil =>
          intro _
          unfold count find
          rw [if_neg (fun e => hkh e.symm)]
          rfl
        | cons a m ih =>
          obtain ⟨a, v⟩ := a
          intro hm
          unfold find at hm
          by_cases hak : a = k
          · rw [if_pos hak] at hm; cases hm
          · rw [if_neg hak] at hm
            unfold count
            by_cases hah : a = h
            · rw [if_pos hah]; unfold find; rw [if_neg hak]; exact hm
            · rw [if_neg hah]; unfold find; rw [if_neg hak]; exact ih hm
      rw [this m hf] at hk
      cases hk
    | some v =>
      rw [hf] at e
      replace e : n = v + 0 := e
      have := hp k v hf
      omega

theorem removed_pos {m : List (Hash × Nat)} (hp : Pos m) (h : Hash) : (∃ n, find m h = some n) ↔ 0 < removedCount m h := by
  unfold removedCount
  cases hf : find m h with
  | none => simp
  | some n => exact ⟨fun _ => hp h n hf, fun _ => ⟨n, rfl⟩⟩

/-! ### The loop -/

theorem slotsOf_append (S T : List CCell) (h : Hash) : slotsOf (S ++ T) h = slotsOf S h + slotsOf T h := by
  unfold slotsOf
  rw [List.map_append, List.sum_append]

theorem slotsOf_cons (x : CCell) (S : List CCell) (h : Hash) : slotsOf (x :: S) h = slots x h + slotsOf S h := rfl

/-- The loop goes below a cell. -/
def goes (kept : List Hash) (c : CCell) : Bool := !(c.desc.referenceCount == 0 || decide (c.reprHash ∈ kept))

/-- Cells that the loop meets, from these references on. -/
inductive Met (kept : List Hash) (cs : List CCell) : CCell → Prop
  | here {c : CCell} : c ∈ cs → Met kept cs c
  | step {c r : CCell} : Met kept cs c → goes kept c = true → r ∈ c.refs → Met kept cs r

theorem Met.mono {kept : List Hash} {cs cs' : List CCell} (h : ∀ c ∈ cs, Met kept cs' c) {x : CCell} (hx : Met kept cs x) : Met kept cs' x := by
  induction hx with
  | here hc => exact h _ hc
  | step _ hg hr ih => exact .step ih hg hr

/-- What a part of the loop does: it goes below the cells `V`. -/
structure Part (kept : List Hash) (cs : List CCell) (m m' : List (Hash × Nat)) (V : List CCell) : Prop where
  pos : Pos m'
  value : ∀ h, removedCount m' h = removedCount m h + (cs.map CCell.reprHash).count h + slotsOf V h
  once : (V.map CCell.reprHash).Nodup
  fresh : ∀ x ∈ V, removedCount m x.reprHash = 0
  inside : ∀ x ∈ V, 0 < removedCount m' x.reprHash
  met : ∀ x ∈ V, Met kept cs x ∧ goes kept x = true
  closed : ∀ h, removedCount m h = 0 → 0 < removedCount m' h → ∃ x, Met kept cs x ∧ x.reprHash = h ∧ (goes kept x = true → x ∈ V)

theorem count_cons_hash (a h : Hash) (l : List Hash) : (a :: l).count h = l.count h + if h = a then 1 else 0 := by
  rw [List.count_cons]
  by_cases e : h = a
  · rw [if_pos e, e]; simp
  · rw [if_neg e]; simp; exact fun e' => e e'.symm

mutual
theorem dfs0_part (kept : List Hash) : ∀ (c : CCell) (m : List (Hash × Nat)), Pos m → ∃ V, Part kept c.refs m (dfs0 (removedStep0 kept) c m) V
  | .mk desc bitLen data refs hashes, m, hp => dfs0List_part kept refs m hp
theorem dfs0List_part (kept : List Hash) : ∀ (cs : List CCell) (m : List (Hash × Nat)), Pos m → ∃ V, Part kept cs m (dfs0List (removedStep0 kept) cs m) V
  | [], m, hp => ⟨[], hp, fun h => rfl, List.nodup_nil, (by intro x hx; cases hx), (by intro x hx; cases hx), (by intro x hx; cases hx), fun h h0 h1 => by
      replace h1 : 0 < removedCount m h := h1
      omega⟩
  | c :: cs, m, hp => by
    have hp1 := pos_count hp c.reprHash
    have hv1 : ∀ h, removedCount (count c.reprHash m) h = removedCount m h + if h = c.reprHash then 1 else 0 := fun h => find_count c.reprHash h m
    cases hf : find m c.reprHash with
    | some n =>
      have e : dfs0List (removedStep0 kept) (c :: cs) m = dfs0List (removedStep0 kept) cs (count c.reprHash m) := by
        rw [dfs0List]
        unfold removedStep0
        rw [hf]
        rfl
      obtain ⟨V, p⟩ := dfs0List_part kept cs (count c.reprHash m) hp1
      have hc : 0 < removedCount m c.reprHash := (removed_pos hp _).mp ⟨n, hf⟩
      rw [e]
      refine ⟨V, p.pos, fun h => ?_, p.once, fun x hx => ?_, p.inside, fun x hx => ?_, fun h h0 h1 => ?_⟩
      · rw [p.value h, hv1 h, List.map_cons, count_cons_hash]; omega
      · have := p.fresh x hx
        have := hv1 x.reprHash
        omega
      · exact ⟨(p.met x hx).1.mono (fun c hc => .here (List.mem_cons_of_mem _ hc)), (p.met x hx).2⟩
      · have hne : h ≠ c.reprHash := fun e => by subst e; omega
        obtain ⟨x, g1, g2⟩ := p.closed h (by rw [hv1, if_neg hne]; omega) h1
        exact ⟨x, g1.mono (fun c hc => .here (List.mem_cons_of_mem _ hc)), g2⟩
    | none =>
      have hc : removedCount m c.reprHash = 0 := by unfold removedCount; rw [hf]; rfl
      have e : dfs0List (removedStep0 kept) (c :: cs) m = dfs0List (removedStep0 kept) cs (if goes kept c then dfs0 (removedStep0 kept) c (count c.reprHash m) else count c.reprHash m) := by
        rw [dfs0List]
        unfold removedStep0
        rw [hf]
        rfl
      rw [e]
      have here : ∀ x ∈ cs, Met kept (c :: cs) x := fun x hx => .here (List.mem_cons_of_mem _ hx)
      cases hg : goes kept c with
      | false =>
        rw [if_neg (by simp)]
        obtain ⟨V, p⟩ := dfs0List_part kept cs (count c.reprHash m) hp1
        refine ⟨V, p.pos, fun h => ?_, p.once, fun x hx => ?_, p.inside, fun x hx => ⟨(p.met x hx).1.mono here, (p.met x hx).2⟩, fun h h0 h1 => ?_⟩
        · rw [p.value h, hv1 h, List.map_cons, count_cons_hash]; omega
        · have := p.fresh x hx
          have := hv1 x.reprHash
          omega
        · by_cases hne : h = c.reprHash
          · exact ⟨c, .here List.mem_cons_self, hne.symm, fun h => by rw [hg] at h; cases h⟩
          · obtain ⟨x, g1, g2⟩ := p.closed h (by rw [hv1, if_neg hne]; omega) h1
            exact ⟨x, g1.mono here, g2⟩
      | true =>
        rw [if_pos rfl]
        obtain ⟨V1, p1⟩ := dfs0_part kept c (count c.reprHash m) hp1
        obtain ⟨V2, p2⟩ := dfs0List_part kept cs _ p1.pos
        have below : ∀ x ∈ c.refs, Met kept (c :: cs) x := fun x hx => .step (.here List.mem_cons_self) hg hx
        have mono1 : ∀ h, removedCount (count c.reprHash m) h ≤ removedCount (dfs0 (removedStep0 kept) c (count c.reprHash m)) h := fun h => by rw [p1.value h]; omega
        have mono2 : ∀ h, removedCount (dfs0 (removedStep0 kept) c (count c.reprHash m)) h ≤ removedCount (dfs0List (removedStep0 kept) cs (dfs0 (removedStep0 kept) c (count c.reprHash m))) h :=
          fun h => by rw [p2.value h]; omega
        have hc1 : 0 < removedCount (count c.reprHash m) c.reprHash := by rw [hv1, if_pos rfl]; omega
        have n1 : ∀ x ∈ V1, x.reprHash ≠ c.reprHash := fun x hx e => by
          have := p1.fresh x hx
          rw [e] at this
          omega
        have n2 : ∀ x ∈ V2, x.reprHash ≠ c.reprHash := fun x hx e => by
          have h1 := p2.fresh x hx
          rw [e] at h1
          have := mono1 c.reprHash
          omega
        have n3 : ∀ x ∈ V1, ∀ y ∈ V2, x.reprHash ≠ y.reprHash := fun x hx y hy e => by
          have h1 := p2.fresh y hy
          have h2 := p1.inside x hx
          rw [e] at h2
          omega
        refine ⟨c :: (V1 ++ V2), p2.pos, fun h => ?_, ?_, fun x hx => ?_, fun x hx => ?_, fun x hx => ?_, fun h h0 h1 => ?_⟩
        · rw [p2.value h, p1.value h, hv1 h, List.map_cons, count_cons_hash, slotsOf_cons, slotsOf_append]
          unfold slots
          omega
        · rw [List.map_cons, List.map_append, List.nodup_cons, List.nodup_append]
          refine ⟨fun hm => ?_, p1.once, p2.once, fun a ha b hb e => ?_⟩
          · rcases List.mem_append.mp hm with hm | hm
            · obtain ⟨x, hx, e⟩ := List.mem_map.mp hm
              exact n1 x hx e
            · obtain ⟨x, hx, e⟩ := List.mem_map.mp hm
              exact n2 x hx e
          · obtain ⟨x, hx, rfl⟩ := List.mem_map.mp ha
            obtain ⟨y, hy, rfl⟩ := List.mem_map.mp hb
            exact n3 x hx y hy e
        · rcases List.mem_cons.mp hx with rfl | hx
          · exact hc
          · rcases List.mem_append.mp hx with hx | hx
            · have := p1.fresh x hx
              have := hv1 x.reprHash
              omega
            · have := p2.fresh x hx
              have := mono1 x.reprHash
              have := hv1 x.reprHash
              omega
        · rcases List.mem_cons.mp hx with rfl | hx
          · have := mono1 x.reprHash
            have := mono2 x.reprHash
            omega
          · rcases List.mem_append.mp hx with hx | hx
            · have := p1.inside x hx
              have := mono2 x.reprHash
              omega
            · exact p2.inside x hx
        · rcases List.mem_cons.mp hx with rfl | hx
          · exact ⟨.here List.mem_cons_self, hg⟩
          · rcases List.mem_append.mp hx with hx | hx
            · exact ⟨(p1.met x hx).1.mono below, (p1.met x hx).2⟩
            · exact ⟨(p2.met x hx).1.mono here, (p2.met x hx).2⟩
        · by_cases hne : h = c.reprHash
          · exact ⟨c, .here List.mem_cons_self, hne.symm, fun _ => List.mem_cons_self⟩
          · by_cases hz : removedCount (dfs0 (removedStep0 kept) c (count c.reprHash m)) h = 0
            · obtain ⟨x, g1, g2, g3⟩ := p2.closed h hz h1
              exact ⟨x, g1.mono here, g2, fun g => List.mem_cons_of_mem _ (List.mem_append_right _ (g3 g))⟩
            · obtain ⟨x, g1, g2, g3⟩ := p1.closed h (by rw [hv1, if_neg hne]; omega) (by omega)
              exact ⟨x, g1.mono below, g2, fun g => List.mem_cons_of_mem _ (List.mem_append_left _ (g3 g))⟩
end

/-- The cells of the old tree above the kept ones. -/
inductive Gone (kept : List Hash) (root : CCell) : CCell → Prop
  | root : root.reprHash ∉ kept → Gone kept root root
  | child {c r : CCell} : Gone kept root c → r ∈ c.refs → r.reprHash ∉ kept → Gone kept root r

theorem Gone.isBelow {kept : List Hash} {root x : CCell} (h : Gone kept root x) : Below [root] x ∧ x.reprHash ∉ kept := by
  induction h with
  | root h => exact ⟨below_self root, h⟩
  | child _ hr hk ih =>
    obtain ⟨⟨r, h1, h2⟩, _⟩ := ih
    exact ⟨⟨r, h1, Boc.CCell_sub_last h2 hr⟩, hk⟩

theorem same_refs {H : Hasher} {S : CCell → Prop} (ha : Boc.Writer.Apart H S) {a b : CCell} (h1 : S a) (h2 : S b) (e : a.reprHash = b.reprHash) :
    a.refs.map CCell.reprHash = b.refs.map CCell.reprHash := by
  have ht := ha.inj h1 h2 e
  have hr : a.refs.map CCell.tree = b.refs.map CCell.tree := by
    have := congrArg Cell.refs ht
    rw [CCell.tree_eta a, CCell.tree_eta b] at this
    exact this
  have key : ∀ l : List CCell, (∀ r ∈ l, Built H r) → l.map CCell.reprHash = (l.map CCell.tree).map (Cell.reprHash H) := by
    intro l hl
    rw [List.map_map]
    exact List.map_congr_left (fun r hr => reprHash_tree (hl r hr))
  rw [key a.refs (fun r hr => ha.built (ha.child h1 hr)), key b.refs (fun r hr => ha.built (ha.child h2 hr)), hr]

theorem same_slots {H : Hasher} {S : CCell → Prop} (ha : Boc.Writer.Apart H S) {a b : CCell} (h1 : S a) (h2 : S b) (e : a.reprHash = b.reprHash) (h : Hash) : slots a h = slots b h := by
  unfold slots
  rw [same_refs ha h1 h2 e]

theorem goes_iff {H : Hasher} {kept : List Hash} {c : CCell} (h : Built H c) : goes kept c = true ↔ c.refs ≠ [] ∧ c.reprHash ∉ kept := by
  have hr : c.desc.referenceCount = c.refs.length := h.facts.refs
  unfold goes
  rw [hr]
  cases c.refs with
  | nil => simp
  | cons r rs => simp

/-- The counters of a walk over the old tree: one for the root, and the references of the cells that go. -/
theorem removed_walk {H : Hasher} {kept : List Hash} {old : CCell} (ha : Boc.Writer.Apart H (Below [old])) (hk : old.reprHash ∉ kept) :
    ∃ V : List CCell, (V.map CCell.reprHash).Nodup ∧ (∀ x ∈ V, Gone kept old x) ∧ (∀ x, Gone kept old x → x.refs ≠ [] → x.reprHash ∈ V.map CCell.reprHash) ∧
      ∀ h, removedCount (dfs0 (removedStep0 kept) old [(old.reprHash, 1)]) h = (if h = old.reprHash then 1 else 0) + slotsOf V h := by
  have hp : Pos [(old.reprHash, 1)] := by
    intro h n hf
    unfold find at hf
    split at hf
    · injection hf with hf; omega
    · cases hf
  have h0 : ∀ h, removedCount [(old.reprHash, 1)] h = if h = old.reprHash then 1 else 0 := by
    intro h
    unfold removedCount find
    by_cases e : old.reprHash = h
    · rw [if_pos e, if_pos e.symm]; rfl
    · rw [if_neg e, if_neg (fun e' => e e'.symm)]; rfl
  obtain ⟨V, p⟩ := dfs0_part kept old _ hp
  have bself := below_self old
  have hmet : ∀ x, Met kept old.refs x → Below [old] x ∧ (x.reprHash ∉ kept → Gone kept old x) := by
    intro x hx
    induction hx with
    | here hc => exact ⟨ha.child bself hc, fun hn => .child (.root hk) hc hn⟩
    | step _ hg hr ih => exact ⟨ha.child ih.1 hr, fun hn => .child (ih.2 ((goes_iff (ha.built ih.1)).mp hg).2) hr hn⟩
  have hval : ∀ h, removedCount (dfs0 (removedStep0 kept) old [(old.reprHash, 1)]) h = (if h = old.reprHash then 1 else 0) + slotsOf (old :: V) h := by
    intro h
    rw [p.value h, h0 h, slotsOf_cons]
    unfold slots
    omega
  have hslot : ∀ (T : List CCell) (c r : CCell), c ∈ T → r ∈ c.refs → 0 < slotsOf T r.reprHash := by
    intro T c r hc hr
    have h1 : 0 < slots c r.reprHash := List.count_pos_iff.mpr (List.mem_map.mpr ⟨r, hr, rfl⟩)
    obtain ⟨T1, T2, rfl⟩ := List.append_of_mem hc
    rw [slotsOf_append, slotsOf_cons]
    omega
  refine ⟨old :: V, ?_, ?_, ?_, hval⟩
  · rw [List.map_cons, List.nodup_cons]
    refine ⟨fun hm => ?_, p.once⟩
    obtain ⟨x, hx, e⟩ := List.mem_map.mp hm
    have := p.fresh x hx
    rw [h0, if_pos e] at this
    omega
  · intro x hx
    rcases List.mem_cons.mp hx with rfl | hx
    · exact .root hk
    · obtain ⟨m1, m2⟩ := p.met x hx
      have hb := hmet x m1
      exact hb.2 ((goes_iff (ha.built hb.1)).mp m2).2
  · intro x hx
    induction hx with
    | root _ => intro _; exact List.mem_map.mpr ⟨old, List.mem_cons_self, rfl⟩
    | child hc hr hn ih =>
      rename_i c r
      intro hrefs
      obtain ⟨y, hy, ey⟩ := List.mem_map.mp (ih (by intro e; rw [e] at hr; cases hr))
      have hby : Below [old] y := by
        rcases List.mem_cons.mp hy with rfl | hy
        · exact bself
        · exact (hmet y (p.met y hy).1).1
      have hbc := hc.isBelow.1
      have hbr := ha.child hbc hr
      -- the reference is counted
      have hpos : 0 < removedCount (dfs0 (removedStep0 kept) old [(old.reprHash, 1)]) r.reprHash := by
        rw [hval]
        have hm : r.reprHash ∈ y.refs.map CCell.reprHash := by
          rw [same_refs ha hby hbc ey]
          exact List.mem_map.mpr ⟨r, hr, rfl⟩
        obtain ⟨r', hr', er'⟩ := List.mem_map.mp hm
        have := hslot (old :: V) y r' hy hr'
        rw [er'] at this
        omega
      by_cases he : r.reprHash = old.reprHash
      · exact List.mem_map.mpr ⟨old, List.mem_cons_self, he.symm⟩
      · obtain ⟨z, z1, z2, z3⟩ := p.closed r.reprHash (by rw [h0, if_neg he]) hpos
        have hbz := (hmet z z1).1
        have hzr : z.refs ≠ [] := by
          intro e0
          have := same_refs ha hbz hbr z2
          rw [e0] at this
          cases hr0 : r.refs with
          | nil => exact hrefs hr0
          | cons a b => rw [hr0] at this; cases this
        have := z3 ((goes_iff (ha.built hbz)).mpr ⟨hzr, by rw [z2]; exact hn⟩)
        exact List.mem_map.mpr ⟨z, List.mem_cons_of_mem _ this, z2⟩

/-- Sums over cells that are listed once. -/
theorem slotsOf_le {H : Hasher} {P : CCell → Prop} (ha : Boc.Writer.Apart H P) (h : Hash) : ∀ (S T : List CCell), (S.map CCell.reprHash).Nodup → (∀ x ∈ S, P x) → (∀ x ∈ T, P x) →
    (∀ x ∈ S, x.refs ≠ [] → x.reprHash ∈ T.map CCell.reprHash) → slotsOf S h ≤ slotsOf T h
  | [], T, _, _, _, _ => Nat.zero_le _
  | x :: S, T, nd, hS, hT, hst => by
    rw [List.map_cons, List.nodup_cons] at nd
    rw [slotsOf_cons]
    by_cases hx : x.refs = []
    · have := slotsOf_le ha h S T nd.2 (fun y hy => hS y (List.mem_cons_of_mem _ hy)) hT (fun y hy => hst y (List.mem_cons_of_mem _ hy))
      have h0 : slots x h = 0 := by unfold slots; rw [hx]; rfl
      omega
    · obtain ⟨y, hy, e⟩ := List.mem_map.mp (hst x List.mem_cons_self hx)
      obtain ⟨T1, T2, rfl⟩ := List.append_of_mem hy
      have := slotsOf_le ha h S (T1 ++ T2) nd.2 (fun z hz => hS z (List.mem_cons_of_mem _ hz)) (fun z hz => hT z (by
        rcases List.mem_append.mp hz with hz | hz
        · exact List.mem_append_left _ hz
        · exact List.mem_append_right _ (List.mem_cons_of_mem _ hz))) (fun z hz hz0 => by
          obtain ⟨w, hw, ew⟩ := List.mem_map.mp (hst z (List.mem_cons_of_mem _ hz) hz0)
          refine List.mem_map.mpr ⟨w, ?_, ew⟩
          rcases List.mem_append.mp hw with hw | hw
          · exact List.mem_append_left _ hw
          · rcases List.mem_cons.mp hw with rfl | hw
            · exact absurd (List.mem_map.mpr ⟨z, hz, by rw [← ew, e]⟩) nd.1
            · exact List.mem_append_right _ hw)
      have h1 := same_slots ha (hS x List.mem_cons_self) (hT y hy) e.symm h
      rw [slotsOf_append] at this
      rw [slotsOf_append, slotsOf_cons]
      omega

end Merkle
end Verif
