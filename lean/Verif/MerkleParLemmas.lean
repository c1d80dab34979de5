import Verif.MerklePar
import Verif.MerkleProps
/-
The invariant of the multithreaded builder of Merkle proofs: whatever the order of the steps, every saved or returned cell stands
for the cell that the specification demands.
-/
set_option linter.unusedVariables false
set_option linter.unusedSimpArgs false
namespace Verif
namespace Merkle
namespace Par
open Boc (Below Clash below_apart)

/-- Which cell at which Merkle depth a task has to build. -/
abbrev Table := Nat → Option (Cell × Nat)

/-- `p` is the proof tree of `t`, and all that was pruned for it is recorded in `S`. -/
structure Good (H : Hasher) (cfg : Config) (S : List Hash) (d : Nat) (t : Cell) (p : CCell) : Prop where
  built : Built H p
  tree : p.tree = specNode H cfg d t
  prunes : Prunes H d t p.tree
  all : ∀ d' x, PrunedFrom H cfg d t d' x → x.reprHash H ∈ S
  good : ¬ BadFrom H cfg d t

/-- What takes the place of a reference that is not a node. -/
def Leaf (H : Hasher) (cfg : Config) (S : List Hash) (d : Nat) (t : Cell) (e : Ext) : Prop :=
  match kind H cfg t with
  | .whole => ∃ c, e = .whole c ∧ Built H c ∧ c.tree = t
  | .pruned => ∃ p, e = .whole p ∧ Built H p ∧ p.tree = prunedTree H d t ∧ Prunes H d t p.tree ∧ t.reprHash H ∈ S ∧ Prunable H d t
  | .node => True

/-- `e` will become the proof tree of `t` at Merkle depth `d`. -/
inductive Stands (H : Hasher) (cfg : Config) (T : Table) (S : List Hash) : Nat → Cell → Ext → Prop
  | whole {d : Nat} {t : Cell} {p : CCell} (h : Good H cfg S d t p) : Stands H cfg T S d t (.whole p)
  | parts {d : Nat} {t : Cell} {data : DataBuilder} {kids : List Ext} (hw : t.WF H) (h4 : t.refs.length ≤ 4) (h255 : d + t.off ≤ 255)
      (hd : data.WF) (hb : data.bits = t.bits) (hl : t.refs.length = kids.length)
      (hleaf : ∀ i (h1 : i < t.refs.length) (h2 : i < kids.length), Leaf H cfg S (d + t.off) t.refs[i] kids[i])
      (hnode : ∀ i (h1 : i < t.refs.length) (h2 : i < kids.length), kind H cfg t.refs[i] = .node →
        Stands H cfg T S (d + t.off) t.refs[i] kids[i]) :
      Stands H cfg T S d t (.parts data t.exotic kids)
  | deferred {d : Nat} {t : Cell} {i : Nat} (h : T i = some (t, d)) : Stands H cfg T S d t (.deferred i)

/-- `e` takes the place of the reference `t`. -/
def Slot (H : Hasher) (cfg : Config) (T : Table) (S : List Hash) (d : Nat) (t : Cell) (e : Ext) : Prop :=
  Leaf H cfg S d t e ∧ (kind H cfg t = .node → Stands H cfg T S d t e)

def Slots (H : Hasher) (cfg : Config) (T : Table) (S : List Hash) (d : Nat) : List Cell → List Ext → Prop
  | [], [] => True
  | t :: ts, e :: es => Slot H cfg T S d t e ∧ Slots H cfg T S d ts es
  | _, _ => False

/-! ### More tasks and more pruned hashes -/

theorem Leaf.mono {H : Hasher} {cfg : Config} {S S' : List Hash} {d : Nat} {t : Cell} {e : Ext} (h : Leaf H cfg S d t e) (hS : ∀ x ∈ S, x ∈ S') :
    Leaf H cfg S' d t e := by
  unfold Leaf at h ⊢
  cases hk : kind H cfg t with
  | whole => rw [hk] at h; exact h
  | node => trivial
  | pruned =>
    rw [hk] at h
    obtain ⟨p, h1, h2, h3, h4, h5, h6⟩ := h
    exact ⟨p, h1, h2, h3, h4, hS _ h5, h6⟩

theorem Good.mono {H : Hasher} {cfg : Config} {S S' : List Hash} {d : Nat} {t : Cell} {p : CCell} (h : Good H cfg S d t p) (hS : ∀ x ∈ S, x ∈ S') :
    Good H cfg S' d t p := ⟨h.built, h.tree, h.prunes, fun d' x hx => hS _ (h.all d' x hx), h.good⟩

theorem Stands.mono {H : Hasher} {cfg : Config} {T T' : Table} {S S' : List Hash} (hT : ∀ i v, T i = some v → T' i = some v) (hS : ∀ x ∈ S, x ∈ S')
    {d : Nat} {t : Cell} {e : Ext} (h : Stands H cfg T S d t e) : Stands H cfg T' S' d t e := by
  induction h with
  | whole h => exact .whole (h.mono hS)
  | parts hw h4 h255 hd hb hl hleaf _ ih => exact .parts hw h4 h255 hd hb hl (fun i h1 h2 => (hleaf i h1 h2).mono hS) ih
  | deferred h => exact .deferred (hT _ _ h)

theorem Slot.mono {H : Hasher} {cfg : Config} {T T' : Table} {S S' : List Hash} (hT : ∀ i v, T i = some v → T' i = some v) (hS : ∀ x ∈ S, x ∈ S')
    {d : Nat} {t : Cell} {e : Ext} (h : Slot H cfg T S d t e) : Slot H cfg T' S' d t e :=
  ⟨h.1.mono hS, fun hk => (h.2 hk).mono hT hS⟩

theorem Slots.mono {H : Hasher} {cfg : Config} {T T' : Table} {S S' : List Hash} (hT : ∀ i v, T i = some v → T' i = some v) (hS : ∀ x ∈ S, x ∈ S')
    {d : Nat} : ∀ {ts : List Cell} {es : List Ext}, Slots H cfg T S d ts es → Slots H cfg T' S' d ts es
  | [], [], _ => trivial
  | t :: ts, e :: es, h => ⟨h.1.mono hT hS, Slots.mono hT hS h.2⟩

theorem Slots.len {H : Hasher} {cfg : Config} {T : Table} {S : List Hash} {d : Nat} : ∀ {ts : List Cell} {es : List Ext}, Slots H cfg T S d ts es → ts.length = es.length
  | [], [], _ => rfl
  | t :: ts, e :: es, h => by simp [Slots.len h.2]

theorem Slots.get {H : Hasher} {cfg : Config} {T : Table} {S : List Hash} {d : Nat} : ∀ {ts : List Cell} {es : List Ext}, Slots H cfg T S d ts es →
    ∀ i (h1 : i < ts.length) (h2 : i < es.length), Slot H cfg T S d ts[i] es[i]
  | [], [], _, i, h1, _ => by cases h1
  | t :: ts, e :: es, h, 0, _, _ => h.1
  | t :: ts, e :: es, h, i + 1, h1, h2 => h.2.get i (by simpa using h1) (by simpa using h2)

theorem Slots.of_get {H : Hasher} {cfg : Config} {T : Table} {S : List Hash} {d : Nat} : ∀ {ts : List Cell} {es : List Ext}, ts.length = es.length →
    (∀ i (h1 : i < ts.length) (h2 : i < es.length), Slot H cfg T S d ts[i] es[i]) → Slots H cfg T S d ts es
  | [], [], _, _ => trivial
  | [], e :: es, hl, _ => by cases hl
  | t :: ts, [], hl, _ => by cases hl
  | t :: ts, e :: es, hl, h => ⟨h 0 (by simp) (by simp), Slots.of_get (by simpa using hl) fun i h1 h2 =>
      h (i + 1) (by simp; omega) (by simp; omega)⟩

theorem Slots.snoc {H : Hasher} {cfg : Config} {T : Table} {S : List Hash} {d : Nat} {t : Cell} {e : Ext} (h' : Slot H cfg T S d t e) :
    ∀ {ts : List Cell} {es : List Ext}, Slots H cfg T S d ts es → Slots H cfg T S d (ts ++ [t]) (es ++ [e])
  | [], [], _ => ⟨h', trivial⟩
  | u :: ts, x :: es, h => ⟨h.1, Slots.snoc h' h.2⟩

/-! ### Nodes over finished children -/

/-- The children of a node are finished. -/
structure GoodKids (H : Hasher) (cfg : Config) (S : List Hash) (d : Nat) (ts : List Cell) (ps : List CCell) : Prop where
  built : ∀ p ∈ ps, Built H p
  trees : ps.map CCell.tree = specKids H cfg d ts
  prunes : ∀ i (h1 : i < ts.length) (h2 : i < (ps.map CCell.tree).length), Prunes H d ts[i] (ps.map CCell.tree)[i]
  all : ∀ r ∈ ts, (kind H cfg r = .pruned → r.reprHash H ∈ S ∧ Prunable H d r) ∧
    (kind H cfg r = .node → (∀ d' x, PrunedFrom H cfg d r d' x → x.reprHash H ∈ S) ∧ ¬ BadFrom H cfg d r)

theorem GoodKids.nil {H : Hasher} {cfg : Config} {S : List Hash} {d : Nat} : GoodKids H cfg S d [] [] where
  built := by intro p hp; cases hp
  trees := rfl
  prunes := by intro i h1; cases h1
  all := by intro r hr; cases hr

/-- A finished child. -/
def SlotGood (H : Hasher) (cfg : Config) (S : List Hash) (d : Nat) (t : Cell) (p : CCell) : Prop :=
  Leaf H cfg S d t (.whole p) ∧ (kind H cfg t = .node → Good H cfg S d t p)

theorem GoodKids.cons {H : Hasher} {cfg : Config} {S : List Hash} {d : Nat} {t : Cell} {p : CCell} {ts : List Cell} {ps : List CCell}
    (h : SlotGood H cfg S d t p) (hs : GoodKids H cfg S d ts ps) : GoodKids H cfg S d (t :: ts) (p :: ps) := by
  have key : Built H p ∧ p.tree = place H d t (specNode H cfg d t) (kind H cfg t) ∧ Prunes H d t p.tree ∧
      (kind H cfg t = .pruned → t.reprHash H ∈ S ∧ Prunable H d t) ∧
      (kind H cfg t = .node → (∀ d' x, PrunedFrom H cfg d t d' x → x.reprHash H ∈ S) ∧ ¬ BadFrom H cfg d t) := by
    obtain ⟨h1, h2⟩ := h
    unfold Leaf at h1
    cases hk : kind H cfg t with
    | whole =>
      rw [hk] at h1
      obtain ⟨c, e, hb, ht⟩ := h1
      injection e with e
      subst e
      exact ⟨hb, ht, ht ▸ .same _ _, by simp, by simp⟩
    | pruned =>
      rw [hk] at h1
      obtain ⟨c, e, hb, ht, hp, hS, hpr⟩ := h1
      injection e with e
      subst e
      exact ⟨hb, ht, hp, fun _ => ⟨hS, hpr⟩, by simp⟩
    | node =>
      have g := h2 hk
      exact ⟨g.built, g.tree, g.prunes, by simp, fun _ => ⟨g.all, g.good⟩⟩
  obtain ⟨k1, k2, k3, k4, k5⟩ := key
  refine ⟨?_, ?_, ?_, ?_⟩
  · intro q hq
    rcases List.mem_cons.mp hq with rfl | hq
    · exact k1
    · exact hs.built q hq
  · rw [List.map_cons, specKids, hs.trees, k2]
  · intro i g1 g2
    cases i with
    | zero => exact k3
    | succ i => exact hs.prunes i (by simpa using g1) (by simpa using g2)
  · intro r hr
    rcases List.mem_cons.mp hr with rfl | hr
    · exact ⟨k4, k5⟩
    · exact hs.all r hr

theorem cell_eta (t : Cell) : t = .mk t.exotic t.bits t.refs := by cases t; rfl

/-- Building a node over finished children. -/
theorem node_good {H : Hasher} {cfg : Config} {S : List Hash} {d : Nat} {t : Cell} {ps : List CCell} {data : DataBuilder} (hw : t.WF H)
    (h4 : t.refs.length ≤ 4) (h255 : d + t.off ≤ 255) (hd : data.WF) (hb : data.bits = t.bits) (hk : GoodKids H cfg S (d + t.off) t.refs ps) :
    ∃ p, CellB.build H { inner := data, refs := ps, exotic := t.exotic } = .ok p ∧ Good H cfg S d t p := by
  have hlen : t.refs.length = ps.length := by
    have := congrArg List.length hk.trees
    rw [specKids_eq] at this
    simpa using this.symm
  have hoff : offOf t.exotic t.bits = t.off := rfl
  have hpr : Prunes H d t (.mk t.exotic t.bits (ps.map CCell.tree)) := by
    have : Prunes H d (.mk t.exotic t.bits t.refs) (.mk t.exotic t.bits (ps.map CCell.tree)) :=
      .node (by simpa using hlen) fun i g1 g2 => by rw [hoff]; exact hk.prunes i g1 g2
    rw [← cell_eta] at this
    exact this
  obtain ⟨hwf, _⟩ := prunes_wf hpr hw
  obtain ⟨p, e1, e2, e3, e4⟩ := (C10_build H (b := { inner := data, refs := ps, exotic := t.exotic }) ⟨hd, by
    show ps.length ≤ 4
    omega⟩ hk.built).1 (by show (Cell.mk t.exotic data.bits (ps.map CCell.tree)).WF H; rw [hb]; exact hwf)
  replace e3 : p.tree = Cell.mk t.exotic data.bits (ps.map CCell.tree) := e3
  rw [hb] at e3
  refine ⟨p, e1, e2, ?_, e3 ▸ hpr, ?_, ?_⟩
  · have hspec : specNode H cfg d (.mk t.exotic t.bits t.refs) = .mk t.exotic t.bits (specKids H cfg (d + offOf t.exotic t.bits) t.refs) := rfl
    rw [← cell_eta, hoff] at hspec
    rw [hspec, e3, hk.trees]
  · intro d' x hx
    rcases hx.head with ⟨hx', hxk, rfl⟩ | ⟨r, hr, hrk, hx⟩
    · exact ((hk.all x hx').1 hxk).1
    · exact ((hk.all r hr).2 hrk).1 d' x hx
  · intro hbad
    rcases hbad.head with h | ⟨x, hx, hxk, hb⟩ | ⟨r, hr, hrk, hb⟩
    · omega
    · exact hb ((hk.all x hx).1 hxk).2
    · exact ((hk.all r hr).2 hrk).2 hb

/-- A finished cell in the place of a reference. -/
theorem Slot.good {H : Hasher} {cfg : Config} {T : Table} {S : List Hash} {d : Nat} {t : Cell} {p : CCell} (h : Slot H cfg T S d t (.whole p)) :
    SlotGood H cfg S d t p := ⟨h.1, fun hk => by cases h.2 hk with | whole h => exact h⟩

theorem Slots.good {H : Hasher} {cfg : Config} {T : Table} {S : List Hash} {d : Nat} : ∀ {ts : List Cell} {es : List Ext}, Slots H cfg T S d ts es →
    es.all Ext.isWhole = true → GoodKids H cfg S d ts (wholes es)
  | [], [], _, _ => .nil
  | t :: ts, .whole c :: es, h, ha => .cons h.1.good (Slots.good h.2 (by simpa [Ext.isWhole] using ha))
  | t :: ts, .parts _ _ _ :: es, h, ha => by simp [Ext.isWhole] at ha
  | t :: ts, .deferred _ :: es, h, ha => by simp [Ext.isWhole] at ha

/-! ### After the scope -/

/-- Every promise is set, to a cell or parts that stand for the cell of the task, or to an error. -/
def Kept (H : Hasher) (cfg : Config) (T : Table) (S : List Hash) (prom : Nat → Option (Except Err Ext)) : Prop :=
  ∀ i t d, T i = some (t, d) → ∃ r, prom i = some r ∧ ∀ e, r = .ok e → Stands H cfg T S d t e ∧ ∀ j, e ≠ .deferred j

/-- With enough room `finalize` ends, with the right cell or the error of a task. -/
def Settles (H : Hasher) (prom : Nat → Option (Except Err Ext)) (e : Ext) (P : CCell → Prop) : Prop :=
  ∃ N r, (∀ n, N ≤ n → settle H prom n e = some r) ∧ (∀ p, r = .ok p → P p) ∧ ∀ x, r = .error x → ∃ i, prom i = some (.error x)

theorem settle_kids {H : Hasher} {cfg : Config} {T : Table} {S : List Hash} {prom : Nat → Option (Except Err Ext)} {d : Nat} :
    ∀ {ts : List Cell} {es : List Ext}, Slots H cfg T S d ts es →
      (∀ i (h1 : i < ts.length) (h2 : i < es.length), Settles H prom es[i] (SlotGood H cfg S d ts[i])) → ∀ acc : List CCell, acc.length + es.length ≤ 4 →
      ∃ N r, (∀ n, N ≤ n → settleKids (settle H prom n) es acc = some r) ∧ (∀ cs, r = .ok cs → ∃ ps, cs = acc ++ ps ∧ GoodKids H cfg S d ts ps) ∧
        ∀ x, r = .error x → ∃ i, prom i = some (.error x)
  | [], [], _, _, acc, _ => ⟨0, .ok acc, fun n _ => rfl, fun cs e => ⟨[], by injection e with e; simp [e], .nil⟩, fun x e => by cases e⟩
  | t :: ts, e :: es, h, hs, acc, hl => by
    obtain ⟨N, r, hr, hg, hx⟩ := hs 0 (by simp) (by simp)
    simp only [List.getElem_cons_zero] at hr hg
    cases r with
    | error x =>
      refine ⟨N, .error x, fun n hn => ?_, fun cs e => (by cases e), fun y e => by injection e with e; exact e ▸ hx x rfl⟩
      rw [settleKids, hr n hn]
    | ok p =>
      obtain ⟨N', r', hr', hg', hx'⟩ := settle_kids h.2 (fun i h1 h2 => hs (i + 1) (by simp; omega) (by simp; omega)) (acc ++ [p]) (by
        simp at hl ⊢; omega)
      refine ⟨max N N', r', fun n hn => ?_, fun cs e => ?_, hx'⟩
      · rw [settleKids, hr n (by omega)]
        dsimp only
        rw [if_pos (by simp at hl; omega)]
        exact hr' n (by omega)
      · obtain ⟨ps, e1, e2⟩ := hg' cs e
        exact ⟨p :: ps, by rw [e1]; simp, .cons (hg p rfl) e2⟩

theorem settle_whole {H : Hasher} {prom : Nat → Option (Except Err Ext)} {c : CCell} {P : CCell → Prop} (h : P c) : Settles H prom (.whole c) P :=
  ⟨1, .ok c, fun n hn => by obtain ⟨m, rfl⟩ := Nat.exists_eq_add_of_le hn; rw [Nat.add_comm]; rfl, fun p e => by injection e with e; exact e ▸ h, fun x e => (by cases e)⟩

/-- What stands for a cell becomes its proof tree, or an error. -/
theorem settle_stands {H : Hasher} {cfg : Config} {T : Table} {S : List Hash} {prom : Nat → Option (Except Err Ext)} (hp : Kept H cfg T S prom) :
    ∀ (k : Nat) (t : Cell), sizeOf t < k → ∀ (d : Nat) (e : Ext), Stands H cfg T S d t e → Settles H prom e (Good H cfg S d t) := by
  intro k
  induction k with
  | zero => intro t h; omega
  | succ k ih =>
    intro t ht
    have direct : ∀ (d : Nat) (e : Ext), Stands H cfg T S d t e → (∀ j, e ≠ .deferred j) → Settles H prom e (Good H cfg S d t) := by
      intro d e h hj
      cases h with
      | whole h => exact settle_whole h
      | deferred h => exact absurd rfl (hj _)
      | @parts _ _ data kids hw h4 h255 hd hb hl hleaf hnode =>
        have hsl : Slots H cfg T S (d + t.off) t.refs kids := Slots.of_get hl fun i h1 h2 => ⟨hleaf i h1 h2, hnode i h1 h2⟩
        have hset : ∀ i (h1 : i < t.refs.length) (h2 : i < kids.length), Settles H prom kids[i] (SlotGood H cfg S (d + t.off) t.refs[i]) := by
          intro i h1 h2
          have hsz : sizeOf t.refs[i] < k := by
            have a : sizeOf t.refs[i] < sizeOf t.refs := List.sizeOf_lt_of_mem (List.getElem_mem h1)
            have b : sizeOf t.refs < sizeOf t := by conv => rhs; rw [cell_eta t]
                                                    simp
            omega
          cases hk : kind H cfg t.refs[i] with
          | node =>
            obtain ⟨N, r, h1', h2', h3'⟩ := ih _ hsz _ _ (hnode i h1 h2 hk)
            exact ⟨N, r, h1', fun p e => ⟨by unfold Leaf; rw [hk]; trivial, fun _ => h2' p e⟩, h3'⟩
          | whole =>
            have := hleaf i h1 h2
            have h' := this
            unfold Leaf at h'
            rw [hk] at h'
            obtain ⟨c, e, _⟩ := h'
            rw [e] at this ⊢
            exact settle_whole ⟨this, fun h => by rw [hk] at h; cases h⟩
          | pruned =>
            have := hleaf i h1 h2
            have h' := this
            unfold Leaf at h'
            rw [hk] at h'
            obtain ⟨c, e, _⟩ := h'
            rw [e] at this ⊢
            exact settle_whole ⟨this, fun h => by rw [hk] at h; cases h⟩
        obtain ⟨N, r, hr, hg, hx⟩ := settle_kids hsl hset [] (by simp; omega)
        cases r with
        | error x =>
          refine ⟨N + 1, .error x, fun n hn => ?_, fun p e => (by cases e), fun y e => by injection e with e; exact e ▸ hx x rfl⟩
          obtain ⟨m, rfl⟩ : ∃ m, n = m + 1 := ⟨n - 1, by omega⟩
          rw [settle, hr m (by omega)]
        | ok cs =>
          obtain ⟨ps, e1, e2⟩ := hg cs rfl
          rw [List.nil_append] at e1
          subst e1
          obtain ⟨p, e3, e4⟩ := node_good hw h4 h255 hd hb e2
          refine ⟨N + 1, .ok p, fun n hn => ?_, fun q e => by injection e with e; exact e ▸ e4, fun x e => by cases e⟩
          obtain ⟨m, rfl⟩ : ∃ m, n = m + 1 := ⟨n - 1, by omega⟩
          rw [settle, hr m (by omega)]
          dsimp only
          rw [e3]
    intro d e h
    cases h with
    | deferred hT =>
      obtain ⟨r, hr, hok⟩ := hp _ _ _ hT
      cases r with
      | error x =>
        refine ⟨1, .error x, fun n hn => ?_, fun p e => (by cases e), fun y e => ⟨_, by injection e with e; exact e ▸ hr⟩⟩
        obtain ⟨m, rfl⟩ : ∃ m, n = m + 1 := ⟨n - 1, by omega⟩
        rw [settle, hr]
      | ok e =>
        obtain ⟨h1, h2⟩ := hok e rfl
        obtain ⟨N, r, hr', hg, hx⟩ := direct d e h1 h2
        refine ⟨N + 1, r, fun n hn => ?_, hg, hx⟩
        obtain ⟨m, rfl⟩ : ∃ m, n = m + 1 := ⟨n - 1, by omega⟩
        rw [settle, hr]
        exact hr' m (by omega)
    | whole h => exact direct d _ (.whole h) (by intro j e; cases e)
    | parts hw h4 h255 hd hb hl hleaf hnode => exact direct d _ (.parts hw h4 h255 hd hb hl hleaf hnode) (by intro j e; cases e)

end Par
end Merkle
end Verif
