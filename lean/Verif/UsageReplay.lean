import Verif.UsageTouch
/-
A computation on a tracked tree can be repeated on the proof made from the usage tree.
-/
set_option linter.unusedVariables false
set_option linter.unusedSimpArgs false
namespace Verif
namespace Usage
open Boc (Below Clash)
open Merkle

/-! ### Specification -/

/-- The same call on a proof: where a cell was tracked the cell `q` of the proof is, and hashes and depths are those at level 0, as a virtualized proof shows
them (`cell/cell_impl/mod.rs` `VirtualCell`, see C14). -/
def replayed (q : CCell) : Op → Op
  | .track _ => .track q
  | .info r _ => .info r 0
  | o => o

/-- The caller cannot tell the answers apart: the same data, the same size, kind and number of references, the same hash and depth, and cells where there
were cells. The level masks of the descriptors, and the cells themselves, are not compared: a proof has pruned branches below. -/
def Alike : Out → Out → Prop
  | .unit, .unit => True
  | .cell a, .cell b => a = b
  | .bytes a, .bytes b => a = b
  | .info none, .info none => True
  | .info (some (d, n, h, k)), .info (some (d', n', h', k')) => d'.isExotic = d.isExotic ∧ d'.referenceCount = d.referenceCount ∧ n' = n ∧ h' = h ∧ k' = k
  | .plain a, .plain b => a.isSome = b.isSome
  | _, _ => False

def AllAlike : List Out → List Out → Prop
  | [], [] => True
  | a :: as, b :: bs => Alike a b ∧ AllAlike as bs
  | _, _ => False

/-! ### Lemmas -/

/-- `c'` is what the proof has for `c`. -/
structure Image (H : Hasher) (cfg : Config) (c c' : CCell) : Prop where
  plain : Merkle.Plain H c
  built : Built H c'
  tree : c'.tree = specNode H cfg 0 c.tree

theorem specNode_parts {H : Hasher} {cfg : Config} {t : Cell} (h : t.off = 0) : (specNode H cfg 0 t).exotic = t.exotic ∧ (specNode H cfg 0 t).bits = t.bits ∧
    (specNode H cfg 0 t).refs = t.refs.map fun x => place H 0 x (specNode H cfg 0 x) (kind H cfg x) := by
  obtain ⟨e, b, rs⟩ := t
  have h0 : offOf e b = 0 := h
  refine ⟨rfl, rfl, ?_⟩
  show specKids H cfg (0 + offOf e b) rs = _
  rw [h0, specKids_eq]
  rfl

theorem Image.refs {H : Hasher} {cfg : Config} {c c' : CCell} (h : Image H cfg c c') :
    c'.refs.map CCell.tree = c.refs.map fun k => place H 0 k.tree (specNode H cfg 0 k.tree) (kind H cfg k.tree) := by
  rw [← CCell.tree_refs, h.tree, (specNode_parts (h.plain.noMerkle _ (.refl _))).2.2, CCell.tree_refs, List.map_map]
  rfl

theorem Image.ref_none {H : Hasher} {cfg : Config} {c c' : CCell} (h : Image H cfg c c') {i : Nat} (hi : c.refs[i]? = none) : c'.refs[i]? = none := by
  have hl : c'.refs.length = c.refs.length := by simpa using congrArg List.length h.refs
  rw [List.getElem?_eq_none_iff] at hi ⊢
  omega

theorem Image.ref_some {H : Hasher} {cfg : Config} {c c' k : CCell} (h : Image H cfg c c') {i : Nat} (hi : c.refs[i]? = some k)
    (hf : cfg.filter k.reprHash = .incl) : ∃ k', c'.refs[i]? = some k' ∧ Image H cfg k k' := by
  have hk : k ∈ c.refs := List.mem_of_getElem? hi
  have hp := h.plain.child hk
  have e := congrArg (·[i]?) h.refs
  simp only [List.getElem?_map, hi, Option.map_some] at e
  cases hk' : c'.refs[i]? with
  | none => rw [hk'] at e; cases e
  | some k' =>
    rw [hk'] at e
    refine ⟨k', rfl, hp, h.built.of_ref (List.mem_of_getElem? hk'), ?_⟩
    have : k'.tree = place H 0 k.tree (specNode H cfg 0 k.tree) (kind H cfg k.tree) := Option.some.inj e
    rw [this]
    unfold kind
    rw [← reprHash_tree hp.built, hf]
    rfl

theorem Image.same {H : Hasher} {cfg : Config} {c c' : CCell} (h : Image H cfg c c') : c'.data = c.data ∧ c'.bitLen = c.bitLen ∧
    c'.desc.isExotic = c.desc.isExotic ∧ c'.desc.referenceCount = c.desc.referenceCount ∧ ∀ l, c'.hash 0 = c.hash l ∧ c'.depth 0 = c.depth l := by
  have f := h.plain.built.facts
  have f' := h.built.facts
  obtain ⟨h1, h2, h3⟩ := specNode_parts (H := H) (cfg := cfg) (h.plain.noMerkle _ (.refl _))
  rw [← h.tree] at h1 h2
  have hx : ∀ d : CCell, d.tree.exotic = d.desc.isExotic := fun d => by rw [CCell.tree_eta d]; rfl
  refine ⟨?_, ?_, ?_, ?_, fun l => ?_⟩
  · apply bytesToBits_inj
    rw [f.tagged, f'.tagged, h2]
  · rw [← f.len, ← f'.len, h2]
  · rw [← hx, ← hx, h1]
  · rw [f.refs, f'.refs]
    simpa using congrArg List.length h.refs
  · have hanc := (C13_ancestors (plain_prunes (cfg := cfg) c h.plain)).2 0 (Nat.le_refl _)
    rw [← h.tree, ← f'.agrees.hash, ← f.agrees.hash, ← f'.agrees.depth, ← f.agrees.depth] at hanc
    obtain ⟨g1, g2⟩ := level0_repr h.plain.level l
    obtain ⟨g3, g4⟩ := level0_repr h.plain.level 0
    exact ⟨hanc.1.trans (g3.symm.trans g1), hanc.2.trans (g4.symm.trans g2)⟩

def OptImage (H : Hasher) (cfg : Config) : Option CCell → Option CCell → Prop
  | none, none => True
  | some c, some c' => Image H cfg c c'
  | _, _ => False

structure Follows (H : Hasher) (cfg : Config) (p q : Usage.Plain) : Prop where
  alive : p.alive = true
  alive' : q.alive = true
  len : p.regs.length = q.regs.length
  regs : ∀ r, OptImage H cfg (p.reg r) (q.reg r)

theorem meet_fields (q : Usage.Plain) (b : Bool) (c : Option CCell) : (q.meet b c).alive = q.alive ∧ (q.meet b c).onLoad = q.onLoad ∧ (q.meet b c).regs = q.regs := by
  unfold Plain.meet
  cases c with
  | none => exact ⟨rfl, rfl, rfl⟩
  | some c => dsimp only; split <;> exact ⟨rfl, rfl, rfl⟩

theorem Follows.meet {H : Hasher} {cfg : Config} {p q : Usage.Plain} (h : Follows H cfg p q) (b b' : Bool) (c c' : Option CCell) :
    Follows H cfg (p.meet b c) (q.meet b' c') := by
  obtain ⟨a1, a2, a3⟩ := meet_fields p b c
  obtain ⟨b1, b2, b3⟩ := meet_fields q b' c'
  refine ⟨a1.trans h.alive, b1.trans h.alive', by rw [a3, b3, h.len], fun r => ?_⟩
  unfold Plain.reg
  rw [a3, b3]
  exact h.regs r

theorem Follows.push {H : Hasher} {cfg : Config} {p q : Usage.Plain} (h : Follows H cfg p q) {c c' : Option CCell} (hc : OptImage H cfg c c') :
    Follows H cfg { p with regs := p.regs ++ [c] } { q with regs := q.regs ++ [c'] } := by
  refine ⟨h.alive, h.alive', by simp [h.len], fun r => ?_⟩
  unfold Plain.reg
  dsimp only
  rw [join_append, join_append, h.len]
  split
  · exact hc
  · exact h.regs r

theorem Follows.step {H : Hasher} {cfg : Config} {p q : Usage.Plain} (h : Follows H cfg p q) {root P : CCell} (hP : Image H cfg root P) (o : Op)
    (ho : ∀ c, o = .track c → c = root) (hd : o ≠ .drop) (hf : ∀ r c, (p.step o).1.reg r = some c → cfg.filter c.reprHash = .incl) :
    Follows H cfg (p.step o).1 (q.step (replayed P o)).1 ∧ Alike (p.step o).2 (q.step (replayed P o)).2 := by
  cases o with
  | drop => exact absurd rfl hd
  | track c =>
    have := ho c rfl
    subst this
    unfold replayed Plain.step
    dsimp only
    rw [if_pos h.alive, if_pos h.alive']
    exact ⟨(h.push (c := some c) (c' := some P) hP).meet p.onLoad q.onLoad (some c) (some P), rfl⟩
  | load r i =>
    have key : OptImage H cfg ((p.reg r).bind fun c => c.refs[i]?) ((q.reg r).bind fun c => c.refs[i]?) := by
      have hreg := h.regs r
      cases hp : p.reg r with
      | none =>
        rw [hp] at hreg
        cases hq : q.reg r with
        | none => exact trivial
        | some c' => rw [hq] at hreg; exact hreg.elim
      | some c =>
        rw [hp] at hreg
        cases hq : q.reg r with
        | none => rw [hq] at hreg; exact hreg.elim
        | some c' =>
          rw [hq] at hreg
          have hreg : Image H cfg c c' := hreg
          show OptImage H cfg (c.refs[i]?) (c'.refs[i]?)
          cases hk : c.refs[i]? with
          | none => rw [hreg.ref_none hk]; exact trivial
          | some k =>
            have : cfg.filter k.reprHash = .incl := by
              refine hf p.regs.length k ?_
              have hstep : (p.step (.load r i)).1.regs = p.regs ++ [some k] := by
                show ((({ p with regs := p.regs ++ [(p.reg r).bind fun c => c.refs[i]?] } : Usage.Plain)).meet _ _).regs = _
                rw [(meet_fields _ _ _).2.2, hp, Option.bind_some, hk]
              unfold Plain.reg
              rw [hstep, join_append, if_pos rfl]
            obtain ⟨k', e, hk'⟩ := hreg.ref_some hk this
            rw [e]
            exact hk'
    refine ⟨(h.push key).meet _ _ _ _, ?_⟩
    show Option.isSome _ = Option.isSome _
    revert key
    generalize ((p.reg r).bind fun c => c.refs[i]?) = a
    generalize ((q.reg r).bind fun c => c.refs[i]?) = b
    intro key
    cases a <;> cases b <;> first | rfl | exact key.elim
  | data r =>
    refine ⟨h.meet _ _ _ _, ?_⟩
    show (p.reg r).map CCell.data = (q.reg r).map CCell.data
    have hreg := h.regs r
    revert hreg
    generalize p.reg r = a
    generalize q.reg r = b
    intro hreg
    cases a with
    | none =>
      cases b with
      | none => rfl
      | some c' => exact False.elim hreg
    | some c =>
      cases b with
      | none => exact False.elim hreg
      | some c' => exact congrArg some (Image.same hreg).1.symm
  | info r l =>
    refine ⟨h, ?_⟩
    show Alike (.info ((p.reg r).map _)) (.info ((q.reg r).map _))
    have hreg := h.regs r
    cases hp : p.reg r <;> cases hq : q.reg r <;> rw [hp, hq] at hreg
    · exact trivial
    · exact hreg.elim
    · exact hreg.elim
    · obtain ⟨_, h2, h3, h4, h5⟩ := hreg.same
      exact ⟨h3, h4, h2, (h5 l).1, (h5 l).2⟩
  | untrack r =>
    refine ⟨h, ?_⟩
    show (p.reg r).isSome = (q.reg r).isSome
    have hreg := h.regs r
    cases hp : p.reg r <;> cases hq : q.reg r <;> rw [hp, hq] at hreg <;> first | rfl | exact hreg.elim

theorem reg_step (o : Op) (p : Usage.Plain) {r : Nat} {c : CCell} (h : p.reg r = some c) : (p.step o).1.reg r = some c := by
  have hlt : r ≠ p.regs.length := by
    intro e
    unfold Plain.reg at h
    rw [e, List.getElem?_eq_none (Nat.le_refl _)] at h
    cases h
  have push : ∀ x, ((p.regs ++ [x])[r]?).join = some c := fun x => by rw [join_append, if_neg hlt]; exact h
  cases o with
  | track d =>
    unfold Plain.step
    dsimp only
    split
    · unfold Plain.reg; rw [(meet_fields _ _ _).2.2]; exact push _
    · exact push _
  | load r' i =>
    unfold Plain.step Plain.reg; dsimp only; rw [(meet_fields _ _ _).2.2]; exact push _
  | data r' =>
    unfold Plain.step Plain.reg; dsimp only; rw [(meet_fields _ _ _).2.2]; exact h
  | info _ _ => exact h
  | untrack _ => exact h
  | drop => exact h

theorem reg_run : ∀ (os : List Op) (p : Usage.Plain) {r : Nat} {c : CCell}, p.reg r = some c → (p.run os).1.reg r = some c
  | [], _, _, _, h => h
  | o :: os, p, _, _, h => reg_run os (p.step o).1 (reg_step o p h)

theorem Follows.run {H : Hasher} {cfg : Config} {root P : CCell} (hP : Image H cfg root P) : ∀ (os : List Op) {p q : Usage.Plain}, Follows H cfg p q →
    (∀ c, Op.track c ∈ os → c = root) → Op.drop ∉ os → (∀ r c, (p.run os).1.reg r = some c → cfg.filter c.reprHash = .incl) →
    AllAlike (p.run os).2 (q.run (os.map (replayed P))).2
  | [], p, q, h, _, _, _ => trivial
  | o :: os, p, q, h, ho, hd, hf => by
    obtain ⟨h1, h2⟩ := h.step hP o (fun c e => ho c (by rw [e]; exact List.mem_cons_self)) (fun e => hd (by rw [e]; exact List.mem_cons_self))
      (fun r c hx => hf r c (reg_run os _ hx))
    exact ⟨h2, Follows.run hP os h1 (fun c hc => ho c (List.mem_cons_of_mem _ hc)) (fun hm => hd (List.mem_cons_of_mem _ hm)) hf⟩

/-! ### Properties -/

/-- Whatever a computation does with a tracked tree (of level 0 and without Merkle cells), in both modes and with any marks of subtrees: if it has visited all
cells it was given, then the proof made with the usage tree can be built, and the same computation on the proof instead of the tree gets the same answers.
(Up to hash collisions in the tree.) -/
theorem C39_replay_visited {H : Hasher} {root : CCell} (hr : Merkle.Plain H root) (onLoad : Bool) (os : List Op) (hos : ∀ c, Op.track c ∈ os → c = root)
    (hd : Op.drop ∉ os) (subtrees : List Hash) (big mode : Bool) :
    let run := (Machine.start onLoad).run (.track root :: os)
    (∀ r c, ((Usage.Plain.start onLoad).run (.track root :: os)).1.reg r = some c → run.1.tree.contains c.reprHash = true) →
    Clash H [root] ∨ ∃ p : Proof, Proof.build H ⟨run.1.tree.filterSub subtrees, big⟩ false root = .ok p ∧ p.hash = root.reprHash ∧
      AllAlike run.2 ((Machine.start mode).run ((Op.track root :: os).map (replayed p.cell))).2 := by
  intro run hv
  have hos' : ∀ c, Op.track c ∈ Op.track root :: os → c = root := by
    intro c hc
    rcases List.mem_cons.mp hc with hc | hc
    · cases hc; rfl
    · exact hos c hc
  obtain ⟨ho, _, _⟩ := C39_exact (H := H) onLoad (.track root :: os) fun c hc => by rw [hos' c hc]; exact hr.built
  have hfil : ∀ r c, ((Usage.Plain.start onLoad).run (.track root :: os)).1.reg r = some c → run.1.tree.filterSub subtrees c.reprHash = .incl := by
    intro r c hx
    unfold Tree.filterSub
    rw [if_pos (hv r c hx)]
  have hroot : run.1.tree.filterSub subtrees root.reprHash = .incl := hfil 0 root (reg_run os _ (by cases onLoad <;> rfl))
  rcases C36_plain (cfg := ⟨run.1.tree.filterSub subtrees, big⟩) (allow := false) hr.built hr.level (Or.inr (by
    show run.1.tree.filterSub subtrees root.reprHash ≠ .skip
    rw [hroot]; exact fun e => nomatch e)) hr.noMerkle with h | ⟨p, h1, h2, _, h4, h5, _⟩
  · exact Or.inl h
  · refine Or.inr ⟨p, h1, h2, ?_⟩
    obtain ⟨ho', _, _⟩ := C39_exact (H := H) mode ((Op.track root :: os).map (replayed p.cell)) (by
      intro c hc
      obtain ⟨o, _, e⟩ := List.mem_map.mp hc
      cases o <;> cases e
      exact h4)
    rw [show run.2 = _ from ho, ho']
    refine Follows.run (cfg := ⟨run.1.tree.filterSub subtrees, big⟩) ⟨hr, h4, h5⟩ (.track root :: os) ⟨rfl, rfl, rfl, fun r => ?_⟩ hos' (by
      intro hm
      rcases List.mem_cons.mp hm with hm | hm
      · cases hm
      · exact hd hm) hfil
    exact trivial

/-- In the mode `OnLoad` every cell that the computation was given is visited: it can always be repeated on the proof. -/
theorem C39_replay {H : Hasher} {root : CCell} (hr : Merkle.Plain H root) (os : List Op) (hos : ∀ c, Op.track c ∈ os → c = root) (hd : Op.drop ∉ os) (big mode : Bool) :
    let run := (Machine.start true).run (.track root :: os)
    Clash H [root] ∨ ∃ p : Proof, Proof.build H ⟨run.1.tree.filter, big⟩ false root = .ok p ∧ p.hash = root.reprHash ∧
      AllAlike run.2 ((Machine.start mode).run ((Op.track root :: os).map (replayed p.cell))).2 := by
  intro run
  have hb : ∀ c, Op.track c ∈ Op.track root :: os → Built H c := by
    intro c hc
    rcases List.mem_cons.mp hc with hc | hc
    · cases hc; exact hr.built
    · rw [hos c hc]; exact hr.built
  obtain ⟨_, hs, _⟩ := C39_exact (H := H) true (.track root :: os) hb
  have hd' : Op.drop ∉ Op.track root :: os := by
    intro hm
    rcases List.mem_cons.mp hm with hm | hm
    · cases hm
    · exact hd hm
  obtain ⟨a1, a2⟩ := alive_run (.track root :: os) (p := Usage.Plain.start true) rfl hd'
  have hh := held_run (H := H) (.track root :: os) (p := Usage.Plain.start true) (fun r c e => by cases e) hb
  have hfs : run.1.tree.filter = run.1.tree.filterSub [] := by
    funext x
    unfold Tree.filter Tree.filterSub
    simp
  rw [hfs]
  exact C39_replay_visited hr true os hos hd [] big mode fun r c hc => (hs _).mpr ((hh r c hc).2 a2 a1)

/-- The data of a read, if the last answer was one. -/
def lastBytes (os : List Out) : Option (List Byte) :=
  match os.getLast? with
  | some (.bytes d) => d
  | _ => none

/-- In the mode `OnDataAccess` a computation that was given cells without reading them can not always be repeated: the data that the computation has read need not be in the proof, as a cell passed on the way without reading
it is pruned. In the other mode the same computation reads it again. -/
theorem C39_replay_data_access :
    (match chain with
      | .ok (old, _) =>
        (match Proof.build toyHasher ⟨((Machine.start false).run (descend old)).1.tree.filter, false⟩ false old with
          | .ok p => decide ((lastBytes ((Machine.start false).run (descend old)).2).isSome = true ∧
              (lastBytes ((Machine.start false).run ((descend old).map (replayed p.cell))).2) = none)
          | .error _ => false) &&
        (match Proof.build toyHasher ⟨((Machine.start true).run (descend old)).1.tree.filter, false⟩ false old with
          | .ok p => decide ((lastBytes ((Machine.start true).run (descend old)).2).isSome = true ∧
              (lastBytes ((Machine.start true).run ((descend old).map (replayed p.cell))).2) = lastBytes ((Machine.start true).run (descend old)).2)
          | .error _ => false)
      | .error _ => false) = true := by decide +kernel

-- a proof that is smaller than the tree, and the data read in it
example : (match pair with
  | .ok (old, _, _) =>
    (match Proof.build toyHasher ⟨((Machine.start true).run (descend old)).1.tree.filter, false⟩ false old with
      | .ok p => decide (p.cell.reprHash ≠ old.reprHash ∧ (lastBytes ((Machine.start true).run (descend old)).2).isSome = true ∧
          (lastBytes ((Machine.start true).run ((descend old).map (replayed p.cell))).2) = lastBytes ((Machine.start true).run (descend old)).2)
      | .error _ => false)
  | .error _ => false) = true := by decide +kernel

-- a computation in the mode `OnDataAccess` that has read every cell it was given, and one that has not
example : (match chain with
  | .ok (old, _) =>
    let os := [Op.track old, .data 0, .load 0 0, .data 1, .load 1 0, .data 2]
    let all := fun os : List Op => ((Usage.Plain.start false).run os).1.regs.all fun | some c => ((Machine.start false).run os).1.tree.contains c.reprHash | none => true
    decide (((Machine.start false).run os).1.tree.visited.length = 3) && all os && !all (descend old)
  | .error _ => false) = true := by decide +kernel

-- the hypotheses of `C39_replay` hold of a tree of four cells and a computation that goes down two references
example : ∃ old new, chain = .ok (old, new) ∧ Merkle.Plain toyHasher old ∧ ∃ os, descend old = Op.track old :: os ∧ (∀ c, Op.track c ∈ os → c = old) ∧ Op.drop ∉ os := by
  have hall : chain.isOk = true := by decide +kernel
  obtain ⟨⟨old, new⟩, h0⟩ := Except.exists_of_isOk hall
  have h := h0
  refine ⟨old, new, h0, ?_, _, rfl, ?_, ?_⟩
  · unfold chain at h
    obtain ⟨leaf, e1, h⟩ := ebind_inv h
    obtain ⟨y, e2, h⟩ := ebind_inv h
    obtain ⟨a, e3, h⟩ := ebind_inv h
    obtain ⟨o, e4, h⟩ := ebind_inv h
    obtain ⟨n, e5, h⟩ := ebind_inv h
    injection h with h
    injection h with h1 h2
    subst h1 h2
    obtain ⟨b1, t1, _⟩ := mkCell_built e1 (by simp) (by decide) (by decide)
    obtain ⟨b2, t2, _⟩ := mkCell_built e2 (by simpa using b1) (by decide) (by simp)
    obtain ⟨b3, t3, _⟩ := mkCell_built e3 (by simpa using b2) (by decide) (by simp)
    obtain ⟨b4, t4, _⟩ := mkCell_built e4 (by simpa using b3) (by decide) (by simp)
    have n1 : NoMerkle leaf.tree := by rw [t1]; exact noMerkle_ordinary (by simp)
    have n2 : NoMerkle y.tree := by rw [t2]; exact noMerkle_ordinary (by simpa using n1)
    have n3 : NoMerkle a.tree := by rw [t3]; exact noMerkle_ordinary (by simpa using n2)
    have lv : (match chain with | .ok (o, _) => decide (o.desc.levelMask = 0) | .error _ => false) = true := by decide +kernel
    rw [h0] at lv
    exact ⟨b4, of_decide_eq_true lv, by rw [t4]; exact noMerkle_ordinary (by simpa using n3)⟩
  · intro c hc; simp at hc
  · simp

end Usage
end Verif
