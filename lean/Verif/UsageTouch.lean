import Verif.UsageProps
/-
`DynCell::touch_recursive` (`cell/mod.rs`) on a tracked cell: the whole subtree is marked as visited.
-/
set_option linter.unusedVariables false
set_option linter.unusedSimpArgs false
namespace Verif
namespace Usage
open Boc Merkle

/-! ### Model -/

mutual
/-- The number of references loaded below a cell, the same cell counted as often as it is met. -/
def loads : CCell → Nat
  | .mk _ _ _ rs _ => loadsList rs
def loadsList : List CCell → Nat
  | [] => 0
  | c :: cs => 1 + loads c + loadsList cs
end

mutual
/-- `cell/mod.rs:276-281` `touch_recursive`, as the calls it makes on a usage cell: the data, then each reference (`references()`, as many as the
cell has) and what is below it. `r` is the register of the cell and `n` the next free one. -/
def touch : CCell → Nat → Nat → List Op
  | .mk _ _ _ rs _, r, n => .data r :: touchKids rs r 0 n
def touchKids : List CCell → Nat → Nat → Nat → List Op
  | [], _, _, _ => []
  | c :: cs, r, i, n => .load r i :: (touch c n (n + 1) ++ touchKids cs r (i + 1) (n + 1 + loads c))
end

/-! ### Lemmas -/

theorem Plain.run_append : ∀ (os os' : List Op) (p : Plain), (p.run (os ++ os')).1 = ((p.run os).1.run os').1
  | [], _, _ => rfl
  | o :: os, os', p => Plain.run_append os os' (p.step o).1

theorem Machine.run_append : ∀ (os os' : List Op) (m : Machine), (m.run (os ++ os')).1 = ((m.run os).1.run os').1
  | [], _, _ => rfl
  | o :: os, os', m => Machine.run_append os os' (m.step o).1

/-- What a part of the traversal does: registers are appended, the mode stays, and these hashes are added. -/
structure Adds (p p' : Plain) (k : Nat) (P : Hash → Prop) : Prop where
  mode : p'.onLoad = p.onLoad
  alive : p'.alive = true
  regs : ∃ l, p'.regs = p.regs ++ l ∧ l.length = k
  seen : ∀ h, h ∈ p'.seen ↔ h ∈ p.seen ∨ P h

theorem Adds.reg {p p' : Plain} {k : Nat} {P : Hash → Prop} (h : Adds p p' k P) {r : Nat} {c : CCell} (hr : p.reg r = some c) : p'.reg r = some c := by
  obtain ⟨l, e, _⟩ := h.regs
  unfold Plain.reg at hr ⊢
  rw [e]
  cases hx : p.regs[r]? with
  | none => rw [hx] at hr; cases hr
  | some x => rw [List.getElem?_append_left (List.getElem?_eq_some_iff.mp hx).1, hx]; rw [hx] at hr; exact hr

theorem Adds.trans {p p' p2 : Plain} {k k' : Nat} {P Q : Hash → Prop} (h : Adds p p' k P) (h' : Adds p' p2 k' Q) : Adds p p2 (k + k') (fun x => P x ∨ Q x) := by
  obtain ⟨l, e, hl⟩ := h.regs
  obtain ⟨l', e', hl'⟩ := h'.regs
  refine ⟨h'.mode.trans h.mode, h'.alive, ⟨l ++ l', by rw [e', e, List.append_assoc], by rw [List.length_append, hl, hl']⟩, fun x => ?_⟩
  rw [h'.seen, h.seen, or_assoc]

theorem Adds.weaken {p p' : Plain} {k : Nat} {P Q : Hash → Prop} (h : Adds p p' k P) (e : ∀ x, P x ↔ Q x) : Adds p p' k Q :=
  ⟨h.mode, h.alive, h.regs, fun x => by rw [h.seen, e]⟩

theorem adds_meet {q : Plain} (ha : q.alive = true) (b : Bool) (c : CCell) : Adds q (q.meet b (some c)) 0 (fun h => b = true ∧ h = c.reprHash) := by
  obtain ⟨m, al, rg, sn⟩ := q
  dsimp only at ha
  subst ha
  cases b with
  | true => exact ⟨rfl, rfl, ⟨[], (List.append_nil _).symm, rfl⟩, fun h => by simp [Plain.meet, Or.comm]⟩
  | false => exact ⟨rfl, rfl, ⟨[], (List.append_nil _).symm, rfl⟩, fun h => by simp [Plain.meet]⟩

theorem adds_data {p : Plain} (ha : p.alive = true) {r : Nat} {c : CCell} (hr : p.reg r = some c) :
    Adds p (p.step (.data r)).1 0 (fun h => p.onLoad = false ∧ h = c.reprHash) := by
  have e : (p.step (.data r)).1 = p.meet (!p.onLoad) (some c) := by
    show p.meet (!p.onLoad) (p.reg r) = _
    rw [hr]
  rw [e]
  exact (adds_meet ha _ c).weaken fun x => by simp

theorem adds_load {p : Plain} (ha : p.alive = true) {r i : Nat} {c d : CCell} (hr : p.reg r = some c) (hd : c.refs[i]? = some d) :
    Adds p (p.step (.load r i)).1 1 (fun h => p.onLoad = true ∧ h = d.reprHash) ∧ (p.step (.load r i)).1.reg p.regs.length = some d := by
  have e : (p.step (.load r i)).1 = ({ p with regs := p.regs ++ [some d] } : Plain).meet p.onLoad (some d) := by
    show ({ p with regs := p.regs ++ [(p.reg r).bind fun c => c.refs[i]?] } : Plain).meet p.onLoad ((p.reg r).bind fun c => c.refs[i]?) = _
    rw [hr]
    show ({ p with regs := p.regs ++ [c.refs[i]?] } : Plain).meet p.onLoad (c.refs[i]?) = _
    rw [hd]
  rw [e]
  have h0 : Adds p { p with regs := p.regs ++ [some d] } 1 (fun _ => False) := ⟨rfl, ha, ⟨[some d], rfl, rfl⟩, fun h => by simp⟩
  have h1 := adds_meet (q := { p with regs := p.regs ++ [some d] }) ha p.onLoad d
  refine ⟨(h0.trans h1).weaken fun x => by simp, h1.reg ?_⟩
  unfold Plain.reg
  simp

mutual
theorem touch_adds : ∀ (c : CCell) (p : Plain) (r : Nat), p.alive = true → p.reg r = some c →
    Adds p (p.run (touch c r p.regs.length)).1 (loads c) (fun h => (p.onLoad = false ∧ h = c.reprHash) ∨ ∃ k ∈ c.refs, ∃ d, CCell.Sub d k ∧ d.reprHash = h)
  | .mk de bl da rs hs, p, r, ha, hr => by
    have h1 := adds_data ha hr
    have h2 := touchKids_adds (.mk de bl da rs hs) rs (p.step (.data r)).1 r 0 h1.alive (h1.reg hr) rfl
    obtain ⟨l, e, hl⟩ := h1.regs
    have hlen : (p.step (.data r)).1.regs.length = p.regs.length := by rw [e, List.length_append, hl, Nat.add_zero]
    rw [hlen] at h2
    have := h1.trans h2
    rw [Nat.zero_add] at this
    exact this
theorem touchKids_adds : ∀ (c : CCell) (cs : List CCell) (p : Plain) (r i : Nat), p.alive = true → p.reg r = some c → c.refs.drop i = cs →
    Adds p (p.run (touchKids cs r i p.regs.length)).1 (loadsList cs) (fun h => ∃ k ∈ cs, ∃ d, CCell.Sub d k ∧ d.reprHash = h)
  | c, [], p, r, i, ha, hr, hd => ⟨rfl, ha, ⟨[], (List.append_nil _).symm, rfl⟩, fun h => by simp [touchKids, Plain.run]⟩
  | c, k :: cs, p, r, i, ha, hr, hd => by
    have hk : c.refs[i]? = some k := by
      have := congrArg (·[0]?) hd
      simpa [List.getElem?_drop] using this
    obtain ⟨h1, g1⟩ := adds_load ha hr hk
    obtain ⟨l, e, hl⟩ := h1.regs
    have hlen : (p.step (.load r i)).1.regs.length = p.regs.length + 1 := by rw [e, List.length_append, hl]
    have h2 := touch_adds k (p.step (.load r i)).1 p.regs.length h1.alive g1
    rw [hlen] at h2
    obtain ⟨l2, e2, hl2⟩ := h2.regs
    have h3 := touchKids_adds c cs _ r (i + 1) h2.alive (h2.reg (h1.reg hr)) (by rw [← List.drop_drop, hd]; rfl)
    rw [show ((p.step (.load r i)).1.run (touch k p.regs.length (p.regs.length + 1))).1.regs.length = p.regs.length + 1 + loads k by
      rw [e2, List.length_append, hlen, hl2]] at h3
    have h4 := (h1.trans h2).trans h3
    have he : (p.run (touchKids (k :: cs) r i p.regs.length)).1 =
        (((p.step (.load r i)).1.run (touch k p.regs.length (p.regs.length + 1))).1.run (touchKids cs r (i + 1) (p.regs.length + 1 + loads k))).1 :=
      Plain.run_append _ _ _
    rw [he]
    refine h4.weaken fun x => ?_
    rw [h1.mode]
    constructor
    · rintro ((⟨_, rfl⟩ | ⟨_, rfl⟩ | ⟨q, hq, d, hs, rfl⟩) | ⟨q, hq, d, hs, rfl⟩)
      · exact ⟨k, List.mem_cons_self, k, .refl _, rfl⟩
      · exact ⟨k, List.mem_cons_self, k, .refl _, rfl⟩
      · exact ⟨k, List.mem_cons_self, d, .child hq hs, rfl⟩
      · exact ⟨q, List.mem_cons_of_mem _ hq, d, hs, rfl⟩
    · rintro ⟨q, hq, d, hs, rfl⟩
      rcases List.mem_cons.mp hq with rfl | hq
      · cases hs with
        | refl =>
          cases hm : p.onLoad with
          | true => exact Or.inl (Or.inl ⟨rfl, rfl⟩)
          | false => exact Or.inl (Or.inr (Or.inl ⟨rfl, rfl⟩))
        | child hr' hs' => exact Or.inl (Or.inr (Or.inr ⟨_, hr', d, hs', rfl⟩))
      · exact Or.inr ⟨q, hq, d, hs, rfl⟩
end

/-- Registers hold properly built cells, which count as seen in the mode `OnLoad`. -/
def Held (H : Hasher) (p : Plain) : Prop := ∀ r c, p.reg r = some c → Built H c ∧ (p.onLoad = true → p.alive = true → c.reprHash ∈ p.seen)

theorem held_push {H : Hasher} {p : Plain} (h : Held H p) (o : Option CCell) (ho : ∀ c, o = some c → Built H c) :
    Held H (({ p with regs := p.regs ++ [o] } : Plain).meet p.onLoad o) := by
  intro r c hr
  have hregs : (({ p with regs := p.regs ++ [o] } : Plain).meet p.onLoad o).regs = p.regs ++ [o] := by
    unfold Plain.meet; cases o <;> dsimp only; split <;> rfl
  have hmode : (({ p with regs := p.regs ++ [o] } : Plain).meet p.onLoad o).onLoad = p.onLoad ∧ (({ p with regs := p.regs ++ [o] } : Plain).meet p.onLoad o).alive = p.alive := by
    unfold Plain.meet; cases o <;> dsimp only
    · exact ⟨rfl, rfl⟩
    · split <;> exact ⟨rfl, rfl⟩
  have hmono : ∀ x, x ∈ p.seen → x ∈ (({ p with regs := p.regs ++ [o] } : Plain).meet p.onLoad o).seen := by
    intro x hx; unfold Plain.meet; cases o <;> dsimp only
    · exact hx
    · split
      · exact List.mem_cons_of_mem _ hx
      · exact hx
  rw [hmode.1, hmode.2]
  unfold Plain.reg at hr
  rw [hregs, join_append] at hr
  split at hr
  · subst hr
    refine ⟨ho c rfl, fun h1 h2 => ?_⟩
    unfold Plain.meet
    simp [h1, h2]
  · obtain ⟨h1, h2⟩ := h r c hr
    exact ⟨h1, fun a b => hmono _ (h2 a b)⟩

theorem held_step {H : Hasher} {p : Plain} (h : Held H p) (o : Op) (ho : ∀ c, o = .track c → Built H c) : Held H (p.step o).1 := by
  cases o with
  | track c =>
    unfold Plain.step
    dsimp only
    split
    · exact held_push h (some c) fun d hd => by cases hd; exact ho _ rfl
    · have := held_push h none fun d hd => nomatch hd
      exact this
  | load r i =>
    refine held_push h _ fun d hd => ?_
    cases hr : p.reg r with
    | none => rw [hr] at hd; cases hd
    | some c => rw [hr] at hd; exact (h r c hr).1.of_ref (List.mem_of_getElem? hd)
  | data r =>
    show Held H (p.meet (!p.onLoad) (p.reg r))
    unfold Plain.meet
    cases p.reg r with
    | none => exact h
    | some c =>
      dsimp only
      split
      · intro r' c' hr'
        obtain ⟨h1, h2⟩ := h r' c' hr'
        exact ⟨h1, fun a b => List.mem_cons_of_mem _ (h2 a b)⟩
      · exact h
  | info r l => exact h
  | untrack r => exact h
  | drop => exact fun r c hr => ⟨(h r c hr).1, fun _ b => nomatch b⟩

theorem held_run {H : Hasher} : ∀ (os : List Op) {p : Plain}, Held H p → (∀ c, Op.track c ∈ os → Built H c) → Held H (p.run os).1
  | [], p, h, _ => h
  | o :: os, p, h, ho => held_run os (held_step h o fun c hc => ho c (by simp [hc])) fun c hc => ho c (by simp [hc])

theorem alive_run : ∀ (os : List Op) {p : Plain}, p.alive = true → Op.drop ∉ os → (p.run os).1.alive = true ∧ (p.run os).1.onLoad = p.onLoad
  | [], p, h, _ => ⟨h, rfl⟩
  | o :: os, p, h, ho => by
    have hstep : (p.step o).1.alive = true ∧ (p.step o).1.onLoad = p.onLoad := by
      have hmeet : ∀ (q : Plain) (b : Bool) (c : Option CCell), (q.meet b c).alive = q.alive ∧ (q.meet b c).onLoad = q.onLoad := by
        intro q b c
        unfold Plain.meet
        cases c with
        | none => exact ⟨rfl, rfl⟩
        | some c => dsimp only; split <;> exact ⟨rfl, rfl⟩
      cases o with
      | track c => unfold Plain.step; dsimp only; rw [if_pos h]; exact ⟨(hmeet _ _ _).1.trans h, (hmeet _ _ _).2⟩
      | load r i => exact ⟨(hmeet _ _ _).1.trans h, (hmeet _ _ _).2⟩
      | data r => exact ⟨(hmeet _ _ _).1.trans h, (hmeet _ _ _).2⟩
      | info r l => exact ⟨h, rfl⟩
      | untrack r => exact ⟨h, rfl⟩
      | drop => exact absurd List.mem_cons_self ho
    obtain ⟨h1, h2⟩ := alive_run os hstep.1 fun hm => ho (List.mem_cons_of_mem _ hm)
    exact ⟨h1, h2.trans hstep.2⟩

theorem seen_step (o : Op) (p : Plain) {h : Hash} (hh : h ∈ p.seen) : h ∈ (p.step o).1.seen := by
  have hmeet : ∀ (q : Plain) (b : Bool) (c : Option CCell), h ∈ q.seen → h ∈ (q.meet b c).seen := by
    intro q b c hq
    unfold Plain.meet
    cases c with
    | none => exact hq
    | some c =>
      dsimp only
      split
      · exact List.mem_cons_of_mem _ hq
      · exact hq
  cases o with
  | track c =>
    unfold Plain.step
    dsimp only
    split
    · exact hmeet _ _ _ hh
    · exact hh
  | load r i => exact hmeet _ _ _ hh
  | data r => exact hmeet _ _ _ hh
  | info r l => exact hh
  | untrack r => exact hh
  | drop => exact hh

theorem seen_run : ∀ (os : List Op) (p : Plain) {h : Hash}, h ∈ p.seen → h ∈ (p.run os).1.seen
  | [], _, _, hh => hh
  | o :: os, p, _, hh => seen_run os (p.step o).1 (seen_step o p hh)

mutual
theorem no_track : ∀ (c : CCell) (r n : Nat) (d : CCell), Op.track d ∉ touch c r n
  | .mk _ _ _ rs _, r, n, d => by
    intro h
    rw [touch] at h
    rcases List.mem_cons.mp h with h | h
    · cases h
    · exact no_trackKids rs r 0 n d h
theorem no_trackKids : ∀ (cs : List CCell) (r i n : Nat) (d : CCell), Op.track d ∉ touchKids cs r i n
  | [], _, _, _, _ => by intro h; cases h
  | c :: cs, r, i, n, d => by
    intro h
    rw [touchKids] at h
    rcases List.mem_cons.mp h with h | h
    · cases h
    · rcases List.mem_append.mp h with h | h
      · exact no_track c _ _ d h
      · exact no_trackKids cs _ _ _ d h
end

theorem place_keep {H : Hasher} {cfg : Config} {d : Nat} {t : Cell} (hk : cfg.filter (t.reprHash H) ≠ .skip) (hn : specNode H cfg d t = t) :
    place H d t (specNode H cfg d t) (kind H cfg t) = t := by
  unfold kind
  cases hf : cfg.filter (t.reprHash H) with
  | skip => exact absurd hf hk
  | incl => exact hn
  | inclSubtree => rfl

mutual
theorem specNode_keep {H : Hasher} {cfg : Config} : ∀ (t : Cell) (d : Nat), (∀ x, Cell.Sub x t → cfg.filter (x.reprHash H) ≠ .skip) → specNode H cfg d t = t
  | .mk e b rs, d, h => by rw [specNode, specKids_keep rs _ fun k hk x hx => h x (.child hk hx)]
theorem specKids_keep {H : Hasher} {cfg : Config} : ∀ (ts : List Cell) (d : Nat), (∀ k ∈ ts, ∀ x, Cell.Sub x k → cfg.filter (x.reprHash H) ≠ .skip) → specKids H cfg d ts = ts
  | [], d, _ => rfl
  | t :: ts, d, h => by
    rw [specKids, specKids_keep ts d fun k hk => h k (List.mem_cons_of_mem _ hk),
      place_keep (h t List.mem_cons_self t (.refl _)) (specNode_keep t d (h t List.mem_cons_self))]
end

/-! ### Properties -/

/-- Touching a tracked cell recursively, after any calls that left the tree alive: what the tree contains afterwards is what it contained before and every
cell below the touched one, itself included, and nothing else. This holds in both modes. -/
theorem C39_touch {H : Hasher} (onLoad : Bool) (os : List Op) (hb : ∀ c, Op.track c ∈ os → Built H c) (hd : Op.drop ∉ os) {r : Nat} {c : CCell}
    (hr : ((Plain.start onLoad).run os).1.reg r = some c) (h : Hash) :
    ((Machine.start onLoad).run (os ++ touch c r ((Plain.start onLoad).run os).1.regs.length)).1.tree.contains h = true ↔
      ((Machine.start onLoad).run os).1.tree.contains h = true ∨ ∃ d, CCell.Sub d c ∧ d.reprHash = h := by
  obtain ⟨_, h1, _⟩ := C39_exact (H := H) onLoad os hb
  obtain ⟨_, h2, _⟩ := C39_exact (H := H) onLoad (os ++ touch c r ((Plain.start onLoad).run os).1.regs.length) (by
    intro d hd'
    rcases List.mem_append.mp hd' with hd' | hd'
    · exact hb d hd'
    · exact absurd hd' (no_track c _ _ d))
  obtain ⟨ha, hm⟩ := alive_run os (p := Plain.start onLoad) rfl hd
  have hh := held_run (H := H) os (p := Plain.start onLoad) (fun r c e => by cases e) hb
  have ht := touch_adds c _ r ha hr
  rw [h1, h2, Plain.run_append, ht.seen]
  constructor
  · rintro (h' | ⟨_, rfl⟩ | ⟨k, hk, d, hs, e⟩)
    · exact Or.inl h'
    · exact Or.inr ⟨c, .refl _, rfl⟩
    · exact Or.inr ⟨d, .child hk hs, e⟩
  · rintro (h' | ⟨d, hs, rfl⟩)
    · exact Or.inl h'
    · cases hs with
      | refl =>
        cases hq : ((Plain.start onLoad).run os).1.onLoad with
        | true => exact Or.inl ((hh r c hr).2 hq ha)
        | false => exact Or.inr (Or.inl ⟨rfl, rfl⟩)
      | child hk hs => exact Or.inr (Or.inr ⟨_, hk, d, hs, rfl⟩)

/-- So the touched subtree is kept whole in every proof made with the filter of that tree, whatever is done with the tree in the meantime and at whatever
Merkle depth the subtree is met: the proof has the very same tree in its place. -/
theorem C39_touch_whole {H : Hasher} (onLoad : Bool) (os : List Op) (hb : ∀ c, Op.track c ∈ os → Built H c) (hd : Op.drop ∉ os) {r : Nat} {c : CCell}
    (hr : ((Plain.start onLoad).run os).1.reg r = some c) (later : List Op) (hl : ∀ c, Op.track c ∈ later → Built H c) (big : Bool) (d : Nat) :
    let t := ((Machine.start onLoad).run (os ++ touch c r ((Plain.start onLoad).run os).1.regs.length ++ later)).1.tree
    specNode H ⟨t.filter, big⟩ d c.tree = c.tree ∧ kind H ⟨t.filter, big⟩ c.tree = .node := by
  intro t
  have hmid : ∀ e, Op.track e ∈ os ++ touch c r ((Plain.start onLoad).run os).1.regs.length → Built H e := by
    intro e he
    rcases List.mem_append.mp he with he | he
    · exact hb e he
    · exact absurd he (no_track c _ _ e)
  obtain ⟨_, h2, _⟩ := C39_exact (H := H) onLoad _ hmid
  obtain ⟨_, h3, _⟩ := C39_exact (H := H) onLoad (os ++ touch c r ((Plain.start onLoad).run os).1.regs.length ++ later) (by
    intro e he
    rcases List.mem_append.mp he with he | he
    · exact hmid e he
    · exact hl e he)
  have hbuilt := (held_run (H := H) os (p := Plain.start onLoad) (fun r c e => by cases e) hb r c hr).1
  have key : ∀ x, Cell.Sub x c.tree → t.filter (x.reprHash H) = .incl := by
    intro x hx
    obtain ⟨q, hq, rfl⟩ := sub_tree_inv hx rfl
    have : t.contains (q.tree.reprHash H) = true := by
      rw [← reprHash_tree (Built.sub hq hbuilt)]
      refine (h3 _).mpr ?_
      rw [Plain.run_append]
      exact seen_run _ _ ((h2 _).mp ((C39_touch onLoad os hb hd hr _).mpr (Or.inr ⟨q, hq, rfl⟩)))
    unfold Tree.filter
    rw [if_pos this]
  refine ⟨specNode_keep _ d (fun x hx e => Action.noConfusion ((key x hx).symm.trans e)), ?_⟩
  unfold kind
  rw [show (⟨t.filter, big⟩ : Config).filter _ = _ from key _ (.refl _)]

-- a cell loaded from the tracked root and touched: in the mode of data access the tree has the three cells of the subtree but not the root, in the other
-- mode all four; without touching there is none, or only the two that were loaded
example : (match chain with
  | .ok (old, _) =>
    let a := old.refs.getD 0 old
    let os := [Op.track old, .load 0 0]
    let ops := os ++ touch a 1 2
    decide (((Plain.start true).run os).1.regs.length = 2 ∧ (((Plain.start true).run os).1.reg 1).isSome = true ∧
      ((Machine.start false).run ops).1.tree.visited.length = 3 ∧ ((Machine.start true).run ops).1.tree.visited.length = 4 ∧
      ((Machine.start false).run os).1.tree.visited.length = 0 ∧ ((Machine.start true).run os).1.tree.visited.length = 2)
  | .error _ => false) = true := by decide +kernel

end Usage
end Verif
