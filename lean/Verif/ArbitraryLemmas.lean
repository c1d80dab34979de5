import Verif.Arbitrary
import Verif.Pruned
import Verif.CellInj
import Verif.AbiContractProps

/-! Lemmas about the generators of random cells. -/

set_option linter.unusedVariables false

namespace Verif.Arb
open Verif Merkle

/-- On inputs of at most `n` numbers the generator gives a value with `P` and input that did not grow, or refuses. -/
def Safe {α : Type} (n : Nat) (g : Gen α) (P : α → Prop) : Prop :=
  ∀ s : Src, s.length ≤ n → match g s with
    | .ok (a, s') => s'.length ≤ s.length ∧ P a
    | .error e => e = .refused

theorem Safe.bind {α β : Type} {n : Nat} {g : Gen α} {f : α → Gen β} {Q : α → Prop} {P : β → Prop} (hg : Safe n g Q)
    (hf : ∀ a, Q a → Safe n (f a) P) : Safe n (g >>= f) P := by
  intro s hs
  have h := hg s hs
  show match Gen.bind g f s with
    | .ok (a, s') => s'.length ≤ s.length ∧ P a
    | .error e => e = .refused
  unfold Gen.bind
  cases e : g s with
  | error x => rw [e] at h; exact h
  | ok p =>
    obtain ⟨a, s'⟩ := p
    rw [e] at h
    have h1 : s'.length ≤ s.length ∧ Q a := h
    have h2 := hf a h1.2 s' (by omega)
    show match f a s' with
      | .ok (a, t) => t.length ≤ s.length ∧ P a
      | .error e => e = .refused
    cases e2 : f a s' with
    | error x => rw [e2] at h2; exact h2
    | ok p => rw [e2] at h2; exact ⟨Nat.le_trans h2.1 h1.1, h2.2⟩

theorem Safe.pure {α : Type} {n : Nat} {a : α} {P : α → Prop} (h : P a) : Safe n (Pure.pure a : Gen α) P :=
  fun s _ => ⟨Nat.le_refl _, h⟩

theorem Safe.refused {α : Type} {n : Nat} {P : α → Prop} : Safe n (stop .refused : Gen α) P := fun s _ => rfl

theorem Safe.weaken {α : Type} {n : Nat} {g : Gen α} {P Q : α → Prop} (h : Safe n g P) (hpq : ∀ a, P a → Q a) : Safe n g Q := by
  intro s hs
  have := h s hs
  cases e : g s with
  | error x => rw [e] at this; exact this
  | ok p => rw [e] at this; exact ⟨this.1, hpq _ this.2⟩

theorem safe_intIn {n lo hi : Nat} (h : lo ≤ hi) : Safe n (intIn lo hi) (fun v => lo ≤ v ∧ v ≤ hi) := by
  intro s _
  cases s with
  | nil => exact ⟨Nat.le_refl _, Nat.le_refl _, h⟩
  | cons c s =>
    refine ⟨by rw [List.length_cons]; omega, ?_⟩
    have := Nat.mod_lt c (show 0 < hi - lo + 1 by omega)
    show lo ≤ lo + c % (hi - lo + 1) ∧ lo + c % (hi - lo + 1) ≤ hi
    omega

theorem safe_bytes {n k : Nat} : Safe n (bytes k) (fun d => d.length = k) := by
  intro s _
  unfold Arb.bytes
  by_cases h : k ≤ s.length
  · rw [if_pos h]
    refine ⟨by rw [List.length_drop]; omega, ?_⟩
    show ((s.take k).map _).length = k
    rw [List.length_map, List.length_take]; omega
  · rw [if_neg h]

theorem safe_store {n : Nat} {w : Wr CCell Unit} {e : Enc CCell} (hw : Writes w e) {b : CellB CCell} (hb : b.WF)
    (hf : (b.contents ++ e : Enc CCell).Fits) :
    Safe n (store w b) (fun b' => b'.WF ∧ b'.contents = b.contents ++ e ∧ b'.exotic = b.exotic) := by
  obtain ⟨b', e1, w1, c1, x1⟩ := (hw b hb).1 hf
  unfold Arb.store
  rw [e1]
  exact Safe.pure ⟨w1, c1, x1⟩

/-- `has_max_depth` answers exactly whether some level has the largest depth. -/
theorem hasMaxDepth_iff {H : Hasher} {c : CCell} (hc : Built H c) : hasMaxDepth c = false ↔ ∀ l, c.depth l < 65535 := by
  have hm := c.desc.levelMask_lt
  have hle : ∀ l, c.depth l < 65536 := fun l => by
    rw [hc.facts.agrees.depth l]; exact Cell.info_depth_lt H _ hc.facts.wf l
  have hex : ∀ l, ∃ l' ∈ c.desc.levelMask.toList, c.desc.levelMask.hashIndex l = c.desc.levelMask.hashIndex l' := by
    intro l
    have k : ∀ k : Fin 8, ∀ l : Fin 4, ∃ l' ∈ LevelMask.toList (BitVec.ofNat 8 k), LevelMask.hashIndex (BitVec.ofNat 8 k) l = LevelMask.hashIndex (BitVec.ofNat 8 k) l' := by
      decide +kernel
    have h4 : ∀ l, l < 4 → ∃ l' ∈ c.desc.levelMask.toList, c.desc.levelMask.hashIndex l = c.desc.levelMask.hashIndex l' := fun l hl =>
      LevelMask.all_lt (P := fun m => ∃ l' ∈ m.toList, m.hashIndex l = m.hashIndex l') (fun i => k i ⟨l, hl⟩) hm
    by_cases hl : l < 4
    · exact h4 l hl
    · obtain ⟨l', h1, h2⟩ := h4 3 (by decide)
      refine ⟨l', h1, ?_⟩
      rw [← h2]
      unfold LevelMask.hashIndex
      have : LevelMask.fromLevel l = LevelMask.fromLevel 3 := by
        match l, hl with
        | l + 4, _ => rfl
      rw [this]
  unfold hasMaxDepth
  constructor
  · intro h l
    obtain ⟨l', h1, h2⟩ := hex l
    rw [(CCell.hash_of_slot h2).2]
    have h3 := List.any_eq_false.mp h l' h1
    have h4 := hle l'
    have : c.depth l' ≠ 65535 := fun e => h3 (by rw [e]; rfl)
    omega
  · intro h
    rw [List.any_eq_false]
    intro l _ e
    have := h l
    have : c.depth l = 65535 := by simpa using e
    omega

/-- What is known about the children of a generated cell. -/
structure Child (H : Hasher) (Q : CCell → Prop) (r : CCell) : Prop where
  built : Built H r
  depth : ∀ l, r.depth l < 65535
  more : Q r

variable {H : Hasher} {Q : CCell → Prop}

theorem safe_fresh {n : Nat} {sub : Gen CCell} (hs : Safe n sub (fun c => Built H c ∧ Q c)) :
    Safe n (do let c ← sub; checked c) (Child H Q) := by
  refine hs.bind fun c hc => ?_
  unfold checked
  by_cases h : hasMaxDepth c = true
  · rw [if_pos h]; exact Safe.refused
  · rw [if_neg h]
    exact Safe.pure ⟨hc.1, (hasMaxDepth_iff hc.1).mp (by simpa using h), hc.2⟩

theorem safe_child {n : Nat} {sub : Gen CCell} (hs : Safe n sub (fun c => Built H c ∧ Q c)) {cs : List CCell} (hc : ∀ r ∈ cs, Child H Q r) :
    Safe n (child sub cs) (Child H Q) := by
  unfold Arb.child
  by_cases h : cs.length > 0
  · rw [if_pos h]
    refine (safe_intIn (Nat.zero_le _)).bind fun j hj => ?_
    by_cases h1 : 1 ≤ j
    · rw [if_pos h1]
      have : j - 1 < cs.length := by omega
      rw [List.getElem?_eq_getElem this]
      exact Safe.pure (hc _ (List.getElem_mem _))
    · rw [if_neg h1]
      exact safe_fresh hs
  · rw [if_neg h]
    exact safe_fresh hs

theorem safe_addChildren {n : Nat} {sub : Gen CCell} (hs : Safe n sub (fun c => Built H c ∧ Q c)) : ∀ (k : Nat) (cs : List CCell) (b : CellB CCell),
    (∀ r ∈ cs, Child H Q r) → b.WF → b.refs = cs → cs.length + k ≤ 4 →
    Safe n (addChildren sub k cs b) (fun b' => b'.WF ∧ b'.exotic = b.exotic ∧ b'.inner.bits = b.inner.bits ∧ b'.refs.length = cs.length + k ∧
      ∀ r ∈ b'.refs, Child H Q r) := by
  intro k
  induction k with
  | zero =>
    intro cs b hc hb hr hk
    exact Safe.pure ⟨hb, rfl, rfl, by rw [hr]; rfl, by rw [hr]; exact hc⟩
  | succ k ih =>
    intro cs b hc hb hr hk
    unfold Arb.addChildren
    refine (safe_child hs hc).bind fun c hc1 => ?_
    refine (safe_store (Wr.writes_ref c).1 hb ?_).bind fun b' hb' => ?_
    · refine ⟨?_, ?_⟩
      · show (b.inner.bits ++ []).length ≤ 1023
        rw [List.append_nil, DataBuilder.bits_length]
        exact hb.inner.le
      · show (b.refs ++ [c]).length ≤ 4
        rw [hr, List.length_append, List.length_singleton]; omega
    · obtain ⟨w1, c1, x1⟩ := hb'
      have hbits : b'.inner.bits = b.inner.bits := by
        have := congrArg Prod.fst c1
        exact this.trans (List.append_nil _)
      have hrefs : b'.refs = cs ++ [c] := by
        have := congrArg Prod.snd c1
        exact this.trans (by rw [← hr]; rfl)
      refine (ih (cs ++ [c]) b' ?_ w1 hrefs ?_).weaken fun b2 h2 => ?_
      · intro r hr
        rcases List.mem_append.mp hr with h | h
        · exact hc r h
        · rw [List.mem_singleton.mp h]; exact hc1
      · rw [List.length_append, List.length_singleton]; omega
      · refine ⟨h2.1, h2.2.1.trans x1, h2.2.2.1.trans hbits, ?_, h2.2.2.2.2⟩
        rw [h2.2.2.2.1, List.length_append, List.length_singleton]; omega

/-- A builder the generators may give: well-formed, over built cells, and `build` will accept it. -/
structure Good (H : Hasher) (T : Cell → Prop) (b : CellB CCell) : Prop where
  wf : b.WF
  refs : ∀ r ∈ b.refs, Built H r
  tree : (Cell.mk b.exotic b.inner.bits (b.refs.map CCell.tree)).WF H
  more : T (.mk b.exotic b.inner.bits (b.refs.map CCell.tree))

theorem wf_trees {rs : List CCell} (h : ∀ r ∈ rs, Built H r) : Cell.WFList H (rs.map CCell.tree) := by
  induction rs with
  | nil => trivial
  | cons r rs ih => exact ⟨(h r (List.mem_cons_self ..)).facts.wf, ih fun x hx => h x (List.mem_cons_of_mem _ hx)⟩

theorem wf_ordinary {bits : Bits} {rs : List CCell} (hb : bits.length ≤ 1023) (hr : rs.length ≤ 4) (h : ∀ r ∈ rs, Built H r)
    (hd : ∀ r ∈ rs, ∀ l, r.depth l < 65535) : (Cell.mk false bits (rs.map CCell.tree)).WF H := by
  unfold Cell.WF
  refine ⟨⟨.ordinary, rfl, ?_, ?_⟩, wf_trees h⟩
  · unfold shape
    dsimp only
    rw [if_pos ⟨hb, by rw [List.length_map, Cell.infoList_eq, List.length_map, List.length_map]; exact hr⟩]
    simp
  · intro l _ _ i hi
    rw [Cell.infoList_eq, List.map_map] at hi
    obtain ⟨r, h1, rfl⟩ := List.mem_map.mp hi
    show (r.tree.info H).depth _ < 65535
    rw [← (h r h1).facts.agrees.depth]
    exact hd r h1 _

/-- `ordinary` after the number of bits is chosen. -/
def ordinaryFrom (sub : Gen CCell) (k : Nat) : Gen (CellB CCell) := do
  let r ← intIn 0 4
  let d ← bytes ((k + 7) / 8)
  let b ← store (Wr.raw d k) CellB.new
  addChildren sub r [] b

theorem ordinary_eq (sub : Gen CCell) : ordinary sub = (do let k ← intIn 0 1023; ordinaryFrom sub k) := rfl

theorem safe_ordinaryFrom {n k : Nat} (hk : k ≤ 1023) {T : Cell → Prop} {sub : Gen CCell} (hs : Safe n sub (fun c => Built H c ∧ T c.tree))
    (hT : ∀ bits (rs : List Cell), (∀ r ∈ rs, T r) → T (.mk false bits rs)) : Safe n (ordinaryFrom sub k) (Good H T) := by
  unfold ordinaryFrom
  refine (safe_intIn (by decide)).bind fun r hr => ?_
  refine safe_bytes.bind fun d hd => ?_
  have hf : ((CellB.new : CellB CCell).contents ++ Enc.bits (rawBits d k) : Enc CCell).Fits := by
    refine ⟨?_, ?_⟩
    · show ([] ++ rawBits d k).length ≤ 1023
      rw [List.nil_append, rawBits_length]; exact hk
    · show ([] ++ []).length ≤ 4
      decide
  refine (safe_store (Wr.writes_raw (by omega) (by omega)).1 CellB.wf_new hf).bind fun b hb => ?_
  obtain ⟨w1, c1, x1⟩ := hb
  have hbits : b.inner.bits = rawBits d k := (congrArg Prod.fst c1).trans (List.nil_append _)
  have hrefs : b.refs = [] := congrArg Prod.snd c1
  refine (safe_addChildren (Q := fun c => T c.tree) hs r [] b (fun _ h => nomatch h) w1 hrefs (by rw [List.length_nil]; omega)).weaken fun b' h => ?_
  obtain ⟨w2, x2, i2, l2, c2⟩ := h
  have hx : b'.exotic = false := x2.trans x1
  refine ⟨w2, fun r hr => (c2 r hr).built, ?_, ?_⟩
  · rw [hx]
    refine wf_ordinary ?_ (by rw [l2, List.length_nil]; omega) (fun r hr => (c2 r hr).built) (fun r hr => (c2 r hr).depth)
    rw [i2, hbits, rawBits_length]; exact hk
  · rw [hx]
    refine hT _ _ fun r hr => ?_
    obtain ⟨x, h1, rfl⟩ := List.mem_map.mp hr
    exact (c2 x h1).more

theorem safe_ordinary {n : Nat} {T : Cell → Prop} {sub : Gen CCell} (hs : Safe n sub (fun c => Built H c ∧ T c.tree))
    (hT : ∀ bits (rs : List Cell), (∀ r ∈ rs, T r) → T (.mk false bits rs)) : Safe n (ordinary sub) (Good H T) := by
  rw [ordinary_eq]
  exact (safe_intIn (by decide)).bind fun k hk => safe_ordinaryFrom hk.2 hs hT

theorem new_exotic_wf : newExotic.WF :=
  have h : (CellB.new : CellB CCell).WF := CellB.wf_new
  ⟨h.inner, h.refs⟩

theorem safe_addDepths {n : Nat} : ∀ (k : Nat) (b : CellB CCell), b.WF → b.refs = [] → b.inner.bits.length + 16 * k ≤ 1023 →
    Safe n (addDepths k b) (fun b' => b'.WF ∧ b'.exotic = b.exotic ∧ b'.refs = [] ∧ ∃ t, b'.inner.bits = b.inner.bits ++ t ∧ t.length = 16 * k) := by
  intro k
  induction k with
  | zero =>
    intro b hb hr _
    exact Safe.pure ⟨hb, rfl, hr, [], by simp, rfl⟩
  | succ k ih =>
    intro b hb hr hk
    unfold addDepths
    refine (safe_intIn (by decide)).bind fun d hd => ?_
    have hf : (b.contents ++ Enc.bits (natBits 16 d) : Enc CCell).Fits := by
      refine ⟨?_, ?_⟩
      · show (b.inner.bits ++ natBits 16 d).length ≤ 1023
        rw [List.length_append, natBits_length]; omega
      · show (b.refs ++ []).length ≤ 4
        rw [hr]; decide
    refine (safe_store (Wr.writes_u16 (by omega)).1 hb hf).bind fun b1 hb1 => ?_
    obtain ⟨w1, c1, x1⟩ := hb1
    have hbits : b1.inner.bits = b.inner.bits ++ natBits 16 d := congrArg Prod.fst c1
    have hrefs : b1.refs = [] := (congrArg Prod.snd c1).trans (by show b.refs ++ [] = []; rw [hr]; rfl)
    refine (ih b1 w1 hrefs (by rw [hbits, List.length_append, natBits_length]; omega)).weaken fun b2 h2 => ?_
    obtain ⟨w2, x2, r2, t, e2, l2⟩ := h2
    refine ⟨w2, x2.trans x1, r2, natBits 16 d ++ t, ?_, ?_⟩
    · rw [e2, hbits, List.append_assoc]
    · rw [List.length_append, natBits_length]; omega

theorem pruned_mask : ∀ m : Fin 8, (LevelMask.new (BitVec.ofNat 8 m)).toNat = m.val ∧
    (LevelMask.new (BitVec.ofNat 8 m)).level = LevelMask.countUpTo (BitVec.ofNat 8 m) 3 ∧ (LevelMask.new (BitVec.ofNat 8 m)).level ≤ 3 := by
  decide +kernel

theorem byteAt_one {m : Nat} (hm : m < 256) (rest : Bits) : byteAt (natBits 8 1 ++ (natBits 8 m ++ rest)) 1 = m := by
  unfold byteAt
  rw [Nat.mul_one, List.drop_left' (natBits_length 8 1), List.take_left' (natBits_length 8 m), natOfBits_natBits]
  omega

theorem safe_pruned {n : Nat} {T : Cell → Prop} (hT : ∀ bits, typeOf true bits = some .prunedBranch → T (.mk true bits [])) :
    Safe n pruned (Good H T) := by
  unfold pruned
  refine (safe_intIn (by decide)).bind fun m hm => ?_
  obtain ⟨hn, hlev, hl3⟩ := pruned_mask ⟨m, by omega⟩
  simp only at hn hlev hl3
  rw [hn]
  generalize hkk : (LevelMask.new (BitVec.ofNat 8 m)).level = k at hlev hl3 ⊢
  have hf : (newExotic.contents ++ Enc.bits (natBits 16 (256 * 1 + m)) : Enc CCell).Fits := by
    refine ⟨?_, ?_⟩
    · show ([] ++ natBits 16 (256 * 1 + m)).length ≤ 1023
      rw [List.nil_append, natBits_length]; decide
    · show ([] ++ []).length ≤ 4
      decide
  have hw0 : Writes (Wr.u16 (256 * 1 + m) : Wr CCell Unit) (Enc.bits (natBits 16 (256 * 1 + m))) := (Wr.writes_u16 (by omega)).1
  have h0 := @safe_store n _ _ hw0 newExotic new_exotic_wf hf
  generalize store (Wr.u16 (256 * 1 + m)) newExotic = g at h0 ⊢
  refine h0.bind fun b hb => ?_
  obtain ⟨w1, c1, x1⟩ := hb
  have hbits : b.inner.bits = natBits 8 1 ++ natBits 8 m := by
    refine (congrArg Prod.fst c1).trans ?_
    show [] ++ natBits 16 (256 * 1 + m) = _
    rw [List.nil_append, natBits_split 8 8]
    have e1 : (256 * 1 + m) / 2 ^ 8 = 1 := by omega
    rw [e1]
    congr 1
    apply natOfBits_inj
    · rw [natBits_length, natBits_length]
    · rw [natOfBits_natBits, natOfBits_natBits]; omega
  have hrefs : b.refs = [] := congrArg Prod.snd c1
  refine safe_bytes.bind fun d hd => ?_
  have hf2 : (b.contents ++ Enc.bits (rawBits d (32 * k * 8)) : Enc CCell).Fits := by
    refine ⟨?_, ?_⟩
    · show (b.inner.bits ++ rawBits d (32 * k * 8)).length ≤ 1023
      rw [hbits, List.length_append, List.length_append, natBits_length, natBits_length, rawBits_length]; omega
    · show (b.refs ++ []).length ≤ 4
      rw [hrefs]; decide
  refine (safe_store (Wr.writes_raw (by omega) (by omega)).1 w1 hf2).bind fun b2 hb2 => ?_
  obtain ⟨w2, c2, x2⟩ := hb2
  have hbits2 : b2.inner.bits = (natBits 8 1 ++ natBits 8 m) ++ rawBits d (32 * k * 8) := by rw [← hbits]; exact congrArg Prod.fst c2
  have hrefs2 : b2.refs = [] := (congrArg Prod.snd c2).trans (by show b.refs ++ [] = []; rw [hrefs]; rfl)
  refine (safe_addDepths k b2 w2 hrefs2 ?_).weaken fun b3 h3 => ?_
  · rw [hbits2]; simp only [List.length_append, natBits_length, rawBits_length]; omega
  obtain ⟨w3, x3, r3, t, e3, l3⟩ := h3
  have hx : b3.exotic = true := x3.trans (x2.trans x1)
  have hb3 : b3.inner.bits = natBits 8 1 ++ (natBits 8 m ++ (rawBits d (32 * k * 8) ++ t)) := by
    rw [e3, hbits2]; simp only [List.append_assoc]
  have hty : typeOf true b3.inner.bits = some .prunedBranch := by rw [hb3]; exact typeOf_tag (by decide)
  refine ⟨w3, by rw [r3]; exact (fun _ h => (nomatch h)), ?_, by rw [r3, hx]; exact hT _ hty⟩
  rw [r3, hx]
  refine ⟨⟨.prunedBranch, hty, ?_, fun _ _ _ i hi => (nomatch hi)⟩, trivial⟩
  unfold shape
  dsimp only
  have hm1 : byteAt b3.inner.bits 1 = m := by rw [hb3]; exact byteAt_one (by omega) _
  have hlen : b3.inner.bits.length = 16 + 272 * LevelMask.countUpTo (BitVec.ofNat 8 m) 3 := by
    rw [hb3, ← hlev]
    simp only [List.length_append, natBits_length, rawBits_length]; omega
  rw [hm1, if_pos ⟨hm.1, hm.2, hlen, rfl⟩]
  simp

theorem safe_library {n : Nat} {T : Cell → Prop} (hT : ∀ bits, typeOf true bits = some .libraryReference → T (.mk true bits [])) :
    Safe n library (Good H T) := by
  unfold library
  refine safe_bytes.bind fun d hd => ?_
  have hf : (newExotic.contents ++ Enc.bits (natBits 8 2) : Enc CCell).Fits := by
    refine ⟨?_, ?_⟩
    · show ([] ++ natBits 8 2).length ≤ 1023
      decide
    · show ([] ++ []).length ≤ 4
      decide
  have hw0 : Writes (Wr.u8 2 : Wr CCell Unit) (Enc.bits (natBits 8 2)) := (Wr.writes_u8 (by decide)).1
  have h0 := @safe_store n _ _ hw0 newExotic new_exotic_wf hf
  generalize store (Wr.u8 2) newExotic = g at h0 ⊢
  refine h0.bind fun b hb => ?_
  obtain ⟨w1, c1, x1⟩ := hb
  have hbits : b.inner.bits = natBits 8 2 := (congrArg Prod.fst c1).trans (List.nil_append _)
  have hrefs : b.refs = [] := congrArg Prod.snd c1
  have hf2 : (b.contents ++ Enc.bits (rawBits d 256) : Enc CCell).Fits := by
    refine ⟨?_, ?_⟩
    · show (b.inner.bits ++ rawBits d 256).length ≤ 1023
      rw [hbits, List.length_append, natBits_length, rawBits_length]; decide
    · show (b.refs ++ []).length ≤ 4
      rw [hrefs]; decide
  refine (safe_store (Wr.writes_raw (by decide) (by omega)).1 w1 hf2).weaken fun b2 hb2 => ?_
  obtain ⟨w2, c2, x2⟩ := hb2
  have hbits2 : b2.inner.bits = natBits 8 2 ++ rawBits d 256 := by rw [← hbits]; exact congrArg Prod.fst c2
  have hrefs2 : b2.refs = [] := (congrArg Prod.snd c2).trans (by show b.refs ++ [] = []; rw [hrefs]; rfl)
  have hx : b2.exotic = true := x2.trans x1
  have hty : typeOf true b2.inner.bits = some .libraryReference := by rw [hbits2]; exact typeOf_tag (by decide)
  refine ⟨w2, by rw [hrefs2]; exact (fun _ h => (nomatch h)), ?_, by rw [hrefs2, hx]; exact hT _ hty⟩
  rw [hrefs2, hx]
  refine ⟨⟨.libraryReference, hty, ?_, fun _ _ _ i hi => (nomatch hi)⟩, trivial⟩
  unfold shape
  dsimp only
  have hlen : b2.inner.bits.length = 264 := by rw [hbits2, List.length_append, natBits_length, rawBits_length]
  rw [if_pos ⟨hlen, rfl⟩]
  simp

/-- A builder that `build` turns into a cell with `T`. -/
def Ready (H : Hasher) (T : Cell → Prop) (b : CellB CCell) : Prop := ∃ c, b.build H = .ok c ∧ Built H c ∧ T c.tree

theorem Good.ready {T : Cell → Prop} {b : CellB CCell} (h : Good H T b) : Ready H T b := by
  obtain ⟨c, h1, h2, h3, _⟩ := (C10_build H h.wf h.refs).1 h.tree
  exact ⟨c, h1, h2, by rw [h3]; exact h.more⟩

theorem safe_finish {n : Nat} {T : Cell → Prop} {b : CellB CCell} (h : Ready H T b) : Safe n (finish H b) (fun c => Built H c ∧ T c.tree) := by
  obtain ⟨c, h1, h2⟩ := h
  unfold finish
  rw [h1]
  exact Safe.pure h2

theorem proof_ok {c : CCell} (h : Built H c) : (c.hash 0).length = 32 ∧ c.depth 0 < 2 ^ 16 :=
  ⟨h.view_ok.len 0, h.view_ok.depth 0⟩

theorem safe_proof {n : Nat} {T : Cell → Prop} {sub : Gen CCell} (hs : Safe n sub (fun c => Built H c ∧ T c.tree))
    (hT : ∀ c : Cell, T c → T (.mk true (natBits 8 3 ++ (bytesToBits ((c.info H).hash 0) ++ natBits 16 ((c.info H).depth 0))) [c])) :
    Safe n (do let p ← proof sub; store p.store CellB.new) (Ready H T) := by
  have h1 : Safe n (proof sub) (fun p => p.hash = p.cell.hash 0 ∧ p.depth = p.cell.depth 0 ∧ Child H (fun c => T c.tree) p.cell) := by
    unfold proof
    have := safe_fresh (Q := fun c => T c.tree) hs
    have e : (do let c ← sub; let c ← checked c; pure ⟨c.hash 0, c.depth 0, c⟩ : Gen Proof) =
        (do let c ← (do let c ← sub; checked c : Gen CCell); pure ⟨c.hash 0, c.depth 0, c⟩) := by
      funext s
      show Gen.bind sub _ s = Gen.bind (Gen.bind sub _) _ s
      unfold Gen.bind
      cases sub s with
      | error x => rfl
      | ok p => rfl
    rw [e]
    exact this.bind fun c hc => Safe.pure ⟨rfl, rfl, hc⟩
  refine h1.bind fun p hp => ?_
  obtain ⟨e1, e2, hc⟩ := hp
  have hok := proof_ok hc.built
  obtain ⟨b, c, r1, r2, r3, r4, r5⟩ := C36_store (H := H) (p := p) ⟨by rw [e1]; exact hok.1, by rw [e2]; exact hok.2⟩ hc.built hc.depth
  unfold store
  rw [r1]
  refine Safe.pure ⟨c, r2, r3, ?_⟩
  rw [r4]
  have := hT p.cell.tree hc.more
  rw [← hc.built.facts.agrees.hash, ← hc.built.facts.agrees.depth, ← e1, ← e2] at this
  exact this

theorem safe_update {n : Nat} {T : Cell → Prop} {sub : Gen CCell} (hs : Safe n sub (fun c => Built H c ∧ T c.tree))
    (hT : ∀ o m : Cell, T o → T m → T (.mk true (natBits 8 4 ++ (bytesToBits ((o.info H).hash 0) ++ (bytesToBits ((m.info H).hash 0) ++
          (natBits 16 ((o.info H).depth 0) ++ natBits 16 ((m.info H).depth 0))))) [o, m])) :
    Safe n (do let u ← update sub; store u.store CellB.new) (Ready H T) := by
  have h1 : Safe n (update sub) (fun u => (u.oldHash = u.old.hash 0 ∧ u.oldDepth = u.old.depth 0 ∧ Child H (fun c => T c.tree) u.old) ∧
      (u.newHash = u.new.hash 0 ∧ u.newDepth = u.new.depth 0 ∧ Child H (fun c => T c.tree) u.new)) := by
    unfold update
    have := safe_fresh (Q := fun c => T c.tree) hs
    have e : ∀ {α : Type} (f : CCell → Gen α), (do let c ← sub; let c ← checked c; f c : Gen α) = (do let c ← (do let c ← sub; checked c : Gen CCell); f c) := by
      intro α f
      funext s
      show Gen.bind sub _ s = Gen.bind (Gen.bind sub _) _ s
      unfold Gen.bind
      cases sub s with
      | error x => rfl
      | ok p => rfl
    rw [e]
    refine this.bind fun o ho => ?_
    rw [e]
    exact this.bind fun c hc => Safe.pure ⟨⟨rfl, rfl, ho⟩, ⟨rfl, rfl, hc⟩⟩
  refine h1.bind fun u hu => ?_
  obtain ⟨⟨e1, e2, ho⟩, e3, e4, hn⟩ := hu
  have hok := proof_ok ho.built
  have hok' := proof_ok hn.built
  obtain ⟨b, c, r1, r2, r3, r4, r5⟩ := C38_store (H := H) (u := u) ⟨⟨by rw [e1]; exact hok.1, by rw [e3]; exact hok'.1⟩,
    by rw [e2]; exact hok.2, by rw [e4]; exact hok'.2⟩ ho.built hn.built ho.depth hn.depth
  unfold store
  rw [r1]
  refine Safe.pure ⟨c, r2, r3, ?_⟩
  rw [r4]
  have := hT u.old.tree u.new.tree ho.more hn.more
  rw [← ho.built.facts.agrees.hash, ← ho.built.facts.agrees.depth, ← hn.built.facts.agrees.hash, ← hn.built.facts.agrees.depth, ← e1, ← e2, ← e3, ← e4] at this
  exact this

/-- Properties of trees that hold of everything the generator of all types can make from parts that have them. -/
structure Closed (H : Hasher) (T : Cell → Prop) : Prop where
  ordinary : ∀ bits (rs : List Cell), (∀ r ∈ rs, T r) → T (.mk false bits rs)
  pruned : ∀ bits, typeOf true bits = some .prunedBranch → T (.mk true bits [])
  library : ∀ bits, typeOf true bits = some .libraryReference → T (.mk true bits [])
  proof : ∀ c : Cell, T c → T (.mk true (natBits 8 3 ++ (bytesToBits ((c.info H).hash 0) ++ natBits 16 ((c.info H).depth 0))) [c])
  update : ∀ o m : Cell, T o → T m → T (.mk true (natBits 8 4 ++ (bytesToBits ((o.info H).hash 0) ++ (bytesToBits ((m.info H).hash 0) ++
          (natBits 16 ((o.info H).depth 0) ++ natBits 16 ((m.info H).depth 0))))) [o, m])

/-- `builder` after the type is chosen. -/
def builderFrom (sub : Gen CCell) (ty : Nat) : Gen (CellB CCell) :=
  match ty with
  | 0 => ordinary sub
  | 1 => pruned
  | 2 => library
  | 3 => do
    let p ← proof sub
    store p.store CellB.new
  | _ => do
    let u ← update sub
    store u.store CellB.new

theorem builder_succ (H : Hasher) (f : Nat) : builder H (f + 1) = (do let ty ← intIn 0 4; builderFrom (cell H f) ty) := rfl

theorem safe_builderFrom {n : Nat} {T : Cell → Prop} (hT : Closed H T) {sub : Gen CCell} (hs : Safe n sub (fun c => Built H c ∧ T c.tree)) (ty : Nat) :
    Safe n (builderFrom sub ty) (Ready H T) := by
  unfold builderFrom
  split
  · exact (safe_ordinary hs hT.ordinary).weaken fun _ h => h.ready
  · exact (safe_pruned hT.pruned).weaken fun _ h => h.ready
  · exact (safe_library hT.library).weaken fun _ h => h.ready
  · exact safe_proof hs hT.proof
  · exact safe_update hs hT.update

/-- Without input the generator of all types makes the empty cell, whatever makes the children. -/
theorem builder_nil (H : Hasher) (f : Nat) : builder H (f + 1) [] = ordinary (stop .refused) [] := rfl

theorem builder_cons (H : Hasher) (f c : Nat) (s : Src) : builder H (f + 1) (c :: s) = builderFrom (cell H f) (0 + c % 5) s := rfl

theorem ordBuilder_nil (H : Hasher) (f : Nat) : ordBuilder H (f + 1) [] = ordinary (stop .refused) [] := rfl

theorem ordBuilder_cons (H : Hasher) (f c : Nat) (s : Src) : ordBuilder H (f + 1) (c :: s) = ordinaryFrom (ordCell H f) (0 + c % 1024) s := rfl

/-- A generator that is safe after its first number, and without input. -/
theorem safe_step {α : Type} {n : Nat} {g : Gen α} {P : α → Prop} (h0 : Safe 0 g P) (h : ∀ c s, 0 < n → s.length ≤ n - 1 → match g (c :: s) with
    | .ok (a, s') => s'.length ≤ s.length ∧ P a
    | .error e => e = .refused) : Safe n g P := by
  intro s hs
  cases s with
  | nil => exact h0 [] (Nat.le_refl 0)
  | cons c s =>
    rw [List.length_cons] at hs
    have h1 := h c s (by omega) (by omega)
    cases e : g (c :: s) with
    | error x => rw [e] at h1; exact h1
    | ok p => rw [e] at h1; exact ⟨Nat.le_trans h1.1 (by rw [List.length_cons]; omega), h1.2⟩

theorem safe_empty {T : Cell → Prop} (hT : ∀ bits (rs : List Cell), (∀ r ∈ rs, T r) → T (.mk false bits rs)) {g : Gen (CellB CCell)}
    (hg : g [] = ordinary (stop .refused) []) : Safe 0 g (Ready H T) := by
  intro s hs
  have : s = [] := List.length_eq_zero_iff.mp (by omega)
  subst this
  rw [hg]
  exact ((safe_ordinary (H := H) (T := T) Safe.refused hT).weaken fun _ h => h.ready) [] (Nat.le_refl 0)

/-- On inputs of at most `n` numbers, nesting `n + 1` is enough. -/
theorem safe_builder {T : Cell → Prop} (hT : Closed H T) : ∀ n f : Nat, n < f → Safe n (builder H f) (Ready H T) := by
  intro n
  induction n with
  | zero =>
    intro f hf
    obtain ⟨f, rfl⟩ : ∃ g, f = g + 1 := ⟨f - 1, by omega⟩
    exact safe_empty hT.ordinary (builder_nil H f)
  | succ n ih =>
    intro f hf
    obtain ⟨f, rfl⟩ : ∃ g, f = g + 1 := ⟨f - 1, by omega⟩
    have hsub : Safe n (cell H f) (fun c => Built H c ∧ T c.tree) := (ih f (by omega)).bind fun b hb => safe_finish hb
    refine safe_step (safe_empty hT.ordinary (builder_nil H f)) fun c s _ hs => ?_
    rw [builder_cons]
    exact safe_builderFrom hT hsub _ s hs

theorem safe_cell {T : Cell → Prop} (hT : Closed H T) {n f : Nat} (h : n < f) : Safe n (cell H f) (fun c => Built H c ∧ T c.tree) :=
  (safe_builder hT n f h).bind fun b hb => safe_finish hb

theorem safe_ordBuilder {T : Cell → Prop} (hT : ∀ bits (rs : List Cell), (∀ r ∈ rs, T r) → T (.mk false bits rs)) :
    ∀ n f : Nat, n < f → Safe n (ordBuilder H f) (Ready H T) := by
  intro n
  induction n with
  | zero =>
    intro f hf
    obtain ⟨f, rfl⟩ : ∃ g, f = g + 1 := ⟨f - 1, by omega⟩
    exact safe_empty hT (ordBuilder_nil H f)
  | succ n ih =>
    intro f hf
    obtain ⟨f, rfl⟩ : ∃ g, f = g + 1 := ⟨f - 1, by omega⟩
    have hsub : Safe n (ordCell H f) (fun c => Built H c ∧ T c.tree) := (ih f (by omega)).bind fun b hb => safe_finish hb
    refine safe_step (safe_empty hT (ordBuilder_nil H f)) fun c s _ hs => ?_
    rw [ordBuilder_cons]
    have hc : 0 + c % 1024 ≤ 1023 := by omega
    exact ((safe_ordinaryFrom hc hsub hT).weaken fun _ h => h.ready) s hs

theorem safe_ordCell {T : Cell → Prop} (hT : ∀ bits (rs : List Cell), (∀ r ∈ rs, T r) → T (.mk false bits rs)) {n f : Nat} (h : n < f) :
    Safe n (ordCell H f) (fun c => Built H c ∧ T c.tree) :=
  (safe_ordBuilder hT n f h).bind fun b hb => safe_finish hb

/-! ### Nothing changes with more fuel -/

/-- On inputs of at most `n` numbers the two generators do the same, and the input does not grow. -/
def Same {α : Type} (n : Nat) (g g' : Gen α) : Prop :=
  ∀ s : Src, s.length ≤ n → g s = g' s ∧ ∀ a s', g s = .ok (a, s') → s'.length ≤ s.length

theorem Same.bind {α β : Type} {n : Nat} {g g' : Gen α} {f f' : α → Gen β} (hg : Same n g g') (hf : ∀ a, Same n (f a) (f' a)) :
    Same n (g >>= f) (g' >>= f') := by
  intro s hs
  obtain ⟨h1, h2⟩ := hg s hs
  show Gen.bind g f s = Gen.bind g' f' s ∧ ∀ a s', Gen.bind g f s = .ok (a, s') → s'.length ≤ s.length
  unfold Gen.bind
  rw [← h1]
  cases e : g s with
  | error x => exact ⟨rfl, fun _ _ h => (nomatch h)⟩
  | ok p =>
    obtain ⟨a, t⟩ := p
    have ht := h2 a t e
    obtain ⟨h3, h4⟩ := hf a t (by omega)
    exact ⟨h3, fun b u hb => Nat.le_trans (h4 b u hb) ht⟩

theorem Same.of_safe {α : Type} {n : Nat} {g : Gen α} {P : α → Prop} (h : Safe n g P) : Same n g g := by
  intro s hs
  refine ⟨rfl, fun a s' e => ?_⟩
  have := h s hs
  rw [e] at this
  exact this.1

theorem Same.pure {α : Type} {n : Nat} (a : α) : Same n (Pure.pure a : Gen α) (Pure.pure a) :=
  fun s _ => ⟨rfl, fun b s' e => by cases e; exact Nat.le_refl _⟩

theorem Same.stop {α : Type} {n : Nat} (x : Stop) : Same n (stop x : Gen α) (stop x) :=
  fun s _ => ⟨rfl, fun b s' e => nomatch e⟩

theorem same_store {n : Nat} (w : Wr CCell Unit) (b : CellB CCell) : Same n (store w b) (store w b) := by
  unfold store
  split
  · exact Same.pure _
  · exact Same.stop _

theorem same_checked {n : Nat} (c : CCell) : Same n (checked c) (checked c) := by
  unfold checked
  split
  · exact Same.stop _
  · exact Same.pure _

theorem same_finish {n : Nat} (H : Hasher) (b : CellB CCell) : Same n (finish H b) (finish H b) := by
  unfold finish
  split
  · exact Same.pure _
  · exact Same.stop _

theorem same_intIn {n lo hi : Nat} : Same n (intIn lo hi) (intIn lo hi) := by
  intro s _
  refine ⟨rfl, fun a s' e => ?_⟩
  cases s with
  | nil => cases e; exact Nat.le_refl _
  | cons c s => cases e; rw [List.length_cons]; omega

theorem same_child {n : Nat} {sub sub' : Gen CCell} (h : Same n sub sub') (cs : List CCell) : Same n (child sub cs) (child sub' cs) := by
  unfold child
  split
  · refine same_intIn.bind fun j => ?_
    split
    · split
      · exact Same.pure _
      · exact Same.stop _
    · exact h.bind fun c => same_checked c
  · exact h.bind fun c => same_checked c

theorem same_addChildren {n : Nat} {sub sub' : Gen CCell} (h : Same n sub sub') : ∀ (k : Nat) (cs : List CCell) (b : CellB CCell),
    Same n (addChildren sub k cs b) (addChildren sub' k cs b) := by
  intro k
  induction k with
  | zero => intro cs b; exact Same.pure _
  | succ k ih => intro cs b; exact (same_child h cs).bind fun c => (same_store _ _).bind fun b => ih _ _

theorem same_ordinaryFrom {n : Nat} {sub sub' : Gen CCell} (h : Same n sub sub') (k : Nat) : Same n (ordinaryFrom sub k) (ordinaryFrom sub' k) :=
  same_intIn.bind fun r => (Same.of_safe safe_bytes).bind fun d => (same_store _ _).bind fun b => same_addChildren h _ _ _

theorem same_builderFrom {n : Nat} {sub sub' : Gen CCell} (h : Same n sub sub') (ty : Nat) : Same n (builderFrom sub ty) (builderFrom sub' ty) := by
  unfold builderFrom
  split
  · exact same_intIn.bind fun k => same_ordinaryFrom h k
  · exact Same.of_safe (safe_pruned (H := ⟨fun _ => List.replicate 32 0, fun _ => List.length_replicate⟩) (T := fun _ => True) fun _ _ => trivial)
  · exact Same.of_safe (safe_library (H := ⟨fun _ => List.replicate 32 0, fun _ => List.length_replicate⟩) (T := fun _ => True) fun _ _ => trivial)
  · exact (h.bind fun c => (same_checked c).bind fun c => Same.pure _).bind fun p => same_store _ _
  · exact (h.bind fun c => (same_checked c).bind fun c => h.bind fun d => (same_checked d).bind fun d => Same.pure _).bind fun p => same_store _ _

theorem same_builder (H : Hasher) : ∀ n f f' : Nat, n < f → n < f' → Same n (builder H f) (builder H f') := by
  intro n
  induction n with
  | zero =>
    intro f f' hf hf'
    obtain ⟨f, rfl⟩ : ∃ g, f = g + 1 := ⟨f - 1, by omega⟩
    obtain ⟨f', rfl⟩ : ∃ g, f' = g + 1 := ⟨f' - 1, by omega⟩
    intro s hs
    have : s = [] := List.length_eq_zero_iff.mp (by omega)
    subst this
    rw [builder_nil, builder_nil]
    exact (Same.of_safe (safe_ordinary (H := H) (T := fun _ => True) Safe.refused fun _ _ _ => trivial)) [] (Nat.le_refl 0)
  | succ n ih =>
    intro f f' hf hf'
    obtain ⟨f, rfl⟩ : ∃ g, f = g + 1 := ⟨f - 1, by omega⟩
    obtain ⟨f', rfl⟩ : ∃ g, f' = g + 1 := ⟨f' - 1, by omega⟩
    intro s hs
    cases s with
    | nil =>
      rw [builder_nil, builder_nil]
      exact (Same.of_safe (safe_ordinary (H := H) (T := fun _ => True) Safe.refused fun _ _ _ => trivial)) [] (Nat.le_refl 0)
    | cons c s =>
      rw [builder_cons, builder_cons]
      have hsub : Same n (cell H f) (cell H f') := (ih f f' (by omega) (by omega)).bind fun b => same_finish H b
      rw [List.length_cons] at hs
      obtain ⟨h1, h2⟩ := same_builderFrom hsub (0 + c % 5) s (by omega)
      refine ⟨h1, fun a t e => ?_⟩
      have := h2 a t e
      rw [List.length_cons]; omega

theorem same_ordBuilder (H : Hasher) : ∀ n f f' : Nat, n < f → n < f' → Same n (ordBuilder H f) (ordBuilder H f') := by
  intro n
  induction n with
  | zero =>
    intro f f' hf hf'
    obtain ⟨f, rfl⟩ : ∃ g, f = g + 1 := ⟨f - 1, by omega⟩
    obtain ⟨f', rfl⟩ : ∃ g, f' = g + 1 := ⟨f' - 1, by omega⟩
    intro s hs
    have : s = [] := List.length_eq_zero_iff.mp (by omega)
    subst this
    rw [ordBuilder_nil, ordBuilder_nil]
    exact (Same.of_safe (safe_ordinary (H := H) (T := fun _ => True) Safe.refused fun _ _ _ => trivial)) [] (Nat.le_refl 0)
  | succ n ih =>
    intro f f' hf hf'
    obtain ⟨f, rfl⟩ : ∃ g, f = g + 1 := ⟨f - 1, by omega⟩
    obtain ⟨f', rfl⟩ : ∃ g, f' = g + 1 := ⟨f' - 1, by omega⟩
    intro s hs
    cases s with
    | nil =>
      rw [ordBuilder_nil, ordBuilder_nil]
      exact (Same.of_safe (safe_ordinary (H := H) (T := fun _ => True) Safe.refused fun _ _ _ => trivial)) [] (Nat.le_refl 0)
    | cons c s =>
      rw [ordBuilder_cons, ordBuilder_cons]
      have hsub : Same n (ordCell H f) (ordCell H f') := (ih f f' (by omega) (by omega)).bind fun b => same_finish H b
      rw [List.length_cons] at hs
      obtain ⟨h1, h2⟩ := same_ordinaryFrom hsub (0 + c % 1024) s (by omega)
      refine ⟨h1, fun a t e => ?_⟩
      have := h2 a t e
      rw [List.length_cons]; omega

end Verif.Arb
