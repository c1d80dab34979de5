import Verif.VsetCodecLemmas
/-
C68: validator sets in cells.
-/
set_option linter.unusedVariables false
set_option linter.unusedSimpArgs false
namespace Verif

/-! ### Lemmas -/

theorem CSlice.window_empty {s : CSlice Cell} (hs : s.WF) :
    let s' : CSlice Cell := { s with range := { s.range with bitsStart := s.range.bitsEnd, refsStart := s.range.refsEnd } }
    s'.WF ∧ s'.contents = Enc.nil := by
  have h1 := hs.start_le
  have h2 := hs.rstart_le
  refine ⟨CSlice.window_wf hs (by dsimp only; omega) (by simp) (by dsimp only; omega) (by simp), ?_⟩
  unfold CSlice.contents
  rw [CSlice.window_bits s _ (by dsimp only; omega) (by dsimp only; omega), CSlice.window_refs s _ (by dsimp only; omega) (by dsimp only; omega)]
  simp [Enc.nil]

theorem CSlice.window_drop {s : CSlice Cell} (hs : s.WF) {a b : Nat} (ha : a ≤ s.bits.length) (hb : b ≤ s.refList.length) :
    let s' : CSlice Cell := { s with range := { s.range with bitsStart := s.range.bitsStart + a, refsStart := s.range.refsStart + b } }
    s'.WF ∧ s'.contents = (s.bits.drop a, s.refList.drop b) := by
  have h1 := hs.start_le
  have h2 := hs.rstart_le
  have l1 := CSlice.bits_length s
  have l2 := CSlice.refList_length hs
  refine ⟨CSlice.window_wf hs (by dsimp only; omega) (by simp) (by dsimp only; omega) (by simp), ?_⟩
  unfold CSlice.contents
  rw [CSlice.window_bits s _ (by dsimp only; omega) (by dsimp only; omega), CSlice.window_refs s _ (by dsimp only; omega) (by dsimp only; omega)]
  dsimp only
  rw [Nat.add_sub_cancel_left, Nat.add_sub_cancel_left, List.take_of_length_le (by rw [List.length_drop]; omega), List.take_of_length_le (by rw [List.length_drop]; omega)]

namespace Vset

theorem collect_inv : ∀ (n i w : Nat) (it : RawIter) (vs : List Validator) (total : Nat), collect n i w it = .ok (vs, total) →
    vs.length ≤ n ∧ weighted w vs = vs ∧ total = w + weightOf vs ∧ (w < 2 ^ 64 → total < 2 ^ 64)
  | 0, i, w, it, vs, total, h => by
    unfold collect at h
    cases h
    exact ⟨Nat.le_refl _, rfl, rfl, fun h => h⟩
  | n + 1, i, w, it, vs, total, h => by
    unfold collect at h
    rcases hn : validators.next it with ⟨r, it'⟩
    rw [hn] at h
    cases r with
    | none =>
      cases h
      exact ⟨Nat.zero_le _, rfl, rfl, fun h => h⟩
    | some r =>
      cases r with
      | error e => cases h
      | ok p =>
        obtain ⟨idx, v⟩ := p
        dsimp only at h
        by_cases hi : idx = i
        · rw [if_pos hi] at h
          by_cases hw : w + v.weight < 2 ^ 64
          · rw [if_pos hw] at h
            cases hc : collect n (i + 1) (w + v.weight) it' with
            | error e => rw [hc] at h; cases h
            | ok p =>
              obtain ⟨vs', t⟩ := p
              rw [hc] at h
              have h : (({ v with prevWeight := w } : Validator) :: vs', t) = (vs, total) := by injection h
              obtain ⟨rfl, rfl⟩ := Prod.mk.inj h
              obtain ⟨h1, h4, h5, h6⟩ := collect_inv n (i + 1) (w + v.weight) it' vs' t hc
              refine ⟨Nat.succ_le_succ h1, ?_, ?_, fun _ => h6 hw⟩
              · show { v with prevWeight := w } :: weighted (w + v.weight) vs' = _
                rw [h4]
              · have : weightOf (({ v with prevWeight := w } : Validator) :: vs') = v.weight + weightOf vs' := by
                  unfold weightOf; simp
                rw [this, h5]; omega
          · rw [if_neg hw] at h; cases h
        · rw [if_neg hi] at h; cases h

theorem weighted_length : ∀ (l : List Validator) (w : Nat), (weighted w l).length = l.length
  | [], _ => rfl
  | v :: l, w => congrArg Nat.succ (weighted_length l _)

theorem weighted_get : ∀ (l : List Validator) (w i : Nat) (h : i < l.length) (h' : i < (weighted w l).length),
    (weighted w l)[i] = { l[i] with prevWeight := w + before l i }
  | [], w, i, h, _ => absurd h (Nat.not_lt_zero _)
  | v :: l, w, 0, h, _ => by simp [weighted, before]
  | v :: l, w, i + 1, h, h' => by
    show (weighted (w + v.weight) l)[i]'(by simpa [weighted] using h') = _
    rw [weighted_get l (w + v.weight) i (Nat.lt_of_succ_lt_succ h)]
    simp [before, Nat.add_assoc]

theorem weightOf_plain (l : List Validator) : weightOf (l.map Validator.plain) = weightOf l := by
  unfold weightOf
  rw [List.map_map]
  rfl

theorem before_all (l : List Validator) : before l l.length = weightOf l := by
  unfold before weightOf
  rw [List.take_length]

theorem indexed_snd : ∀ (l : List Validator) (i : Nat), (indexed i l).map (·.2) = l
  | [], _ => rfl
  | v :: l, i => congrArg (v :: ·) (indexed_snd l (i + 1))

/-- The loader on a set in the newer form. -/
theorem load_run (acc : Cell → Bool) {s : CSlice Cell} (hs : s.WF) {since till total main w : Nat} {d : Option Cell} {rest : Enc Cell}
    (h1 : since < 2 ^ 32) (h2 : till < 2 ^ 32) (h3 : total < 2 ^ 16) (h4 : main < 2 ^ 16) (h5 : w < 2 ^ 64)
    (hc : s.contents = Enc.bits (natBits 8 0x12) ++ fields.enc (since, till, total, main, w, d) ++ rest) :
    (¬ (main ≠ 0 ∧ main ≤ total) → (ValidatorSet.load acc s).1 = .error .invalidData) ∧
    (main ≠ 0 ∧ main ≤ total → ∃ s', ValidatorSet.load acc s = (finish since till total main (some w) d, s') ∧ s'.WF ∧ s'.contents = rest) := by
  have hc : s.contents = Enc.bits (natBits 8 0x12) ++ (Tlb.u32.enc since ++ (Tlb.u32.enc till ++ (Tlb.u16.enc total ++ (Tlb.u16.enc main ++
      (Tlb.u64.enc w ++ (Tlb.dict.enc d ++ rest)))))) := by
    rw [hc]
    show (_ ++ (_ ++ (_ ++ (_ ++ (_ ++ (_ ++ _))))) : Enc Cell) ++ _ = _
    simp only [Enc.append_assoc]
  obtain ⟨s1, e1, w1, c1, -, -⟩ := Tlb.u8_sound.ld.reads 0x12 _ (Tlb.u8_sound.st.canon 0x12 (show 0x12 < 2 ^ 8 by decide)) s _ hs hc
  obtain ⟨s2, e2, w2, c2, -, -⟩ := Tlb.u32_sound.ld.reads since _ (Tlb.u32_sound.st.canon since h1) s1 _ w1 c1
  obtain ⟨s3, e3, w3, c3, -, -⟩ := Tlb.u32_sound.ld.reads till _ (Tlb.u32_sound.st.canon till h2) s2 _ w2 c2
  obtain ⟨s4, e4, w4, c4, -, -⟩ := Tlb.u16_sound.ld.reads total _ (Tlb.u16_sound.st.canon total h3) s3 _ w3 c3
  obtain ⟨s5, e5, w5, c5, -, -⟩ := Tlb.u16_sound.ld.reads main _ (Tlb.u16_sound.st.canon main h4) s4 _ w4 c4
  obtain ⟨s6, e6, w6, c6, -, -⟩ := Tlb.u64_sound.ld.reads w _ (Tlb.u64_sound.st.canon w h5) s5 _ w5 c5
  obtain ⟨s7, e7, w7, c7, -, -⟩ := Tlb.dict_sound.ld.reads d _ (Tlb.dict_sound.st.canon d (by cases d <;> trivial)) s6 _ w6 c6
  have e1 : Rd.u8 s = (.ok 0x12, s1) := e1
  have e2 : Rd.u32 s1 = (.ok since, s2) := e2
  have e3 : Rd.u32 s2 = (.ok till, s3) := e3
  have e4 : Rd.u16 s3 = (.ok total, s4) := e4
  have run : ValidatorSet.load acc s = (Tlb.nz16.load >>= fun main =>
      Prog.check (decide (main ≤ total)) .invalidData >>= fun _ =>
      loadDict acc true >>= finishRd since till total main) s4 := by
    unfold ValidatorSet.load
    rw [Prog.bind_ok e1, if_neg (by decide), if_pos rfl, Prog.pure_bind', Prog.bind_ok e2, Prog.bind_ok e3, Prog.bind_ok e4]
  have hnz : Tlb.nz16.load s4 = (Prog.check (decide (main ≠ 0)) .invalidData >>= fun _ => pure main) s5 := Prog.bind_ok e5
  rw [run]
  constructor
  · intro hm
    by_cases h0 : main = 0
    · rw [decide_eq_false (by simpa using h0)] at hnz
      have hnz : Tlb.nz16.load s4 = (.error .invalidData, s5) := hnz
      rw [Prog.bind_err hnz]
    · rw [decide_eq_true h0] at hnz
      have hnz : Tlb.nz16.load s4 = (.ok main, s5) := hnz
      rw [Prog.bind_ok hnz, decide_eq_false (fun h => hm ⟨h0, h⟩)]
      rfl
  · rintro ⟨h0, hm⟩
    rw [decide_eq_true h0] at hnz
    have hnz : Tlb.nz16.load s4 = (.ok main, s5) := hnz
    rw [Prog.bind_ok hnz, decide_eq_true hm, Prog.check_true, Prog.pure_bind']
    have hd : loadDict acc true s5 = (.ok (some w, d), s7) := by
      unfold loadDict
      rw [if_pos rfl, Prog.bind_ok (show Rd.u64 s5 = _ from e6), Prog.bind_ok e7]
      rfl
    rw [Prog.bind_ok hd]
    exact ⟨s7, rfl, w7, c7⟩

theorem finish_inv {since till total main : Nat} {weight : Option Nat} {d : Option Cell} {vs : ValidatorSet}
    (h : finish since till total main weight d = .ok vs) :
    ∃ l w, collect total 0 0 (RawIter.new d 16 false false) = .ok (l, w) ∧ l ≠ [] ∧ (∀ x, weight = some x → x = w) ∧ vs = ⟨since, till, main, w, l⟩ := by
  unfold finish at h
  cases hc : collect total 0 0 (RawIter.new d 16 false false) with
  | error e => rw [hc] at h; cases h
  | ok p =>
    obtain ⟨l, w⟩ := p
    rw [hc] at h
    dsimp only at h
    by_cases hl : l = []
    · rw [if_pos hl] at h; cases h
    · rw [if_neg hl] at h
      by_cases hw : weight.isSome = true ∧ weight ≠ some w
      · rw [if_pos hw] at h; cases h
      · rw [if_neg hw] at h
        injection h with h
        refine ⟨l, w, rfl, hl, fun x hx => ?_, h.symm⟩
        subst hx
        exact Classical.byContradiction fun hn => hw ⟨rfl, fun e => hn (by injection e)⟩

theorem finish_ok {since till total main : Nat} {weight : Option Nat} {d : Option Cell} {l : List Validator} {w : Nat}
    (hc : collect total 0 0 (RawIter.new d 16 false false) = .ok (l, w)) (hl : l ≠ []) (hw : ∀ x, weight = some x → x = w) :
    finish since till total main weight d = .ok ⟨since, till, main, w, l⟩ := by
  unfold finish
  rw [hc]
  dsimp only
  rw [if_neg hl, if_neg]
  rintro ⟨h1, h2⟩
  cases weight with
  | none => cases h1
  | some x => exact h2 (by rw [hw x rfl])

theorem indexed_mem : ∀ (l : List Validator) (i j : Nat) (h : j < l.length), (i + j, l[j]) ∈ indexed i l
  | [], _, _, h => absurd h (Nat.not_lt_zero _)
  | v :: l, i, 0, _ => List.mem_cons_self
  | v :: l, i, j + 1, h => by
    have := indexed_mem l (i + 1) j (Nat.lt_of_succ_lt_succ h)
    rw [show i + 1 + j = i + (j + 1) by omega] at this
    exact List.mem_cons_of_mem _ this

theorem indexed_prefix : ∀ (l : List Validator) (i : Nat) (es : List (Nat × Validator)), es.Pairwise (fun p q => p.1 < q.1) →
    (∀ x v, (x, v) ∈ es → i ≤ x) → (∀ j (h : j < l.length), (i + j, l[j]) ∈ es) → ∃ t, es = indexed i l ++ t
  | [], i, es, _, _, _ => ⟨es, rfl⟩
  | v :: l, i, es, hp, hge, hm => by
    have h0 := hm 0 (Nat.zero_lt_succ _)
    cases es with
    | nil => cases h0
    | cons p es =>
      obtain ⟨x0, v0⟩ := p
      obtain ⟨hp1, hp2⟩ := List.pairwise_cons.mp hp
      have hx := hge x0 v0 List.mem_cons_self
      have he : (i + 0, v) = (x0, v0) := by
        rcases List.mem_cons.mp h0 with e | e
        · exact e
        · have := hp1 _ e
          dsimp only at this
          omega
      obtain ⟨rfl, rfl⟩ := Prod.mk.inj he
      obtain ⟨t, rfl⟩ := indexed_prefix l (i + 1) es hp2 (fun x w hw => hp1 _ hw) (fun j hj => by
        have := hm (j + 1) (Nat.succ_lt_succ hj)
        rcases List.mem_cons.mp this with e | e
        · have := (Prod.mk.inj e).1
          omega
        · rw [show i + 1 + j = i + (j + 1) by omega]
          exact e)
      exact ⟨t, rfl⟩

theorem collectL_append : ∀ (vs : List Validator) (n i w : Nat) (t : List (Nat × Validator)), vs.length ≤ n → w + weightOf vs < 2 ^ 64 →
    (vs.length = n ∨ t = []) → collectL n i w (indexed i vs ++ t) = .ok (weighted w vs, w + weightOf vs)
  | [], 0, i, w, t, _, _, _ => rfl
  | [], n + 1, i, w, t, _, _, ht => by
    rcases ht with h | rfl
    · cases h
    · rfl
  | v :: vs, 0, i, w, t, h, _, _ => absurd h (Nat.not_succ_le_zero _)
  | v :: vs, n + 1, i, w, t, h, hw, ht => by
    have e : weightOf (v :: vs) = v.weight + weightOf vs := by unfold weightOf; simp
    rw [e] at hw ⊢
    have ih := collectL_append vs n (i + 1) (w + v.weight) t (Nat.le_of_succ_le_succ h) (by omega) (ht.imp (fun h => Nat.succ.inj h) id)
    show collectL (n + 1) i w ((i, v) :: (indexed (i + 1) vs ++ t)) = _
    unfold collectL
    rw [if_pos rfl, if_pos (by omega), ih]
    show Except.ok _ = Except.ok _
    rw [Nat.add_assoc]
    rfl

/-- The loop over the entries of a well-formed dictionary. -/
theorem collect_iff {acc : Cell → Bool} {d : Option Cell} {m : Nat → Option Validator} (hd : Holds acc d m) {total : Nat} (ht : total < 2 ^ 16)
    (vs : List Validator) (w : Nat) : collect total 0 0 (RawIter.new d 16 false false) = .ok (vs, w) ↔
    ∃ l : List Validator, l.length ≤ total ∧ (∀ i, i < l.length → m i = l[i]?) ∧ (l.length < total → ∀ j, l.length ≤ j → j < 2 ^ 16 → m j = none) ∧
      weightOf l = w ∧ w < 2 ^ 64 ∧ vs = weighted 0 l := by
  obtain ⟨es, hp, hm, hy⟩ := hd.entries
  rw [collect_eq total 0 0 _ es hy]
  constructor
  · intro h
    obtain ⟨h1, h2, h3, h4, h5, h6, h7⟩ := collectL_inv _ _ _ _ _ _ h
    have hlen : ((es.take vs.length).map (·.2)).length = vs.length := by
      rw [List.length_map, List.length_take]; omega
    refine ⟨(es.take vs.length).map (·.2), by omega, ?_, ?_, ?_, by omega, h4⟩
    · intro i hi
      rw [hlen] at hi
      have hi' : i < es.length := by omega
      have hk := h7 i hi' hi
      rw [Nat.zero_add] at hk
      rw [List.getElem?_map, List.getElem?_take, if_pos hi, List.getElem?_eq_getElem hi']
      have := ((hm es[i].1 es[i].2).mp (List.getElem_mem hi')).2
      rw [hk] at this
      exact this
    · intro hlt j hj hj16
      rw [hlen] at hlt hj
      cases hmj : m j with
      | none => rfl
      | some v =>
        obtain ⟨i, hi, e⟩ := List.getElem_of_mem ((hm j v).mpr ⟨hj16, hmj⟩)
        have h3 := h3 hlt
        have := h7 i hi (by omega)
        rw [e] at this
        dsimp only at this
        omega
    · rw [h5, Nat.zero_add, h4]
      have : ∀ (l : List Validator) (w : Nat), weightOf (weighted w l) = weightOf l := by
        intro l
        induction l with
        | nil => intro w; rfl
        | cons v l ih =>
          intro w
          have e : ∀ (a : Validator) (b : List Validator), weightOf (a :: b) = a.weight + weightOf b := fun a b => by unfold weightOf; simp
          show weightOf ({ v with prevWeight := w } :: weighted _ l) = _
          rw [e, e, ih]
      rw [this, ← h4]
  · rintro ⟨l, h1, h2, h3, h4, h5, rfl⟩
    obtain ⟨t, rfl⟩ := indexed_prefix l 0 es hp (fun _ _ _ => Nat.zero_le _) (fun j hj => by
      rw [Nat.zero_add]
      exact (hm j _).mpr ⟨by omega, by rw [h2 j hj, List.getElem?_eq_getElem hj]⟩)
    have h := collectL_append l total 0 0 t h1 (by omega) (by
      by_cases hlt : l.length < total
      · right
        cases t with
        | nil => rfl
        | cons p t =>
          exfalso
          obtain ⟨x, v⟩ := p
          obtain ⟨g1, g2⟩ := (hm x v).mp (List.mem_append_right _ List.mem_cons_self)
          by_cases hx : x < l.length
          · obtain ⟨hp1, hp2, hp3⟩ := List.pairwise_append.mp hp
            have hmem : (x, l[x]) ∈ indexed 0 l := by
              have := indexed_mem l 0 x hx
              rwa [Nat.zero_add] at this
            have := hp3 _ hmem _ List.mem_cons_self
            dsimp only at this
            omega
          · rw [h3 hlt x (by omega) g1] at g2
            cases g2
      · left; omega)
    rw [h, Nat.zero_add, h4]

theorem rootInPlace_fork {acc : Cell → Bool} {n : Nat} (hn : n ≤ 1023) {l e : Bits} {a b : Trie} (hl : l.length < n) (he : LabelEnc n l e)
    (ha : acc (.mk false e [a.cell, b.cell]) = true) {s : CSlice Cell} (hs : s.WF) {rest : Enc Cell} (hc : s.contents = (e, [a.cell, b.cell]) ++ rest) :
    ∃ s', rootInPlace acc n s = (.ok (.mk false e [a.cell, b.cell]), s') ∧ s'.WF ∧ s'.contents = rest := by
  have hb : s.bits = e ++ rest.1 := congrArg Prod.fst hc
  have hr : s.refList = [a.cell, b.cell] ++ rest.2 := congrArg Prod.snd hc
  have h1 := readLabel_enc he (Nat.le_of_lt hl) hn rest.1 s.refList
  obtain ⟨w, c⟩ := CSlice.window_drop hs (a := s.bits.length - rest.1.length) (b := 2) (Nat.sub_le _ _) (by rw [hr]; simp)
  have hlen : s.bits.length - rest.1.length = e.length := by rw [hb, List.length_append]; omega
  rw [hlen] at w c
  have hval : buildSl acc ⟨s.bits.take e.length, s.refList.take 2⟩ = .ok (.mk false e [a.cell, b.cell]) := by
    rw [hb, hr]
    have : (e ++ rest.1).take e.length = e := by simp
    rw [this]
    exact if_pos ha
  refine ⟨_, ?_, w, ?_⟩
  · unfold rootInPlace
    rw [hb] at hlen ⊢
    rw [h1]
    dsimp only
    rw [if_pos (by omega), if_neg (by rw [hr]; simp), hlen]
    rw [hb] at hval
    rw [hval]
  · rw [c, hb, hr]
    simp

theorem rootInPlace_all {acc : Cell → Bool} {n : Nat} (hn : n ≤ 1023) {l e : Bits} {v : Sl} (hl : l.length = n) (he : LabelEnc n l e)
    (ha : acc (.mk false (e ++ v.bits) v.refs) = true) {s : CSlice Cell} (hs : s.WF) (hc : s.contents = (e ++ v.bits, v.refs)) :
    ∃ s', rootInPlace acc n s = (.ok (.mk false (e ++ v.bits) v.refs), s') ∧ s'.WF ∧ s'.contents = Enc.nil := by
  have hb : s.bits = e ++ v.bits := congrArg Prod.fst hc
  have hr : s.refList = v.refs := congrArg Prod.snd hc
  have h1 := readLabel_enc he (Nat.le_of_eq hl) hn v.bits s.refList
  obtain ⟨w, c⟩ := CSlice.window_empty hs
  refine ⟨_, ?_, w, c⟩
  unfold rootInPlace
  rw [hb, h1]
  dsimp only
  rw [if_neg (by omega), hr]
  rw [show buildSl acc ⟨e ++ v.bits, v.refs⟩ = .ok (.mk false (e ++ v.bits) v.refs) from if_pos ha]

/-- The loader on a set in the older form. -/
theorem load_run_old (acc : Cell → Bool) {s : CSlice Cell} (hs : s.WF) {since till total main : Nat} {c : Cell} {e rest : Enc Cell}
    (h1 : since < 2 ^ 32) (h2 : till < 2 ^ 32) (h3 : total < 2 ^ 16) (h4 : main < 2 ^ 16) (h0 : main ≠ 0) (hm : main ≤ total)
    (hroot : ∀ s1 : CSlice Cell, s1.WF → s1.contents = e → ∃ s2, rootInPlace acc 16 s1 = (.ok c, s2) ∧ s2.WF ∧ s2.contents = rest)
    (hc : s.contents = Enc.bits (natBits 8 0x11) ++ (Enc.bits (natBits 32 since) ++ (Enc.bits (natBits 32 till) ++ (Enc.bits (natBits 16 total) ++
      (Enc.bits (natBits 16 main) ++ e))))) :
    ∃ s', ValidatorSet.load acc s = (finish since till total main none (some c), s') ∧ s'.WF ∧ s'.contents = rest := by
  obtain ⟨s1, e1, w1, c1, -, -⟩ := Tlb.u8_sound.ld.reads 0x11 _ (Tlb.u8_sound.st.canon 0x11 (show 0x11 < 2 ^ 8 by decide)) s _ hs hc
  obtain ⟨s2, e2, w2, c2, -, -⟩ := Tlb.u32_sound.ld.reads since _ (Tlb.u32_sound.st.canon since h1) s1 _ w1 c1
  obtain ⟨s3, e3, w3, c3, -, -⟩ := Tlb.u32_sound.ld.reads till _ (Tlb.u32_sound.st.canon till h2) s2 _ w2 c2
  obtain ⟨s4, e4, w4, c4, -, -⟩ := Tlb.u16_sound.ld.reads total _ (Tlb.u16_sound.st.canon total h3) s3 _ w3 c3
  obtain ⟨s5, e5, w5, c5, -, -⟩ := Tlb.u16_sound.ld.reads main _ (Tlb.u16_sound.st.canon main h4) s4 _ w4 c4
  obtain ⟨s6, e6, w6, c6⟩ := hroot s5 w5 c5
  have e1 : Rd.u8 s = (.ok 0x11, s1) := e1
  have e2 : Rd.u32 s1 = (.ok since, s2) := e2
  have e3 : Rd.u32 s2 = (.ok till, s3) := e3
  have e4 : Rd.u16 s3 = (.ok total, s4) := e4
  have run : ValidatorSet.load acc s = (Tlb.nz16.load >>= fun main =>
      Prog.check (decide (main ≤ total)) .invalidData >>= fun _ =>
      loadDict acc false >>= finishRd since till total main) s4 := by
    unfold ValidatorSet.load
    rw [Prog.bind_ok e1, if_pos rfl, Prog.pure_bind', Prog.bind_ok e2, Prog.bind_ok e3, Prog.bind_ok e4]
  have hnz : Tlb.nz16.load s4 = (Prog.check (decide (main ≠ 0)) .invalidData >>= fun _ => pure main) s5 := Prog.bind_ok e5
  rw [decide_eq_true h0] at hnz
  have hnz : Tlb.nz16.load s4 = (.ok main, s5) := hnz
  have hd : loadDict acc false s5 = (.ok (none, some c), s6) := by
    unfold loadDict
    rw [if_neg (by decide), Prog.bind_ok e6]
    rfl
  rw [run, Prog.bind_ok hnz, decide_eq_true hm, Prog.check_true, Prog.pure_bind', Prog.bind_ok hd]
  exact ⟨s6, rfl, w6, c6⟩

/-- What a successful load tells about the head. -/
theorem load_inv {acc : Cell → Bool} {s s' : CSlice Cell} (hs : s.WF) {vs : ValidatorSet} (h : ValidatorSet.load acc s = (.ok vs, s')) :
    ∃ since till total main weight d, since < 2 ^ 32 ∧ till < 2 ^ 32 ∧ total < 2 ^ 16 ∧ main ≠ 0 ∧ main ≤ total ∧
      finish since till total main weight d = .ok vs := by
  unfold ValidatorSet.load at h
  obtain ⟨t, s1, e1, h⟩ := Prog.bind_inv h
  obtain ⟨_, _, _, w1⟩ := Tlb.u8_sound.ld.exact s s1 t hs e1
  obtain ⟨ww, s2, e2, hh⟩ := Prog.bind_inv h
  clear h
  have w2 : s2 = s1 := by
    by_cases ha : t = 0x11
    · rw [if_pos ha] at e2; exact (Prod.mk.inj e2).2.symm
    · rw [if_neg ha] at e2
      by_cases hb : t = 0x12
      · rw [if_pos hb] at e2; exact (Prod.mk.inj e2).2.symm
      · rw [if_neg hb] at e2; exact (Prod.mk.inj e2).2.symm
  subst w2
  obtain ⟨since, s3, e3, h⟩ := Prog.bind_inv hh
  obtain ⟨_, ⟨b3, _⟩, _, w3⟩ := Tlb.u32_sound.ld.exact _ s3 since w1 e3
  obtain ⟨till, s4, e4, h⟩ := Prog.bind_inv h
  obtain ⟨_, ⟨b4, _⟩, _, w4⟩ := Tlb.u32_sound.ld.exact _ s4 till w3 e4
  obtain ⟨total, s5, e5, h⟩ := Prog.bind_inv h
  obtain ⟨_, ⟨b5, _⟩, _, w5⟩ := Tlb.u16_sound.ld.exact _ s5 total w4 e5
  obtain ⟨main, s6, e6, h⟩ := Prog.bind_inv h
  obtain ⟨_, ⟨_, b6⟩, _, w6⟩ := Tlb.nz16_sound.ld.exact _ s6 main w5 e6
  obtain ⟨_, s7, e7, h⟩ := Prog.bind_inv h
  have b7 : main ≤ total := by
    by_cases hm : main ≤ total
    · exact hm
    · rw [decide_eq_false hm] at e7; cases e7
  obtain ⟨p, s8, e8, h⟩ := Prog.bind_inv h
  exact ⟨since, till, total, main, p.1, p.2, b3, b4, b5, b6, b7, (Prod.mk.inj h).1⟩

/-! ### Properties -/

/-- **C68, validator descriptions.** A slice is accepted exactly if it begins with one of the three forms (plain, with an address, with an address and a
seqno), and loading any slice neither panics nor leaves it. -/
theorem C68_validator_loads : Loads Validator.load Validator.R := validator_loads

/-- **C68, validator descriptions are stored and read back** as they are, except for what `plain` leaves out. -/
theorem C68_validator_round {v : Validator} (h : v.InRange) : Writes v.store v.plain.enc ∧ v.plain.R v.plain.enc ∧ Reads Validator.load v.plain.enc v.plain :=
  ⟨by rw [store_plain]; exact full_codes.writes _ (plain_ok h), full_codes.canon _ (plain_ok h),
    full_codes.reads _ _ (full_codes.canon _ (plain_ok h))⟩

/-- **C68 fails for validators with both an address and a seqno**: the address is replaced by zeros. -/
theorem C68_adnl_lost {v : Validator} (h : v.InRange) (hq : v.mcSeqnoSince ≠ 0) : ∃ v', Reads Validator.load v.plain.enc v' ∧ Writes v.store v.plain.enc ∧
    v'.adnl = some zeroHash :=
  ⟨v.plain, (C68_validator_round h).2.2, (C68_validator_round h).1, if_pos hq⟩

/-- **C68, storing** writes the newer form with a dictionary of all validators by their index; it fails only if there are too many of them (or the builder is
full). -/
theorem C68_store {acc : Cell → Bool} (hacc : AcceptsTame acc) {vs : ValidatorSet} (hv : vs.InRange) :
    (vs.list.length < 2 ^ 16 → ∃ d, Holds acc d (fun i => vs.list[i]?.map Validator.plain) ∧
      Writes (vs.store acc) (Enc.bits (natBits 8 0x12) ++ fields.enc (vs.utimeSince, vs.utimeUntil, vs.list.length, vs.main, vs.totalWeight, d))) ∧
    (2 ^ 16 ≤ vs.list.length → ∀ b, vs.store acc b = (.error .intOverflow, b)) := by
  constructor
  · intro hl
    obtain ⟨d, h1, h2⟩ := setAll_ok hacc vs.list 0 none (fun _ => none) hv.2.2.2.2 (by omega) (C57_empty acc)
    have e : filled (fun _ => none) 0 vs.list = fun i => vs.list[i]?.map Validator.plain := by
      funext i
      unfold filled
      by_cases hi : i < vs.list.length
      · rw [if_pos ⟨Nat.zero_le _, by omega⟩, Nat.sub_zero]
      · rw [if_neg (by omega), List.getElem?_eq_none (by omega)]
        rfl
    rw [e] at h2
    refine ⟨d, h2.any, ?_⟩
    have hw : Writes (Wr.u8 0x12 >>= fun _ => fields.store (vs.utimeSince, vs.utimeUntil, vs.list.length, vs.main, vs.totalWeight, d))
        (Enc.bits (natBits 8 0x12) ++ fields.enc (vs.utimeSince, vs.utimeUntil, vs.list.length, vs.main, vs.totalWeight, d)) := by
      refine (Wr.writes_u8 (by decide)).writes.seq ?_
      exact (Tlb.u32_sound.pair (Tlb.u32_sound.pair (Tlb.u16_sound.pair (Tlb.u16_sound.pair (Tlb.u64_sound.pair Tlb.dict_sound))))).st.writes _
        ⟨hv.1, hv.2.1, hl, hv.2.2.1, hv.2.2.2.1, by cases d <;> trivial⟩
    have es : vs.store acc = (Wr.u8 0x12 >>= fun _ => fields.store (vs.utimeSince, vs.utimeUntil, vs.list.length, vs.main, vs.totalWeight, d)) := by
      funext b
      unfold ValidatorSet.store
      rw [if_pos hl, h1]
    rw [es]
    exact hw
  · intro hl b
    unfold ValidatorSet.store
    rw [if_neg (by omega)]

/-- **C68, what is accepted.** A slice in the newer form with a dictionary for the map `m` is accepted exactly if the number of masterchain validators is
between one and the declared number of validators, the dictionary has validators at the indices from zero up to that number, or up to its end, without
gaps, at least one, and their weight is the declared one. The loaded set consists of them, each with the weight of those before it. -/
theorem C68_accepts {acc : Cell → Bool} {d : Option Cell} {m : Nat → Option Validator} (hd : Holds acc d m) {s : CSlice Cell} (hs : s.WF)
    {since till total main w : Nat} {rest : Enc Cell} (h1 : since < 2 ^ 32) (h2 : till < 2 ^ 32) (h3 : total < 2 ^ 16) (h4 : main < 2 ^ 16) (h5 : w < 2 ^ 64)
    (hc : s.contents = Enc.bits (natBits 8 0x12) ++ fields.enc (since, till, total, main, w, d) ++ rest) (vs : ValidatorSet) :
    (ValidatorSet.load acc s).1 = .ok vs ↔ main ≠ 0 ∧ main ≤ total ∧ ∃ l : List Validator, l ≠ [] ∧ l.length ≤ total ∧ (∀ i, i < l.length → m i = l[i]?) ∧
      (l.length < total → ∀ j, l.length ≤ j → j < 2 ^ 16 → m j = none) ∧ weightOf l = w ∧ vs = ⟨since, till, main, w, weighted 0 l⟩ := by
  obtain ⟨hbad, hgood⟩ := load_run acc hs h1 h2 h3 h4 h5 hc
  by_cases hm : main ≠ 0 ∧ main ≤ total
  · obtain ⟨s', e, _, _⟩ := hgood hm
    rw [e]
    constructor
    · intro h
      obtain ⟨l, w', g1, g2, g3, rfl⟩ := finish_inv h
      obtain ⟨l0, k1, k2, k3, k4, k5, rfl⟩ := (collect_iff hd h3 _ _).mp g1
      have := g3 w rfl
      subst this
      exact ⟨hm.1, hm.2, l0, fun e => g2 (by rw [e]; rfl), k1, k2, k3, k4, rfl⟩
    · rintro ⟨_, _, l, k0, k1, k2, k3, k4, rfl⟩
      exact finish_ok ((collect_iff hd h3 _ _).mpr ⟨l, k1, k2, k3, k4, h5, rfl⟩) (fun e => by
        have := congrArg List.length e
        rw [weighted_length] at this
        exact k0 (List.length_eq_zero_iff.mp this)) (fun x hx => by injection hx with hx; exact hx.symm)
  · rw [hbad hm]
    constructor
    · intro h; cases h
    · intro h; exact absurd ⟨h.1, h.2.1⟩ hm

/-- **C68, round trip.** What was stored loads again exactly if the set has at least one validator, the number of masterchain validators is between one and the
number of validators, and the total weight is the sum of the weights. Then it loads as the same set, with the weights before each validator. -/
theorem C68_round {acc : Cell → Bool} (hacc : AcceptsTame acc) {vs : ValidatorSet} (hv : vs.InRange) (hl : vs.list.length < 2 ^ 16) :
    ∃ b, vs.store acc .new = (.ok (), b) ∧ ∀ vs', (ValidatorSet.load acc b.asSlice).1 = .ok vs' ↔
      (vs.list ≠ [] ∧ vs.main ≠ 0 ∧ vs.main ≤ vs.list.length ∧ vs.totalWeight = weightOf vs.list) ∧
      vs' = { vs with list := weighted 0 (vs.list.map Validator.plain) } := by
  obtain ⟨d, hd, hw⟩ := (C68_store hacc hv).1 hl
  have hfit : (Enc.bits (natBits 8 0x12) ++ fields.enc (vs.utimeSince, vs.utimeUntil, vs.list.length, vs.main, vs.totalWeight, d) : Enc Cell).Fits := by
    have hdl : (Tlb.dict.enc d).1.length = 1 ∧ (Tlb.dict.enc d).2.length ≤ 1 := by
      cases d with
      | none => exact ⟨rfl, Nat.zero_le 1⟩
      | some c => exact ⟨rfl, Nat.le_refl 1⟩
    constructor
    · show (natBits 8 0x12 ++ (natBits 32 _ ++ (natBits 32 _ ++ (natBits 16 _ ++ (natBits 16 _ ++ (natBits 64 _ ++ (Tlb.dict.enc d).1)))))).length ≤ 1023
      simp only [List.length_append, natBits_length]
      omega
    · show ([] ++ ([] ++ ([] ++ ([] ++ ([] ++ ([] ++ (Tlb.dict.enc d).2)))))).length ≤ 4
      simp only [List.nil_append]
      omega
  have h := (hw .new CellB.wf_new).1 (by rw [show ((.new : CellB Cell).contents ++ _ : Enc Cell) = _ from Enc.nil_append _]; exact hfit)
  obtain ⟨b, hb, wfb, cb, _⟩ := h
  rw [show ((.new : CellB Cell).contents ++ _ : Enc Cell) = _ from Enc.nil_append _] at cb
  refine ⟨b, hb, fun vs' => ?_⟩
  obtain ⟨a1, a2, a3⟩ := CellB.asSlice_spec wfb
  have hc : b.asSlice.contents = Enc.bits (natBits 8 0x12) ++ fields.enc (vs.utimeSince, vs.utimeUntil, vs.list.length, vs.main, vs.totalWeight, d) ++ Enc.nil := by
    rw [Enc.append_nil, ← cb]
    unfold CSlice.contents CellB.contents
    rw [a2, a3]
  rw [C68_accepts hd a1 hv.1 hv.2.1 hl hv.2.2.1 hv.2.2.2.1 hc]
  have hmap : ∀ l : List Validator, l.length ≤ vs.list.length → (∀ i, i < l.length → vs.list[i]?.map Validator.plain = l[i]?) →
      (l.length < vs.list.length → ∀ j, l.length ≤ j → j < 2 ^ 16 → vs.list[j]?.map Validator.plain = none) → l = vs.list.map Validator.plain := by
    intro l k1 k2 k3
    have hlen : l.length = vs.list.length := by
      refine Classical.byContradiction fun hn => ?_
      have hlt : l.length < vs.list.length := by omega
      have := k3 hlt l.length (Nat.le_refl _) (by omega)
      rw [List.getElem?_eq_getElem hlt] at this
      cases this
    apply List.ext_getElem?
    intro i
    by_cases hi : i < l.length
    · rw [← k2 i hi, List.getElem?_map]
    · rw [List.getElem?_eq_none (by omega), List.getElem?_eq_none (by rw [List.length_map]; omega)]
  constructor
  · rintro ⟨m1, m2, l, k0, k1, k2, k3, k4, rfl⟩
    have := hmap l k1 k2 k3
    subst this
    refine ⟨⟨fun e => k0 (by rw [e]; rfl), m1, m2, ?_⟩, rfl⟩
    rw [← k4, weightOf_plain]
  · rintro ⟨⟨k0, m1, m2, k4⟩, rfl⟩
    refine ⟨m1, m2, vs.list.map Validator.plain, ?_, ?_, ?_, ?_, ?_, rfl⟩
    · intro e
      exact k0 (List.map_eq_nil_iff.mp e)
    · rw [List.length_map]
    · intro i hi; rw [List.getElem?_map]
    · intro hlt; rw [List.length_map] at hlt; exact absurd hlt (Nat.lt_irrefl _)
    · rw [weightOf_plain]; exact k4.symm

/-- **C68, what loaded sets promise**, whatever the slice was: there is a validator, the weight before each validator is the sum of the weights of those
before it, the total weight is the sum of all and fits 64 bits, and there are less than 2^16 validators. -/
theorem C68_loaded {acc : Cell → Bool} {s s' : CSlice Cell} (hs : s.WF) {vs : ValidatorSet} (h : ValidatorSet.load acc s = (.ok vs, s')) :
    vs.list ≠ [] ∧ (∀ i (hi : i < vs.list.length), vs.list[i].prevWeight = before vs.list i) ∧ vs.totalWeight = weightOf vs.list ∧ vs.totalWeight < 2 ^ 64 ∧
    vs.main ≠ 0 ∧ vs.main < 2 ^ 16 ∧ vs.list.length < 2 ^ 16 := by
  obtain ⟨since, till, total, main, weight, d, b1, b2, b3, b4, b5, hf⟩ := load_inv hs h
  obtain ⟨l, w, g1, g2, g3, rfl⟩ := finish_inv hf
  obtain ⟨k1, k2, k3, k4⟩ := collect_inv _ _ _ _ _ _ g1
  refine ⟨g2, fun i hi => ?_, ?_, k4 (by decide), b4, by show main < _; omega, by show l.length < _; omega⟩
  · have e := weighted_get l 0 i hi (by rw [weighted_length]; exact hi)
    have : (weighted 0 l)[i]'(by rw [weighted_length]; exact hi) = l[i] := by simp only [k2]
    rw [this, Nat.zero_add] at e
    exact congrArg Validator.prevWeight e
  · show w = _
    rw [k3, Nat.zero_add]

/-- **C68, loaded sets can be used.** If all weights are positive, a loaded set meets the condition of the choice of validators (C66). -/
theorem C68_usable {acc : Cell → Bool} {s s' : CSlice Cell} (hs : s.WF) {vs : ValidatorSet} (h : ValidatorSet.load acc s = (.ok vs, s'))
    (hp : ∀ v ∈ vs.list, 0 < v.weight) : WellWeighed vs := by
  obtain ⟨_, h1, h2, h3, _⟩ := C68_loaded hs h
  exact ⟨h1, by rw [before_all]; exact h2, h3, hp⟩

end Vset

open Vset in
/-- **C68, roots in place.** The root of a dictionary whose contents make up a whole slice is taken from it; if the dictionary has more than one entry,
anything may follow, and that is left. -/
theorem C68_root_in_place {acc : Cell → Bool} {n : Nat} (hn : n ≤ 1023) {c : Cell} {m : DMap} (h : RepresentsC acc n (some c) m) {s : CSlice Cell} (hs : s.WF) :
    (s.contents = (c.bits, c.refs) → ∃ s', rootInPlace acc n s = (.ok c, s') ∧ s'.WF ∧ s'.contents = Enc.nil) ∧
    ((∃ k1 k2, k1.length = n ∧ k2.length = n ∧ k1 ≠ k2 ∧ (m k1).isSome = true ∧ (m k2).isSome = true) → ∀ rest, s.contents = (c.bits, c.refs) ++ rest →
      ∃ s', rootInPlace acc n s = (.ok c, s') ∧ s'.WF ∧ s'.contents = rest) := by
  obtain ⟨t, h1, h2, h3, rfl, h4⟩ := h
  cases t with
  | leaf l e v =>
    obtain ⟨a1, a2⟩ := h1
    constructor
    · intro hc
      exact rootInPlace_all hn a1 a2 h3.2.2 hs hc
    · rintro ⟨k1, k2, g1, g2, g3, g4, g5⟩
      rw [h4 k1 g1] at g4
      rw [h4 k2 g2] at g5
      unfold Trie.lookup at g4 g5
      have e1 : k1 = l := Classical.byContradiction fun hh => by rw [if_neg hh] at g4; cases g4
      have e2 : k2 = l := Classical.byContradiction fun hh => by rw [if_neg hh] at g5; cases g5
      exact absurd (e1.trans e2.symm) g3
  | fork l e x a b =>
    obtain ⟨a1, a2, _, _⟩ := h1
    obtain ⟨_, rfl, _, _⟩ := h2
    have ha := h3.1.2.2
    have hcell : (Trie.fork l e Sl.empty a b).cell = .mk false e [a.cell, b.cell] := by
      show Cell.mk false (e ++ []) _ = _
      rw [List.append_nil]
      rfl
    rw [hcell] at ha ⊢
    constructor
    · intro hc
      exact rootInPlace_fork hn a1 a2 ha hs (rest := Enc.nil) (by rw [Enc.append_nil]; exact hc)
    · intro _ rest hc
      exact rootInPlace_fork hn a1 a2 ha hs hc

namespace Vset

/-- **C68, the older form** without the total weight, the dictionary in place. -/
theorem C68_old_form {acc : Cell → Bool} {c : Cell} {raw : DMap} {l : List Validator} (hrep : RepresentsC acc 16 (some c) raw)
    (hmap : MapIs 16 (fun i => i < 2 ^ 16) (natBits 16) (Verif.Holds Validator.R) raw (fun i => l[i]?)) {s : CSlice Cell} (hs : s.WF)
    {since till main : Nat} (h1 : since < 2 ^ 32) (h2 : till < 2 ^ 32) (h3 : l.length < 2 ^ 16) (h0 : main ≠ 0) (h4 : main ≤ l.length)
    (hw : weightOf l < 2 ^ 64)
    (hc : s.contents = Enc.bits (natBits 8 0x11) ++ (Enc.bits (natBits 32 since) ++ (Enc.bits (natBits 32 till) ++ (Enc.bits (natBits 16 l.length) ++
      (Enc.bits (natBits 16 main) ++ (c.bits, c.refs)))))) :
    ∃ s', ValidatorSet.load acc s = (.ok ⟨since, till, main, weightOf l, weighted 0 l⟩, s') ∧ s'.contents = Enc.nil := by
  obtain ⟨s', e, _, k⟩ := load_run_old acc hs h1 h2 h3 (by omega) h0 h4 (fun s1 w1 c1 => (C68_root_in_place (by decide) hrep w1).1 c1) hc
  refine ⟨s', ?_, k⟩
  rw [e]
  have hd : Holds acc (some c) (fun i => l[i]?) := ⟨raw, representsC_any hrep, hmap⟩
  rw [finish_ok ((collect_iff hd h3 _ _).mpr ⟨l, Nat.le_refl _, fun _ _ => rfl, fun h => absurd h (Nat.lt_irrefl _), rfl, hw, rfl⟩) (fun e => by
    have := congrArg List.length e
    rw [weighted_length] at this
    have : l.length = 0 := this
    omega) (fun x hx => by cases hx)]

/-! ### Concrete cases and violations -/

/-- A validator. -/
def exV (k w : Nat) : Validator := ⟨List.replicate 32 (BitVec.ofNat 8 k), w, none, 0, 0⟩

example : (exV 1 10).InRange := ⟨rfl, by decide, by simp [exV], by decide⟩
example : (⟨1, 2, 1, 25, [exV 1 10, { exV 2 15 with adnl := some zeroHash }]⟩ : ValidatorSet).InRange :=
  ⟨by decide, by decide, by decide, by decide, by
    intro v hv
    simp only [List.mem_cons, List.not_mem_nil, or_false] at hv
    rcases hv with rfl | rfl
    · exact ⟨rfl, by decide, by simp [exV], by decide⟩
    · exact ⟨rfl, by decide, by simp [exV, zeroHash], by decide⟩⟩

/-- Store a set and load it again. -/
def reload (vs : ValidatorSet) : Except Err ValidatorSet :=
  match vs.store (fun _ => true) .new with
  | (.ok _, b) => (ValidatorSet.load (fun _ => true) b.asSlice).1
  | (.error e, _) => .error e

/-- The weights of a loaded set. -/
def weightsOf : Except Err ValidatorSet → Option (Nat × List (Nat × Nat))
  | .ok vs => some (vs.totalWeight, vs.list.map fun v => (v.prevWeight, v.weight))
  | .error _ => none

/-- Three validators survive, with their weights. -/
example : weightsOf (reload ⟨1, 2, 1, 60, [exV 1 10, exV 2 20, exV 3 30]⟩) = some (60, [(0, 10), (10, 20), (30, 30)]) := by decide +kernel

/-- **C68, weights of zero are accepted**: with such a set the choice of validators fails (`C66_zero_weight`). -/
theorem C68_zero_weight : weightsOf (reload ⟨1, 2, 1, 5, [exV 1 0, exV 2 5]⟩) = some (5, [(0, 0), (0, 5)]) := by decide +kernel

/-- **C68 fails for sets that do not meet the conditions of the loader**: they are stored without an error and cannot be loaded: no validators, more
masterchain validators than validators, a wrong total weight. -/
theorem C68_unchecked_store : ∀ vs ∈ [(⟨1, 2, 1, 0, []⟩ : ValidatorSet), ⟨1, 2, 2, 10, [exV 1 10]⟩, ⟨1, 2, 1, 11, [exV 1 10]⟩],
    (vs.store (fun _ => true) .new).1 = .ok () ∧ weightsOf (reload vs) = none := by decide +kernel

/-- A set of one validator, but a declared number of three, two of them for the masterchain. -/
def exFewer : CellB Cell :=
  match setAll (fun _ => true) 0 [exV 1 10] none with
  | .ok d => ((Wr.u8 0x12 >>= fun _ => fields.store (1, 2, 3, 2, 10, d)) .new).2
  | .error _ => .new

/-- What was loaded, as a set. -/
def loadedSet (b : CellB Cell) : ValidatorSet :=
  match (ValidatorSet.load (fun _ => true) b.asSlice).1 with
  | .ok vs => vs
  | .error _ => ⟨0, 0, 0, 0, []⟩

/-- **C68 fails if the dictionary has fewer entries than declared**: the set is loaded with more masterchain validators than validators, and when it is stored
again it can not be loaded any more. -/
theorem C68_fewer_entries : (loadedSet exFewer).main = 2 ∧ (loadedSet exFewer).list.length = 1 ∧ weightsOf (reload (loadedSet exFewer)) = none := by
  decide +kernel

/-- The root of the dictionary of two validators. -/
def exRoot : Cell :=
  match setAll (fun _ => true) 0 [exV 1 10, exV 2 20] none with
  | .ok (some c) => c
  | _ => .mk false [] []

/-- A root in place, followed by a bit. -/
example : (rootInPlace (fun _ => true) 16 (Sl.reader ⟨exRoot.bits ++ [true], exRoot.refs⟩)).1.isOk = true ∧
    (rootInPlace (fun _ => true) 16 (Sl.reader ⟨exRoot.bits ++ [true], exRoot.refs⟩)).2.bits = [true] := by
  decide +kernel

end Vset
end Verif
