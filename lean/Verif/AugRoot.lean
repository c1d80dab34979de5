import Verif.Block
import Verif.VsetCodecProps
import Verif.ShardTreeLemmas
/-
Augmented dictionaries whose root is stored in place (`dict/aug.rs:204-234` `load_from_root`), and account blocks.
-/
set_option linter.unusedVariables false
set_option linter.unusedSimpArgs false
namespace Verif

/-! ### Model -/

/-- `read_label` as a step of a loader. If it fails, the crate leaves the slice somewhere within the label; here it is left as it was. -/
def Rd.label (n : Nat) : Rd Cell Bits := fun s =>
  match readLabel ⟨s.bits, s.refList⟩ n with
  | .error e => (.error e, s)
  | .ok (l, v) => (.ok l, { s with range := { s.range with bitsStart := s.range.bitsStart + (s.bits.length - v.bits.length) } })

/-- `dict/aug.rs:216-224`: behind the label. A node with a label that is not as long as the key is a fork. -/
def augTail {α β : Type} (n : Nat) (la : Rd Cell α) (lv : Rd Cell β) (l : Bits) : Rd Cell α :=
  if l.length ≠ n then Rd.skip 0 2 >>= fun _ => la else la >>= fun a => lv >>= fun _ => pure a

/-- `dict/aug.rs:212`, `226-237`: what was read becomes a cell of its own. -/
def Rd.consumed {α : Type} (acc : Cell → Bool) (p : Rd Cell α) : Rd Cell (α × Cell) := fun s =>
  match p s with
  | (.error e, s') => (.error e, s')
  | (.ok a, s') => match buildSl acc ⟨s.bits.take (s.bits.length - s'.bits.length), s.refList.take (s.refList.length - s'.refList.length)⟩ with
    | .error e => (.error e, s')
    | .ok c => (.ok (a, c), s')

/-- `dict/aug.rs:204-234` `load_from_root` -/
def augRootLoad {α β : Type} (acc : Cell → Bool) (n : Nat) (la : Rd Cell α) (lv : Rd Cell β) : Rd Cell (α × Cell) :=
  Rd.consumed acc (Rd.label n >>= augTail n la lv)

/-- What `read_label` takes for a label: it reads `e` as the label `l`, whatever follows. -/
def LabelRead (n : Nat) (l : Bits) (e : Enc Cell) : Prop :=
  ∃ b, e = Enc.bits b ∧ ∀ rest refs, readLabel ⟨b ++ rest, refs⟩ n = .ok (l, ⟨rest, refs⟩)

/-- The node of an augmented dictionary with keys of `n` bits: a fork has two branches and an extra, a leaf an extra and a value. -/
def AugNode {α β : Type} (n : Nat) (A : Tlb α) (V : Tlb β) (a : α) (e : Enc Cell) : Prop :=
  ∃ l, (LabelRead n l ⬝ fun e => (l.length ≠ n ∧ ((fun e => ∃ x y, e = Enc.ref x ++ Enc.ref y) ⬝ A.R a) e) ∨ (l.length = n ∧ (A.R a ⬝ fun e => ∃ b, V.R b e) e)) e

/-- A non-empty augmented dictionary, stored without a cell of its own: `models/block/block_extra.rs:173-176`, `182`, `198`. The extra of the dictionary is not
written: it is that of the root. -/
def Tlb.augRoot {α β : Type} (acc : Cell → Bool) (n : Nat) (A : Tlb α) (V : Tlb β) : Tlb (Option Cell × α) where
  ok v := ∃ e : Enc Cell, v.1 = some (Tlb.cellOf e) ∧ e.Fits ∧ acc (Tlb.cellOf e) = true ∧ AugNode n A V v.2 e
  store v := match v.1 with
    | none => Prog.fail .invalidData
    | some c => if c.exotic then Prog.fail .unexpectedExoticCell else Wr.slice (Sl.reader ⟨c.bits, c.refs⟩)
  load := augRootLoad acc n A.load V.load >>= fun p => pure (some p.2, p.1)
  R v e := v.1 = some (Tlb.cellOf e) ∧ acc (Tlb.cellOf e) = true ∧ AugNode n A V v.2 e
  enc v := match v.1 with
    | none => Enc.nil
    | some c => (c.bits, c.refs)

/-- `models/block/block_extra.rs:153-160` `AccountBlock`; the dictionary of transactions with its extra. -/
structure AccountBlock where
  account : List Byte
  transactions : Option Cell × Currency
  stateUpdate : Cell

/-- `models/block/block_extra.rs:168-202` `Store`, `Load`. The check of the root comes before anything is written. -/
def accountBlock (acc : Cell → Bool) : Tlb AccountBlock where
  ok v := Tlb.hash.ok v.account ∧ (Tlb.augRoot acc 64 Tlb.currency (Tlb.lazy false)).ok v.transactions ∧ (Tlb.lazy false).ok v.stateUpdate
  store v := (match v.transactions.1 with
    | none => Prog.fail .invalidData
    | some c => if c.exotic then Prog.fail .unexpectedExoticCell else pure ()) >>= fun _ =>
    Wr.small 5 4 >>= fun _ => Tlb.hash.store v.account >>= fun _ => (Tlb.augRoot acc 64 Tlb.currency (Tlb.lazy false)).store v.transactions >>= fun _ =>
    (Tlb.lazy false).store v.stateUpdate
  load := Rd.small 4 >>= fun t => Prog.check (decide (t = 5)) .invalidTag >>= fun _ => Tlb.hash.load >>= fun account =>
    (Tlb.augRoot acc 64 Tlb.currency (Tlb.lazy false)).load >>= fun transactions => (Tlb.lazy false).load >>= fun stateUpdate => pure ⟨account, transactions, stateUpdate⟩
  R v := Enc.Lit (natBits 4 5) ⬝ Tlb.hash.R v.account ⬝ (Tlb.augRoot acc 64 Tlb.currency (Tlb.lazy false)).R v.transactions ⬝ (Tlb.lazy false).R v.stateUpdate
  enc v := Enc.bits (natBits 4 5) ++ (Tlb.hash.enc v.account ++ ((Tlb.augRoot acc 64 Tlb.currency (Tlb.lazy false)).enc v.transactions ++ (Tlb.lazy false).enc v.stateUpdate))

/-! ### Lemmas -/

theorem loadBits_inv {s v : Sl} {n : Nat} {l : Bits} (h : s.loadBits n = .ok (l, v)) : l.length = n ∧ s.bits = l ++ v.bits ∧ v.refs = s.refs := by
  unfold Sl.loadBits at h
  by_cases hn : n ≤ s.bits.length
  · rw [if_pos hn] at h
    injection h with h
    injection h with h1 h2
    subst h1 h2
    exact ⟨by simp; omega, by simp, rfl⟩
  · rw [if_neg hn] at h; cases h

theorem loadBit_inv {s v : Sl} {b : Bool} (h : s.loadBit = .ok (b, v)) : s.bits = b :: v.bits ∧ v.refs = s.refs := by
  unfold Sl.loadBit at h
  cases hs : s.bits with
  | nil => rw [hs] at h; cases h
  | cons x t =>
    rw [hs] at h
    injection h with h
    injection h with h1 h2
    subst h1 h2
    exact ⟨rfl, rfl⟩

theorem countOnes_inv {refs : List Cell} : ∀ {b : Bits} {n : Nat} {v : Sl}, countOnes refs b = .ok (n, v) → b = List.replicate n true ++ false :: v.bits ∧ v.refs = refs
  | [], n, v, h => by cases h
  | false :: t, n, v, h => by
    injection h with h
    injection h with h1 h2
    subst h1 h2
    exact ⟨rfl, rfl⟩
  | true :: t, n, v, h => by
    unfold countOnes at h
    cases hc : countOnes refs t with
    | error e => rw [hc] at h; cases h
    | ok p =>
      rw [hc] at h
      obtain ⟨k, w⟩ := p
      obtain ⟨h1, h2⟩ := countOnes_inv hc
      injection h with h
      injection h with h3 h4
      subst h3 h4
      exact ⟨by rw [h1]; rfl, h2⟩

theorem countOnes_err {refs : List Cell} : ∀ {b : Bits} {e : Err}, countOnes refs b = .error e → e = .cellUnderflow
  | [], e, h => by injection h with h; exact h.symm
  | false :: t, e, h => by cases h
  | true :: t, e, h => by
    unfold countOnes at h
    cases hc : countOnes refs t with
    | error e' => rw [hc] at h; injection h with h; subst h; exact countOnes_err hc
    | ok p => rw [hc] at h; cases h

/-- What is read as a label is read as this label whatever follows. -/
theorem readLabel_inv {s v : Sl} {n : Nat} {l : Bits} (hn : 0 < n) (h : readLabel s n = .ok (l, v)) : ∃ b, s.bits = b ++ v.bits ∧ v.refs = s.refs ∧
    ∀ rest refs, readLabel ⟨b ++ rest, refs⟩ n = .ok (l, ⟨rest, refs⟩) := by
  have hk : bitsForLen n ≠ 0 := by unfold bitsForLen; rw [if_neg (by omega)]; omega
  have hz : ∀ b : Bits, ¬ (bitsForLen n = 0 ∧ b = []) := fun b h => hk h.1
  have run : ∀ s : Sl, readLabel s n = (s.loadBit >>= fun p => if p.1 = false then countOnes p.2.refs p.2.bits >>= fun q => q.2.loadBits q.1
      else p.2.loadBit >>= fun q => if q.1 = false then q.2.loadBits (bitsForLen n) >>= fun r => r.2.loadBits (natOfBits r.1)
        else q.2.loadBit >>= fun r => r.2.loadBits (bitsForLen n) >>= fun t => Pure.pure (List.replicate (min (natOfBits t.1) 1023) r.1, t.2)) := by
    intro s
    unfold readLabel
    dsimp only
    rw [if_neg (hz _)]
  rw [run] at h
  obtain ⟨⟨b1, s1⟩, h1, h⟩ := Merkle.ebind_inv h
  obtain ⟨a1, r1⟩ := loadBit_inv h1
  dsimp only at h
  cases b1 with
  | false =>
    rw [if_pos rfl] at h
    obtain ⟨⟨len, s2⟩, h2, h3⟩ := Merkle.ebind_inv h
    obtain ⟨a2, r2⟩ := countOnes_inv h2
    obtain ⟨a3, a4, r3⟩ := loadBits_inv h3
    dsimp only at a3 a4 r3
    refine ⟨false :: (List.replicate len true ++ false :: l), by rw [a1, a2, a4]; simp, by rw [r3, r2, r1], fun rest refs => ?_⟩
    rw [run]
    show (countOnes refs (List.replicate len true ++ false :: l ++ rest) >>= fun q => q.2.loadBits q.1) = _
    rw [List.append_assoc, List.cons_append, countOnes_spec]
    exact loadBits_append l rest refs _ a3
  | true =>
    rw [if_neg (by decide)] at h
    obtain ⟨⟨b2, s2⟩, h2, h3⟩ := Merkle.ebind_inv h
    obtain ⟨a2, r2⟩ := loadBit_inv h2
    dsimp only at h3
    cases b2 with
    | false =>
      rw [if_pos rfl] at h3
      obtain ⟨⟨lb, s3⟩, h4, h5⟩ := Merkle.ebind_inv h3
      obtain ⟨a4, a5, r4⟩ := loadBits_inv h4
      obtain ⟨a6, a7, r5⟩ := loadBits_inv h5
      dsimp only at a6 a7 r5
      refine ⟨true :: false :: (lb ++ l), by rw [a1, a2, a5, a7]; simp, by rw [r5, r4, r2, r1], fun rest refs => ?_⟩
      rw [run]
      show (Sl.loadBits ⟨lb ++ l ++ rest, refs⟩ (bitsForLen n) >>= fun r => r.2.loadBits (natOfBits r.1)) = _
      rw [List.append_assoc, loadBits_append lb _ refs _ a4]
      exact loadBits_append l rest refs _ a6
    | true =>
      rw [if_neg (by decide)] at h3
      obtain ⟨⟨b3, s3⟩, h4, h5⟩ := Merkle.ebind_inv h3
      obtain ⟨a4, r4⟩ := loadBit_inv h4
      obtain ⟨⟨lb, s4⟩, h6, h7⟩ := Merkle.ebind_inv h5
      obtain ⟨a6, a7, r6⟩ := loadBits_inv h6
      dsimp only at a6 a7 r6 h7
      injection h7 with h7
      injection h7 with h8 h9
      subst h9
      refine ⟨true :: true :: b3 :: lb, by rw [a1, a2, a4, a7]; rfl, by rw [r6, r4, r2, r1], fun rest refs => ?_⟩
      rw [run]
      show (Sl.loadBits ⟨lb ++ rest, refs⟩ (bitsForLen n) >>= fun t => Pure.pure (List.replicate (min (natOfBits t.1) 1023) b3, t.2)) = _
      rw [loadBits_append lb rest refs _ a6, ← h8]
      rfl

theorem readLabel_err {s : Sl} {n : Nat} {e : Err} (h : readLabel s n = .error e) : e = .cellUnderflow := by
  have hb : ∀ {s : Sl} {e}, s.loadBit = .error e → e = .cellUnderflow := by
    intro s e h
    unfold Sl.loadBit at h
    split at h
    · injection h with h; exact h.symm
    · cases h
  have hbs : ∀ {s : Sl} {k e}, s.loadBits k = .error e → e = .cellUnderflow := by
    intro s k e h
    unfold Sl.loadBits at h
    split at h
    · cases h
    · injection h with h; exact h.symm
  have step : ∀ {α β : Type} {x : Except Err α} {f : α → Except Err β} {e}, (x >>= f) = .error e → x = .error e ∨ ∃ a, x = .ok a ∧ f a = .error e := by
    intro α β x f e h
    cases x with
    | error e' => exact .inl (by injection h with h; rw [h])
    | ok a => exact .inr ⟨a, rfl, h⟩
  unfold readLabel at h
  dsimp only at h
  split at h
  · cases h
  · rcases step h with h | ⟨p, _, h⟩
    · exact hb h
    · by_cases hp : p.1 = false
      · rw [if_pos hp] at h
        rcases step h with h | ⟨q, _, h⟩
        · exact countOnes_err h
        · exact hbs h
      · rw [if_neg hp] at h
        rcases step h with h | ⟨q, _, h⟩
        · exact hb h
        · by_cases hq : q.1 = false
          · rw [if_pos hq] at h
            rcases step h with h | ⟨r, _, h⟩
            · exact hbs h
            · exact hbs h
          · rw [if_neg hq] at h
            rcases step h with h | ⟨r, _, h⟩
            · exact hb h
            · rcases step h with h | ⟨t, _, h⟩
              · exact hbs h
              · cases h

theorem Rd.label_loads {n : Nat} (hn : 0 < n) : Loads (Rd.label n) (LabelRead n) := by
  have key : ∀ {s : CSlice Cell} {k : Nat}, s.WF → k ≤ s.bits.length →
      ({ s with range := { s.range with bitsStart := s.range.bitsStart + k } } : CSlice Cell).WF ∧
      ({ s with range := { s.range with bitsStart := s.range.bitsStart + k } } : CSlice Cell).contents = (s.bits.drop k, s.refList) := by
    intro s k hs hk
    have := CSlice.window_drop hs (a := k) (b := 0) hk (Nat.zero_le _)
    exact this
  refine ⟨?_, ?_, ?_⟩
  · rintro l e ⟨b, rfl, hb⟩ s rest hs hc
    have e1 : s.bits = b ++ rest.1 := congrArg Prod.fst hc
    have e2 : s.refList = rest.2 := congrArg Prod.snd hc
    obtain ⟨w, c⟩ := key (k := s.bits.length - rest.1.length) hs (Nat.sub_le _ _)
    have hrun : Rd.label n s = (.ok l, { s with range := { s.range with bitsStart := s.range.bitsStart + (s.bits.length - rest.1.length) } }) := by
      unfold Rd.label
      rw [show (⟨s.bits, s.refList⟩ : Sl) = ⟨b ++ rest.1, s.refList⟩ by rw [e1], hb]
    refine ⟨_, hrun, w, ?_, rfl, rfl⟩
    rw [c, e2, show s.bits.length - rest.1.length = b.length by rw [e1]; simp, e1]
    simp
  · intro s s' l hs h
    unfold Rd.label at h
    cases hr : readLabel ⟨s.bits, s.refList⟩ n with
    | error e => rw [hr] at h; cases h
    | ok p =>
      obtain ⟨l', v⟩ := p
      rw [hr] at h
      injection h with h1 h2
      injection h1 with h1
      subst h1 h2
      obtain ⟨b, a1, a2, a3⟩ := readLabel_inv hn hr
      dsimp only at a1 a2
      obtain ⟨w, c⟩ := key (k := s.bits.length - v.bits.length) hs (Nat.sub_le _ _)
      refine ⟨Enc.bits b, ⟨b, rfl, a3⟩, ?_, w⟩
      rw [c, show s.bits.length - v.bits.length = b.length by rw [a1]; simp]
      show (s.bits, s.refList) = (b ++ s.bits.drop b.length, [] ++ s.refList)
      rw [a1]
      simp
  · intro s hs
    unfold Rd.label
    cases hr : readLabel ⟨s.bits, s.refList⟩ n with
    | error e =>
      have := readLabel_err hr
      subst this
      exact ⟨hs, ⟨Enc.nil, (Enc.nil_append _).symm⟩, (by intro h; cases h), (by intro h; cases h)⟩
    | ok p =>
      obtain ⟨l, v⟩ := p
      dsimp only
      obtain ⟨w, c⟩ := key (k := s.bits.length - v.bits.length) hs (Nat.sub_le _ _)
      refine ⟨w, ⟨Enc.bits (s.bits.take (s.bits.length - v.bits.length)), ?_⟩, (by intro h; cases h), (by intro h; cases h)⟩
      rw [c]
      show (s.bits, s.refList) = (s.bits.take (s.bits.length - v.bits.length) ++ s.bits.drop (s.bits.length - v.bits.length), [] ++ s.refList)
      rw [List.take_append_drop]
      rfl

theorem Rd.twoRefs_run {s : CSlice Cell} (hs : s.WF) : ∃ r s', s.skipFirst 0 2 = (r, s') ∧ s'.WF ∧ s'.data = s.data ∧ s'.refs = s.refs ∧
    ((2 ≤ s.refList.length ∧ r = .ok () ∧ s'.contents = (s.bits, s.refList.drop 2)) ∨ (¬ 2 ≤ s.refList.length ∧ r = .error .cellUnderflow ∧ s'.contents = s.contents)) := by
  have c := C03_read hs (.skipFirst 0 2) ⟨by omega, by omega⟩
  simp only [LoadOp.run, LoadOp.spec, LoadOp.specBoth, LoadOp.view] at c
  cases hk : s.skipFirst 0 2 with
  | mk r s' =>
    rw [hk] at c
    by_cases h2 : 2 ≤ s.refList.length
    · rw [if_pos ⟨Nat.zero_le _, h2⟩] at c
      obtain ⟨c1, c2, c3, c4⟩ := c
      cases r with
      | error e => simp [Except.map] at c1
      | ok u =>
        simp only [Prod.mk.injEq] at c2
        exact ⟨_, s', rfl, c3, c4.2.1, c4.2.2, .inl ⟨h2, rfl, by unfold CSlice.contents; rw [c2.1, c2.2]; rfl⟩⟩
    · rw [if_neg (fun h => h2 h.2)] at c
      obtain ⟨c1, c2, c3, c4⟩ := c
      cases r with
      | ok u => simp [Except.map] at c1
      | error e =>
        simp only [Except.map, Except.error.injEq] at c1
        simp only [Prod.mk.injEq] at c2
        exact ⟨_, s', rfl, c3, c4.2.1, c4.2.2, .inr ⟨h2, by rw [c1], by unfold CSlice.contents; rw [c2.1, c2.2]⟩⟩

theorem Rd.twoRefs_loads : Loads (Rd.skip 0 2 : Rd Cell Unit) (fun _ e => ∃ x y, e = Enc.ref x ++ Enc.ref y) := by
  refine ⟨?_, ?_, ?_⟩
  · rintro _ e ⟨x, y, rfl⟩ s rest hs hc
    have e1 : s.bits = rest.1 := congrArg Prod.fst hc
    have e2 : s.refList = x :: y :: rest.2 := congrArg Prod.snd hc
    obtain ⟨r, s', h1, h2, h3, h4, ⟨h5, rfl, h6⟩ | ⟨h5, _⟩⟩ := Rd.twoRefs_run hs
    · exact ⟨s', h1, h2, by rw [h6, e1, e2]; rfl, h3, h4⟩
    · exact absurd (by rw [e2]; simp) h5
  · intro s s' _ hs h
    obtain ⟨r, s1, h1, h2, h3, h4, ⟨h5, rfl, h6⟩ | ⟨h5, rfl, _⟩⟩ := Rd.twoRefs_run hs
    · have h : s.skipFirst 0 2 = _ := h
      rw [h1] at h
      injection h with _ h
      subst h
      match hr : s.refList, h5 with
      | x :: y :: t, _ =>
        refine ⟨_, ⟨x, y, rfl⟩, ?_, h2⟩
        rw [h6, hr]
        show (s.bits, s.refList) = _
        rw [hr]
        rfl
    · have h : s.skipFirst 0 2 = _ := h
      rw [h1] at h
      cases h
  · intro s hs
    show (s.skipFirst 0 2).2.WF ∧ (∃ e, s.contents = e ++ (s.skipFirst 0 2).2.contents) ∧ (s.skipFirst 0 2).1 ≠ _ ∧ (s.skipFirst 0 2).1 ≠ _
    obtain ⟨r, s1, h1, h2, h3, h4, ⟨h5, rfl, h6⟩ | ⟨h5, rfl, h6⟩⟩ := Rd.twoRefs_run hs
    · rw [h1]
      refine ⟨h2, ⟨([], s.refList.take 2), ?_⟩, (by intro h; cases h), (by intro h; cases h)⟩
      dsimp only
      rw [h6]
      show (s.bits, s.refList) = ([] ++ s.bits, s.refList.take 2 ++ s.refList.drop 2)
      rw [List.take_append_drop]
      rfl
    · rw [h1]
      exact ⟨h2, ⟨Enc.nil, by dsimp only; rw [h6, Enc.nil_append]⟩, (by intro h; cases h), (by intro h; cases h)⟩

theorem Rd.consumed_loads {α : Type} {p : Rd Cell α} {R : α → Enc Cell → Prop} (h : Loads p R) (acc : Cell → Bool) :
    Loads (Rd.consumed acc p) (fun v e => R v.1 e ∧ v.2 = Tlb.cellOf e ∧ acc v.2 = true) := by
  have build : ∀ {s s' : CSlice Cell} {e : Enc Cell}, s.contents = e ++ s'.contents →
      buildSl acc ⟨s.bits.take (s.bits.length - s'.bits.length), s.refList.take (s.refList.length - s'.refList.length)⟩ =
        if acc (Tlb.cellOf e) then .ok (Tlb.cellOf e) else .error .depthOverflow := by
    intro s s' e hc
    have e1 : s.bits = e.1 ++ s'.bits := congrArg Prod.fst hc
    have e2 : s.refList = e.2 ++ s'.refList := congrArg Prod.snd hc
    rw [e1, e2]
    have q1 : (e.1 ++ s'.bits).take ((e.1 ++ s'.bits).length - s'.bits.length) = e.1 := by simp
    have q2 : (e.2 ++ s'.refList).take ((e.2 ++ s'.refList).length - s'.refList.length) = e.2 := by simp
    rw [q1, q2]
    rfl
  refine ⟨?_, ?_, ?_⟩
  · rintro ⟨a, c⟩ e ⟨h1, h2, h3⟩ s rest hs hc
    dsimp only at h1 h2 h3
    obtain ⟨s', g1, g2, g3, g4, g5⟩ := h.reads a e h1 s rest hs hc
    refine ⟨s', ?_, g2, g3, g4, g5⟩
    unfold Rd.consumed
    rw [g1]
    dsimp only
    rw [build (e := e) (by rw [hc, g3]), if_pos (by rw [← h2]; exact h3), ← h2]
  · rintro s s' ⟨a, c⟩ hs hp
    unfold Rd.consumed at hp
    rcases hps : p s with ⟨r, s1⟩
    rw [hps] at hp
    cases r with
    | error e => cases hp
    | ok a' =>
      obtain ⟨e, h1, h2, h3⟩ := h.exact s s1 a' hs hps
      dsimp only at hp
      rw [build h2] at hp
      by_cases hacc : acc (Tlb.cellOf e) = true
      · rw [if_pos hacc] at hp
        injection hp with q1 q2
        injection q1 with q1
        injection q1 with q3 q4
        subst q2 q3 q4
        exact ⟨e, ⟨h1, rfl, hacc⟩, h2, h3⟩
      · rw [if_neg hacc] at hp; cases hp
  · intro s hs
    obtain ⟨s1, s2, s3, s4⟩ := h.safe s hs
    unfold Rd.consumed
    rcases hps : p s with ⟨r, s'⟩
    rw [hps] at s1 s2 s3 s4
    cases r with
    | error e => exact ⟨s1, s2, (by intro h; injection h with h; exact s3 (by rw [h])), (by intro h; injection h with h; exact s4 (by rw [h]))⟩
    | ok a =>
      obtain ⟨e, he⟩ := s2
      dsimp only at he s1 ⊢
      rw [build he]
      by_cases hacc : acc (Tlb.cellOf e) = true
      · rw [if_pos hacc]
        exact ⟨s1, ⟨e, he⟩, (by intro h; cases h), (by intro h; cases h)⟩
      · rw [if_neg hacc]
        exact ⟨s1, ⟨e, he⟩, (by intro h; cases h), (by intro h; cases h)⟩

theorem augTail_loads {α β : Type} {A : Tlb α} {V : Tlb β} (ha : A.Sound) (hv : V.Sound) (n : Nat) (l : Bits) : Loads (augTail n A.load V.load l)
    (fun a e => (l.length ≠ n ∧ ((fun e => ∃ x y, e = Enc.ref x ++ Enc.ref y) ⬝ A.R a) e) ∨ (l.length = n ∧ (A.R a ⬝ fun e => ∃ b, V.R b e) e)) := by
  unfold augTail
  by_cases hl : l.length ≠ n
  · rw [if_pos hl]
    exact (Rd.twoRefs_loads.bind (R := fun _ a e => A.R a e) (fun _ _ _ => ha.ld)).iff fun a e =>
      ⟨by rintro ⟨_, h⟩; exact .inl ⟨hl, h⟩, by rintro (⟨_, h⟩ | ⟨h, _⟩); exact ⟨(), h⟩; exact absurd h hl⟩
  · rw [if_neg hl]
    have hl' : l.length = n := by omega
    exact (ha.ld.bind (R := fun a b e => b = a ∧ ∃ v, V.R v e) (fun a _ _ => (hv.ld.map fun _ => a).iff fun b e =>
      ⟨by rintro ⟨v, rfl, h⟩; exact ⟨rfl, v, h⟩, by rintro ⟨rfl, v, h⟩; exact ⟨v, rfl, h⟩⟩)).iff fun a e =>
      ⟨by rintro ⟨_, e1, e2, h1, ⟨rfl, h2⟩, rfl⟩; exact .inr ⟨hl', e1, e2, h1, h2, rfl⟩,
       by rintro (⟨h, _⟩ | ⟨_, e1, e2, h1, h2, rfl⟩); exact absurd h hl; exact ⟨a, e1, e2, h1, ⟨rfl, h2⟩, rfl⟩⟩

theorem Tlb.Sound.augRoot {α β : Type} {A : Tlb α} {V : Tlb β} (ha : A.Sound) (hv : V.Sound) (acc : Cell → Bool) {n : Nat} (hn : 0 < n) :
    (Tlb.augRoot acc n A V).Sound where
  st := ⟨by
      rintro ⟨d, a⟩ ⟨e, rfl, hf, hacc, hr⟩
      have w := Tlb.reader_contents (b := e.1) (r := e.2) hf
      have h := (Wr.writes_slice w.1).writes
      rw [w.2] at h
      exact h, by
      rintro ⟨d, a⟩ ⟨e, rfl, hf, hacc, hr⟩
      exact ⟨rfl, hacc, hr⟩⟩
  ld := ((Rd.consumed_loads ((Rd.label_loads hn).bind (fun l _ _ => augTail_loads ha hv n l)) acc).map fun p => (some p.2, p.1)).iff fun v e => by
    constructor
    · rintro ⟨⟨a, c⟩, rfl, h1, h2, h3⟩
      dsimp only at h1 h2 h3
      subst h2
      exact ⟨rfl, h3, h1⟩
    · rintro ⟨h1, h2, h3⟩
      obtain ⟨d, a⟩ := v
      dsimp only at h1 h3
      subst h1
      exact ⟨(a, _), rfl, h3, rfl, h2⟩

theorem accountBlock_sound (acc : Cell → Bool) : (accountBlock acc).Sound :=
  ((Tlb.hash_sound.pair ((Tlb.currency_sound.augRoot (Tlb.lazy_sound false) acc (by decide : 0 < 64)).pair (Tlb.lazy_sound false))).tagged (n := 4) (t := 5)
    (by unfold Tlb.TagWidth; omega) (by decide)).structOn (fun p => ⟨p.1, p.2.1, p.2.2⟩) (fun v => (v.account, v.transactions, v.stateUpdate))
    (by unfold accountBlock; dsimp only; tlb_more) (fun v h => h)
    (fun v h => by
      obtain ⟨_, ⟨e, h1, _⟩, _⟩ := h
      obtain ⟨a, ⟨d, x⟩, u⟩ := v
      dsimp only at h1
      subst h1
      rfl) (fun _ _ => rfl) (fun _ _ => rfl)
    (fun v e => ⟨by rintro ⟨p, rfl, h⟩; exact h, fun h => ⟨(v.account, v.transactions, v.stateUpdate), rfl, h⟩⟩)

end Verif
