import Verif.AbiRoom
import Verif.AbiProps
/-!
# Writing a value succeeds
-/
set_option linter.unusedVariables false
set_option linter.unusedSimpArgs false
namespace Verif
namespace Abi

/-! ### Sizes -/

def Size.Le (a b : Size) : Prop := a.bits ≤ b.bits ∧ a.refs ≤ b.refs

theorem ite_le {u : Bool} {a b c : Nat} (h1 : a ≤ c) (h2 : b ≤ c) : (if u = true then a else b) ≤ c := by cases u <;> assumption
theorem le_ite {u : Bool} {a b c : Nat} (h1 : c ≤ a) (h2 : c ≤ b) : c ≤ (if u = true then a else b) := by cases u <;> assumption

theorem Size.add_assoc' (a b c : Size) : a + b + c = a + (b + c) := by
  show (⟨a.bits + b.bits + c.bits, a.refs + b.refs + c.refs⟩ : Size) = ⟨a.bits + (b.bits + c.bits), a.refs + (b.refs + c.refs)⟩
  rw [Nat.add_assoc, Nat.add_assoc]

mutual
theorem stored_max {ver : Ver} : ∀ v : Val, Good ver v → Writable ver v → v.stored.Le v.type.max
  | .uint n v, hg, hw => ⟨Nat.le_refl _, Nat.le_refl _⟩
  | .int n v, hg, hw => ⟨Nat.le_refl _, Nat.le_refl _⟩
  | .varuint n v, hg, hw => by
    simp only [Writable] at hw
    exact ⟨by show lenBits n + _ * 8 ≤ lenBits n + (n - 1) * 8; have := hw.1; omega, Nat.le_refl _⟩
  | .varint n x, hg, hw => by
    simp only [Writable] at hw
    exact ⟨by show lenBits n + _ * 8 ≤ lenBits n + (n - 1) * 8; have := hw.1; omega, Nat.le_refl _⟩
  | .bool b, hg, hw => ⟨Nat.le_refl _, Nat.le_refl _⟩
  | .cell c, hg, hw => ⟨Nat.le_refl _, Nat.le_refl _⟩
  | .address a, hg, hw => by
    simp only [Good] at hg
    exact ⟨(addr_len hg).1, Nat.le_refl _⟩
  | .bytes d, hg, hw => ⟨Nat.le_refl _, Nat.le_refl _⟩
  | .fixedBytes d, hg, hw => ⟨Nat.le_refl _, Nat.le_refl _⟩
  | .string d, hg, hw => ⟨Nat.le_refl _, Nat.le_refl _⟩
  | .token v, hg, hw => by
    simp only [Good] at hg
    obtain ⟨t1, t2, _⟩ := token_len hg
    exact ⟨by show (VarKind.tokens.bitLen v).getD 124 ≤ 124; omega, Nat.le_refl _⟩
  | .tuple l, hg, hw => by
    simp only [Good] at hg
    simp only [Writable] at hw
    exact storedItems_max l hg.2 hw
  | .array t vs, hg, hw => ⟨Nat.le_refl _, bool_ite _⟩
  | .fixedArray t vs, hg, hw => ⟨Nat.le_refl _, bool_ite _⟩
  | .map k t es, hg, hw => ⟨Nat.le_refl _, bool_ite _⟩
  | .absent t, hg, hw => by
    show Size.Le ⟨1, 0⟩ (Ty.optional t).max
    rw [optMax_type]
    unfold optMax
    split
    · exact ⟨by show 1 ≤ 1 + _; omega, Nat.zero_le _⟩
    · exact ⟨Nat.le_refl _, Nat.zero_le _⟩
  | .present t v, hg, hw => by
    simp only [Good] at hg
    simp only [Writable] at hw
    have ih := stored_max v hg.2.1 hw.1
    obtain ⟨h1, h2⟩ := ih
    rw [hg.1] at h1 h2
    show Size.Le (if t.max.small then ⟨1, 0⟩ + v.stored else ⟨1, 1⟩) (Ty.optional t).max
    rw [optMax_type]
    unfold optMax
    split
    · exact ⟨by show 1 + v.stored.bits ≤ 1 + t.max.bits; omega, by show 0 + v.stored.refs ≤ t.max.refs; omega⟩
    · exact ⟨Nat.le_refl _, Nat.le_refl _⟩
  | .ref v, hg, hw => ⟨Nat.le_refl _, Nat.le_refl _⟩
theorem storedItems_max {ver : Ver} : ∀ l : Items, GoodItems ver l → WritableItems ver l → l.stored.Le l.types.max
  | .nil, hg, hw => ⟨Nat.le_refl _, Nat.le_refl _⟩
  | .cons n v r, hg, hw => by
    simp only [GoodItems] at hg
    simp only [WritableItems] at hw
    obtain ⟨a1, a2⟩ := stored_max v hg.1 hw.1
    obtain ⟨b1, b2⟩ := storedItems_max r hg.2 hw.2
    exact ⟨by show v.stored.bits + r.stored.bits ≤ v.type.max.bits + r.types.max.bits; omega,
      by show v.stored.refs + r.stored.refs ≤ v.type.max.refs + r.types.max.refs; omega⟩
end

theorem refs_u (u e : Bool) : (if u = true then 1 else if e = true then 0 else 1) ≤ 1 := by cases u <;> cases e <;> decide

mutual
theorem asks_max {ver : Ver} : ∀ v : Val, Good ver v → Writable ver v → (v.asks ver).bits ≤ v.type.max.bits + v.type.fixed ∧ (v.asks ver).refs ≤ v.type.max.refs
  | .uint n v, hg, hw => ⟨Nat.le_refl _, Nat.le_refl _⟩
  | .int n v, hg, hw => ⟨Nat.le_refl _, Nat.le_refl _⟩
  | .varuint n v, hg, hw => by
    simp only [Writable] at hw
    have := hw.1
    exact ⟨Nat.add_le_add_left (ite_le (Nat.le_refl _) (Nat.mul_le_mul_right 8 this)) _, Nat.le_refl _⟩
  | .varint n x, hg, hw => by
    simp only [Writable] at hw
    have := hw.1
    exact ⟨Nat.add_le_add_left (ite_le (Nat.le_refl _) (Nat.mul_le_mul_right 8 this)) _, Nat.le_refl _⟩
  | .bool b, hg, hw => ⟨Nat.le_refl _, Nat.le_refl _⟩
  | .cell c, hg, hw => ⟨Nat.le_refl _, Nat.le_refl _⟩
  | .address a, hg, hw => by
    simp only [Good] at hg
    have := (addr_len hg).1
    exact ⟨by show (if _ then 591 else a.bitLen) ≤ 591 + 0; split <;> omega, Nat.le_refl _⟩
  | .bytes d, hg, hw => ⟨Nat.le_refl _, Nat.le_refl _⟩
  | .fixedBytes d, hg, hw => ⟨Nat.le_refl _, Nat.le_refl _⟩
  | .string d, hg, hw => ⟨Nat.le_refl _, Nat.le_refl _⟩
  | .token v, hg, hw => by
    simp only [Good] at hg
    obtain ⟨t1, t2, _⟩ := token_len hg
    exact ⟨by show (if _ then 124 else (VarKind.tokens.bitLen v).getD 124) ≤ 124 + 0; split <;> omega, Nat.le_refl _⟩
  | .tuple l, hg, hw => by
    simp only [Good] at hg
    simp only [Writable] at hw
    exact asksItems_max l hg.2 hw
  | .array t vs, hg, hw => ⟨Nat.le_refl _, refs_u _ _⟩
  | .fixedArray t vs, hg, hw => ⟨Nat.le_refl _, refs_u _ _⟩
  | .map k t es, hg, hw => ⟨Nat.le_refl _, Nat.le_refl _⟩
  | .absent t, hg, hw => by
    have := stored_max (ver := ver) (.absent t) hg hw
    obtain ⟨h1, h2⟩ := this
    show (if ver.useMax then optMax t else ⟨1, 0⟩ : Size).bits ≤ (Ty.optional t).max.bits + 0 ∧ (if ver.useMax then optMax t else ⟨1, 0⟩ : Size).refs ≤ (Ty.optional t).max.refs
    split
    · rw [optMax_type]; exact ⟨Nat.le_refl _, Nat.le_refl _⟩
    · exact ⟨h1, h2⟩
  | .present t v, hg, hw => by
    have := stored_max (ver := ver) (.present t v) hg hw
    obtain ⟨h1, h2⟩ := this
    show (if ver.useMax then optMax t else (Val.present t v).stored : Size).bits ≤ (Ty.optional t).max.bits + 0 ∧
      (if ver.useMax then optMax t else (Val.present t v).stored : Size).refs ≤ (Ty.optional t).max.refs
    split
    · rw [optMax_type]; exact ⟨Nat.le_refl _, Nat.le_refl _⟩
    · exact ⟨h1, h2⟩
  | .ref v, hg, hw => ⟨Nat.le_refl _, Nat.le_refl _⟩
theorem asksItems_max {ver : Ver} : ∀ l : Items, GoodItems ver l → WritableItems ver l →
    (l.asks ver).bits ≤ l.types.max.bits + l.types.fixed ∧ (l.asks ver).refs ≤ l.types.max.refs
  | .nil, hg, hw => ⟨Nat.le_refl _, Nat.le_refl _⟩
  | .cons n v r, hg, hw => by
    simp only [GoodItems] at hg
    simp only [WritableItems] at hw
    obtain ⟨a1, a2⟩ := asks_max v hg.1 hw.1
    obtain ⟨b1, b2⟩ := asksItems_max r hg.2 hw.2
    exact ⟨by show (v.asks ver).bits + (r.asks ver).bits ≤ v.type.max.bits + r.types.max.bits + (v.type.fixed + r.types.fixed); omega,
      by show (v.asks ver).refs + (r.asks ver).refs ≤ v.type.max.refs + r.types.max.refs; omega⟩
end

/-! ### Byte strings -/

theorem bytesGo_ok {acc : Cell → Bool} (hacc : ∀ c, acc c = true) : ∀ (fuel per : Nat) (data : List Byte) (b : CellB Cell),
    (data ≠ [] → 1 ≤ per ∧ per ≤ data.length ∧ per ≤ 127) → b.WF → (b.inner.bits.length = 0 → b.refs.length = 0) → ∃ b', bytesGo acc fuel per data b = .ok b'
  | 0, per, data, b, _, _, _ => ⟨b, rfl⟩
  | fuel + 1, per, data, b, hp, wf, hz => by
    unfold bytesGo
    by_cases h0 : data.length = 0
    · rw [if_pos h0]; exact ⟨b, rfl⟩
    · rw [if_neg h0]
      obtain ⟨p1, p2, p3⟩ := hp (fun e => h0 (by rw [e]; rfl))
      dsimp only
      generalize hX : (if b.inner.bits.length > 0 then
          build acc b >>= fun c => match (Wr.ref c : Wr Cell Unit) .new with
            | (.error e, _) => .error e
            | (.ok _, b') => .ok b'
         else .ok b : Except Err (CellB Cell)) = X
      have hpre : ∃ b1, X = .ok b1 ∧ b1.WF ∧ b1.inner.bits.length = 0 ∧ b1.refs.length ≤ 1 := by
        rw [← hX]
        by_cases hbit : b.inner.bits.length > 0
        · rw [if_pos hbit]
          obtain ⟨c, hc⟩ := build_all hacc b
          obtain ⟨b1, r, wf1, l1, l2⟩ := stores_in (Wr.writes_ref c).writes CellB.wf_new (by show 0 + 0 ≤ 1023; decide) (by show 0 + 1 ≤ 4; decide)
          refine ⟨b1, ?_, wf1, l1, Nat.le_of_eq l2⟩
          rw [hc]
          change (match (Wr.ref c : Wr Cell Unit) .new with
            | (.error e, _) => (Except.error e : Except Err (CellB Cell))
            | (.ok _, b') => .ok b') = _
          rw [r]
        · rw [if_neg hbit]
          exact ⟨b, rfl, wf, by omega, by have := hz (by omega); omega⟩
      obtain ⟨b1, rfl, wf1, z1, z2⟩ := hpre
      have hlen : (data.drop (data.length - per)).length = per := by rw [List.length_drop]; omega
      have hw := writes_bytes (v := data.drop (data.length - per)) (by omega)
      rw [hlen] at hw
      have hl : (Enc.bits (bytesToBits (data.drop (data.length - per))) : Enc Cell).1.length = 8 * per := by
        show (bytesToBits _).length = _
        rw [bytesToBits_length, hlen]
      obtain ⟨b2, r, wf2, l1, l2⟩ := stores_in hw wf1 (by rw [hl]; omega) (by show _ + 0 ≤ 4; omega)
      change ∃ b', (match (Wr.raw (data.drop (data.length - per)) (per * 8) : Wr Cell Unit) b1 with
          | (.error e, _) => (Except.error e : Except Err (CellB Cell))
          | (.ok _, b') => bytesGo acc fuel (Nat.min 127 (data.length - per)) (data.take (data.length - per)) b') = .ok b'
      rw [r]
      refine bytesGo_ok hacc fuel _ _ b2 (fun hne => ?_) wf2 (fun h => ?_)
      · have : 0 < (data.take (data.length - per)).length := List.length_pos_iff.mpr hne
        rw [List.length_take] at this ⊢
        have e : Nat.min 127 (data.length - per) = min 127 (data.length - per) := rfl
        omega
      · rw [hl] at l1; omega

theorem bytesCell_ok {acc : Cell → Bool} (hacc : ∀ c, acc c = true) (ver : Ver) (data : List Byte) : ∃ c, bytesCell acc ver data = .ok c := by
  unfold bytesCell
  dsimp only
  obtain ⟨b, hb⟩ := bytesGo_ok hacc data.length (if ver.major > 1 then (if data.length % 127 = 0 then 127 else data.length % 127) else Nat.min 127 data.length) data .new (by
      intro hne
      have hl := List.length_pos_iff.mpr hne
      have e : Nat.min 127 data.length = min 127 data.length := rfl
      split
      · split <;> omega
      · omega) CellB.wf_new (fun _ => rfl)
  rw [hb]
  exact build_all hacc b

/-! ### Dictionaries -/

/-- A dictionary with values of at most so many bits. -/
def Leaves (acc : Cell → Bool) (n B : Nat) (d : Option Cell) : Prop := ∃ m, RepresentsC acc n d m ∧ ∀ k v, k.length = n → m k = some v → SmallVal B v

theorem setLeaf_ok {acc : Cell → Bool} (hacc : ∀ c, acc c = true) {n B : Nat} (hn : n ≤ 1011) (hB : 12 + n + B ≤ 1023) {d : Option Cell} (hd : Leaves acc n B d) {k : Bits}
    (hk : k.length = n) {v : Sl} (hv : SmallVal B v) : ∃ d', setLeaf acc d k n v = .ok d' ∧ Leaves acc n B d' := by
  obtain ⟨m, hm, hs⟩ := hd
  have h10 := bitsForLen_le' (show n ≤ 1023 by omega)
  have hfit : FitsAll acc n (SmallVal B) := fun t h1 h2 h3 => canon_small_fits hacc (N := n) (by omega) (Nat.le_refl n) h1 h2 h3
  obtain ⟨d0, hd0⟩ := representable_put hfit hm hs hk hv
  have hst := C22_step acc (show n ≤ 1023 by omega) hm (.insert .set k v)
  have hr : (DOp.insert .set k v).run acc n d = ((dictInsert acc d k n v .set).1.map .flag, (dictInsert acc d k n v .set).2) := rfl
  rw [hr] at hst
  unfold setLeaf
  generalize dictInsert acc d k n v .set = out at hst
  obtain ⟨r, d2⟩ := out
  rcases hst with ⟨h1, h2, h3⟩ | ⟨h1, _, _⟩
  · cases r with
    | error x => cases h2
    | ok f =>
      refine ⟨d2, rfl, m.put k (some v), h3, fun k' w hk' hw => ?_⟩
      unfold DMap.put at hw
      by_cases h : k' = k
      · rw [if_pos h] at hw; injection hw with hw; exact hw ▸ hv
      · rw [if_neg h] at hw; exact hs k' w hk' hw
  · rcases h1 with h1 | h1
    · exact absurd hk h1
    · exact absurd ⟨d0, hd0⟩ h1

theorem leaves_none (acc : Cell → Bool) (n B : Nat) : Leaves acc n B none := ⟨fun _ => none, fun _ _ => rfl, fun _ _ _ h => by cases h⟩

/-- The bits of a value in a leaf. -/
def leafBits (n : Nat) (t : Ty) : Nat := if fitsLeaf n t.max.bits then t.max.bits else 0

theorem leafBits_fit {n : Nat} (hn : n ≤ 1011) (t : Ty) : 12 + n + leafBits n t ≤ 1023 := by
  unfold leafBits
  split
  · rename_i h
    unfold fitsLeaf at h
    rw [decide_eq_true_eq] at h
    exact h
  · omega

theorem leafValue_ok {acc : Cell → Bool} (hacc : ∀ c, acc c = true) {n : Nat} {t : Ty} {b : CellB Cell} (wf : b.WF) (hb : b.inner.bits.length ≤ t.max.bits) :
    ∃ v, leafValue acc (fitsLeaf n t.max.bits) b = .ok v ∧ SmallVal (leafBits n t) v := by
  unfold leafValue leafBits
  by_cases h : fitsLeaf n t.max.bits = true
  · rw [if_pos h, if_pos h]
    exact ⟨_, rfl, hb, wf.contents_fits.2⟩
  · rw [if_neg h, if_neg h]
    obtain ⟨c, hc⟩ := build_all hacc b
    rw [hc]
    exact ⟨_, rfl, Nat.le_refl 0, by show 1 ≤ 4; decide⟩

theorem key_ok {k : PVal} (hg : k.Good) : ∃ sl, (k.store).toSl = .ok sl := by
  cases k with
  | uint n v =>
    obtain ⟨h1, h2⟩ := hg
    show ∃ sl, (Big.storeU v n false : Wr Cell Unit).toSl = .ok sl
    rw [Big.storeU_ok h1 h2]
    exact ⟨_, Wr.toSl_ok (Big.truncU _ h1).writes ⟨by show (natBits n v).length ≤ 1023; rw [natBits_length]; exact h1, Nat.zero_le _⟩⟩
  | int n x =>
    obtain ⟨h1, h2⟩ := hg
    show ∃ sl, (Big.storeI x n true : Wr Cell Unit).toSl = .ok sl
    rw [Big.storeI_ok h1 h2]
    exact ⟨_, Wr.toSl_ok (Big.truncI _ h1).writes ⟨by show (Big.twoBits n x).length ≤ 1023; rw [Big.twoBits_length]; exact h1, Nat.zero_le _⟩⟩
  | bool b => exact ⟨_, Wr.toSl_ok (Wr.writes_bit b).writes ⟨by show 1 ≤ 1023; decide, Nat.zero_le _⟩⟩
  | address a =>
    obtain ⟨c1, c2⟩ := C47_int (ρ := Cell)
    obtain ⟨w1, w2, w3⟩ := c2 a hg
    obtain ⟨l1, l2⟩ := addr_len hg
    exact ⟨_, Wr.toSl_ok w1.writes ⟨by rw [w2]; omega, by rw [w3]; exact Nat.zero_le _⟩⟩

/-! ### Values -/

/-- The goal for one value. -/
def WriteOk (acc : Cell → Bool) (ver : Ver) (v : Val) : Prop := ∀ m s need, Room ver m s (v.asks ver + need) →
  ∃ s', write acc ver v s = .ok s' ∧ Room ver m s' need ∧ stackBits s'.stack ≤ stackBits s.stack + v.stored.bits ∧ stackRefs s'.stack ≤ stackRefs s.stack + v.stored.refs

/-- One store. -/
theorem one_ok {acc : Cell → Bool} {ver : Ver} {v : Val} {z : Size} {w : Wr Cell Unit} {e : Leaf} (hw : Writes w e) (hrun : ∀ s, write acc ver v s = put ver z w s)
    (hz : v.asks ver = z) (hz1 : z.bits ≤ 1023) (hz2 : z.refs ≤ 3) (h1 : e.1.length ≤ v.stored.bits) (h2 : e.2.length ≤ v.stored.refs)
    (h3 : v.stored.bits ≤ z.bits) (h4 : v.stored.refs ≤ z.refs) : WriteOk acc ver v := by
  intro m s need h
  rw [hz] at h
  obtain ⟨s', r, k1, k2, k3⟩ := put_room h hz1 hz2 hw (by omega) (by omega)
  exact ⟨s', by rw [hrun, r], k1, by omega, by omega⟩

theorem child_all {acc : Cell → Bool} (hacc : ∀ c, acc c = true) {ver : Ver} {v : Val} {m : Mode} (ih : WriteOk acc ver v)
    (hr : Room ver m (Ser.start (v.size ver)) (v.asks ver)) :
    ∃ b, child acc (v.size ver) (write acc ver v) = .ok b ∧ b.WF ∧ b.inner.bits.length ≤ v.stored.bits ∧ (m = .small → b.refs.length ≤ v.stored.refs) := by
  obtain ⟨s', e1, k1, k2, k3⟩ := ih m _ ⟨0, 0⟩ hr
  obtain ⟨b, e2, j1, j2, j3⟩ := finalize_room hacc k1
  have z1 : stackBits (Ser.start (v.size ver)).stack = 0 := rfl
  have z2 : stackRefs (Ser.start (v.size ver)).stack = 0 := rfl
  refine ⟨b, ?_, j1, by omega, fun h => by have := j3 h; omega⟩
  unfold child
  rw [e1]
  exact e2

theorem child_snug {acc : Cell → Bool} (hacc : ∀ c, acc c = true) {ver : Ver} {v : Val} (ih : WriteOk acc ver v) (hs : Snug ver v) :
    ∃ b, child acc (v.size ver) (write acc ver v) = .ok b ∧ b.WF ∧ b.inner.bits.length ≤ v.stored.bits := by
  obtain ⟨m, hr⟩ := room_start hs
  obtain ⟨b, h1, h2, h3, _⟩ := child_all hacc ih hr
  exact ⟨b, h1, h2, h3⟩

theorem var_ok {acc : Cell → Bool} {ver : Ver} {n : Nat} {x : Int} {v : Val} (hn : n ≤ 255) (hu : ver.useMax = true → n ≤ 128) (hw : ∀ s, write acc ver v s = writeVarint ver n x s)
    (ha : v.asks ver = ⟨lenBits n + (if ver.useMax then (n - 1) * 8 else (signedBytesBe x).length * 8), 0⟩)
    (hs : v.stored = ⟨lenBits n + (signedBytesBe x).length * 8, 0⟩) (hf : VarFits n x) : WriteOk acc ver v := by
  have h1 := (signed_spec x).1
  obtain ⟨f1, f2⟩ := hf
  obtain ⟨l1, l2⟩ := varLeaf_bits n (signedBytesBe x)
  refine one_ok (writes_var hn h1 f1) (fun s => ?_) ha ?_ (Nat.zero_le _) (by rw [hs, l1]) (by rw [l2]; exact Nat.zero_le _) ?_ (by rw [hs])
  · rw [hw]
    unfold writeVarint
    dsimp only
    rw [if_neg (by omega)]
  · show lenBits n + (if ver.useMax = true then (n - 1) * 8 else (signedBytesBe x).length * 8) ≤ 1023
    cases hx : ver.useMax with
    | true =>
      have h128 := hu hx
      have h7 : lenBits n ≤ 7 := Big.bitLen_le.mpr (by omega)
      simp only [if_true]
      omega
    | false =>
      simp only [Bool.false_eq_true, if_false]
      exact f2
  · rw [hs]
    exact Nat.add_le_add_left (le_ite (Nat.mul_le_mul_right 8 f1) (Nat.le_refl _)) _

theorem bytes_ok {acc : Cell → Bool} (hacc : ∀ c, acc c = true) {ver : Ver} {v : Val} {d : List Byte}
    (hw : ∀ s, write acc ver v s = bytesCell acc ver d >>= fun c => put ver ⟨0, 1⟩ (Wr.ref c) s) (ha : v.asks ver = ⟨0, 1⟩) (hs : v.stored = ⟨0, 1⟩) : WriteOk acc ver v := by
  obtain ⟨c, hc⟩ := bytesCell_ok hacc ver d
  refine one_ok (z := ⟨0, 1⟩) (Wr.writes_ref c).writes (fun s => ?_) ha (by decide) (by decide) (by rw [hs]; exact Nat.le_refl 0) (by rw [hs]; exact Nat.le_refl 1)
    (by rw [hs]) (by rw [hs])
  rw [hw, hc]
  rfl

theorem present_ok {acc : Cell → Bool} (hacc : ∀ c, acc c = true) {ver : Ver} {v : Val} (ih : WriteOk acc ver v) (hst : v.stored.Le v.type.max)
    (has : (v.asks ver).bits ≤ v.type.max.bits + v.type.fixed ∧ (v.asks ver).refs ≤ v.type.max.refs)
    (hg : v.type.max.small = true → v.type.max.bits + v.type.fixed ≤ 1023) (hs : v.type.max.small = false → Snug ver v) : WriteOk acc ver (.present v.type v) := by
  intro m s need h
  simp only [write]
  have ha : (Val.present v.type v).asks ver = if ver.useMax then optMax v.type else if v.type.max.small then ⟨1, 0⟩ + v.stored else ⟨1, 1⟩ := rfl
  have hsd : (Val.present v.type v).stored = if v.type.max.small then ⟨1, 0⟩ + v.stored else ⟨1, 1⟩ := rfl
  rw [ha] at h
  rw [hsd]
  obtain ⟨st1, st2⟩ := hst
  obtain ⟨as1, as2⟩ := has
  have hb2 : v.type.max.small = true ∨ v.type.max.small = false := by cases v.type.max.small <;> simp
  rcases hb2 with hsm | hsm
  ·
    have hsm' := hsm
    unfold Size.small at hsm'
    rw [decide_eq_true_eq] at hsm'
    have hg := hg hsm
    obtain ⟨b, hb, wf, l1, l2⟩ := child_all hacc ih (room_small ⟨by omega, by omega⟩)
    have l2 := l2 rfl
    have e0 : (child acc (v.size ver) (write acc ver v) >>= fun b => storePresent acc v.type b >>= fun w =>
        put ver (if ver.useMax then optMax v.type else if v.type.max.small then ⟨1 + b.inner.bits.length, b.refs.length⟩ else ⟨1, 1⟩) w s) =
        put ver (if ver.useMax then optMax v.type else ⟨1 + b.inner.bits.length, b.refs.length⟩) (Wr.bit true >>= fun _ => Wr.builder b) s := by
      rw [hb]
      change (storePresent acc v.type b >>= fun w =>
        put ver (if ver.useMax then optMax v.type else if v.type.max.small then ⟨1 + b.inner.bits.length, b.refs.length⟩ else ⟨1, 1⟩) w s) = _
      unfold storePresent
      rw [if_pos hsm, if_pos hsm]
      rfl
    rw [e0]
    rw [hsm] at h
    simp only [hsm, if_true] at h ⊢
    have hw : Writes (Wr.bit true >>= fun _ => Wr.builder b : Wr Cell Unit) (Enc.bits [true] ++ b.contents) :=
      (Wr.writes_bit true).writes.seq (f := fun _ => Wr.builder b) (Wr.writes_builder wf).writes
    have e1 : (Enc.bits [true] ++ b.contents : Enc Cell).1.length = 1 + b.inner.bits.length := by
      show ([true] ++ b.inner.bits).length = _
      rw [List.length_append]; rfl
    have e2 : (Enc.bits [true] ++ b.contents : Enc Cell).2.length = b.refs.length := by
      show ([] ++ b.refs).length = _
      rw [List.nil_append]
    have hsz : (if ver.useMax = true then optMax v.type else (⟨1 + b.inner.bits.length, b.refs.length⟩ : Size)).Le
        (if ver.useMax = true then optMax v.type else (⟨1, 0⟩ + v.stored)) ∧
        (if ver.useMax = true then optMax v.type else (⟨1 + b.inner.bits.length, b.refs.length⟩ : Size)).bits ≤ 1023 ∧
        (if ver.useMax = true then optMax v.type else (⟨1 + b.inner.bits.length, b.refs.length⟩ : Size)).refs ≤ 3 ∧
        1 + b.inner.bits.length ≤ (if ver.useMax = true then optMax v.type else (⟨1 + b.inner.bits.length, b.refs.length⟩ : Size)).bits ∧
        b.refs.length ≤ (if ver.useMax = true then optMax v.type else (⟨1 + b.inner.bits.length, b.refs.length⟩ : Size)).refs := by
      split
      · unfold optMax
        rw [if_pos hsm]
        exact ⟨⟨Nat.le_refl _, Nat.le_refl _⟩, by show 1 + v.type.max.bits ≤ 1023; omega, by show v.type.max.refs ≤ 3; omega, by show _ ≤ 1 + v.type.max.bits; omega,
          by show _ ≤ v.type.max.refs; omega⟩
      · exact ⟨⟨by show 1 + b.inner.bits.length ≤ 1 + v.stored.bits; omega, by show b.refs.length ≤ 0 + v.stored.refs; omega⟩, by show 1 + _ ≤ 1023; omega, by show b.refs.length ≤ 3; omega, Nat.le_refl _, Nat.le_refl _⟩
    generalize (if ver.useMax = true then optMax v.type else (⟨1 + b.inner.bits.length, b.refs.length⟩ : Size)) = z at hsz ⊢
    obtain ⟨⟨z1, z2⟩, z3, z4, z5, z6⟩ := hsz
    have hr : Room ver m s (z + need) := h.weaken (by rw [Size.add_bits, Size.add_bits]; omega) (by rw [Size.add_refs, Size.add_refs]; omega)
    obtain ⟨s', r, k1, k2, k3⟩ := put_room hr z3 z4 hw (by omega) (by omega)
    refine ⟨s', r, k1, ?_, ?_⟩
    · show _ ≤ _ + (1 + v.stored.bits); omega
    · show _ ≤ _ + (0 + v.stored.refs); omega
  ·
    obtain ⟨b, hb, wf, _⟩ := child_snug hacc ih (hs hsm)
    obtain ⟨c, hc⟩ := build_all hacc b
    have e0 : (child acc (v.size ver) (write acc ver v) >>= fun b => storePresent acc v.type b >>= fun w =>
        put ver (if ver.useMax then optMax v.type else if v.type.max.small then ⟨1 + b.inner.bits.length, b.refs.length⟩ else ⟨1, 1⟩) w s) =
        put ver (if ver.useMax then optMax v.type else ⟨1, 1⟩) (Wr.bit true >>= fun _ => Wr.ref c) s := by
      rw [hb]
      change (storePresent acc v.type b >>= fun w =>
        put ver (if ver.useMax then optMax v.type else if v.type.max.small then ⟨1 + b.inner.bits.length, b.refs.length⟩ else ⟨1, 1⟩) w s) = _
      unfold storePresent
      have hn : ¬ v.type.max.small = true := by rw [hsm]; decide
      rw [if_neg hn, if_neg hn, hc]
      rfl
    rw [e0]
    rw [hsm] at h
    simp only [hsm, Bool.false_eq_true, if_false] at h ⊢
    have hw : Writes (Wr.bit true >>= fun _ => Wr.ref c : Wr Cell Unit) (Enc.bits [true] ++ Enc.ref c) :=
      (Wr.writes_bit true).writes.seq (f := fun _ => Wr.ref c) (Wr.writes_ref c).writes
    have e1 : (Enc.bits [true] ++ Enc.ref c : Enc Cell).1.length = 1 := rfl
    have e2 : (Enc.bits [true] ++ Enc.ref c : Enc Cell).2.length = 1 := rfl
    have hz : (if ver.useMax = true then optMax v.type else (⟨1, 1⟩ : Size)) = ⟨1, 1⟩ := by
      unfold optMax
      rw [hsm]
      split <;> rfl
    rw [hz] at h
    rw [hz]
    obtain ⟨s', r, k1, k2, k3⟩ := put_room h (by decide) (by decide) hw (Nat.le_of_eq e1) (Nat.le_of_eq e2)
    exact ⟨s', r, k1, by show _ ≤ _ + 1; omega, by show _ ≤ _ + 1; omega⟩

def ElemsOk (acc : Cell → Bool) (ver : Ver) (t : Ty) (vs : Elems) : Prop := ∀ i d, Leaves acc 32 (leafBits 32 t) d →
  ∃ d', writeElems acc ver (fitsLeaf 32 t.max.bits) vs i d = .ok d'

def EntriesOk (acc : Cell → Bool) (ver : Ver) (k : PTy) (t : Ty) (es : Entries) : Prop := ∀ d, Leaves acc k.bits (leafBits k.bits t) d →
  ∃ d', writeEntries acc ver (fitsLeaf k.bits t.max.bits) k.bits es d = .ok d'

theorem dict_ok {acc : Cell → Bool} {ver : Ver} {v : Val} {z : Size} {e : Leaf} {d : Option Cell} {pre : Except Err (Option Cell)} {f : Option Cell → Wr Cell Unit} {empty : Bool}
    (hd : pre = .ok d) (hrun : ∀ s, write acc ver v s = pre >>= fun d => put ver z (f d) s)
    (hw : Writes (f d) e) (hz : v.asks ver = z) (hz1 : z.bits ≤ 1023) (hz2 : z.refs ≤ 3) (h1 : e.1.length ≤ v.stored.bits) (h2 : e.2.length = if d.isNone then 0 else 1)
    (h3 : v.stored.bits ≤ z.bits) (he : empty = true → d = none) (h4 : v.stored.refs = if empty then 0 else 1) (h5 : v.stored.refs ≤ z.refs) : WriteOk acc ver v := by
  refine one_ok hw (fun s => ?_) hz hz1 hz2 h1 ?_ h3 h5
  · rw [hrun, hd]; rfl
  · rw [h2, h4]
    cases empty with
    | true => rw [he rfl]; decide
    | false => simp only [Bool.false_eq_true, if_false]; exact bool_ite _

mutual
theorem write_ok {acc : Cell → Bool} (hacc : ∀ c, acc c = true) {ver : Ver} : ∀ v : Val, Good ver v → Writable ver v → WriteOk acc ver v
  | .uint n v, hg, hw => by
    simp only [Good] at hg
    obtain ⟨h1, h2, h3⟩ := hg
    have hl : (natBits n v).length = n := natBits_length _ _
    refine one_ok (Big.truncU _ h2).writes (fun s => ?_) rfl h2 (Nat.zero_le _) (Nat.le_of_eq hl) (Nat.le_refl 0) (Nat.le_refl _) (Nat.le_refl _)
    simp only [write]
    rw [Big.storeU_ok h2 h3]
    rfl
  | .int n x, hg, hw => by
    simp only [Good] at hg
    obtain ⟨h1, h2, h3⟩ := hg
    have hl : (Big.twoBits n x).length = n := Big.twoBits_length _ _
    refine one_ok (Big.truncI _ h2).writes (fun s => ?_) rfl h2 (Nat.zero_le _) (Nat.le_of_eq hl) (Nat.le_refl 0) (Nat.le_refl _) (Nat.le_refl _)
    simp only [write]
    rw [Big.storeI_ok h2 h3]
    rfl
  | .varuint n v, hg, hw => by
    simp only [Good] at hg
    simp only [Writable] at hw
    exact var_ok (x := (v : Int)) hg.1 hg.2 (fun s => by simp only [write]) rfl rfl hw
  | .varint n x, hg, hw => by
    simp only [Good] at hg
    simp only [Writable] at hw
    exact var_ok (x := x) hg.1 hg.2.1 (fun s => by simp only [write]) rfl rfl hw
  | .bool b, hg, hw =>
    one_ok (Wr.writes_bit b).writes (fun s => by simp only [write]; rfl) rfl (by show 1 ≤ 1023; decide) (Nat.zero_le _) (Nat.le_refl 1) (Nat.le_refl 0) (Nat.le_refl _) (Nat.le_refl _)
  | .cell c, hg, hw =>
    one_ok (Wr.writes_ref c).writes (fun s => by simp only [write]; rfl) rfl (by show 0 ≤ 1023; decide) (by show 1 ≤ 3; decide) (Nat.le_refl 0) (Nat.le_refl 1) (Nat.le_refl _) (Nat.le_refl _)
  | .address a, hg, hw => by
    simp only [Good] at hg
    obtain ⟨c1, c2⟩ := C47_int (ρ := Cell)
    obtain ⟨w1, w2, w3⟩ := c2 a hg
    obtain ⟨l1, l2⟩ := addr_len hg
    refine one_ok w1.writes (fun s => by simp only [write]; rfl) rfl ?_ (Nat.zero_le _) (Nat.le_of_eq w2) (by rw [w3]; exact Nat.zero_le _) ?_ (Nat.le_refl _)
    · show (if _ then 591 else a.bitLen) ≤ 1023
      split <;> omega
    · show a.bitLen ≤ if _ then 591 else a.bitLen
      split <;> omega
  | .bytes d, _, _ => bytes_ok hacc (d := d) (fun s => by simp only [write]) rfl rfl
  | .fixedBytes d, _, _ => bytes_ok hacc (d := d) (fun s => by simp only [write]) rfl rfl
  | .string d, _, _ => bytes_ok hacc (d := d) (fun s => by simp only [write]) rfl rfl
  | .token v, hg, hw => by
    simp only [Good] at hg
    obtain ⟨t1, t2, t3⟩ := token_len hg
    have hw := Tlb.tokens_sound.st.writes v hg
    refine one_ok hw (fun s => by simp only [write]; rfl) rfl ?_ (Nat.zero_le _) (Nat.le_of_eq t1) (Nat.le_refl 0) ?_ (Nat.le_refl _)
    · show (if _ then 124 else (VarKind.tokens.bitLen v).getD 124) ≤ 1023
      split <;> omega
    · show (VarKind.tokens.bitLen v).getD 124 ≤ (if _ then 124 else (VarKind.tokens.bitLen v).getD 124)
      split <;> omega
  | .tuple l, hg, hw => by
    simp only [Good] at hg
    simp only [Writable] at hw
    have ih := writeItems_ok hacc l hg.2 hw
    intro m s need h
    simp only [write]
    exact ih m s need h
  | .array t vs, hg, hw => by
    simp only [Good] at hg
    simp only [Writable] at hw
    obtain ⟨d, hd⟩ := writeElems_ok hacc t vs hg.2.2 hw 0 none (leaves_none _ _ _)
    obtain ⟨e1, e2⟩ := dict_enc d
    have hww : Writes (Wr.u32 vs.length >>= fun _ => Tlb.dict.store d : Wr Cell Unit) (Enc.bits (natBits 32 vs.length) ++ Tlb.dict.enc d) :=
      (Wr.writes_u32 hg.1).writes.seq (f := fun _ => Tlb.dict.store d) (dict_writes d)
    refine dict_ok (empty := vs.isEmpty) (f := fun d => Wr.u32 vs.length >>= fun _ => Tlb.dict.store d) hd (fun s => by simp only [write]; rfl) hww rfl (by show 33 ≤ 1023; decide) ((refs_u _ _).trans (by decide)) ?_ ?_ (Nat.le_refl _) ?_ rfl ?_
    · show (natBits 32 vs.length ++ (Tlb.dict.enc d).1).length ≤ 33
      rw [List.length_append, natBits_length, e1]
    · show ([] ++ (Tlb.dict.enc d).2).length = _
      rw [List.nil_append, e2]
    · intro he
      cases vs with
      | nil => simp only [writeElems] at hd; injection hd with hd; exact hd.symm
      | cons => cases he
    · show (if vs.isEmpty = true then 0 else 1) ≤ (if ver.useMax = true then 1 else if vs.isEmpty = true then 0 else 1)
      cases ver.useMax <;> cases vs.isEmpty <;> decide
  | .fixedArray t vs, hg, hw => by
    simp only [Good] at hg
    simp only [Writable] at hw
    obtain ⟨d, hd⟩ := writeElems_ok hacc t vs hg.2.2 hw 0 none (leaves_none _ _ _)
    obtain ⟨e1, e2⟩ := dict_enc d
    refine dict_ok (empty := vs.isEmpty) (f := Tlb.dict.store) hd (fun s => by simp only [write]; rfl) (dict_writes d) rfl (by show 2 ≤ 1023; decide) ((refs_u _ _).trans (by decide)) (Nat.le_of_eq e1) e2 (by show 1 ≤ 2; decide) ?_ rfl ?_
    · intro he
      cases vs with
      | nil => simp only [writeElems] at hd; injection hd with hd; exact hd.symm
      | cons => cases he
    · show (if vs.isEmpty = true then 0 else 1) ≤ (if ver.useMax = true then 1 else if vs.isEmpty = true then 0 else 1)
      cases ver.useMax <;> cases vs.isEmpty <;> decide
  | .map k t es, hg, hw => by
    simp only [Good] at hg
    simp only [Writable] at hw
    obtain ⟨d, hd⟩ := writeEntries_ok hacc k t es hg.1 hg.2.2.1 hw none (leaves_none _ _ _)
    obtain ⟨e1, e2⟩ := dict_enc d
    refine dict_ok (empty := es.isEmpty) (f := Tlb.dict.store) hd (fun s => by simp only [write]; rfl) (dict_writes d) rfl (by show 1 ≤ 1023; decide) (by show 1 ≤ 3; decide) (Nat.le_of_eq e1) e2 (Nat.le_refl 1) ?_ rfl (bool_ite _)
    intro he
    cases es with
    | nil => simp only [writeEntries] at hd; injection hd with hd; exact hd.symm
    | cons => cases he
  | .absent t, hg, hw => by
    have hz : (Val.absent t).asks ver = if ver.useMax then optMax t else ⟨1, 0⟩ := rfl
    have hb : (if ver.useMax then optMax t else ⟨1, 0⟩ : Size).bits ≤ 1023 ∧ (if ver.useMax then optMax t else ⟨1, 0⟩ : Size).refs ≤ 3 ∧
        1 ≤ (if ver.useMax then optMax t else ⟨1, 0⟩ : Size).bits := by
      split
      · unfold optMax
        split
        · rename_i h
          unfold Size.small at h
          rw [decide_eq_true_eq] at h
          exact ⟨by show 1 + t.max.bits ≤ 1023; omega, by show t.max.refs ≤ 3; omega, by show 1 ≤ 1 + t.max.bits; omega⟩
        · exact ⟨by show 1 ≤ 1023; decide, by show 1 ≤ 3; decide, Nat.le_refl 1⟩
      · exact ⟨by show 1 ≤ 1023; decide, by show 0 ≤ 3; decide, Nat.le_refl 1⟩
    exact one_ok (Wr.writes_bit false).writes (fun s => by simp only [write]) hz hb.1 hb.2.1 (Nat.le_refl 1) (Nat.le_refl 0) hb.2.2 (Nat.zero_le _)
  | .present t v, hg, hw => by
    simp only [Good] at hg
    simp only [Writable] at hw
    have ih := write_ok hacc v hg.2.1 hw.1
    have h1 := stored_max v hg.2.1 hw.1
    have h2 := asks_max v hg.2.1 hw.1
    obtain ⟨g1, g2, g3⟩ := hg
    subst g1
    refine present_ok hacc ih h1 h2 (fun hs => ?_) hw.2
    rw [if_pos hs] at g3
    exact g3
  | .ref v, hg, hw => by
    simp only [Good] at hg
    simp only [Writable] at hw
    obtain ⟨b, hb, _⟩ := child_snug hacc (write_ok hacc v hg.1 hw.1) hw.2
    obtain ⟨c, hc⟩ := build_all hacc b
    refine one_ok (z := ⟨0, 1⟩) (Wr.writes_ref c).writes (fun s => ?_) rfl (by decide) (by decide) (Nat.le_refl 0) (Nat.le_refl 1) (Nat.le_refl _) (Nat.le_refl _)
    simp only [write]
    rw [hb]
    change (build acc b >>= fun c => put ver ⟨0, 1⟩ (Wr.ref c) s) = _
    rw [hc]
    rfl
theorem writeItems_ok {acc : Cell → Bool} (hacc : ∀ c, acc c = true) {ver : Ver} : ∀ l : Items, GoodItems ver l → WritableItems ver l →
    ∀ m s need, Room ver m s (l.asks ver + need) → ∃ s', writeItems acc ver l s = .ok s' ∧ Room ver m s' need ∧
      stackBits s'.stack ≤ stackBits s.stack + l.stored.bits ∧ stackRefs s'.stack ≤ stackRefs s.stack + l.stored.refs
  | .nil, hg, hw => fun m s need h => ⟨s, by simp only [writeItems], h.weaken (by show need.bits ≤ 0 + need.bits; omega) (by show need.refs ≤ 0 + need.refs; omega), Nat.le_add_right _ _, Nat.le_add_right _ _⟩
  | .cons n v r, hg, hw => by
    simp only [GoodItems] at hg
    simp only [WritableItems] at hw
    have ih1 := write_ok hacc v hg.1 hw.1
    have ih2 := writeItems_ok hacc r hg.2 hw.2
    intro m s need h
    have h' : Room ver m s (v.asks ver + (r.asks ver + need)) := by
      have e : (Items.cons n v r).asks ver = v.asks ver + r.asks ver := rfl
      rw [e, Size.add_assoc'] at h
      exact h
    obtain ⟨s1, r1, k1, k2, k3⟩ := ih1 m s _ h'
    obtain ⟨s2, r2, j1, j2, j3⟩ := ih2 m s1 _ k1
    refine ⟨s2, ?_, j1, ?_, ?_⟩
    · simp only [writeItems]
      rw [r1]
      exact r2
    · show _ ≤ _ + (v.stored.bits + r.stored.bits); omega
    · show _ ≤ _ + (v.stored.refs + r.stored.refs); omega
theorem writeElems_ok {acc : Cell → Bool} (hacc : ∀ c, acc c = true) {ver : Ver} (t : Ty) : ∀ vs : Elems, GoodElems ver t vs → WritableElems ver vs → ElemsOk acc ver t vs
  | .nil, hg, hw => fun i d _ => ⟨d, by simp only [writeElems]⟩
  | .cons v r, hg, hw => by
    simp only [GoodElems] at hg
    simp only [WritableElems] at hw
    have ih := writeElems_ok hacc t r hg.2.2.2 hw.2.2
    obtain ⟨b, hb, wf, hl⟩ := child_snug hacc (write_ok hacc v hg.2.1 hw.1) hw.2.1
    have hm := (stored_max v hg.2.1 hw.1).1
    rw [hg.1] at hm
    obtain ⟨sl, e1, e2⟩ := leafValue_ok hacc (n := 32) (t := t) wf (by omega)
    intro i d hd
    obtain ⟨d1, e3, e4⟩ := setLeaf_ok hacc (by decide) (leafBits_fit (by decide) t) hd (natBits_length 32 i) e2
    obtain ⟨d2, e5⟩ := ih (i + 1) d1 e4
    refine ⟨d2, ?_⟩
    simp only [writeElems]
    rw [hb]
    change (leafValue acc (fitsLeaf 32 t.max.bits) b >>= fun l => setLeaf acc d (natBits 32 i) 32 l >>= fun d => writeElems acc ver (fitsLeaf 32 t.max.bits) r (i + 1) d) = _
    rw [e1]
    change (setLeaf acc d (natBits 32 i) 32 sl >>= fun d => writeElems acc ver (fitsLeaf 32 t.max.bits) r (i + 1) d) = _
    rw [e3]
    exact e5
theorem writeEntries_ok {acc : Cell → Bool} (hacc : ∀ c, acc c = true) {ver : Ver} (k : PTy) (t : Ty) : ∀ es : Entries, k.bits ≤ 1011 → GoodEntries ver k t es →
    WritableEntries ver es → EntriesOk acc ver k t es
  | .nil, hk, hg, hw => fun d _ => ⟨d, by simp only [writeEntries]⟩
  | .cons key v r, hk, hg, hw => by
    simp only [GoodEntries] at hg
    simp only [WritableEntries] at hw
    have ih := writeEntries_ok hacc k t r hk hg.2.2.2.2.2 hw.2.2.2
    obtain ⟨b, hb, wf, hl⟩ := child_snug hacc (write_ok hacc v hg.2.2.2.1 hw.2.1) hw.2.2.1
    have hm := (stored_max v hg.2.2.2.1 hw.2.1).1
    rw [hg.2.2.1] at hm
    obtain ⟨sl, e1, e2⟩ := leafValue_ok hacc (n := k.bits) (t := t) wf (by omega)
    obtain ⟨ks, hks⟩ := key_ok hg.2.1
    have hkl : ks.bits.length = k.bits := by rw [(key_spec hg.2.1 hks).1, hw.1, hg.1]
    intro d hd
    obtain ⟨d1, e3, e4⟩ := setLeaf_ok hacc hk (leafBits_fit hk t) hd hkl e2
    obtain ⟨d2, e5⟩ := ih d1 e4
    refine ⟨d2, ?_⟩
    simp only [writeEntries]
    rw [hks]
    change (child acc (v.size ver) (write acc ver v) >>= fun b => leafValue acc (fitsLeaf k.bits t.max.bits) b >>= fun l => setLeaf acc d ks.bits k.bits l >>= fun d => writeEntries acc ver (fitsLeaf k.bits t.max.bits) k.bits r d) = _
    rw [hb]
    change (leafValue acc (fitsLeaf k.bits t.max.bits) b >>= fun l => setLeaf acc d ks.bits k.bits l >>= fun d => writeEntries acc ver (fitsLeaf k.bits t.max.bits) k.bits r d) = _
    rw [e1]
    change (setLeaf acc d ks.bits k.bits sl >>= fun d => writeEntries acc ver (fitsLeaf k.bits t.max.bits) k.bits r d) = _
    rw [e3]
    exact e5
end

end Abi
end Verif
