import Verif.BocDe
import Verif.CellInj
/-
Lemmas about the reader of bags of cells: what a successful read says about the bytes, and the absence of faults.
-/
set_option linter.unusedVariables false
set_option linter.unusedSimpArgs false
namespace Verif
namespace Boc

@[simp] theorem bok {α β : Type} (a : α) (f : α → Except BocErr β) : ((.ok a : Except BocErr α) >>= f) = f a := rfl
@[simp] theorem berr {α β : Type} (e : BocErr) (f : α → Except BocErr β) : ((.error e : Except BocErr α) >>= f) = .error e := rfl

theorem bind_inv {α β : Type} {x : Except BocErr α} {f : α → Except BocErr β} {b : β} (h : (x >>= f) = .ok b) : ∃ a, x = .ok a ∧ f a = .ok b := by
  cases x with
  | error e => cases h
  | ok a => exact ⟨a, rfl, h⟩

theorem ensure_ok {c : Bool} {e : BocErr} (h : c = true) : ensure c e = .ok () := by rw [h]; rfl

theorem ensure_inv {c : Bool} {e : BocErr} {u : Unit} (h : ensure c e = .ok u) : c = true := by
  cases c with
  | true => rfl
  | false => cases h

/-- Neither a fault nor a panic. -/
def Safe {α : Type} (x : Except BocErr α) : Prop := x ≠ .error .fault ∧ x ≠ .error .panic

theorem Safe.ok {α : Type} (a : α) : Safe (.ok a : Except BocErr α) := ⟨by simp, by simp⟩

theorem Safe.err {α : Type} {e : BocErr} (h1 : e ≠ .fault) (h2 : e ≠ .panic) : Safe (.error e : Except BocErr α) :=
  ⟨fun h => h1 (by injection h), fun h => h2 (by injection h)⟩

theorem Safe.bind {α β : Type} {x : Except BocErr α} {f : α → Except BocErr β} (h : Safe x) (hf : ∀ a, x = .ok a → Safe (f a)) : Safe (x >>= f) := by
  cases x with
  | error e => exact ⟨fun e' => h.1 (by injection e' with e'; rw [e']), fun e' => h.2 (by injection e' with e'; rw [e'])⟩
  | ok a => exact hf a rfl

theorem Safe.ensure {c : Bool} {e : BocErr} (h1 : e ≠ .fault) (h2 : e ≠ .panic) : Safe (Boc.ensure c e) := by
  unfold Boc.ensure
  split
  · exact Safe.ok _
  · exact Safe.err h1 h2

theorem next_ok {n : Nat} {rest : List Byte} (h : n ≤ rest.length) : next n rest = .ok (rest.take n, rest.drop n) := if_pos h

theorem next_append (a rest : List Byte) : next a.length (a ++ rest) = .ok (a, rest) := by
  rw [next_ok (by simp), List.take_left, List.drop_left]

theorem next_inv {n : Nat} {rest a b : List Byte} (h : next n rest = .ok (a, b)) : n ≤ rest.length ∧ a = rest.take n ∧ b = rest.drop n := by
  unfold next at h
  split at h
  · injection h with h; injection h with h1 h2; exact ⟨by assumption, h1.symm, h2.symm⟩
  · cases h

theorem nextNat_ok {n : Nat} {rest : List Byte} (h : n ≤ rest.length) : nextNat n rest = .ok (beNat (rest.take n), rest.drop n) := by
  unfold nextNat
  rw [next_ok h]; rfl

theorem nextNat_inv {n v : Nat} {rest b : List Byte} (h : nextNat n rest = .ok (v, b)) : n ≤ rest.length ∧ v = beNat (rest.take n) ∧ b = rest.drop n := by
  unfold nextNat at h
  obtain ⟨⟨x, y⟩, h1, h2⟩ := bind_inv h
  obtain ⟨a1, a2, a3⟩ := next_inv h1
  injection h2 with h2; injection h2 with h2 h3
  exact ⟨a1, by rw [← h2, a2], by rw [← h3, a3]⟩

@[simp] theorem nextNat_one (b : Byte) (rest : List Byte) : nextNat 1 (b :: rest) = .ok (b.toNat, rest) := by
  rw [nextNat_ok (by simp)]
  simp [beNat]

theorem beNat_append (l : List Byte) (b : Byte) : beNat (l ++ [b]) = beNat l * 256 + b.toNat := by
  unfold beNat
  rw [List.foldl_append]; rfl

@[simp] theorem beBytes_length (n v : Nat) : (beBytes n v).length = n := by
  induction n generalizing v with
  | zero => rfl
  | succ n ih => rw [beBytes, List.length_append, ih]; rfl

theorem beNat_beBytes (n v : Nat) : beNat (beBytes n v) = v % 256 ^ n := by
  induction n generalizing v with
  | zero => rw [beBytes]; simp [beNat, Nat.mod_one]
  | succ n ih =>
    have h : v % 256 ^ (n + 1) = v % 256 + 256 * (v / 256 % 256 ^ n) := by rw [Nat.pow_succ', Nat.mod_mul]
    rw [beBytes, beNat_append, ih, BitVec.toNat_ofNat, h]
    omega

theorem nextNat_beBytes {n v : Nat} (rest : List Byte) (h : v < 256 ^ n) : nextNat n (beBytes n v ++ rest) = .ok (v, rest) := by
  have h1 : n ≤ (beBytes n v ++ rest).length := by simp
  rw [nextNat_ok h1]
  have h2 : (beBytes n v ++ rest).take n = beBytes n v := by
    conv => lhs; arg 1; rw [← beBytes_length n v]
    exact List.take_left
  have h3 : (beBytes n v ++ rest).drop n = rest := by
    conv => lhs; arg 1; rw [← beBytes_length n v]
    exact List.drop_left
  rw [h2, h3, beNat_beBytes, Nat.mod_eq_of_lt h]

/-! ### One cell -/

/-- The number of bytes of stored hashes and depths. -/
def hashLen (d : CellDescriptor) : Nat := if d.storeHashes then (32 + 2) * (d.levelMask.level + 1) else 0

/-- The bytes of one cell, cut into descriptor, stored hashes, data and references. -/
structure RawShape (refSize : Nat) (c : List Byte) (d : CellDescriptor) (hs data refs : List Byte) : Prop where
  eq : c = d.d1 :: d.d2 :: (hs ++ (data ++ refs))
  hashes : hs.length = hashLen d
  len : data.length = d.byteLen
  refs : refs.length = d.referenceCount * refSize
  absent : d.isAbsent = false
  refs_le : d.referenceCount ≤ 4
  normal : (d.storeHashes && (d.isExotic && d.referenceCount == 0 && decide (0 < d.levelMask.level))) = false
  tag : ∀ b, data.getLast? = some b → d.isAligned = false → b &&& 0x7f ≠ 0

theorem RawShape.length {refSize : Nat} {c : List Byte} {d : CellDescriptor} {hs data refs : List Byte} (h : RawShape refSize c d hs data refs) :
    c.length = 2 + hashLen d + d.byteLen + d.referenceCount * refSize := by
  rw [h.eq]
  simp only [List.length_cons, List.length_append, h.hashes, h.len, h.refs]
  omega

theorem drop_last {α : Type} (l : List α) (h : 0 < l.length) : l.drop (l.length - 1) = [l.getLast (by intro e; rw [e] at h; simp at h)] := by
  induction l with
  | nil => simp at h
  | cons a l ih =>
    cases l with
    | nil => rfl
    | cons b l =>
      have := ih (by simp)
      simp only [List.length_cons, Nat.add_sub_cancel] at this ⊢
      rw [List.drop_succ_cons, this]
      rfl

theorem RawShape.rawLen {refSize : Nat} {c : List Byte} {d : CellDescriptor} {hs data refs : List Byte} (h : RawShape refSize c d hs data refs)
    (rest : List Byte) : Boc.rawLen (c ++ rest) refSize = .ok c.length := by
  have hlen := h.length
  have htot : 2 + hashLen d + d.byteLen + d.referenceCount * refSize ≤ (c ++ rest).length := by
    rw [List.length_append]; omega
  rw [hlen]
  have heq : c ++ rest = d.d1 :: d.d2 :: (hs ++ (data ++ refs) ++ rest) := by rw [h.eq]; rfl
  unfold Boc.rawLen
  rw [heq] at htot ⊢
  rw [ensure_ok (by simp)]
  simp only [bok, nextNat_one, BitVec.ofNat_toNat, BitVec.setWidth_eq]
  have e1 : (⟨d.d1, d.d2⟩ : CellDescriptor) = d := rfl
  simp only [e1]
  rw [ensure_ok (by rw [h.absent]; rfl)]
  simp only [bok]
  rw [ensure_ok (by simpa using h.refs_le)]
  simp only [bok]
  rw [ensure_ok (by rw [h.normal]; rfl)]
  simp only [bok]
  rw [show (if d.storeHashes = true then (32 + 2) * (d.levelMask.level + 1) else 0) = hashLen d from rfl]
  rw [ensure_ok (by simpa using htot)]
  simp only [bok]
  by_cases hb : d.byteLen > 0 ∧ d.isAligned = false
  · rw [if_pos hb]
    have hne : data ≠ [] := by
      intro e
      have := h.len
      rw [e] at this; simp at this; omega
    have hd : (d.d1 :: d.d2 :: (hs ++ (data ++ refs) ++ rest)).drop (2 + hashLen d + d.byteLen - 1)
        = data.getLast hne :: (refs ++ rest) := by
      have e2 : d.d1 :: d.d2 :: (hs ++ (data ++ refs) ++ rest) = (d.d1 :: d.d2 :: hs) ++ (data ++ (refs ++ rest)) := by simp
      have e3 : 2 + hashLen d + d.byteLen - 1 = (d.d1 :: d.d2 :: hs).length + (data.length - 1) := by
        simp only [List.length_cons, h.hashes, h.len]; omega
      rw [e2, e3, List.drop_append, List.drop_of_length_le (by omega), List.nil_append, Nat.add_sub_cancel_left,
        List.drop_append_of_le_length (by omega), drop_last _ (by rw [h.len]; omega)]
      rfl
    rw [hd, nextNat_one]
    simp only [bok, BitVec.ofNat_toNat, BitVec.setWidth_eq]
    rw [ensure_ok]
    · rfl
    · have := h.tag _ (List.getLast?_eq_some_getLast hne) hb.2
      simpa using this
  · rw [if_neg hb]

/-- What a successful read of the length says. -/
theorem rawLen_shape {bytes : List Byte} {refSize n : Nat} (h : rawLen bytes refSize = .ok n) :
    n ≤ bytes.length ∧ ∃ d hs data refs, RawShape refSize (bytes.take n) d hs data refs := by
  unfold rawLen at h
  obtain ⟨_, h0, h⟩ := bind_inv h
  have hlen : 2 ≤ bytes.length := by simpa using ensure_inv h0
  match bytes, hlen with
  | a :: b :: body, _ =>
    simp only [bok, nextNat_one, BitVec.ofNat_toNat, BitVec.setWidth_eq] at h
    obtain ⟨_, h1, h⟩ := bind_inv h
    obtain ⟨_, h2, h⟩ := bind_inv h
    obtain ⟨_, h3, h⟩ := bind_inv h
    obtain ⟨_, h4, h⟩ := bind_inv h
    generalize hd : (⟨a, b⟩ : CellDescriptor) = d at h h1 h2 h3 h4
    have ha : a = d.d1 := by rw [← hd]
    have hb : b = d.d2 := by rw [← hd]
    rw [show (if d.storeHashes = true then (32 + 2) * (d.levelMask.level + 1) else 0) = hashLen d from rfl] at h h4
    have i1 : d.isAbsent = false := by simpa using ensure_inv h1
    have i2 : d.referenceCount ≤ 4 := by simpa using ensure_inv h2
    have i3 := ensure_inv h3
    have i4 : 2 + hashLen d + d.byteLen + d.referenceCount * refSize ≤ (a :: b :: body).length := by simpa using ensure_inv h4
    have i5 : n = 2 + hashLen d + d.byteLen + d.referenceCount * refSize ∧
        (d.byteLen > 0 ∧ d.isAligned = false → ∃ x r, (a :: b :: body).drop (2 + hashLen d + d.byteLen - 1) = x :: r ∧ x &&& 0x7f ≠ 0) := by
      by_cases hc : d.byteLen > 0 ∧ d.isAligned = false
      · rw [if_pos hc] at h
        obtain ⟨⟨x, r⟩, g1, h⟩ := bind_inv h
        obtain ⟨_, g2, h⟩ := bind_inv h
        injection h with h
        refine ⟨h.symm, fun _ => ?_⟩
        obtain ⟨k1, k2, k3⟩ := nextNat_inv g1
        generalize (a :: b :: body).drop (2 + hashLen d + d.byteLen - 1) = l at k1 k2 k3
        match l, k1 with
        | y :: r', _ =>
          refine ⟨y, r', rfl, ?_⟩
          have := ensure_inv g2
          rw [k2] at this
          simpa [beNat] using this
      · rw [if_neg hc] at h
        injection h with h
        exact ⟨h.symm, fun h => absurd h hc⟩
    obtain ⟨j1, j2⟩ := i5
    simp only [List.length_cons] at i4
    refine ⟨by rw [j1]; simp only [List.length_cons]; omega, d, body.take (hashLen d), (body.drop (hashLen d)).take d.byteLen,
      ((body.drop (hashLen d)).drop d.byteLen).take (d.referenceCount * refSize), ?_, ?_, ?_, ?_, i1, i2, ?_, ?_⟩
    · rw [j1, ← ha, ← hb]
      have : 2 + hashLen d + d.byteLen + d.referenceCount * refSize = (hashLen d + (d.byteLen + d.referenceCount * refSize)) + 1 + 1 := by omega
      rw [this, List.take_succ_cons, List.take_succ_cons, List.take_add, List.take_add]
    · simp; omega
    · simp; omega
    · simp only [List.length_take, List.length_drop]; omega
    · cases hx : (d.storeHashes && (d.isExotic && d.referenceCount == 0 && decide (0 < d.levelMask.level))) with
      | false => rfl
      | true => rw [hx] at i3; cases i3
    · intro x hx hal
      have hpos : d.byteLen > 0 := by
        cases hz : d.byteLen with
        | zero => rw [hz, List.take_zero] at hx; cases hx
        | succ k => omega
      obtain ⟨y, r, e1, e2⟩ := j2 ⟨hpos, hal⟩
      have hlast : ((body.drop (hashLen d)).take d.byteLen).getLast? = (body.drop (hashLen d + d.byteLen - 1)).head? := by
        rw [List.getLast?_eq_getElem?, List.length_take, List.length_drop, List.head?_drop, List.getElem?_take, if_pos (by omega),
          List.getElem?_drop]
        congr 1; omega
      rw [hlast] at hx
      have : 2 + hashLen d + d.byteLen - 1 = (hashLen d + d.byteLen - 1) + 1 + 1 := by omega
      rw [this, List.drop_succ_cons, List.drop_succ_cons] at e1
      rw [e1] at hx
      injection hx with hx
      rw [← hx]; exact e2

/-! ### Bits of a cell from its bytes -/

theorem d2_aligned (d2 : Byte) (h : d2 &&& 1 = 0) : (8 * ((d2 &&& 1) + (d2 >>> 1)).toNat ≤ 1016) ∧
    CellDescriptor.computeD2 (((d2 &&& 1) + (d2 >>> 1)).toNat * 8) = d2 := by
  have : ∀ k : Fin 256, BitVec.ofNat 8 k &&& 1 = 0 → (8 * ((BitVec.ofNat 8 k &&& 1) + (BitVec.ofNat 8 k >>> 1)).toNat ≤ 1016) ∧
    CellDescriptor.computeD2 (((BitVec.ofNat 8 k &&& 1) + (BitVec.ofNat 8 k >>> 1)).toNat * 8) = BitVec.ofNat 8 k := by decide +kernel
  have := this ⟨d2.toNat, d2.isLt⟩
  simpa using this (by simpa using h)

theorem d2_unaligned (d2 : Byte) (h : d2 &&& 1 ≠ 0) : 1 ≤ ((d2 &&& 1) + (d2 >>> 1)).toNat ∧ ((d2 &&& 1) + (d2 >>> 1)).toNat ≤ 128 ∧
    ∀ t, t ≤ 6 → CellDescriptor.computeD2 (((d2 &&& 1) + (d2 >>> 1)).toNat * 8 - t - 1) = d2 := by
  have : ∀ k : Fin 256, BitVec.ofNat 8 k &&& 1 ≠ 0 → 1 ≤ ((BitVec.ofNat 8 k &&& 1) + (BitVec.ofNat 8 k >>> 1)).toNat ∧
    ((BitVec.ofNat 8 k &&& 1) + (BitVec.ofNat 8 k >>> 1)).toNat ≤ 128 ∧
    ∀ t : Fin 7, CellDescriptor.computeD2 (((BitVec.ofNat 8 k &&& 1) + (BitVec.ofNat 8 k >>> 1)).toNat * 8 - t - 1) = BitVec.ofNat 8 k := by
    decide +kernel
  have := this ⟨d2.toNat, d2.isLt⟩
  simp only [BitVec.ofNat_toNat, BitVec.setWidth_eq] at this
  obtain ⟨a, b, c⟩ := this h
  exact ⟨a, b, fun t ht => c ⟨t, by omega⟩⟩

theorem byte_tag (b : Byte) (h : b &&& 0x7f ≠ 0) : trailingZeros b ≤ 6 ∧
    wordBits b = (wordBits b).take (7 - trailingZeros b) ++ true :: List.replicate (trailingZeros b) false := by
  have : ∀ k : Fin 256, BitVec.ofNat 8 k &&& 0x7f ≠ 0 → trailingZeros (BitVec.ofNat 8 k) ≤ 6 ∧
    wordBits (BitVec.ofNat 8 k) = (wordBits (BitVec.ofNat 8 k)).take (7 - trailingZeros (BitVec.ofNat 8 k)) ++
      true :: List.replicate (trailingZeros (BitVec.ofNat 8 k)) false := by decide +kernel
  have := this ⟨b.toNat, b.isLt⟩
  simp only [BitVec.ofNat_toNat, BitVec.setWidth_eq] at this
  exact this h

theorem byte_tag_conv (b : Byte) (j : Nat) (h1 : 1 ≤ j) (h2 : j < 8) (h : (wordBits b).getD j false = true) : b &&& 0x7f ≠ 0 := by
  have : ∀ k : Fin 256, ∀ j : Fin 8, 1 ≤ j.val → (wordBits (BitVec.ofNat 8 k)).getD j false = true → BitVec.ofNat 8 k &&& 0x7f ≠ 0 := by
    decide +kernel
  have := this ⟨b.toNat, b.isLt⟩ ⟨j, h2⟩ h1
  simp only [BitVec.ofNat_toNat, BitVec.setWidth_eq] at this
  exact this h

/-- The bit length that the reader computes agrees with the descriptor and the data. -/
theorem decodeBitLen_ok {d : CellDescriptor} {data : List Byte} (hl : data.length = d.byteLen)
    (ht : ∀ b, data.getLast? = some b → d.isAligned = false → b &&& 0x7f ≠ 0) :
    decodeBitLen d data ≤ 1023 ∧ d.d2 = CellDescriptor.computeD2 (decodeBitLen d data) ∧ data.length = (decodeBitLen d data + 7) / 8 ∧
    bytesToBits data = tagged ((bytesToBits data).take (decodeBitLen d data)) := by
  cases ha : d.isAligned with
  | true =>
    have h0 : d.d2 &&& 1 = 0 := by
      unfold CellDescriptor.isAligned at ha
      simpa using ha
    obtain ⟨a, b⟩ := d2_aligned d.d2 h0
    have hn : decodeBitLen d data = data.length * 8 := by unfold decodeBitLen; rw [ha]; rfl
    rw [hn]
    have hb : d.byteLen = ((d.d2 &&& 1) + (d.d2 >>> 1)).toNat := rfl
    refine ⟨by rw [hl, hb]; omega, by rw [hl, hb]; exact b.symm, by omega, ?_⟩
    rw [List.take_of_length_le (by simp; omega)]
    unfold tagged
    rw [if_pos (by simp)]
  | false =>
    have h0 : d.d2 &&& 1 ≠ 0 := by
      unfold CellDescriptor.isAligned at ha
      simpa using ha
    obtain ⟨a1, a2, a3⟩ := d2_unaligned d.d2 h0
    have hb : d.byteLen = ((d.d2 &&& 1) + (d.d2 >>> 1)).toNat := rfl
    rw [← hb, ← hl] at a1 a2 a3
    have hne : data ≠ [] := by intro e; rw [e] at a1; simp at a1
    have hlast := List.getLast?_eq_some_getLast hne
    obtain ⟨t1, t2⟩ := byte_tag _ (ht _ hlast ha)
    have hn : decodeBitLen d data = data.length * 8 - trailingZeros (data.getLast hne) - 1 := by
      unfold decodeBitLen; rw [ha, hlast]; rfl
    generalize hb : data.getLast hne = b at *
    have hd : data = data.dropLast ++ [b] := by rw [← hb]; exact (List.dropLast_concat_getLast hne).symm
    have hlen : data.dropLast.length = data.length - 1 := List.length_dropLast
    generalize ht : trailingZeros b = t at *
    rw [hn]
    refine ⟨by omega, (a3 t t1).symm, by omega, ?_⟩
    have hbits : bytesToBits data = bytesToBits data.dropLast ++ wordBits b := by
      conv => lhs; rw [hd]
      rw [bytesToBits_append, bytesToBits_singleton]
    have hw : (wordBits b).length = 8 := by rw [← bytesToBits_singleton]; simp
    have htake : (bytesToBits data).take (data.length * 8 - t - 1) = bytesToBits data.dropLast ++ (wordBits b).take (7 - t) := by
      rw [hbits, List.take_append, bytesToBits_length, hlen, List.take_of_length_le (by simp; omega)]
      congr 2; omega
    rw [htake]
    unfold tagged
    rw [if_neg (by simp [hw]; omega), List.append_assoc]
    have : 7 - (bytesToBits data.dropLast ++ (wordBits b).take (7 - t)).length % 8 = t := by
      simp [hw]; omega
    rw [this, ← t2, hbits]

/-- The same bytes with the same descriptor have only one bit length. -/
theorem decodeBitLen_unique {d : CellDescriptor} {data : List Byte} {n : Nat} (hl : data.length = d.byteLen) (hn : n ≤ 1023)
    (hd : d.d2 = CellDescriptor.computeD2 n) (hlen : data.length = (n + 7) / 8) (ht : bytesToBits data = tagged ((bytesToBits data).take n)) :
    decodeBitLen d data = n ∧ ∀ b, data.getLast? = some b → d.isAligned = false → b &&& 0x7f ≠ 0 := by
  have htag : ∀ b, data.getLast? = some b → d.isAligned = false → b &&& 0x7f ≠ 0 := by
    intro b hb ha
    have hal := (C07_d2 n hn d.d1).2
    have : d = ⟨d.d1, CellDescriptor.computeD2 n⟩ := by rw [← hd]
    rw [← this, ha] at hal
    have hmod : n % 8 ≠ 0 := by intro e; simp [e] at hal
    have hne : data ≠ [] := by intro e; rw [e] at hb; cases hb
    have hd' : data = data.dropLast ++ [b] := by
      rw [List.getLast?_eq_some_getLast hne] at hb
      injection hb with hb
      rw [← hb]; exact (List.dropLast_concat_getLast hne).symm
    have hlen' : data.dropLast.length = data.length - 1 := List.length_dropLast
    have hbits : bytesToBits data = bytesToBits data.dropLast ++ wordBits b := by
      conv => lhs; rw [hd']
      rw [bytesToBits_append, bytesToBits_singleton]
    apply byte_tag_conv b (n % 8) (by omega) (by omega)
    have h1 : (bytesToBits data).getD n false = true := by
      rw [ht]
      unfold tagged
      have hl2 : ((bytesToBits data).take n).length = n := by simp; omega
      rw [if_neg (by rw [hl2]; exact hmod), getD_append_bits, if_neg (by omega), hl2, Nat.sub_self]; rfl
    rw [hbits, getD_append_bits, if_neg (by simp; omega)] at h1
    have : n - (bytesToBits data.dropLast).length = n % 8 := by simp; omega
    rw [this] at h1
    exact h1
  refine ⟨?_, htag⟩
  obtain ⟨a, b, c, e⟩ := decodeBitLen_ok hl htag
  have l1 : ((bytesToBits data).take n).length = n := by simp; omega
  have l2 : ((bytesToBits data).take (decodeBitLen d data)).length = decodeBitLen d data := by simp; omega
  have := tagged_inj (a := (bytesToBits data).take (decodeBitLen d data)) (b := (bytesToBits data).take n) (by omega) (by omega)
    (by rw [l1, l2, ← b, hd]) (by rw [← e, ← ht])
  have hh := congrArg List.length this
  rw [l1, l2] at hh
  exact hh

end Boc
end Verif
