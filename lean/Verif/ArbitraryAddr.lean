import Verif.ArbitraryComplete
import Verif.AddrText

/-! Random addresses (`models/message/address.rs`, the `Arbitrary` implementations). -/

set_option linter.unusedVariables false

namespace Verif.Arb
open Verif

/-- `Unstructured::ratio(n, d)` -/
def ratio (n d : Nat) : Gen Bool := do
  let v ← intIn 1 d
  pure (decide (v ≤ n))

/-- `i8::arbitrary` -/
def i8 : Gen Int := do
  let v ← intIn 0 255
  pure (u8ToI8 v)

/-- `i32::arbitrary` -/
def i32 : Gen Int := do
  let v ← intIn 0 4294967295
  pure (u32ToI32 v)

/-- `<[u8; n]>::arbitrary`; `cell/mod.rs:964-969` `HashBytes::arbitrary` for 32 bytes. -/
def array : Nat → Gen (List Byte)
  | 0 => pure []
  | n + 1 => do
    let v ← intIn 0 255
    let r ← array n
    pure (BitVec.ofNat 8 v :: r)

/-- `.unwrap()` -/
def unwrap {α : Type} : Except Err α → Gen α
  | .ok a => pure a
  | .error _ => stop .panic

/-- `num/mod.rs:1025-1032` `SplitDepth::arbitrary` -/
def splitDepth : Gen Nat := do
  let v ← intIn 1 30
  unwrap (splitDepthNew v)

/-- `cell/builder.rs:814-816` `as_data_slice`, with `1541-1577` `IntermediateDataCell`: the whole buffer, the bits that are in use, no references. -/
def asDataSlice (b : DataBuilder) : CSlice CCell := ⟨b.data, [], ⟨0, b.bitLen, 0, 0⟩⟩

/-- `models/message/address.rs:997-1007` `Anycast::from_slice` -/
def anycastFromSlice (s : CSlice CCell) : Except Err Anycast := do
  let d ← splitDepthFromBitLen s.range.sizeBits
  let p ← s.getRaw 0 ((d + 7) / 8) d
  .ok ⟨d, p⟩

/-- `models/message/address.rs:1057-1067` `Anycast::arbitrary`; `cell/builder.rs:353-359` `from_raw_data`. -/
def anycast : Gen Anycast := do
  let d ← splitDepth
  let bs ← bytes ((d + 7) / 8)
  let b ← store (Wr.raw bs d) CellB.new
  unwrap (anycastFromSlice (asDataSlice b.inner))

/-- `u.ratio(1u8, 20u8)?.then(|| u.arbitrary()).transpose()?` (`models/message/address.rs:588`, `816`). -/
def optAnycast : Gen (Option Anycast) := do
  let r ← ratio 1 20
  if r = true then do
    let a ← anycast
    pure (some a)
  else pure none

/-- `models/message/address.rs:584-592` `StdAddr::arbitrary` -/
def stdAddr : Gen StdAddr := do
  let a ← optAnycast
  let w ← i8
  let d ← array 32
  pure ⟨a, w, d⟩

/-- `models/message/address.rs:821-827`, `957-963`: clears what is left of the last byte. -/
def cutLast (d : List Byte) (n : Nat) : List Byte :=
  match d.getLast? with
  | some x => if n % 8 ≠ 0 then d.dropLast ++ [x &&& (0xff#8 <<< (8 - n % 8))] else d
  | none => d

/-- `models/message/address.rs:813-835` `VarAddr::arbitrary` -/
def varAddr : Gen VarAddr := do
  let a ← optAnycast
  let n ← intIn 0 (smallMax 9)
  let w ← i32
  let d ← bytes ((n + 7) / 8)
  pure ⟨a, n, w, cutLast d n⟩

/-- `models/message/address.rs:209-217` `IntAddr::arbitrary` -/
def intAddr : Gen IntAddr := do
  let r ← ratio 1 20
  if r = true then do
    let a ← varAddr
    pure (.var a)
  else do
    let a ← stdAddr
    pure (.std a)

/-- `models/message/address.rs:952-966` `ExtAddr::arbitrary` -/
def extAddr : Gen ExtAddr := do
  let n ← intIn 0 (smallMax 9)
  let d ← bytes ((n + 7) / 8)
  pure ⟨n, cutLast d n⟩

/-- The anycast part an address has, if any. -/
def anycastOf : IntAddr → Option Anycast
  | .std a => a.anycast
  | .var a => a.anycast

/-- The addresses the type is meant for: storable, with a rewrite prefix of 1 to 30 bits (`SplitDepth::MIN`, `SplitDepth::MAX`). -/
def Proper (a : IntAddr) : Prop := a.Ok ∧ ∀ x, anycastOf a = some x → x.depth ≤ 30

/-! ### Lemmas -/

theorem safe_unwrap {α : Type} {n : Nat} {r : Except Err α} {P : α → Prop} (h : ∃ a, r = .ok a ∧ P a) : Safe n (unwrap r) P := by
  obtain ⟨a, rfl, h⟩ := h
  exact Safe.pure h

theorem safe_ratio {n a b : Nat} (h : 1 ≤ b) : Safe n (ratio a b) (fun _ => True) :=
  (safe_intIn h).bind fun v _ => Safe.pure trivial

theorem safe_i8 {n : Nat} : Safe n i8 IsI8 := (safe_intIn (by decide)).bind fun v hv => Safe.pure (u8_round (by omega)).1

theorem safe_i32 {n : Nat} : Safe n i32 IsI32 := (safe_intIn (by decide)).bind fun v hv => Safe.pure (ShardIdent.u32_round (by omega)).2

theorem safe_array {n : Nat} : ∀ k, Safe n (array k) (fun d => d.length = k)
  | 0 => Safe.pure rfl
  | k + 1 => (safe_intIn (by decide)).bind fun v _ => (safe_array k).bind fun r hr => Safe.pure (by rw [List.length_cons, hr])

theorem safe_splitDepth {n : Nat} : Safe n splitDepth (fun d => 1 ≤ d ∧ d ≤ 30) := by
  refine (safe_intIn (by decide)).bind fun v hv => safe_unwrap ⟨v, ?_, hv⟩
  unfold splitDepthNew
  rw [if_neg (by omega)]

/-- Reading back the bytes just stored. -/
theorem anycastFromSlice_ok {b : DataBuilder} (hb : b.WF) {d : Nat} (hl : b.bits.length = d) (h1 : 1 ≤ d) (h2 : d ≤ 30) :
    ∃ p, anycastFromSlice (asDataSlice b) = .ok ⟨d, p⟩ ∧ Bitstring.Packs p b.bits := by
  have hbl : b.bitLen = d := by rw [← hl, DataBuilder.bits_length]
  have hbits : (asDataSlice b).bits = b.bits := by
    unfold CSlice.bits DataBuilder.bits asDataSlice
    simp only [Nat.sub_zero, Nat.zero_add]
  have hwf : (asDataSlice b).WF := by
    have := hb.len
    have := hb.le
    have hm : maxBitLen = 1023 := rfl
    exact ⟨Nat.zero_le _, by show b.bitLen ≤ 8 * b.data.length; omega, by show b.data.length ≤ 128; omega, Nat.le_refl _, Nat.le_refl _, Nat.zero_le _⟩
  obtain ⟨v, e, hp⟩ := CSlice.getRaw_ok hwf (off := 0) (cap := (d + 7) / 8) (n := d) (Nat.le_refl _) (by rw [hbits, hl]; omega)
  have hseg : (asDataSlice b).seg 0 d = b.bits := by
    unfold CSlice.seg
    rw [hbits, List.drop_zero, ← hl, List.take_length]
  rw [hseg] at hp
  refine ⟨v, ?_, hp.1, ?_⟩
  · unfold anycastFromSlice
    have : splitDepthFromBitLen (asDataSlice b).range.sizeBits = .ok d := by
      show splitDepthFromBitLen (b.bitLen - 0) = .ok d
      unfold splitDepthFromBitLen splitDepthNew
      rw [Nat.sub_zero, hbl, if_pos (by omega), if_neg (by omega)]
      congr 1; omega
    rw [this]
    show ((asDataSlice b).getRaw 0 ((d + 7) / 8) d >>= fun p => Except.ok (⟨d, p⟩ : Anycast)) = _
    rw [e]
    rfl
  · rw [LoadOp.packed_bits hp, hp.1]
    rfl

theorem anycast_fits {bs : List Byte} {d : Nat} (h : d ≤ 30) : ((CellB.new : CellB CCell).contents ++ Enc.bits (rawBits bs d) : Enc CCell).Fits := by
  refine ⟨?_, ?_⟩
  · show ([] ++ rawBits bs d).length ≤ 1023
    rw [List.nil_append, rawBits_length]; omega
  · show ([] ++ []).length ≤ 4
    decide

theorem safe_anycast {n : Nat} : Safe n anycast (fun a => a.Ok ∧ a.depth ≤ 30) := by
  unfold anycast
  refine safe_splitDepth.bind fun d hd => safe_bytes.bind fun bs hbs => ?_
  refine (safe_store (Wr.writes_raw (by omega) (by omega)).1 CellB.wf_new (anycast_fits hd.2)).bind fun b hb => ?_
  obtain ⟨w1, c1, _⟩ := hb
  have hbits : b.inner.bits = rawBits bs d := (congrArg Prod.fst c1).trans (List.nil_append _)
  have hl : b.inner.bits.length = d := by rw [hbits, rawBits_length]
  obtain ⟨p, e, hp⟩ := anycastFromSlice_ok w1.inner hl hd.1 hd.2
  exact safe_unwrap ⟨_, e, ⟨by show 0 < d; omega, by show d ≤ 31; omega, _, hl, hp⟩, hd.2⟩

theorem safe_optAnycast {n : Nat} : Safe n optAnycast (fun a => optOk Anycast.Ok a ∧ ∀ x, a = some x → x.depth ≤ 30) := by
  unfold optAnycast
  refine (safe_ratio (by decide)).bind fun r _ => ?_
  by_cases h : r = true
  · rw [if_pos h]
    exact safe_anycast.bind fun a ha => Safe.pure ⟨ha.1, fun x e => by cases e; exact ha.2⟩
  · rw [if_neg h]
    exact Safe.pure ⟨trivial, fun x e => nomatch e⟩

theorem cut_byte : ∀ (r : Fin 8) (x : Fin 256), r.val ≠ 0 →
    wordBits (BitVec.ofNat 8 x.val &&& (0xff#8 <<< (8 - r.val))) = (wordBits (BitVec.ofNat 8 x.val)).take r.val ++ List.replicate (8 - r.val) false := by
  decide +kernel

theorem cutLast_packs {d : List Byte} {n : Nat} (h : d.length = (n + 7) / 8) : Bitstring.Packs (cutLast d n) (firstBits d n) := by
  have hfl : (firstBits d n).length = n := by
    unfold firstBits
    rw [List.length_take, bytesToBits_length]; omega
  unfold cutLast
  cases e : d.getLast? with
  | none =>
    have hd : d = [] := List.getLast?_eq_none_iff.mp e
    subst hd
    have : n = 0 := by rw [List.length_nil] at h; omega
    subst this
    exact ⟨rfl, rfl⟩
  | some x =>
    dsimp only
    obtain ⟨hne, hx⟩ := List.getLast?_eq_some_iff.mp e
    subst hx
    rw [List.length_append, List.length_singleton] at h
    by_cases hr : n % 8 ≠ 0
    · rw [if_pos hr, List.dropLast_concat]
      refine ⟨by rw [hfl, List.length_append, List.length_singleton]; exact h, ?_⟩
      rw [hfl, bytesToBits_append, bytesToBits_singleton, List.length_append, List.length_singleton]
      have hc := cut_byte ⟨n % 8, by omega⟩ ⟨x.toNat, x.isLt⟩ hr
      simp only [BitVec.ofNat_toNat, BitVec.setWidth_eq] at hc
      rw [hc]
      unfold firstBits
      have hl : (bytesToBits hne).length = 8 * hne.length := bytesToBits_length hne
      have hn : n = (bytesToBits hne).length + n % 8 := by rw [hl]; omega
      rw [bytesToBits_append, bytesToBits_singleton]
      conv => rhs; rw [hn]
      rw [List.take_length_add_append, ← hn, List.append_assoc]
      congr 3
      omega
    · rw [if_neg hr]
      refine ⟨by rw [hfl, List.length_append, List.length_singleton]; exact h, ?_⟩
      have hz : 8 * (hne ++ [x]).length - n = 0 := by rw [List.length_append, List.length_singleton]; omega
      rw [hfl, hz, List.replicate_zero, List.append_nil]
      unfold firstBits
      rw [List.take_of_length_le]
      rw [bytesToBits_length, List.length_append, List.length_singleton]; omega

theorem cutLast_holds {d : List Byte} {n : Nat} (h : d.length = (n + 7) / 8) : HoldsBits (cutLast d n) n := by
  refine ⟨firstBits d n, ?_, cutLast_packs h⟩
  unfold firstBits
  rw [List.length_take, bytesToBits_length]; omega

theorem cutLast_same {d : List Byte} {n : Nat} (h : HoldsBits d n) : d.length = (n + 7) / 8 ∧ cutLast d n = d := by
  obtain ⟨h1, h2, _⟩ := h.packs
  have hl : d.length = (n + 7) / 8 := by rw [h2.1, h1]
  exact ⟨hl, Bitstring.Packs.unique (cutLast_packs hl) h2⟩

theorem safe_stdAddr {n : Nat} : Safe n stdAddr (fun a => a.Ok ∧ ∀ x, a.anycast = some x → x.depth ≤ 30) :=
  safe_optAnycast.bind fun a ha => safe_i8.bind fun w hw => (safe_array 32).bind fun d hd => Safe.pure ⟨⟨ha.1, hw, hd⟩, ha.2⟩

theorem safe_varAddr {n : Nat} : Safe n varAddr (fun a => a.Ok ∧ ∀ x, a.anycast = some x → x.depth ≤ 30) :=
  safe_optAnycast.bind fun a ha => (safe_intIn (by decide)).bind fun k hk => safe_i32.bind fun w hw => safe_bytes.bind fun d hd =>
    Safe.pure ⟨⟨ha.1, hk.2, hw, cutLast_holds hd⟩, ha.2⟩

theorem safe_intAddr {n : Nat} : Safe n intAddr Proper := by
  unfold intAddr
  refine (safe_ratio (by decide)).bind fun r _ => ?_
  by_cases h : r = true
  · rw [if_pos h]
    exact safe_varAddr.bind fun a ha => Safe.pure ⟨ha.1, ha.2⟩
  · rw [if_neg h]
    exact safe_stdAddr.bind fun a ha => Safe.pure ⟨ha.1, ha.2⟩

theorem safe_extAddr {n : Nat} : Safe n extAddr (fun a => a.len ≤ 511 ∧ HoldsBits a.data a.len) :=
  (safe_intIn (by decide)).bind fun k hk => safe_bytes.bind fun d hd => Safe.pure ⟨hk.2, cutLast_holds hd⟩

/-! ### Every address -/

theorem array_run (d : List Byte) (rest : Src) : array d.length (d.map (·.toNat) ++ rest) = .ok (d, rest) := by
  induction d with
  | nil => rfl
  | cons x d ih =>
    show (intIn 0 255 >>= _) (x.toNat :: (d.map (·.toNat) ++ rest)) = _
    have h0 : intIn 0 255 (x.toNat :: (d.map (·.toNat) ++ rest)) = .ok (x.toNat, d.map (·.toNat) ++ rest) := by
      show Except.ok (0 + x.toNat % 256, _) = _
      have := x.isLt
      have : 0 + x.toNat % 256 = x.toNat := by omega
      rw [this]
    rw [run_bind h0, run_bind ih]
    show Except.ok (BitVec.ofNat 8 x.toNat :: d, rest) = _
    rw [BitVec.ofNat_toNat, BitVec.setWidth_eq]

theorem intIn_run {lo hi v : Nat} (h1 : lo ≤ v) (h2 : v ≤ hi) (rest : Src) : intIn lo hi ((v - lo) :: rest) = .ok (v, rest) := by
  show Except.ok (lo + (v - lo) % (hi - lo + 1), rest) = _
  rw [Nat.mod_eq_of_lt (by omega)]
  congr 2
  omega

theorem anycast_run {a : Anycast} (h : a.Ok) (hd : a.depth ≤ 30) (rest : Src) :
    anycast (((a.depth - 1) :: a.pfx.map (·.toNat)) ++ rest) = .ok (a, rest) := by
  obtain ⟨h1, h2, h3⟩ := h
  obtain ⟨p1, p2, p3⟩ := h3.packs
  have hl : a.pfx.length = (a.depth + 7) / 8 := (cutLast_same h3).1
  unfold anycast
  have e1 : splitDepth (((a.depth - 1) :: a.pfx.map (·.toNat)) ++ rest) = .ok (a.depth, a.pfx.map (·.toNat) ++ rest) := by
    unfold splitDepth
    show (intIn 1 30 >>= _) ((a.depth - 1) :: (a.pfx.map (·.toNat) ++ rest)) = _
    rw [run_bind (intIn_run h1 hd _)]
    unfold splitDepthNew
    rw [if_neg (by omega)]
    rfl
  rw [run_bind e1]
  have e2 := bytes_run a.pfx rest
  rw [hl] at e2
  rw [run_bind e2]
  obtain ⟨b, e3, w1, c1, _⟩ := store_ok (Wr.writes_raw (v := a.pfx) (n := a.depth) (by omega) (by omega)).1 CellB.wf_new (anycast_fits hd) rest
  rw [run_bind e3]
  have hbits : b.inner.bits = rawBits a.pfx a.depth := (congrArg Prod.fst c1).trans (List.nil_append _)
  obtain ⟨p, e4, hp⟩ := anycastFromSlice_ok w1.inner (by rw [hbits, rawBits_length]) h1 hd
  rw [e4]
  rw [hbits, p3] at hp
  rw [Bitstring.Packs.unique hp p2]
  rfl

theorem optAnycast_run {a : Option Anycast} (h : optOk Anycast.Ok a) (hd : ∀ x, a = some x → x.depth ≤ 30) :
    ∃ s : Src, ∀ rest, optAnycast (s ++ rest) = .ok (a, rest) := by
  cases a with
  | none => exact ⟨[1], fun rest => rfl⟩
  | some x =>
    refine ⟨0 :: ((x.depth - 1) :: x.pfx.map (·.toNat)), fun rest => ?_⟩
    have h0 : ratio 1 20 ((0 :: ((x.depth - 1) :: x.pfx.map (·.toNat))) ++ rest) = .ok (true, ((x.depth - 1) :: x.pfx.map (·.toNat)) ++ rest) := rfl
    unfold optAnycast
    rw [run_bind h0, if_pos rfl, run_bind (anycast_run h (hd x rfl) rest)]
    rfl

theorem stdAddr_run {a : StdAddr} (h : a.Ok) (hd : ∀ x, a.anycast = some x → x.depth ≤ 30) : ∃ s : Src, ∀ rest, stdAddr (s ++ rest) = .ok (a, rest) := by
  obtain ⟨h1, h2, h3⟩ := h
  obtain ⟨s, hs⟩ := optAnycast_run h1 hd
  refine ⟨s ++ (i8ToU8 a.workchain :: a.address.map (·.toNat)), fun rest => ?_⟩
  obtain ⟨r1, r2⟩ := i8_round h2
  unfold stdAddr
  rw [List.append_assoc, run_bind (hs _)]
  have e1 : i8 ((i8ToU8 a.workchain :: a.address.map (·.toNat)) ++ rest) = .ok (a.workchain, a.address.map (·.toNat) ++ rest) := by
    unfold i8
    show (intIn 0 255 >>= _) ((i8ToU8 a.workchain - 0) :: (a.address.map (·.toNat) ++ rest)) = _
    rw [run_bind (intIn_run (Nat.zero_le _) (by omega) _), r2]
    rfl
  rw [run_bind e1]
  have e2 := array_run a.address rest
  rw [h3] at e2
  rw [run_bind e2]
  rfl

theorem varAddr_run {a : VarAddr} (h : a.Ok) (hd : ∀ x, a.anycast = some x → x.depth ≤ 30) : ∃ s : Src, ∀ rest, varAddr (s ++ rest) = .ok (a, rest) := by
  obtain ⟨h1, h2, h3, h4⟩ := h
  obtain ⟨s, hs⟩ := optAnycast_run h1 hd
  obtain ⟨hl, hcut⟩ := cutLast_same h4
  refine ⟨s ++ (a.len :: i32ToU32 a.workchain :: a.address.map (·.toNat)), fun rest => ?_⟩
  have r1 := ShardIdent.i32_lt a.workchain
  have r2 := ShardIdent.i32_round h3
  unfold varAddr
  rw [List.append_assoc, run_bind (hs _)]
  have e0 : intIn 0 (smallMax 9) ((a.len :: i32ToU32 a.workchain :: a.address.map (·.toNat)) ++ rest) =
      .ok (a.len, i32ToU32 a.workchain :: (a.address.map (·.toNat) ++ rest)) := intIn_run (v := a.len) (Nat.zero_le _) h2 _
  rw [run_bind e0]
  have e1 : i32 (i32ToU32 a.workchain :: (a.address.map (·.toNat) ++ rest)) = .ok (a.workchain, a.address.map (·.toNat) ++ rest) := by
    unfold i32
    show (intIn 0 4294967295 >>= _) ((i32ToU32 a.workchain - 0) :: (a.address.map (·.toNat) ++ rest)) = _
    rw [run_bind (intIn_run (Nat.zero_le _) (by omega) _), r2]
    rfl
  rw [run_bind e1]
  have e2 := bytes_run a.address rest
  rw [hl] at e2
  rw [run_bind e2, hcut]
  rfl

theorem intAddr_run {a : IntAddr} (h : Proper a) : ∃ s : Src, intAddr s = .ok (a, []) := by
  cases a with
  | std a =>
    obtain ⟨s, hs⟩ := stdAddr_run h.1 h.2
    refine ⟨1 :: s, ?_⟩
    have h0 : ratio 1 20 (1 :: s) = .ok (false, s) := rfl
    have h1 := hs []
    rw [List.append_nil] at h1
    unfold intAddr
    rw [run_bind h0, if_neg (by decide), run_bind h1]
    rfl
  | var a =>
    obtain ⟨s, hs⟩ := varAddr_run h.1 h.2
    refine ⟨0 :: s, ?_⟩
    have h0 : ratio 1 20 (0 :: s) = .ok (true, s) := rfl
    have h1 := hs []
    rw [List.append_nil] at h1
    unfold intAddr
    rw [run_bind h0, if_pos rfl, run_bind h1]
    rfl

/-! ### Property theorems -/

/-- C99: whatever the input, `IntAddr::arbitrary` ends without a panic, and gives exactly the addresses that can be stored and whose
rewrite prefix has 1 to 30 bits: nothing else comes out, and each of them comes out for some input. -/
theorem C99_int_addr : (∀ s, match intAddr s with
      | .ok (a, _) => Proper a
      | .error e => e = .refused) ∧ ∀ a, Proper a → ∃ s, intAddr s = .ok (a, []) := by
  refine ⟨fun s => ?_, fun a h => intAddr_run h⟩
  have h := safe_intAddr s (Nat.le_refl _)
  revert h
  cases intAddr s with
  | error e => exact id
  | ok p => exact fun h => h.2

/-- C99: whatever the input, `ExtAddr::arbitrary` gives addresses of at most 511 bits with exactly the bytes these need, the rest of the last
byte being zero; and every such address comes from some input. -/
theorem C99_ext_addr : (∀ s, match extAddr s with
      | .ok (a, _) => a.len ≤ 511 ∧ HoldsBits a.data a.len
      | .error e => e = .refused) ∧ ∀ a : ExtAddr, a.len ≤ 511 → HoldsBits a.data a.len → ∃ s, extAddr s = .ok (a, []) := by
  refine ⟨fun s => ?_, fun a h1 h2 => ?_⟩
  · have h := safe_extAddr s (Nat.le_refl _)
    revert h
    cases extAddr s with
    | error e => exact id
    | ok p => exact fun h => h.2
  · obtain ⟨hl, hcut⟩ := cutLast_same h2
    refine ⟨a.len :: a.data.map (·.toNat), ?_⟩
    unfold extAddr
    have e0 : intIn 0 (smallMax 9) (a.len :: a.data.map (·.toNat)) = .ok (a.len, a.data.map (·.toNat)) := intIn_run (v := a.len) (Nat.zero_le _) h1 _
    rw [run_bind e0]
    have e2 := bytes_run a.data []
    rw [List.append_nil, hl] at e2
    rw [run_bind e2, hcut]
    rfl

/-! ### Non-vacuity -/

/-- A standard address with a prefix of 11 bits, whose last byte is cut, and a variable one. -/
example : (match intAddr ([1, 0, 10, 0xff, 0xff, 0x80] ++ List.replicate 32 7) with
      | .ok (.std a, s) => decide (a.anycast = some ⟨11, [0xff, 0xe0]⟩ ∧ a.workchain = -128 ∧ s = [])
      | _ => false) = true ∧
    (match intAddr [0, 1, 13, 4294967295, 0xff, 0xff] with
      | .ok (.var a, s) => decide (a = ⟨none, 13, -1, [0xff, 0xf8]⟩ ∧ s = [])
      | _ => false) = true := by decide +kernel

example : Proper (.std ⟨none, -1, List.replicate 32 7⟩) := ⟨⟨trivial, ⟨by decide, by decide⟩, rfl⟩, fun x e => nomatch e⟩

end Verif.Arb
