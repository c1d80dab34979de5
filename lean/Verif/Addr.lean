import Verif.CodecRel
import Verif.ShardProps
/-
C47, cells: addresses of messages (`models/message/address.rs`).
-/
set_option linter.unusedVariables false
set_option linter.unusedSimpArgs false
namespace Verif
variable {ρ : Type}

/-- `x as u8` for an `i8`. -/
def i8ToU8 (w : Int) : Nat := (w % 2 ^ 8).toNat
/-- `x as i8` for a `u8`. -/
def u8ToI8 (v : Nat) : Int := if v < 2 ^ 7 then v else (v : Int) - 2 ^ 8
/-- The range of `i8`. -/
def IsI8 (w : Int) : Prop := -2 ^ 7 ≤ w ∧ w < 2 ^ 7

theorem i8_round {w : Int} (h : IsI8 w) : i8ToU8 w < 2 ^ 8 ∧ u8ToI8 (i8ToU8 w) = w := by
  unfold IsI8 at h
  unfold u8ToI8 i8ToU8
  refine ⟨?_, ?_⟩
  · omega
  · split <;> omega

theorem u8_round {v : Nat} (h : v < 2 ^ 8) : IsI8 (u8ToI8 v) ∧ i8ToU8 (u8ToI8 v) = v := by
  unfold u8ToI8 i8ToU8 IsI8
  split <;> omega

/-- `address.rs:980-985` `Anycast` -/
structure Anycast where
  depth : Nat
  pfx : List Byte
  deriving DecidableEq, Repr

/-- `address.rs:237-244` `StdAddr` -/
structure StdAddr where
  anycast : Option Anycast
  workchain : Int
  address : List Byte
  deriving DecidableEq, Repr

/-- `address.rs:728-737` `VarAddr` -/
structure VarAddr where
  anycast : Option Anycast
  len : Nat
  workchain : Int
  address : List Byte
  deriving DecidableEq, Repr

/-- `address.rs:19-24` `IntAddr` -/
inductive IntAddr where
  | std (a : StdAddr)
  | var (a : VarAddr)
  deriving DecidableEq, Repr

/-- Bytes that hold exactly `n` bits, the rest of the last byte being zero. -/
def HoldsBits (d : List Byte) (n : Nat) : Prop := ∃ l : Bits, l.length = n ∧ Bitstring.Packs d l

/-- The first `n` bits of bytes. -/
def firstBits (d : List Byte) (n : Nat) : Bits := (bytesToBits d).take n

theorem HoldsBits.packs {d : List Byte} {n : Nat} (h : HoldsBits d n) : (firstBits d n).length = n ∧ Bitstring.Packs d (firstBits d n) ∧
    rawBits d n = firstBits d n := by
  obtain ⟨l, hl, hp⟩ := h
  have e : firstBits d n = l := by rw [← hl]; exact Packs.take hp
  rw [e]
  exact ⟨hl, hp, by rw [← hl]; exact Packs.raw hp⟩

theorem holds_pack (l : Bits) : HoldsBits (packBytes l) l.length ∧ firstBits (packBytes l) l.length = l := 
  ⟨⟨l, rfl, packBytes_packs l⟩, Packs.take (packBytes_packs l)⟩

theorem reads_checkedRaw {d : List Byte} {n : Nat} (hn : n ≤ 1023) (h : HoldsBits d n) :
    Reads (Rd.checkedRaw n : Rd ρ (List Byte)) (Enc.bits (firstBits d n)) d :=
  Rd.Takes.reads_packed (Rd.takes_has_raw hn) h.packs.1 h.packs.2.1

theorem exact_checkedRaw {n : Nat} (hn : n ≤ 1023) :
    Exact (Rd.checkedRaw n : Rd ρ (List Byte)) (fun d e => HoldsBits d n ∧ e = Enc.bits (firstBits d n)) := by
  refine (Rd.takes_has_raw hn).exact.weaken ?_
  rintro v e ⟨l, rfl, rfl, rfl⟩
  have := holds_pack l
  exact ⟨this.1, by rw [this.2]⟩

theorem safe_checkedRaw {n : Nat} (hn : n ≤ 1023) : Safe (Rd.checkedRaw n : Rd ρ (List Byte)) := (Rd.takes_has_raw hn).safe

/-! ### Model -/

namespace Anycast
/-- `address.rs:1010-1012` -/
def bitLen (a : Anycast) : Nat := 5 + a.depth
/-- `address.rs:1025-1037` `Store` -/
def store (a : Anycast) : Wr ρ Unit := do
  Wr.needs a.bitLen 0
  splitDepthStore a.depth
  Wr.raw a.pfx a.depth
/-- `address.rs:1039-1054` `Load` -/
def load : Rd ρ Anycast := do
  let d ← splitDepthLoad
  let p ← Rd.checkedRaw d
  pure ⟨d, p⟩
/-- The values that can be stored and loaded: depth 1 to 31 and that many bits. -/
def Ok (a : Anycast) : Prop := 0 < a.depth ∧ a.depth ≤ 31 ∧ HoldsBits a.pfx a.depth
/-- Specification: `anycast_info$_ depth:(## 5) rewrite_pfx:(bits depth)` -/
def enc (a : Anycast) : Enc ρ := Enc.bits (natBits 5 a.depth ++ firstBits a.pfx a.depth)
end Anycast

/-- The optional anycast part of an address length. -/
def anycastLen : Option Anycast → Nat
  | none => 0
  | some a => a.bitLen

/-- The optional anycast part of an address. -/
def anyEnc (a : Option Anycast) : Enc ρ := optEnc Anycast.enc a

namespace StdAddr
/-- `address.rs:325-331` -/
def bitLen (a : StdAddr) : Nat := 2 + 1 + 8 + 256 + anycastLen a.anycast
/-- `address.rs:443-457` `Store` -/
def store (a : StdAddr) : Wr ρ Unit := do
  Wr.needs a.bitLen 0
  Wr.small 2 2
  optStore Anycast.store a.anycast
  Wr.u8 (i8ToU8 a.workchain)
  Wr.u256 a.address
/-- The part behind the tag of `address.rs:172-177`, `465-469`. -/
def loadBody : Rd ρ StdAddr := do
  let a ← optLoad Anycast.load
  let w ← Rd.u8
  let d ← Rd.u256
  pure ⟨a, u8ToI8 w, d⟩
/-- `address.rs:459-471` `Load` -/
def load : Rd ρ StdAddr := do
  let b ← Rd.bit
  Prog.check b .invalidTag
  let c ← Rd.bit
  Prog.check (!c) .invalidTag
  loadBody
def Ok (a : StdAddr) : Prop := optOk Anycast.Ok a.anycast ∧ IsI8 a.workchain ∧ a.address.length = 32
/-- Specification: `anycast:(Maybe Anycast) workchain_id:int8 address:bits256` -/
def body (a : StdAddr) : Enc ρ := anyEnc a.anycast ++ (Enc.bits (natBits 8 (i8ToU8 a.workchain)) ++ Enc.bits (bytesToBits a.address))
/-- Specification: `addr_std$10` -/
def enc (a : StdAddr) : Enc ρ := Enc.bits [true, false] ++ a.body
end StdAddr

namespace VarAddr
/-- `address.rs:759-765` -/
def bitLen (a : VarAddr) : Nat := 2 + 1 + 9 + 32 + a.len + anycastLen a.anycast
/-- `address.rs:783-798` `Store` -/
def store (a : VarAddr) : Wr ρ Unit := do
  Wr.needs a.bitLen 0
  Wr.small 3 2
  optStore Anycast.store a.anycast
  smallStore 9 a.len
  Wr.u32 (i32ToU32 a.workchain)
  Wr.raw a.address a.len
/-- The part behind the tag of `address.rs:154-170`. -/
def loadBody : Rd ρ VarAddr := do
  let a ← optLoad Anycast.load
  let n ← smallLoad 9
  let w ← Rd.u32
  let d ← Rd.checkedRaw n
  pure ⟨a, n, u32ToI32 w, d⟩
def Ok (a : VarAddr) : Prop := optOk Anycast.Ok a.anycast ∧ a.len ≤ 511 ∧ IsI32 a.workchain ∧ HoldsBits a.address a.len
/-- Specification: `anycast:(Maybe Anycast) addr_len:(## 9) workchain_id:int32 address:(bits addr_len)` -/
def body (a : VarAddr) : Enc ρ := anyEnc a.anycast ++ (Enc.bits (natBits 9 a.len) ++
  (Enc.bits (natBits 32 (i32ToU32 a.workchain)) ++ Enc.bits (firstBits a.address a.len)))
/-- Specification: `addr_var$11` -/
def enc (a : VarAddr) : Enc ρ := Enc.bits [true, true] ++ a.body
end VarAddr

namespace IntAddr
/-- `address.rs:135-146` `Store` -/
def store : IntAddr → Wr ρ Unit
  | std a => a.store
  | var a => a.store
def loadRest : Bool → Rd ρ IntAddr
  | true => do
    let a ← VarAddr.loadBody
    pure (.var a)
  | false => do
    let a ← StdAddr.loadBody
    pure (.std a)
/-- `address.rs:148-180` `Load` -/
def load : Rd ρ IntAddr := do
  let b ← Rd.bit
  Prog.check b .invalidTag
  let c ← Rd.bit
  loadRest c
def Ok : IntAddr → Prop
  | std a => a.Ok
  | var a => a.Ok
def enc : IntAddr → Enc ρ
  | std a => a.enc
  | var a => a.enc
/-- `address.rs:82-87` -/
def bitLen : IntAddr → Nat
  | std a => a.bitLen
  | var a => a.bitLen
end IntAddr

/-! ### Proofs -/

theorem Anycast.enc_length {a : Anycast} (h : a.Ok) : (a.enc : Enc ρ).1.length = a.bitLen ∧ (a.enc : Enc ρ).2.length = 0 := by
  refine ⟨?_, rfl⟩
  show (natBits 5 a.depth ++ firstBits a.pfx a.depth).length = _
  rw [List.length_append, natBits_length, h.2.2.packs.1]; rfl

theorem Anycast.writes {a : Anycast} (h : a.Ok) : WritesAtomic (a.store : Wr ρ Unit) a.enc := by
  have hp := h.2.2.packs
  refine Wr.needs_then ?_ (enc_length h).1 (enc_length h).2 (by unfold bitLen; have := h.2.1; omega)
  have hl : a.pfx.length < 8192 := by
    have := hp.2.1.1
    rw [hp.1] at this
    have := h.2.1
    omega
  have w2 := (Wr.writes_raw (ρ := ρ) (v := a.pfx) (n := a.depth) (by have := h.2.1; omega) hl).writes
  rw [hp.2.2] at w2
  refine (((C44_split_depth_partial (ρ := ρ)).1 a.depth h.1 h.2.1).1.writes.seq w2).cast ?_
  exact Enc.bits_append _ _

theorem Anycast.codes : Codes (ρ := ρ) Anycast.Ok Anycast.store Anycast.load (Canon Anycast.Ok Anycast.enc) Anycast.enc := by
  have hd := C44_split_depth_partial (ρ := ρ)
  refine Codes.ofCanon (fun v h => (writes h).writes) (fun v h => ?_) ?_ ?_
  · refine Reads.cast (Reads.bind (hd.1 v.depth h.1 h.2.1).2.1 (Reads.bind (reads_checkedRaw (by have := h.2.1; omega) h.2.2) (Reads.pure _))) ?_
    rw [Enc.append_nil, Enc.bits_append]; rfl
  · refine Exact.bindx (R3 := fun d v e => v.depth = d ∧ HoldsBits v.pfx d ∧ e = Enc.bits (firstBits v.pfx d)) hd.2.2.1 (fun d e hde => ?_) ?_
    · refine Exact.bind (R3 := fun p v e => v = ⟨d, p⟩ ∧ e = Enc.nil) (exact_checkedRaw (by have := hde.2.1; omega)) (fun p => Exact.pure _ ⟨rfl, rfl⟩) ?_
      rintro p v e1 e2 ⟨h1, rfl⟩ ⟨rfl, rfl⟩
      exact ⟨rfl, h1, Enc.append_nil _⟩
    · rintro d v e1 e2 ⟨h1, h2, rfl⟩ ⟨rfl, h3, rfl⟩
      exact ⟨⟨h1, h2, h3⟩, Enc.bits_append _ _⟩
  · refine Safe.bindx hd.2.2.2 hd.2.2.1 fun d e h => Safe.bind (safe_checkedRaw (by have := h.2.1; omega)) fun _ => Safe.pure _

/-- A signed byte. -/
theorem Codes.i8 : Codes (ρ := ρ) IsI8 (fun w => Wr.u8 (i8ToU8 w)) (do let v ← Rd.u8; pure (u8ToI8 v))
    (Canon IsI8 fun w => Enc.bits (natBits 8 (i8ToU8 w))) (fun w => Enc.bits (natBits 8 (i8ToU8 w))) :=
  (Codes.u8.iso IsI8 u8ToI8 i8ToU8 (fun b h => i8_round h) (fun a h => u8_round h)).cast (fun _ => Iff.rfl) (fun _ _ => rfl) rfl
    (fun v e => ⟨fun h => ⟨h.1, h.2.2⟩, fun h => ⟨h.1, (i8_round h.1).1, h.2⟩⟩) (fun _ _ => rfl)

/-- A signed word. -/
theorem Codes.i32 : Codes (ρ := ρ) IsI32 (fun w => Wr.u32 (i32ToU32 w)) (do let v ← Rd.u32; pure (u32ToI32 v))
    (Canon IsI32 fun w => Enc.bits (natBits 32 (i32ToU32 w))) (fun w => Enc.bits (natBits 32 (i32ToU32 w))) :=
  (Codes.u32.iso IsI32 u32ToI32 i32ToU32 (fun b h => ⟨ShardIdent.i32_lt b, ShardIdent.i32_round h⟩)
    (fun a h => ⟨(ShardIdent.u32_round h).2, (ShardIdent.u32_round h).1⟩)).cast (fun _ => Iff.rfl) (fun _ _ => rfl) rfl
    (fun v e => ⟨fun h => ⟨h.1, h.2.2⟩, fun h => ⟨h.1, ShardIdent.i32_lt _, h.2⟩⟩) (fun _ _ => rfl)

theorem anycastOpt_codes : Codes (ρ := ρ) (optOk Anycast.Ok) (optStore Anycast.store) (optLoad Anycast.load) (Canon (optOk Anycast.Ok) anyEnc) anyEnc :=
  Anycast.codes.opt.cast (fun _ => Iff.rfl) (fun _ _ => rfl) rfl (fun v e => canon_opt v e) (fun _ _ => rfl)

theorem StdAddr.body_codes : Codes (ρ := ρ) StdAddr.Ok
    (fun a => do optStore Anycast.store a.anycast; Wr.u8 (i8ToU8 a.workchain); Wr.u256 a.address) StdAddr.loadBody
    (Canon StdAddr.Ok StdAddr.body) StdAddr.body := by
  refine ((anycastOpt_codes.pair (Codes.i8.pair Codes.u256)).iso StdAddr.Ok (fun p => ⟨p.1, p.2.1, p.2.2⟩) (fun a => (a.anycast, a.workchain, a.address))
    (fun a h => ⟨h, rfl⟩) (fun p h => ⟨h, rfl⟩)).cast (fun _ => Iff.rfl) (fun _ _ => rfl) ?_ (fun v e => ?_) (fun _ _ => rfl)
  · unfold loadBody pairLoad
    simp only [Prog.bind_assoc', Prog.pure_bind']
  · constructor
    · rintro ⟨h, e1, e2, h1, h2, rfl⟩
      have h2 := (canon_pair _ _).1 h2
      exact ⟨h, by rw [h1.2, h2.2]; rfl⟩
    · rintro ⟨h, rfl⟩
      exact ⟨h, _, _, ⟨h.1, rfl⟩, (canon_pair _ _).2 ⟨h.2, rfl⟩, rfl⟩

theorem uint9_codes : Codes (ρ := ρ) (fun n => n ≤ 511) (smallStore 9) (smallLoad 9) (Canon (fun n => n ≤ 511) fun n => Enc.bits (natBits 9 n))
    (fun n => Enc.bits (natBits 9 n)) := by
  have h := C44_small (ρ := ρ) (n := 9) (Or.inl rfl)
  have e : smallMax 9 = 511 := by decide
  rw [e] at h
  exact Codes.ofCanon (fun v hv => (h.1 v hv).1.writes) (fun v hv => (h.1 v hv).2) h.2.2.1 h.2.2.2

/-- Specification of a length followed by that many bits. -/
def lenBitsR (v : Nat × Int × List Byte) (e : Enc ρ) : Prop :=
  v.1 ≤ 511 ∧ IsI32 v.2.1 ∧ HoldsBits v.2.2 v.1 ∧
    e = Enc.bits (natBits 9 v.1) ++ (Enc.bits (natBits 32 (i32ToU32 v.2.1)) ++ Enc.bits (firstBits v.2.2 v.1))

theorem VarAddr.body_codes : Codes (ρ := ρ) VarAddr.Ok
    (fun a => do optStore Anycast.store a.anycast; smallStore 9 a.len; Wr.u32 (i32ToU32 a.workchain); Wr.raw a.address a.len) VarAddr.loadBody
    (Canon VarAddr.Ok VarAddr.body) VarAddr.body := by
  have ha := anycastOpt_codes (ρ := ρ)
  have hn := uint9_codes (ρ := ρ)
  have hw := Codes.u32 (ρ := ρ)
  refine Codes.ofCanon (fun v h => ?_) (fun v h => ?_) ?_ ?_
  · have hp := h.2.2.2.packs
    have hl : v.address.length < 8192 := by
      have := hp.2.1.1
      rw [hp.1] at this
      have := h.2.1
      omega
    have w4 := (Wr.writes_raw (ρ := ρ) (v := v.address) (n := v.len) (by have := h.2.1; omega) hl).writes
    rw [hp.2.2] at w4
    exact (ha.writes _ h.1).seq ((hn.writes _ h.2.1).seq ((hw.writes _ (ShardIdent.i32_lt _)).seq w4))
  · refine (ha.reads _ _ ⟨h.1, rfl⟩).bind ((hn.reads _ _ ⟨h.2.1, rfl⟩).bind ((hw.reads _ _ ⟨ShardIdent.i32_lt _, rfl⟩).bind ?_))
    refine Reads.cast ((reads_checkedRaw (by have := h.2.1; omega) h.2.2.2).bind (w := v) (e2 := Enc.nil) ?_) (Enc.append_nil _)
    rw [ShardIdent.i32_round h.2.2.1]
    exact Reads.pure v
  · refine Exact.bind (R3 := fun a v e => v.anycast = a ∧ v.len ≤ 511 ∧ IsI32 v.workchain ∧ HoldsBits v.address v.len ∧
        e = Enc.bits (natBits 9 v.len) ++ (Enc.bits (natBits 32 (i32ToU32 v.workchain)) ++ Enc.bits (firstBits v.address v.len))) ha.exact (fun a => ?_) ?_
    · refine Exact.bindx (R3 := fun n v e => v.anycast = a ∧ v.len = n ∧ IsI32 v.workchain ∧ HoldsBits v.address v.len ∧
        e = Enc.bits (natBits 32 (i32ToU32 v.workchain)) ++ Enc.bits (firstBits v.address v.len)) hn.exact (fun n e hne => ?_) ?_
      · refine Exact.bindx (R3 := fun w v e => v.anycast = a ∧ v.len = n ∧ v.workchain = u32ToI32 w ∧ HoldsBits v.address v.len ∧
          e = Enc.bits (firstBits v.address v.len)) hw.exact (fun w e hwe => ?_) ?_
        · refine Exact.bind (R3 := fun d v e => v = ⟨a, n, u32ToI32 w, d⟩ ∧ e = Enc.nil) (exact_checkedRaw (by have := hne.1; omega))
            (fun p => Exact.pure _ ⟨rfl, rfl⟩) ?_
          rintro p v e1 e2 ⟨h1, rfl⟩ ⟨rfl, rfl⟩
          exact ⟨rfl, rfl, rfl, h1, Enc.append_nil _⟩
        · rintro w v e1 e2 ⟨h1, rfl⟩ ⟨h2, h3, h4, h5, rfl⟩
          refine ⟨h2, h3, ?_, h5, ?_⟩
          · rw [h4]; exact (ShardIdent.u32_round h1).2
          · rw [h4, (ShardIdent.u32_round h1).1]
      · rintro n v e1 e2 ⟨h1, rfl⟩ ⟨h2, rfl, h4, h5, rfl⟩
        exact ⟨h2, h1, h4, h5, rfl⟩
    · rintro a v e1 e2 ⟨h1, rfl⟩ ⟨rfl, h2, h3, h4, rfl⟩
      exact ⟨⟨h1, h2, h3, h4⟩, rfl⟩
  · exact Safe.bind ha.safe fun _ => Safe.bindx hn.safe hn.exact fun n e h => Safe.bind hw.safe fun _ =>
      Safe.bind (safe_checkedRaw (by have := h.1; omega)) fun _ => Safe.pure _

theorem anyEnc_length {a : Option Anycast} (h : optOk Anycast.Ok a) : (anyEnc a : Enc ρ).1.length = 1 + anycastLen a ∧ (anyEnc a : Enc ρ).2 = [] := by
  cases a with
  | none => exact ⟨rfl, rfl⟩
  | some a =>
    refine ⟨?_, rfl⟩
    show ([true] ++ (a.enc : Enc ρ).1).length = _
    rw [List.length_append, (Anycast.enc_length h).1]; rfl

theorem StdAddr.enc_length {a : StdAddr} (h : a.Ok) : (a.enc : Enc ρ).1.length = a.bitLen ∧ (a.enc : Enc ρ).2.length = 0 := by
  have ha := anyEnc_length (ρ := ρ) h.1
  refine ⟨?_, ?_⟩
  · show ([true, false] ++ ((anyEnc a.anycast : Enc ρ).1 ++ (natBits 8 (i8ToU8 a.workchain) ++ bytesToBits a.address))).length = _
    simp only [List.length_append, ha.1, natBits_length, bytesToBits_length, h.2.2, List.length_cons, List.length_nil]
    unfold bitLen; omega
  · show ([] ++ ((anyEnc a.anycast : Enc ρ).2 ++ ([] ++ []))).length = 0
    rw [ha.2]; rfl

theorem VarAddr.enc_length {a : VarAddr} (h : a.Ok) : (a.enc : Enc ρ).1.length = a.bitLen ∧ (a.enc : Enc ρ).2.length = 0 := by
  have ha := anyEnc_length (ρ := ρ) h.1
  refine ⟨?_, ?_⟩
  · show ([true, true] ++ ((anyEnc a.anycast : Enc ρ).1 ++ (natBits 9 a.len ++ (natBits 32 (i32ToU32 a.workchain) ++ firstBits a.address a.len)))).length = _
    simp only [List.length_append, ha.1, natBits_length, h.2.2.2.packs.1, List.length_cons, List.length_nil]
    unfold bitLen; omega
  · show ([] ++ ((anyEnc a.anycast : Enc ρ).2 ++ ([] ++ ([] ++ [])))).length = 0
    rw [ha.2]; rfl

theorem anycastLen_le {a : Option Anycast} (h : optOk Anycast.Ok a) : anycastLen a ≤ 36 := by
  cases a with
  | none => exact Nat.zero_le _
  | some a => have : a.depth ≤ 31 := h.2.1; show 5 + a.depth ≤ 36; omega

theorem StdAddr.writes {a : StdAddr} (h : a.Ok) : WritesAtomic (a.store : Wr ρ Unit) a.enc := by
  refine Wr.needs_then ?_ (enc_length h).1 (enc_length h).2 (by unfold bitLen; have := anycastLen_le h.1; omega)
  exact (Wr.writes_small 2 (n := 2) (by decide)).writes.seq (StdAddr.body_codes.writes a h)

theorem VarAddr.writes {a : VarAddr} (h : a.Ok) : WritesAtomic (a.store : Wr ρ Unit) a.enc := by
  refine Wr.needs_then ?_ (enc_length h).1 (enc_length h).2 (by unfold bitLen; have := anycastLen_le h.1; have := h.2.1; omega)
  exact (Wr.writes_small 3 (n := 2) (by decide)).writes.seq (VarAddr.body_codes.writes a h)

/-! ### C47 -/

/-- C47: a standard address is stored in exactly its TL-B form (or not at all if there is no room) of `bit_len` bits, is loaded from it,
and nothing but such a form is ever accepted. -/
theorem C47_std :
    Codes (ρ := ρ) StdAddr.Ok StdAddr.store StdAddr.load (Canon StdAddr.Ok StdAddr.enc) StdAddr.enc ∧
    ∀ a : StdAddr, a.Ok → WritesAtomic (a.store : Wr ρ Unit) a.enc ∧ (a.enc : Enc ρ).1.length = a.bitLen ∧ (a.enc : Enc ρ).2 = [] := by
  have hb := StdAddr.body_codes (ρ := ρ)
  refine ⟨Codes.ofCanon (fun v h => (StdAddr.writes h).writes) (fun v h => ?_) ?_ ?_, fun a h => ⟨StdAddr.writes h, (StdAddr.enc_length h).1,
    List.eq_nil_of_length_eq_zero (StdAddr.enc_length h).2⟩⟩
  · refine Reads.cast ((Rd.reads_bit true).bind ((Reads.check rfl).bind ((Rd.reads_bit false).bind ((Reads.check rfl).bind (hb.reads v _ ⟨h, rfl⟩))))) ?_
    rfl
  · refine Exact.bind (R3 := fun b v e => b = true ∧ v.Ok ∧ e = Enc.bits [false] ++ v.body) Rd.exact_bit (fun b => ?_) ?_
    · refine Exact.bind (R3 := fun _ v e => v.Ok ∧ e = Enc.bits [false] ++ v.body) (Exact.check b _) (fun _ => ?_) ?_
      · refine Exact.bind (R3 := fun c v e => c = false ∧ v.Ok ∧ e = v.body) Rd.exact_bit (fun c => ?_) ?_
        · refine Exact.bind (R3 := fun _ v e => v.Ok ∧ e = v.body) (Exact.check (!c) _) (fun _ => hb.exact) ?_
          rintro u v e1 e2 ⟨h1, rfl⟩ h2
          exact ⟨by simpa using h1, h2.1, by rw [Enc.nil_append]; exact h2.2⟩
        · rintro c v e1 e2 rfl ⟨rfl, h2, rfl⟩
          exact ⟨h2, rfl⟩
      · rintro u v e1 e2 ⟨h1, rfl⟩ h2
        exact ⟨h1, h2.1, by rw [Enc.nil_append]; exact h2.2⟩
    · rintro b v e1 e2 rfl ⟨rfl, h2, rfl⟩
      exact ⟨h2, rfl⟩
  · exact Safe.bind Rd.takes_bit.safe fun b => Safe.bind (Safe.check _ (by decide) (by decide)) fun _ => Safe.bind Rd.takes_bit.safe fun c =>
      Safe.bind (Safe.check _ (by decide) (by decide)) fun _ => hb.safe

/-- C47: the same for internal addresses of both kinds. -/
theorem C47_int :
    Codes (ρ := ρ) IntAddr.Ok IntAddr.store IntAddr.load (Canon IntAddr.Ok IntAddr.enc) IntAddr.enc ∧
    ∀ a : IntAddr, a.Ok → WritesAtomic (a.store : Wr ρ Unit) a.enc ∧ (a.enc : Enc ρ).1.length = a.bitLen ∧ (a.enc : Enc ρ).2 = [] := by
  have hb := StdAddr.body_codes (ρ := ρ)
  have hv := VarAddr.body_codes (ρ := ρ)
  have hw : ∀ a : IntAddr, a.Ok → WritesAtomic (a.store : Wr ρ Unit) a.enc := by
    intro a h
    cases a with
    | std a => exact StdAddr.writes h
    | var a => exact VarAddr.writes h
  refine ⟨Codes.ofCanon (fun v h => (hw v h).writes) (fun v h => ?_) ?_ ?_, fun a h => ⟨hw a h, ?_⟩⟩
  · cases v with
    | std a =>
      refine Reads.cast ((Rd.reads_bit true).bind ((Reads.check rfl).bind ((Rd.reads_bit false).bind ((hb.reads a _ ⟨h, rfl⟩).bind (Reads.pure _))))) ?_
      rw [Enc.append_nil]; rfl
    | var a =>
      refine Reads.cast ((Rd.reads_bit true).bind ((Reads.check rfl).bind ((Rd.reads_bit true).bind ((hv.reads a _ ⟨h, rfl⟩).bind (Reads.pure _))))) ?_
      rw [Enc.append_nil]; rfl
  · refine Exact.bind (R3 := fun b v e => b = true ∧ v.Ok ∧ Enc.bits [true] ++ e = v.enc) Rd.exact_bit (fun b => ?_) ?_
    · refine Exact.bind (R3 := fun _ v e => v.Ok ∧ Enc.bits [true] ++ e = v.enc) (Exact.check b _) (fun _ => ?_) ?_
      · refine Exact.bind (R3 := fun c v e => v.Ok ∧ Enc.bits [true] ++ (Enc.bits [c] ++ e) = v.enc) Rd.exact_bit (fun c => ?_) ?_
        · cases c with
          | false =>
            refine Exact.bind (R3 := fun a v e => v = .std a ∧ e = Enc.nil) hb.exact (fun a => Exact.pure _ ⟨rfl, rfl⟩) ?_
            rintro a v e1 e2 ⟨h1, rfl⟩ ⟨rfl, rfl⟩
            exact ⟨h1, by rw [Enc.append_nil]; rfl⟩
          | true =>
            refine Exact.bind (R3 := fun a v e => v = .var a ∧ e = Enc.nil) hv.exact (fun a => Exact.pure _ ⟨rfl, rfl⟩) ?_
            rintro a v e1 e2 ⟨h1, rfl⟩ ⟨rfl, rfl⟩
            exact ⟨h1, by rw [Enc.append_nil]; rfl⟩
        · rintro c v e1 e2 rfl ⟨h2, h3⟩
          exact ⟨h2, h3⟩
      · rintro u v e1 e2 ⟨h1, rfl⟩ h2
        exact ⟨h1, h2.1, by rw [Enc.nil_append]; exact h2.2⟩
    · rintro b v e1 e2 rfl ⟨rfl, h2, h3⟩
      exact ⟨h2, h3⟩
  · refine Safe.bind Rd.takes_bit.safe fun b => Safe.bind (Safe.check _ (by decide) (by decide)) fun _ => Safe.bind Rd.takes_bit.safe fun c => ?_
    cases c with
    | false => exact Safe.bind hb.safe fun _ => Safe.pure _
    | true => exact Safe.bind hv.safe fun _ => Safe.pure _
  · cases a with
    | std a => exact ⟨(StdAddr.enc_length h).1, List.eq_nil_of_length_eq_zero (StdAddr.enc_length h).2⟩
    | var a => exact ⟨(VarAddr.enc_length h).1, List.eq_nil_of_length_eq_zero (VarAddr.enc_length h).2⟩

/-- C47, violated: an anycast prefix of 31 bits, which the TL-B scheme excludes, is accepted and stored. -/
theorem C47_anycast_31 : (⟨31, [0xff, 0xff, 0xff, 0xfe]⟩ : Anycast).Ok := by
  refine ⟨by decide, by decide, List.replicate 31 true, by decide, by decide, by decide⟩

example : StdAddr.Ok ⟨some ⟨3, [0xa0]⟩, -1, List.replicate 32 7⟩ :=
  ⟨⟨by decide, by decide, [true, false, true], rfl, rfl, by decide⟩, by unfold IsI8; decide, rfl⟩
example : IntAddr.Ok (.var ⟨none, 12, 77, [0xab, 0xc0]⟩) :=
  ⟨trivial, by decide, by unfold IsI32; decide, bytesToBits [0xab] ++ [true, true, false, false], by decide, by decide, by decide⟩

end Verif
