import Verif.BitText
/-
Raw reads, packed bytes and the combinators for codecs: a codec is a pair of programs with a grammar `R v e`
("`e` is an encoding of `v`") and a canonical encoding.
-/
set_option linter.unusedVariables false
set_option linter.unusedSimpArgs false
namespace Verif
variable {ρ : Type}

/-! ### Packed bytes -/

/-- The bytes that hold the bits, filled with zeros at the end. -/
def packBytes (l : Bits) : List Byte := Rd.bytesOf ((l.length + 7) / 8) (LoadOp.padToBytes l)

theorem padToBytes_length (l : Bits) : (LoadOp.padToBytes l).length = 8 * ((l.length + 7) / 8) := by
  unfold LoadOp.padToBytes
  simp; omega

theorem packBytes_bits (l : Bits) : bytesToBits (packBytes l) = LoadOp.padToBytes l :=
  Rd.bytesToBits_bytesOf (padToBytes_length l)

theorem packBytes_packs (l : Bits) : Bitstring.Packs (packBytes l) l := by
  have hl : (packBytes l).length = (l.length + 7) / 8 := by
    have := congrArg List.length (packBytes_bits l)
    rw [bytesToBits_length, padToBytes_length] at this
    omega
  refine ⟨hl, ?_⟩
  rw [packBytes_bits, hl]; rfl

theorem Packs.eq {d : List Byte} {l : Bits} (h : Bitstring.Packs d l) : d = packBytes l := by
  apply bytesToBits_inj
  rw [packBytes_bits, h.2, h.1]; rfl

theorem Packs.take {d : List Byte} {l : Bits} (h : Bitstring.Packs d l) : (bytesToBits d).take l.length = l := by
  rw [h.2]; simp

theorem Packs.raw {d : List Byte} {l : Bits} (h : Bitstring.Packs d l) : rawBits d l.length = l := by
  unfold rawBits
  rw [if_pos (by rw [h.1]; omega), Packs.take h]

/-! ### Raw reads -/

namespace Rd

/-- `load_raw` into a buffer of `cap` bytes. -/
def raw (cap n : Nat) : Rd ρ (List Byte) := fun s => s.loadRaw cap n

/-- `has_remaining` or `CellUnderflow`. -/
def has (n r : Nat) : Rd ρ Unit := fun s => if s.range.hasRemaining n r then (.ok (), s) else (.error .cellUnderflow, s)

theorem takes_raw {cap n : Nat} (hn : n ≤ 1023) (hc : (n + 7) / 8 ≤ cap) : Takes (raw cap n : Rd ρ (List Byte)) n packBytes := by
  have h : Takes (conv (fun x => x) (fun s : CSlice ρ => s.loadRaw cap n)) n packBytes := by
    refine takes_of (v := fun v => Val.bits (bytesToBits v)) ?_ fun s hs => ?_
    · intro x y h
      injection h with h
      exact bytesToBits_inj h
    · have := C03_read hs (.raw cap n) (by show n ≤ 64511; omega)
      simp only [LoadOp.run, LoadOp.spec, if_pos hc] at this
      have e : (fun b => Val.bits (bytesToBits (packBytes b)) : Bits → Val ρ) = fun b => Val.bits (LoadOp.padToBytes b) := by
        funext b; rw [packBytes_bits]
      rw [e]
      exact this
  rw [conv_id] at h
  exact h

theorem has_spec {s : CSlice ρ} (hs : s.WF) {n : Nat} (hn : n ≤ 1023) :
    has n 0 s = if n ≤ s.bits.length then (.ok (), s) else (.error .cellUnderflow, s) := by
  have h1 := hs.start_le
  have h2 := hs.end_le
  have h3 := hs.data_le
  have h4 := hs.rstart_le
  have h5 := hs.rend_le
  have h6 := hs.refs_le
  unfold has SliceRange.hasRemaining
  rw [CSlice.bits_length]
  unfold u16add u8add
  rw [Nat.mod_eq_of_lt (by omega), Nat.mod_eq_of_lt (by omega)]
  by_cases h : n ≤ s.range.bitsEnd - s.range.bitsStart
  · rw [if_pos h, if_pos]
    simp only [Bool.and_eq_true, decide_eq_true_eq]; omega
  · rw [if_neg h, if_neg]
    simp only [Bool.and_eq_true, decide_eq_true_eq]; omega

theorem takes_has_raw {n : Nat} (hn : n ≤ 1023) : Takes (has n 0 >>= fun _ => raw ((n + 7) / 8) n : Rd ρ (List Byte)) n packBytes := by
  intro s hs
  have hr := takes_raw (ρ := ρ) hn (Nat.le_refl _) s hs
  have hh := has_spec hs hn
  constructor
  · intro h
    rw [if_pos h] at hh
    rw [Prog.bind_ok hh]
    exact hr.1 h
  · intro h
    rw [if_neg h] at hh
    exact Prog.bind_err hh

/-- Reading packed bytes: exactly the `n` bits are consumed. -/
theorem Takes.reads_packed {p : Rd ρ (List Byte)} {n : Nat} (h : Takes p n packBytes) {d : List Byte} {l : Bits} (hl : l.length = n)
    (hp : Bitstring.Packs d l) : Reads p (Enc.bits l) d := by
  rw [Packs.eq hp]
  exact h.reads hl

/-- `has_remaining` and then `load_raw` into a buffer of just the right size. -/
def checkedRaw (n : Nat) : Rd ρ (List Byte) := do
  has n 0
  raw ((n + 7) / 8) n

end Rd

/-! ### Codecs -/

/-- `store` and `load` implement the grammar `R` with the canonical encoding `enc`, for the values `ok`. -/
structure Codes {α : Type} (ok : α → Prop) (store : α → Wr ρ Unit) (load : Rd ρ α) (R : α → Enc ρ → Prop) (enc : α → Enc ρ) : Prop where
  writes : ∀ v, ok v → Writes (store v) (enc v)
  canon : ∀ v, ok v → R v (enc v)
  valid : ∀ v e, R v e → ok v
  reads : ∀ v e, R v e → Reads load e v
  exact : Exact load R
  safe : Safe load

/-- The grammar with exactly one encoding per value. -/
def Canon {α : Type} (ok : α → Prop) (enc : α → Enc ρ) (v : α) (e : Enc ρ) : Prop := ok v ∧ e = enc v

theorem Codes.ofCanon {α : Type} {ok : α → Prop} {store : α → Wr ρ Unit} {load : Rd ρ α} {enc : α → Enc ρ}
    (h1 : ∀ v, ok v → Writes (store v) (enc v)) (h2 : ∀ v, ok v → Reads load (enc v) v)
    (h3 : Exact load (Canon ok enc)) (h4 : Safe load) : Codes ok store load (Canon ok enc) enc :=
  ⟨h1, fun v h => ⟨h, rfl⟩, fun v e h => h.1, fun v e h => h.2 ▸ h2 v h.1, h3, h4⟩

/-- `Option<T>`: `cell/mod.rs` `Store`/`Load` of `Option`: a bit and the value. -/
def optStore {α : Type} (store : α → Wr ρ Unit) : Option α → Wr ρ Unit
  | none => Wr.bit false
  | some v => do
    Wr.bit true
    store v

def optRest {α : Type} (load : Rd ρ α) : Bool → Rd ρ (Option α)
  | false => pure none
  | true => do
    let v ← load
    pure (some v)

def optLoad {α : Type} (load : Rd ρ α) : Rd ρ (Option α) := do
  let b ← Rd.bit
  optRest load b

def optOk {α : Type} (ok : α → Prop) : Option α → Prop
  | none => True
  | some v => ok v

def optEnc {α : Type} (enc : α → Enc ρ) : Option α → Enc ρ
  | none => Enc.bits [false]
  | some v => Enc.bits [true] ++ enc v

def optR {α : Type} (R : α → Enc ρ → Prop) : Option α → Enc ρ → Prop
  | none, e => e = Enc.bits [false]
  | some v, e => ∃ e', R v e' ∧ e = Enc.bits [true] ++ e'

theorem Codes.opt {α : Type} {ok : α → Prop} {store : α → Wr ρ Unit} {load : Rd ρ α} {R : α → Enc ρ → Prop} {enc : α → Enc ρ}
    (h : Codes ok store load R enc) : Codes (optOk ok) (optStore store) (optLoad load) (optR R) (optEnc enc) where
  writes := by
    intro v hv
    cases v with
    | none => exact (Wr.writes_bit false).writes
    | some v => exact (Wr.writes_bit true).writes.seq (h.writes v hv)
  canon := by
    intro v hv
    cases v with
    | none => rfl
    | some v => exact ⟨_, h.canon v hv, rfl⟩
  valid := by
    intro v e hv
    cases v with
    | none => trivial
    | some v => obtain ⟨e', h1, _⟩ := hv; exact h.valid v e' h1
  reads := by
    intro v e hv
    cases v with
    | none =>
      have hv : e = Enc.bits [false] := hv
      rw [hv, ← Enc.append_nil (Enc.bits [false])]
      exact (Rd.reads_bit false).bind (Reads.pure none)
    | some v =>
      obtain ⟨e', h1, rfl⟩ := hv
      refine (Rd.reads_bit true).bind ?_
      rw [← Enc.append_nil e']
      exact (h.reads v e' h1).bind (Reads.pure (some v))
  exact := by
    refine Exact.bind (R3 := fun b v e => match b with
        | false => v = none ∧ e = Enc.nil
        | true => ∃ w, v = some w ∧ R w e) Rd.exact_bit (fun b => ?_) ?_
    · cases b with
      | false => exact Exact.pure none ⟨rfl, rfl⟩
      | true =>
        refine Exact.bind (R3 := fun w v e => v = some w ∧ e = Enc.nil) h.exact (fun w => Exact.pure _ ⟨rfl, rfl⟩) ?_
        rintro a b e1 e2 h1 ⟨rfl, rfl⟩
        exact ⟨a, rfl, by rwa [Enc.append_nil]⟩
    · intro b v e1 e2 h1 h2
      subst h1
      cases b with
      | false => obtain ⟨rfl, rfl⟩ := h2; exact Enc.append_nil _
      | true => obtain ⟨w, rfl, h2⟩ := h2; exact ⟨e2, h2, rfl⟩
  safe := by
    refine Safe.bind Rd.takes_bit.safe fun b => ?_
    cases b with
    | false => exact Safe.pure _
    | true => exact Safe.bind h.safe fun _ => Safe.pure _

/-- Two fields in sequence. -/
def pairStore {α β : Type} (sa : α → Wr ρ Unit) (sb : β → Wr ρ Unit) (v : α × β) : Wr ρ Unit := do
  sa v.1
  sb v.2

def pairLoad {α β : Type} (la : Rd ρ α) (lb : Rd ρ β) : Rd ρ (α × β) := do
  let a ← la
  let b ← lb
  pure (a, b)

def pairR {α β : Type} (Ra : α → Enc ρ → Prop) (Rb : β → Enc ρ → Prop) (v : α × β) (e : Enc ρ) : Prop :=
  ∃ e1 e2, Ra v.1 e1 ∧ Rb v.2 e2 ∧ e = e1 ++ e2

theorem Codes.pair {α β : Type} {oka : α → Prop} {sa : α → Wr ρ Unit} {la : Rd ρ α} {Ra : α → Enc ρ → Prop} {ea : α → Enc ρ}
    {okb : β → Prop} {sb : β → Wr ρ Unit} {lb : Rd ρ β} {Rb : β → Enc ρ → Prop} {eb : β → Enc ρ}
    (ha : Codes oka sa la Ra ea) (hb : Codes okb sb lb Rb eb) :
    Codes (fun v => oka v.1 ∧ okb v.2) (pairStore sa sb) (pairLoad la lb) (pairR Ra Rb) (fun v => ea v.1 ++ eb v.2) where
  writes v h := (ha.writes v.1 h.1).seq (hb.writes v.2 h.2)
  canon v h := ⟨_, _, ha.canon v.1 h.1, hb.canon v.2 h.2, rfl⟩
  valid := by
    rintro v e ⟨e1, e2, h1, h2, _⟩
    exact ⟨ha.valid _ _ h1, hb.valid _ _ h2⟩
  reads := by
    rintro ⟨a, b⟩ e ⟨e1, e2, h1, h2, rfl⟩
    refine (ha.reads a e1 h1).bind ?_
    rw [← Enc.append_nil e2]
    exact (hb.reads b e2 h2).bind (Reads.pure (a, b))
  exact := by
    refine Exact.bind (R3 := fun a v e => v.1 = a ∧ Rb v.2 e) ha.exact (fun a => ?_) ?_
    · refine Exact.bind (R3 := fun b v e => v = (a, b) ∧ e = Enc.nil) hb.exact (fun b => Exact.pure _ ⟨rfl, rfl⟩) ?_
      rintro b v e1 e2 h1 ⟨rfl, rfl⟩
      exact ⟨rfl, by rwa [Enc.append_nil]⟩
    · rintro a ⟨a', b⟩ e1 e2 h1 ⟨rfl, h2⟩
      exact ⟨e1, e2, h1, h2, rfl⟩
  safe := Safe.bind ha.safe fun _ => Safe.bind hb.safe fun _ => Safe.pure _

/-- A converted value: `f` and `g` are inverse on the valid values. -/
theorem Codes.iso {α β : Type} {ok : α → Prop} {store : α → Wr ρ Unit} {load : Rd ρ α} {R : α → Enc ρ → Prop} {enc : α → Enc ρ}
    (h : Codes ok store load R enc) (okb : β → Prop) (f : α → β) (g : β → α) (hfg : ∀ b, okb b → ok (g b) ∧ f (g b) = b)
    (hgf : ∀ a, ok a → okb (f a) ∧ g (f a) = a) :
    Codes okb (fun b => store (g b)) (do let a ← load; pure (f a)) (fun b e => okb b ∧ R (g b) e) (fun b => enc (g b)) where
  writes b hb := h.writes _ (hfg b hb).1
  canon b hb := ⟨hb, h.canon _ (hfg b hb).1⟩
  valid b e hb := hb.1
  reads := by
    intro b e hb
    rw [← Enc.append_nil e]
    refine (h.reads _ _ hb.2).bind ?_
    rw [(hfg b hb.1).2]; exact Reads.pure b
  exact := by
    refine Exact.bindx (R3 := fun a b e => okb b ∧ g b = a ∧ e = Enc.nil) h.exact
      (fun a e ha => Exact.pure _ ⟨(hgf a (h.valid a e ha)).1, (hgf a (h.valid a e ha)).2, rfl⟩) ?_
    rintro a b e1 e2 h1 ⟨h2, rfl, rfl⟩
    exact ⟨h2, by rwa [Enc.append_nil]⟩
  safe := Safe.bind h.safe fun _ => Safe.pure _

/-- Another writer of the same encodings. -/
theorem Codes.restore {α : Type} {ok : α → Prop} {store : α → Wr ρ Unit} {load : Rd ρ α} {R : α → Enc ρ → Prop} {enc : α → Enc ρ}
    (h : Codes ok store load R enc) {store' : α → Wr ρ Unit} (hw : ∀ v, ok v → Writes (store' v) (enc v)) : Codes ok store' load R enc :=
  { h with writes := hw }

/-- A bit that selects one of two forms. -/
def eitherLoad {α β : Type} (la : Rd ρ α) (lb : Rd ρ β) : Bool → Rd ρ (α ⊕ β)
  | false => do let a ← la; pure (.inl a)
  | true => do let b ← lb; pure (.inr b)

def eitherStore {α β : Type} (sa : α → Wr ρ Unit) (sb : β → Wr ρ Unit) : α ⊕ β → Wr ρ Unit
  | .inl a => do Wr.bit false; sa a
  | .inr b => do Wr.bit true; sb b

def eitherEnc {α β : Type} (ea : α → Enc ρ) (eb : β → Enc ρ) : α ⊕ β → Enc ρ
  | .inl a => Enc.bits [false] ++ ea a
  | .inr b => Enc.bits [true] ++ eb b

def eitherR {α β : Type} (Ra : α → Enc ρ → Prop) (Rb : β → Enc ρ → Prop) : α ⊕ β → Enc ρ → Prop
  | .inl a, e => ∃ e', Ra a e' ∧ e = Enc.bits [false] ++ e'
  | .inr b, e => ∃ e', Rb b e' ∧ e = Enc.bits [true] ++ e'

def eitherOk {α β : Type} (oka : α → Prop) (okb : β → Prop) : α ⊕ β → Prop
  | .inl a => oka a
  | .inr b => okb b

theorem Codes.either {α β : Type} {oka : α → Prop} {sa : α → Wr ρ Unit} {la : Rd ρ α} {Ra : α → Enc ρ → Prop} {ea : α → Enc ρ}
    {okb : β → Prop} {sb : β → Wr ρ Unit} {lb : Rd ρ β} {Rb : β → Enc ρ → Prop} {eb : β → Enc ρ}
    (ha : Codes oka sa la Ra ea) (hb : Codes okb sb lb Rb eb) :
    Codes (eitherOk oka okb) (eitherStore sa sb) (do let b ← Rd.bit; eitherLoad la lb b) (eitherR Ra Rb) (eitherEnc ea eb) where
  writes v h := match v, h with
    | .inl a, h => (Wr.writes_bit false).writes.seq (ha.writes a h)
    | .inr b, h => (Wr.writes_bit true).writes.seq (hb.writes b h)
  canon v h := match v, h with
    | .inl a, h => ⟨_, ha.canon a h, rfl⟩
    | .inr b, h => ⟨_, hb.canon b h, rfl⟩
  valid v e h := match v, h with
    | .inl a, ⟨e', h, _⟩ => ha.valid a e' h
    | .inr b, ⟨e', h, _⟩ => hb.valid b e' h
  reads := by
    intro v e h
    cases v with
    | inl a =>
      obtain ⟨e', h, rfl⟩ := h
      refine (Rd.reads_bit false).bind ?_
      rw [← Enc.append_nil e']
      exact (ha.reads a e' h).bind (Reads.pure _)
    | inr b =>
      obtain ⟨e', h, rfl⟩ := h
      refine (Rd.reads_bit true).bind ?_
      rw [← Enc.append_nil e']
      exact (hb.reads b e' h).bind (Reads.pure _)
  exact := by
    refine Exact.bind (R3 := fun b v e => match b with
        | false => ∃ a, v = .inl a ∧ Ra a e
        | true => ∃ b, v = .inr b ∧ Rb b e) Rd.exact_bit (fun b => ?_) ?_
    · cases b with
      | false =>
        refine Exact.bind (R3 := fun w v e => v = .inl w ∧ e = Enc.nil) ha.exact (fun w => Exact.pure _ ⟨rfl, rfl⟩) ?_
        rintro a b e1 e2 h1 ⟨rfl, rfl⟩
        exact ⟨a, rfl, by rwa [Enc.append_nil]⟩
      | true =>
        refine Exact.bind (R3 := fun w v e => v = .inr w ∧ e = Enc.nil) hb.exact (fun w => Exact.pure _ ⟨rfl, rfl⟩) ?_
        rintro a b e1 e2 h1 ⟨rfl, rfl⟩
        exact ⟨a, rfl, by rwa [Enc.append_nil]⟩
    · intro b v e1 e2 h1 h2
      subst h1
      cases b with
      | false => obtain ⟨w, rfl, h2⟩ := h2; exact ⟨e2, h2, rfl⟩
      | true => obtain ⟨w, rfl, h2⟩ := h2; exact ⟨e2, h2, rfl⟩
  safe := by
    refine Safe.bind Rd.takes_bit.safe fun b => ?_
    cases b with
    | false => exact Safe.bind ha.safe fun _ => Safe.pure _
    | true => exact Safe.bind hb.safe fun _ => Safe.pure _

/-- The same codec with equal programs and an equivalent description. -/
theorem Codes.cast {α : Type} {ok ok' : α → Prop} {store store' : α → Wr ρ Unit} {load load' : Rd ρ α} {R R' : α → Enc ρ → Prop}
    {enc enc' : α → Enc ρ} (h : Codes ok store load R enc) (hok : ∀ v, ok v ↔ ok' v) (hs : ∀ v, ok v → store' v = store v) (hl : load' = load)
    (hR : ∀ v e, R v e ↔ R' v e) (he : ∀ v, ok v → enc' v = enc v) : Codes ok' store' load' R' enc' := by
  subst hl
  exact ⟨fun v hv => by rw [he v ((hok v).2 hv), hs v ((hok v).2 hv)]; exact h.writes v ((hok v).2 hv),
    fun v hv => (hR _ _).1 (by rw [he v ((hok v).2 hv)]; exact h.canon v ((hok v).2 hv)),
    fun v e hv => (hok v).1 (h.valid v e ((hR _ _).2 hv)),
    fun v e hv => h.reads v e ((hR _ _).2 hv),
    h.exact.weaken fun v e => (hR v e).1, h.safe⟩

/-- Unsigned integers of fixed width. -/
theorem Codes.nat {p : Rd ρ Nat} {n : Nat} {w : Nat → Wr ρ Unit} (h : Rd.Takes p n natOfBits)
    (hw : ∀ v, v < 2 ^ n → Writes (w v) (Enc.bits (natBits n v))) :
    Codes (fun v => v < 2 ^ n) w p (Canon (fun v => v < 2 ^ n) fun v => Enc.bits (natBits n v)) (fun v => Enc.bits (natBits n v)) :=
  Codes.ofCanon hw (fun v hv => h.reads_nat hv) h.exact_nat h.safe

theorem Codes.u8 : Codes (ρ := ρ) (fun v => v < 2 ^ 8) Wr.u8 Rd.u8 (Canon (fun v => v < 2 ^ 8) fun v => Enc.bits (natBits 8 v))
    (fun v => Enc.bits (natBits 8 v)) := Codes.nat Rd.takes_u8 fun v h => (Wr.writes_u8 h).writes
theorem Codes.u16 : Codes (ρ := ρ) (fun v => v < 2 ^ 16) Wr.u16 Rd.u16 (Canon (fun v => v < 2 ^ 16) fun v => Enc.bits (natBits 16 v))
    (fun v => Enc.bits (natBits 16 v)) := Codes.nat Rd.takes_u16 fun v h => (Wr.writes_u16 h).writes
theorem Codes.u32 : Codes (ρ := ρ) (fun v => v < 2 ^ 32) Wr.u32 Rd.u32 (Canon (fun v => v < 2 ^ 32) fun v => Enc.bits (natBits 32 v))
    (fun v => Enc.bits (natBits 32 v)) := Codes.nat Rd.takes_u32 fun v h => (Wr.writes_u32 h).writes
theorem Codes.u64 : Codes (ρ := ρ) (fun v => v < 2 ^ 64) Wr.u64 Rd.u64 (Canon (fun v => v < 2 ^ 64) fun v => Enc.bits (natBits 64 v))
    (fun v => Enc.bits (natBits 64 v)) := Codes.nat Rd.takes_u64 fun v h => (Wr.writes_u64 h).writes
theorem Codes.u128 : Codes (ρ := ρ) (fun v => v < 2 ^ 128) Wr.u128 Rd.u128 (Canon (fun v => v < 2 ^ 128) fun v => Enc.bits (natBits 128 v))
    (fun v => Enc.bits (natBits 128 v)) := Codes.nat Rd.takes_u128 fun v h => (Wr.writes_u128 h).writes

theorem Codes.bool : Codes (ρ := ρ) (fun _ => True) Wr.bit Rd.bit (Canon (fun _ => True) fun v => Enc.bits [v]) (fun v => Enc.bits [v]) :=
  Codes.ofCanon (fun v _ => (Wr.writes_bit v).writes) (fun v _ => Rd.reads_bit v) (Rd.exact_bit.weaken fun v e h => ⟨trivial, h⟩) Rd.takes_bit.safe

theorem Codes.u256 : Codes (ρ := ρ) (fun v => v.length = 32) Wr.u256 Rd.u256 (Canon (fun v => v.length = 32) fun v => Enc.bits (bytesToBits v))
    (fun v => Enc.bits (bytesToBits v)) :=
  Codes.ofCanon (fun v h => (Wr.writes_u256 h).writes) (fun v h => Rd.reads_u256 h) Rd.exact_u256 Rd.takes_u256.safe

theorem Codes.ref : Codes (ρ := ρ) (fun _ => True) Wr.ref Rd.ref (Canon (fun _ => True) Enc.ref) Enc.ref :=
  Codes.ofCanon (fun v _ => (Wr.writes_ref v).writes) (fun v _ => Rd.reads_ref v) (Rd.exact_ref.weaken fun v e h => ⟨trivial, h⟩) Rd.safe_ref

/-- Canonical grammars stay canonical in sequence. -/
theorem canon_pair {α β : Type} {oka : α → Prop} {okb : β → Prop} {ea : α → Enc ρ} {eb : β → Enc ρ} (v : α × β) (e : Enc ρ) :
    pairR (Canon oka ea) (Canon okb eb) v e ↔ Canon (fun v => oka v.1 ∧ okb v.2) (fun v => ea v.1 ++ eb v.2) v e := by
  constructor
  · rintro ⟨e1, e2, ⟨h1, rfl⟩, ⟨h2, rfl⟩, rfl⟩; exact ⟨⟨h1, h2⟩, rfl⟩
  · rintro ⟨⟨h1, h2⟩, rfl⟩; exact ⟨_, _, ⟨h1, rfl⟩, ⟨h2, rfl⟩, rfl⟩

theorem canon_opt {α : Type} {ok : α → Prop} {enc : α → Enc ρ} (v : Option α) (e : Enc ρ) :
    optR (Canon ok enc) v e ↔ Canon (optOk ok) (optEnc enc) v e := by
  cases v with
  | none => exact ⟨fun h => ⟨trivial, h⟩, fun h => h.2⟩
  | some v =>
    constructor
    · rintro ⟨e', ⟨h1, rfl⟩, rfl⟩; exact ⟨h1, rfl⟩
    · rintro ⟨h1, rfl⟩; exact ⟨_, ⟨h1, rfl⟩, rfl⟩

/-- A fixed mark in front of a value: `lit` writes it and `chk` accepts nothing else. -/
theorem Codes.lit {lit : Wr ρ Unit} {chk : Rd ρ Unit} {l : Bits} (h1 : Writes lit (Enc.bits l)) (h2 : Reads chk (Enc.bits l) ())
    (h3 : Exact chk fun _ e => e = Enc.bits l) (h4 : Safe chk) :
    Codes (ρ := ρ) (fun _ : Unit => True) (fun _ => lit) chk (Canon (fun _ => True) fun _ => Enc.bits l) (fun _ => Enc.bits l) :=
  Codes.ofCanon (fun _ _ => h1) (fun _ _ => h2) (h3.weaken fun v e h => ⟨trivial, h⟩) h4

theorem Codes.after {α : Type} {ok : α → Prop} {store : α → Wr ρ Unit} {load : Rd ρ α} {R : α → Enc ρ → Prop} {enc : α → Enc ρ}
    (h : Codes ok store load R enc) {lit : Wr ρ Unit} {chk : Rd ρ Unit} {l : Bits} (h1 : Writes lit (Enc.bits l)) (h2 : Reads chk (Enc.bits l) ())
    (h3 : Exact chk fun _ e => e = Enc.bits l) (h4 : Safe chk) :
    Codes ok (fun v => do lit; store v) (do chk; load) (fun v e => ∃ e', R v e' ∧ e = Enc.bits l ++ e') (fun v => Enc.bits l ++ enc v) where
  writes v hv := h1.seq (h.writes v hv)
  canon v hv := ⟨_, h.canon v hv, rfl⟩
  valid := by rintro v e ⟨e', h1, _⟩; exact h.valid v e' h1
  reads := by rintro v e ⟨e', hr, rfl⟩; exact h2.bind (h.reads v e' hr)
  exact := by
    refine Exact.bind (R3 := fun _ v e => R v e) h3 (fun _ => h.exact) ?_
    rintro u v e1 e2 rfl h2
    exact ⟨e2, h2, rfl⟩
  safe := Safe.bind h4 fun _ => h.safe

/-- An expected tag of up to eight bits: `load_small_uint` and a comparison. -/
def Rd.tag (t n : Nat) (err : Err) : Rd ρ Unit := do
  let v ← Rd.small n
  Prog.check (decide (v = t)) err

theorem Rd.reads_tag {t n : Nat} {err : Err} (hn : n ≤ 8) (ht : t < 2 ^ n) : Reads (Rd.tag t n err : Rd ρ Unit) (Enc.bits (natBits n t)) () := by
  rw [← Enc.append_nil (Enc.bits (natBits n t))]
  exact ((Rd.takes_small hn).reads_nat ht).bind (Reads.check (decide_eq_true rfl))

theorem Rd.exact_tag {t n : Nat} {err : Err} (hn : n ≤ 8) : Exact (Rd.tag t n err : Rd ρ Unit) (fun _ e => e = Enc.bits (natBits n t)) := by
  refine Exact.bind (R3 := fun v _ e => decide (v = t) = true ∧ e = Enc.nil) (Rd.takes_small hn).exact_nat (fun v => Exact.check _ _) ?_
  rintro v u e1 e2 ⟨h1, rfl⟩ ⟨h2, rfl⟩
  rw [Enc.append_nil, of_decide_eq_true h2]

theorem Rd.safe_tag {t n : Nat} {err : Err} (hn : n ≤ 8) (h1 : err ≠ .fault) (h2 : err ≠ .panic) : Safe (Rd.tag t n err : Rd ρ Unit) :=
  Safe.bind (Rd.takes_small hn).safe fun _ => Safe.check _ h1 h2

end Verif
