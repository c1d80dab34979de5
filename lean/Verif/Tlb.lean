import Verif.DictAugTypes
/-
A vocabulary for the data models: a `Tlb` bundles the `Store` and `Load` implementations of a type with the grammar of its
encodings; `Tlb.Sound` says that the implementations agree with the grammar. The combinators mirror the code that the derive
macros (`proc/src/derive_store.rs`, `proc/src/derive_load.rs`) produce for structs: the fields one after another, each with `ok!`.
-/
set_option linter.unusedVariables false
set_option linter.unusedSimpArgs false
namespace Verif

/-- Programs that store and load values of a type, and the grammar of its encodings. -/
structure Tlb (α : Type) where
  /-- the values that `store` can write -/
  ok : α → Prop
  store : α → Wr Cell Unit
  load : Rd Cell α
  /-- the encodings of a value -/
  R : α → Enc Cell → Prop
  /-- the encoding that `store` writes -/
  enc : α → Enc Cell

/-- The loader reads exactly the grammar: it reads every encoding of every value, whatever follows, and stops right behind it;
it accepts nothing else; it never panics or leaves the window. -/
structure Loads {α : Type} (load : Rd Cell α) (R : α → Enc Cell → Prop) : Prop where
  reads : ∀ v e, R v e → Reads load e v
  exact : Exact load R
  safe : Safe load

/-- The writer writes the canonical encoding of every value of `ok` (or fails with `CellOverflow` exactly if there is no room),
and that is an encoding of the grammar. -/
structure Stores {α : Type} (ok : α → Prop) (store : α → Wr Cell Unit) (R : α → Enc Cell → Prop) (enc : α → Enc Cell) : Prop where
  writes : ∀ v, ok v → Writes (store v) (enc v)
  canon : ∀ v, ok v → R v (enc v)

/-- The implementations agree with the grammar. -/
structure Tlb.Sound {α : Type} (T : Tlb α) : Prop where
  st : Stores T.ok T.store T.R T.enc
  ld : Loads T.load T.R

/-- In the grammar: one thing after another. -/
def Enc.Then (P Q : Enc Cell → Prop) (e : Enc Cell) : Prop := ∃ e1 e2, P e1 ∧ Q e2 ∧ e = e1 ++ e2
infixr:65 " ⬝ " => Enc.Then

/-- In the grammar: exactly these bits. -/
def Enc.Lit (l : Bits) (e : Enc Cell) : Prop := e = Enc.bits l

/-! ### What soundness gives -/

/-- What was stored into a new cell is loaded back, and nothing is left. -/
theorem Tlb.Sound.round {α : Type} {T : Tlb α} (h : T.Sound) {v : α} (hv : T.ok v) {b : CellB Cell} (hb : T.store v .new = (.ok (), b)) :
    ∃ s, T.load b.asSlice = (.ok v, s) ∧ s.contents = Enc.nil :=
  Reads.after_write (h.st.writes v hv) (h.ld.reads v _ (h.st.canon v hv)) hb

/-- Storing into a new builder succeeds exactly if the encoding fits into a cell, and gives just that encoding. -/
theorem Tlb.Sound.stored {α : Type} {T : Tlb α} (h : T.Sound) {v : α} (hv : T.ok v) :
    (T.store v).toSl = if (T.enc v).Fits then .ok ⟨(T.enc v).1, (T.enc v).2⟩ else .error .cellOverflow := by
  by_cases hf : (T.enc v).Fits
  · rw [if_pos hf]; exact Wr.toSl_ok (h.st.writes v hv) hf
  · rw [if_neg hf]
    have h0 : (CellB.new : CellB Cell).contents = Enc.nil := rfl
    obtain ⟨b', r, _⟩ := (h.st.writes v hv .new CellB.wf_new).2 (by rw [h0, Enc.nil_append]; exact hf)
    unfold Wr.toSl
    rw [r]

/-! ### Combinators -/

theorem Codes.loads {α : Type} {ok : α → Prop} {store : α → Wr Cell Unit} {load : Rd Cell α} {R : α → Enc Cell → Prop} {enc : α → Enc Cell}
    (h : Codes ok store load R enc) : Loads load R := ⟨h.reads, h.exact, h.safe⟩
theorem Codes.stores {α : Type} {ok : α → Prop} {store : α → Wr Cell Unit} {load : Rd Cell α} {R : α → Enc Cell → Prop} {enc : α → Enc Cell}
    (h : Codes ok store load R enc) : Stores ok store R enc := ⟨h.writes, h.canon⟩

namespace Loads
variable {α β : Type}

theorem iff {load : Rd Cell α} {R R' : α → Enc Cell → Prop} (h : Loads load R) (hr : ∀ v e, R v e ↔ R' v e) : Loads load R' :=
  ⟨fun v e h' => h.reads v e ((hr v e).2 h'), h.exact.weaken fun v e => (hr v e).1, h.safe⟩

theorem pure (v : α) : Loads (pure v) (fun w e => w = v ∧ e = Enc.nil) :=
  ⟨by rintro w e ⟨rfl, rfl⟩; exact Reads.pure w, Exact.pure v ⟨rfl, rfl⟩, Safe.pure v⟩

theorem fail {x : Err} (h1 : x ≠ .fault) (h2 : x ≠ .panic) : Loads (Prog.fail x : Rd Cell α) (fun _ _ => False) :=
  ⟨fun _ _ h => h.elim, Exact.fail x, Safe.fail h1 h2⟩

theorem bind {p : Rd Cell α} {Rp : α → Enc Cell → Prop} {f : α → Rd Cell β} {R : α → β → Enc Cell → Prop} (h : Loads p Rp)
    (hf : ∀ a e, Rp a e → Loads (f a) (R a)) : Loads (p >>= f) (fun b e => ∃ a, (Rp a ⬝ R a b) e) where
  reads := by
    rintro b e ⟨a, e1, e2, h1, h2, rfl⟩
    exact (h.reads a e1 h1).bind ((hf a e1 h1).reads b e2 h2)
  exact := Exact.bindx h.exact (fun a e ha => (hf a e ha).exact) fun a b e1 e2 h1 h2 => ⟨a, e1, e2, h1, h2, rfl⟩
  safe := Safe.bindx h.safe h.exact fun a e ha => (hf a e ha).safe

theorem map {p : Rd Cell α} {Rp : α → Enc Cell → Prop} (h : Loads p Rp) (c : α → β) :
    Loads (p >>= fun a => (Pure.pure (c a) : Rd Cell β)) (fun b e => ∃ a, b = c a ∧ Rp a e) :=
  (h.bind (R := fun a b e => b = c a ∧ e = Enc.nil) (fun a _ _ => Loads.pure (c a))).iff fun b e =>
    ⟨by rintro ⟨a, e1, e2, h1, ⟨rfl, rfl⟩, rfl⟩; exact ⟨a, rfl, by rwa [Enc.append_nil]⟩,
     by rintro ⟨a, rfl, h1⟩; exact ⟨a, e, Enc.nil, h1, ⟨rfl, rfl⟩, (Enc.append_nil _).symm⟩⟩

theorem pair {la : Rd Cell α} {lb : Rd Cell β} {Ra : α → Enc Cell → Prop} {Rb : β → Enc Cell → Prop} (ha : Loads la Ra) (hb : Loads lb Rb) :
    Loads (pairLoad la lb) (fun v => Ra v.1 ⬝ Rb v.2) :=
  (ha.bind (R := fun a v e => v.1 = a ∧ Rb v.2 e) (fun a _ _ => (hb.map fun b => (a, b)).iff fun v e =>
    ⟨by rintro ⟨b, rfl, h⟩; exact ⟨rfl, h⟩, by rintro ⟨rfl, h⟩; exact ⟨v.2, rfl, h⟩⟩)).iff fun v e =>
    ⟨by rintro ⟨a, e1, e2, h1, ⟨rfl, h2⟩, rfl⟩; exact ⟨e1, e2, h1, h2, rfl⟩,
     by rintro ⟨e1, e2, h1, h2, rfl⟩; exact ⟨v.1, e1, e2, h1, ⟨rfl, h2⟩, rfl⟩⟩

theorem bit : Loads (Rd.bit : Rd Cell Bool) (fun v => Enc.Lit [v]) :=
  ⟨by rintro v e rfl; exact Rd.reads_bit v, Rd.exact_bit, Rd.takes_bit.safe⟩

/-- One bit that selects. -/
theorem onBit {k : Bool → Rd Cell α} {R0 R1 : α → Enc Cell → Prop} (h0 : Loads (k false) R0) (h1 : Loads (k true) R1) :
    Loads (Rd.bit >>= k) (fun v e => (Enc.Lit [false] ⬝ R0 v) e ∨ (Enc.Lit [true] ⬝ R1 v) e) :=
  (bit.bind (R := fun b v e => match b with | false => R0 v e | true => R1 v e) (fun b _ _ => by cases b <;> assumption)).iff fun v e =>
    ⟨by
      rintro ⟨b, h⟩
      cases b with
      | false => exact Or.inl h
      | true => exact Or.inr h,
     by
      rintro (h | h)
      · exact ⟨false, h⟩
      · exact ⟨true, h⟩⟩

theorem ofTakes {p : Rd Cell Nat} {n : Nat} (h : Rd.Takes p n natOfBits) : Loads p (fun t e => t < 2 ^ n ∧ e = Enc.bits (natBits n t)) :=
  ⟨by rintro t e ⟨h1, rfl⟩; exact h.reads_nat h1, h.exact_nat, h.safe⟩

/-- A number of fixed width that selects. -/
theorem onNat {p : Rd Cell Nat} {n : Nat} (hp : Rd.Takes p n natOfBits) {k : Nat → Rd Cell α} {R : Nat → α → Enc Cell → Prop}
    (h : ∀ t, t < 2 ^ n → Loads (k t) (R t)) : Loads (p >>= k) (fun v e => ∃ t, t < 2 ^ n ∧ (Enc.Lit (natBits n t) ⬝ R t v) e) :=
  ((ofTakes hp).bind (fun t e ht => h t ht.1)).iff fun v e =>
    ⟨by rintro ⟨t, e1, e2, ⟨h1, h2⟩, h3, rfl⟩; exact ⟨t, h1, e1, e2, h2, h3, rfl⟩,
     by rintro ⟨t, h1, e1, e2, h2, h3, rfl⟩; exact ⟨t, e1, e2, ⟨h1, h2⟩, h3, rfl⟩⟩

/-- A test of what was loaded. -/
theorem check {p : Rd Cell α} {R : α → Enc Cell → Prop} (h : Loads p R) (c : α → Bool) {x : Err} (h1 : x ≠ .fault) (h2 : x ≠ .panic) :
    Loads (p >>= fun v => Prog.check (c v) x >>= fun _ => Pure.pure v) (fun v e => R v e ∧ c v = true) :=
  (h.bind (R := fun a b e => b = a ∧ c a = true ∧ e = Enc.nil) (fun a _ _ => by
    cases hc : c a with
    | true => exact (Loads.pure a).iff fun v e => ⟨fun h => ⟨h.1, rfl, h.2⟩, fun h => ⟨h.1, h.2.2⟩⟩
    | false => exact (Loads.fail h1 h2).iff fun v e => ⟨fun h => h.elim, fun h => (by cases h.2.1)⟩)).iff fun v e =>
    ⟨by rintro ⟨a, e1, e2, h1, ⟨rfl, h2, rfl⟩, rfl⟩; exact ⟨by rwa [Enc.append_nil], h2⟩,
     by rintro ⟨h1, h2⟩; exact ⟨v, e, Enc.nil, h1, ⟨rfl, h2, rfl⟩, (Enc.append_nil _).symm⟩⟩

/-- A fixed tag: a number is loaded and compared. -/
theorem tag {p : Rd Cell Nat} {n : Nat} (hp : Rd.Takes p n natOfBits) {t : Nat} (ht : t < 2 ^ n) {x : Err} (h1 : x ≠ .fault) (h2 : x ≠ .panic)
    {l : Rd Cell α} {R : α → Enc Cell → Prop} (h : Loads l R) :
    Loads (p >>= fun v => Prog.check (decide (v = t)) x >>= fun _ => l) (fun v => Enc.Lit (natBits n t) ⬝ R v) :=
  (onNat hp (R := fun u v e => u = t ∧ R v e) (fun u _ => by
    by_cases hu : u = t
    · rw [decide_eq_true hu]; exact h.iff fun v e => ⟨fun h => ⟨hu, h⟩, fun h => h.2⟩
    · rw [decide_eq_false hu]; exact (Loads.fail h1 h2).iff fun v e => ⟨fun h => h.elim, fun h => hu h.1⟩)).iff fun v e =>
    ⟨by rintro ⟨u, _, e1, e2, h1, ⟨rfl, h2⟩, rfl⟩; exact ⟨e1, e2, h1, h2, rfl⟩,
     by rintro ⟨e1, e2, h1, h2, rfl⟩; exact ⟨t, ht, e1, e2, h1, ⟨rfl, h2⟩, rfl⟩⟩

end Loads

theorem then_nil {P : Enc Cell → Prop} {e : Enc Cell} : (P ⬝ fun e => e = Enc.nil) e ↔ P e :=
  ⟨by rintro ⟨e1, e2, h, rfl, rfl⟩; rwa [Enc.append_nil], fun h => ⟨e, Enc.nil, h, rfl, (Enc.append_nil _).symm⟩⟩
theorem nil_then {P : Enc Cell → Prop} {e : Enc Cell} : ((fun e => e = Enc.nil) ⬝ P) e ↔ P e :=
  ⟨by rintro ⟨e1, e2, rfl, h, rfl⟩; exact h, fun h => ⟨Enc.nil, e, rfl, h, rfl⟩⟩
theorem lit_lit {a b : Bits} {P : Enc Cell → Prop} {e : Enc Cell} : (Enc.Lit a ⬝ Enc.Lit b ⬝ P) e ↔ (Enc.Lit (a ++ b) ⬝ P) e := by
  constructor
  · rintro ⟨_, _, rfl, ⟨_, e2, rfl, h, rfl⟩, rfl⟩
    exact ⟨_, e2, rfl, h, by rw [← Enc.append_assoc, Enc.bits_append]⟩
  · rintro ⟨_, e2, rfl, h, rfl⟩
    exact ⟨_, _, rfl, ⟨_, e2, rfl, h, rfl⟩, by rw [← Enc.append_assoc, Enc.bits_append]⟩
theorem lit_end {a b : Bits} {e : Enc Cell} : (Enc.Lit a ⬝ Enc.Lit b) e ↔ Enc.Lit (a ++ b) e :=
  ⟨by rintro ⟨_, _, rfl, rfl, rfl⟩; rfl, by rintro rfl; exact ⟨_, _, rfl, rfl, rfl⟩⟩
theorem then_false {P : Enc Cell → Prop} {e : Enc Cell} : (P ⬝ fun _ => False) e ↔ False :=
  ⟨by rintro ⟨_, _, _, h, _⟩; exact h, fun h => h.elim⟩
theorem then_congr {P Q Q' : Enc Cell → Prop} (h : ∀ e, Q e ↔ Q' e) {e : Enc Cell} : (P ⬝ Q) e ↔ (P ⬝ Q') e :=
  ⟨by rintro ⟨e1, e2, h1, h2, rfl⟩; exact ⟨e1, e2, h1, (h e2).1 h2, rfl⟩, by rintro ⟨e1, e2, h1, h2, rfl⟩; exact ⟨e1, e2, h1, (h e2).2 h2, rfl⟩⟩
theorem then_assoc {P Q S : Enc Cell → Prop} {e : Enc Cell} : ((P ⬝ Q) ⬝ S) e ↔ (P ⬝ Q ⬝ S) e :=
  ⟨by rintro ⟨_, e3, ⟨e1, e2, h1, h2, rfl⟩, h3, rfl⟩; exact ⟨e1, _, h1, ⟨e2, e3, h2, h3, rfl⟩, Enc.append_assoc ..⟩,
   by rintro ⟨e1, _, h1, ⟨e2, e3, h2, h3, rfl⟩, rfl⟩; exact ⟨_, e3, ⟨e1, e2, h1, h2, rfl⟩, h3, (Enc.append_assoc ..).symm⟩⟩

namespace Tlb
variable {α β : Type}

/-- Two fields one after the other. -/
def pair (A : Tlb α) (B : Tlb β) : Tlb (α × β) where
  ok v := A.ok v.1 ∧ B.ok v.2
  store := pairStore A.store B.store
  load := pairLoad A.load B.load
  R v := A.R v.1 ⬝ B.R v.2
  enc v := A.enc v.1 ++ B.enc v.2

theorem Sound.pair {A : Tlb α} {B : Tlb β} (ha : A.Sound) (hb : B.Sound) : (A.pair B).Sound :=
  ⟨⟨fun v h => (ha.st.writes _ h.1).seq (hb.st.writes _ h.2), fun v h => ⟨_, _, ha.st.canon _ h.1, hb.st.canon _ h.2, rfl⟩⟩, ha.ld.pair hb.ld⟩

/-- A struct with these fields: `f` and `g` convert between it and the tuple of its fields. -/
def record (T : Tlb α) (f : α → β) (g : β → α) : Tlb β where
  ok b := T.ok (g b)
  store b := T.store (g b)
  load := T.load >>= fun a => Pure.pure (f a)
  R b := T.R (g b)
  enc b := T.enc (g b)

theorem Sound.record {T : Tlb α} (h : T.Sound) {f : α → β} {g : β → α} (hfg : ∀ b, f (g b) = b) (hgf : ∀ a, g (f a) = a) : (T.record f g).Sound :=
  ⟨⟨fun b hb => h.st.writes _ hb, fun b hb => h.st.canon _ hb⟩, (h.ld.map f).iff fun b e =>
    ⟨by rintro ⟨a, rfl, h⟩; show T.R (g (f a)) e; rwa [hgf], fun h => ⟨g b, (hfg b).symm, h⟩⟩⟩

/-- The same programs with equal definitions. -/
theorem Sound.eq {T T' : Tlb α} (h : T.Sound) (hl : T'.load = T.load) (ho : ∀ v, T'.ok v → T.ok v := by exact fun _ h => h)
    (hs : ∀ v, T'.ok v → T'.store v = T.store v := by exact fun _ _ => rfl)
    (hr : ∀ v e, T.R v e ↔ T'.R v e := by exact fun _ _ => Iff.rfl) (he : ∀ v, T'.ok v → T'.enc v = T.enc v := by exact fun _ _ => rfl) : T'.Sound :=
  ⟨⟨fun v hv => by rw [hs v hv, he v hv]; exact h.st.writes v (ho v hv), fun v hv => (hr _ _).1 (by rw [he v hv]; exact h.st.canon v (ho v hv))⟩,
    by rw [hl]; exact h.ld.iff hr⟩

/-- `Option<T>`: a bit and the value. -/
def opt (A : Tlb α) : Tlb (Option α) where
  ok := optOk A.ok
  store := optStore A.store
  load := optLoad A.load
  R v := match v with
    | none => Enc.Lit [false]
    | some a => Enc.Lit [true] ⬝ A.R a
  enc := optEnc A.enc

theorem Sound.opt {A : Tlb α} (h : A.Sound) : A.opt.Sound where
  st := ⟨fun v hv => match v, hv with
      | none, _ => (Wr.writes_bit false).writes
      | some v, hv => (Wr.writes_bit true).writes.seq (h.st.writes v hv),
    fun v hv => match v, hv with
      | none, _ => rfl
      | some v, hv => ⟨_, _, rfl, h.st.canon v hv, rfl⟩⟩
  ld := (Loads.onBit (k := optRest A.load) (Loads.pure none) (h.ld.map some)).iff fun v e => by
    cases v with
    | none =>
      constructor
      · rintro (⟨e1, e2, h1, ⟨_, rfl⟩, rfl⟩ | ⟨e1, e2, h1, ⟨a, h2, _⟩, rfl⟩)
        · show _ = _; rw [Enc.append_nil]; exact h1
        · cases h2
      · intro h
        exact Or.inl ⟨e, Enc.nil, h, ⟨rfl, rfl⟩, (Enc.append_nil _).symm⟩
    | some a =>
      constructor
      · rintro (⟨e1, e2, h1, ⟨h2, _⟩, rfl⟩ | ⟨e1, e2, h1, ⟨b, h2, h3⟩, rfl⟩)
        · cases h2
        · cases h2; exact ⟨e1, e2, h1, h3, rfl⟩
      · rintro ⟨e1, e2, h1, h2, rfl⟩
        exact Or.inr ⟨e1, e2, h1, ⟨a, rfl, h2⟩, rfl⟩

/-- Any codec of the relation kind. -/
def ofCodes {ok : α → Prop} {store : α → Wr Cell Unit} {load : Rd Cell α} {R : α → Enc Cell → Prop} {enc : α → Enc Cell}
    (_ : Codes ok store load R enc) : Tlb α := ⟨ok, store, load, R, enc⟩

theorem sound_ofCodes {ok : α → Prop} {store : α → Wr Cell Unit} {load : Rd Cell α} {R : α → Enc Cell → Prop} {enc : α → Enc Cell}
    (h : Codes ok store load R enc) : (Tlb.mk ok store load R enc).Sound := ⟨h.stores, h.loads⟩

/-- The grammar with one encoding for each value. -/
def canonical (ok : α → Prop) (store : α → Wr Cell Unit) (load : Rd Cell α) (enc : α → Enc Cell) : Tlb α := ⟨ok, store, load, Canon ok enc, enc⟩

/-- `bool` -/
def bool : Tlb Bool := canonical (fun _ => True) Wr.bit Rd.bit (fun v => Enc.bits [v])
theorem bool_sound : bool.Sound := sound_ofCodes Codes.bool

def u8 : Tlb Nat := canonical (fun v => v < 2 ^ 8) Wr.u8 Rd.u8 (fun v => Enc.bits (natBits 8 v))
def u16 : Tlb Nat := canonical (fun v => v < 2 ^ 16) Wr.u16 Rd.u16 (fun v => Enc.bits (natBits 16 v))
def u32 : Tlb Nat := canonical (fun v => v < 2 ^ 32) Wr.u32 Rd.u32 (fun v => Enc.bits (natBits 32 v))
def u64 : Tlb Nat := canonical (fun v => v < 2 ^ 64) Wr.u64 Rd.u64 (fun v => Enc.bits (natBits 64 v))
theorem u8_sound : u8.Sound := sound_ofCodes Codes.u8
theorem u16_sound : u16.Sound := sound_ofCodes Codes.u16
theorem u32_sound : u32.Sound := sound_ofCodes Codes.u32
theorem u64_sound : u64.Sound := sound_ofCodes Codes.u64

/-- `i8`, `i32`: stored and loaded with a cast. -/
def i8 : Tlb Int := canonical IsI8 (fun w => Wr.u8 (i8ToU8 w)) (do let v ← Rd.u8; Pure.pure (u8ToI8 v)) (fun w => Enc.bits (natBits 8 (i8ToU8 w)))
def i32 : Tlb Int := canonical IsI32 (fun w => Wr.u32 (i32ToU32 w)) (do let v ← Rd.u32; Pure.pure (u32ToI32 v)) (fun w => Enc.bits (natBits 32 (i32ToU32 w)))
theorem i8_sound : i8.Sound := sound_ofCodes Codes.i8
theorem i32_sound : i32.Sound := sound_ofCodes Codes.i32

/-- `HashBytes` -/
def hash : Tlb (List Byte) := canonical (fun v => v.length = 32) Wr.u256 Rd.u256 (fun v => Enc.bits (bytesToBits v))
theorem hash_sound : hash.Sound := sound_ofCodes Codes.u256

/-- A number of up to eight bits. -/
def small (n : Nat) : Tlb Nat := canonical (fun v => v < 2 ^ n) (fun v => Wr.small v n) (Rd.small n) (fun v => Enc.bits (natBits n v))
theorem small_sound {n : Nat} (h : n ≤ 8) : (small n).Sound :=
  sound_ofCodes (Codes.nat (Rd.takes_small h) fun v _ => (Wr.writes_small v h).writes)

/-- `Cell` -/
def cell : Tlb Cell := canonical (fun _ => True) Wr.ref Rd.ref Enc.ref
theorem cell_sound : cell.Sound := sound_ofCodes Codes.ref

/-- The root of a dictionary (`dict/raw.rs`, `dict/typed.rs` `Store`/`Load`: as `Option<Cell>`). -/
def dict : Tlb (Option Cell) := cell.opt
theorem dict_sound : dict.Sound := cell_sound.opt

/-- Variable length integers. -/
def var (k : VarKind) : Tlb Nat := ⟨fun v => v ≤ k.max, k.store, k.load, k.R, k.enc⟩
theorem var_sound (k : VarKind) : (var k).Sound := sound_ofCodes k.codes

/-- `Tokens` -/
abbrev tokens : Tlb Nat := var .tokens
theorem tokens_sound : tokens.Sound := var_sound _

/-- `CurrencyCollection` -/
def currency : Tlb Currency := ⟨Currency.Ok, Currency.store, Currency.load, Currency.R, Currency.enc⟩
theorem currency_sound : currency.Sound := sound_ofCodes C45_codes

/-- `IntAddr` -/
def intAddr : Tlb IntAddr := canonical IntAddr.Ok IntAddr.store IntAddr.load IntAddr.enc
theorem intAddr_sound : intAddr.Sound := sound_ofCodes C47_int.1

/-- `StdAddr` -/
def stdAddr : Tlb StdAddr := canonical StdAddr.Ok StdAddr.store StdAddr.load StdAddr.enc
theorem stdAddr_sound : stdAddr.Sound := sound_ofCodes C47_std.1

/-- A literal before the rest, as stored. -/
theorem lit_writes {w : Wr Cell Unit} {l : Bits} {k : Unit → Wr Cell Unit} {e : Enc Cell} (h : WritesAtomic w (Enc.bits l)) (hk : Writes (k ()) e) :
    Writes (w >>= k) (Enc.bits l ++ e) := h.writes.seq hk

/-! ### A value in a cell of its own -/

/-- `CellBuilder::build_from` in the context `acc`, then `store_reference`. -/
def childStore (acc : Cell → Bool) (w : Wr Cell Unit) : Wr Cell Unit := fun b =>
  match w.toSl >>= buildSl acc with
  | .error e => (.error e, b)
  | .ok c => Wr.ref c b

/-- `load_reference_as_slice` (`cell/slice.rs:1833-1845`): the reference is not consumed if the cell is exotic.
Cells beyond the limits of C10 do not exist; the model refuses them. -/
def childSlice : Rd Cell (CSlice Cell) := fun s =>
  match Rd.ref s with
  | (.error e, s') => (.error e, s')
  | (.ok c, s') =>
    if c.exotic then (.error .unexpectedExoticCell, s)
    else if c.bits.length ≤ 1023 ∧ c.refs.length ≤ 4 then (.ok (Sl.reader ⟨c.bits, c.refs⟩), s')
    else (.error .cellUnderflow, s)

/-- `T::load_from(&mut slice.load_reference_as_slice()?)`: what follows the value in the child is ignored. -/
def childLoad (l : Rd Cell α) : Rd Cell α := childSlice >>= fun t => fun s => ((l t).1, s)

/-- The cell is ordinary and begins with something that satisfies `P`. -/
def CellStarts (P : Enc Cell → Prop) (c : Cell) : Prop :=
  c.exotic = false ∧ (c.bits.length ≤ 1023 ∧ c.refs.length ≤ 4) ∧ ∃ e rest, P e ∧ (c.bits, c.refs) = e ++ rest

/-- The cell that holds just this. -/
def cellOf (e : Enc Cell) : Cell := .mk false e.1 e.2

/-- A value in a cell of its own, built in a context that accepts the cells `acc`. -/
def child (acc : Cell → Bool) (A : Tlb α) : Tlb α where
  ok v := A.ok v ∧ (A.enc v).Fits ∧ acc (cellOf (A.enc v)) = true
  store v := childStore acc (A.store v)
  load := childLoad A.load
  R v e := ∃ c, e = Enc.ref c ∧ CellStarts (A.R v) c
  enc v := Enc.ref (cellOf (A.enc v))

theorem exact_childSlice : Exact childSlice (fun t e => ∃ c, e = Enc.ref c ∧ c.exotic = false ∧ (c.bits.length ≤ 1023 ∧ c.refs.length ≤ 4) ∧
    t = Sl.reader ⟨c.bits, c.refs⟩) := by
  intro s s' t hs h
  unfold childSlice at h
  rcases hr : Rd.ref s with ⟨r, s1⟩
  rw [hr] at h
  cases r with
  | error e => cases h
  | ok c =>
    dsimp only at h
    cases hx : c.exotic with
    | true => rw [hx, if_pos rfl] at h; cases h
    | false =>
      rw [hx, if_neg (by decide)] at h
      by_cases hf : c.bits.length ≤ 1023 ∧ c.refs.length ≤ 4
      · rw [if_pos hf] at h
        obtain ⟨h1, rfl⟩ := Prod.mk.inj h
        injection h1 with h1
        obtain ⟨e, rfl, h3, h4⟩ := Rd.exact_ref s s1 c hs hr
        exact ⟨_, ⟨c, rfl, hx, hf, h1.symm⟩, h3, h4⟩
      · rw [if_neg hf] at h; cases h

theorem reads_childSlice {c : Cell} (hx : c.exotic = false) (hf : c.bits.length ≤ 1023 ∧ c.refs.length ≤ 4) :
    Reads childSlice (Enc.ref c) (Sl.reader ⟨c.bits, c.refs⟩) := by
  intro s rest hs hc
  obtain ⟨s', h1, h2⟩ := Rd.reads_ref c s rest hs hc
  refine ⟨s', ?_, h2⟩
  unfold childSlice
  rw [h1]
  dsimp only
  rw [hx, if_neg (by decide), if_pos hf]

theorem safe_childSlice : Safe childSlice := by
  intro s hs
  have h := Rd.safe_ref s hs
  unfold childSlice
  rcases hr : Rd.ref s with ⟨r, s1⟩
  rw [hr] at h
  cases r with
  | error e =>
    refine ⟨h.1, h.2.1, ?_, ?_⟩
    · intro h'; exact h.2.2.1 (by injection h' with h'; rw [h'])
    · intro h'; exact h.2.2.2 (by injection h' with h'; rw [h'])
  | ok c =>
    dsimp only
    cases c.exotic with
    | true => exact ⟨hs, ⟨Enc.nil, rfl⟩, (by intro h; cases h), (by intro h; cases h)⟩
    | false =>
      rw [if_neg (by decide)]
      split
      · exact ⟨h.1, h.2.1, (by intro h; cases h), (by intro h; cases h)⟩
      · exact ⟨hs, ⟨Enc.nil, rfl⟩, (by intro h; cases h), (by intro h; cases h)⟩

theorem reader_contents {b : Bits} {r : List Cell} (hf : b.length ≤ 1023 ∧ r.length ≤ 4) :
    (Sl.reader ⟨b, r⟩).WF ∧ (Sl.reader ⟨b, r⟩).contents = (b, r) := by
  obtain ⟨h1, h2⟩ := Sl.reader_spec (s := ⟨b, r⟩) hf.1 hf.2
  exact ⟨h1, h2⟩

theorem Sound.child {A : Tlb α} (h : A.Sound) (acc : Cell → Bool) : (A.child acc).Sound where
  st := by
    refine ⟨fun v hv => ?_, fun v hv => ?_⟩
    · have e : (A.store v).toSl >>= buildSl acc = .ok (cellOf (A.enc v)) := by
        rw [Wr.toSl_ok (h.st.writes v hv.1) hv.2.1]
        show buildSl acc _ = _
        unfold buildSl
        exact if_pos hv.2.2
      have e2 : (A.child acc).store v = Wr.ref (cellOf (A.enc v)) := by
        funext b
        show (match (A.store v).toSl >>= buildSl acc with
          | .error e => ((.error e : Except Err Unit), b)
          | .ok c => Wr.ref c b) = _
        rw [e]
      rw [e2]
      exact (Wr.writes_ref _).writes
    · exact ⟨_, rfl, rfl, hv.2.1, A.enc v, Enc.nil, h.st.canon v hv.1, (Enc.append_nil _).symm⟩
  ld := by
    refine ⟨?_, ?_, ?_⟩
    · rintro v e ⟨c, rfl, hx, hf, e1, rest, hr, hc⟩
      obtain ⟨w, ct⟩ := reader_contents hf
      obtain ⟨t', q, _⟩ := h.ld.reads v e1 hr _ rest w (by rw [ct, hc])
      rw [← Enc.append_nil (Enc.ref c)]
      refine (reads_childSlice hx hf).bind ?_
      intro s rest' hs hc'
      exact ⟨s, by rw [q], hs, hc', rfl, rfl⟩
    · refine Exact.bindx (R3 := fun t v e => (∃ t', A.load t = (.ok v, t')) ∧ e = Enc.nil) exact_childSlice ?_ ?_
      · rintro t e - s s' v hs hp
        obtain ⟨h1, rfl⟩ := Prod.mk.inj hp
        exact ⟨Enc.nil, ⟨⟨(A.load t).2, Prod.ext h1 rfl⟩, rfl⟩, by simp, hs⟩
      · rintro t v e1 e2 ⟨c, rfl, hx, hf, rfl⟩ ⟨⟨t', ht⟩, rfl⟩
        obtain ⟨w, ct⟩ := reader_contents hf
        obtain ⟨e, hr, hc, _⟩ := h.ld.exact _ _ v w ht
        exact ⟨c, Enc.append_nil _, hx, hf, e, _, hr, by rw [← ct, hc]⟩
    · refine Safe.bindx safe_childSlice exact_childSlice ?_
      rintro t e ⟨c, rfl, hx, hf, rfl⟩ s hs
      obtain ⟨w, ct⟩ := reader_contents hf
      obtain ⟨_, _, n1, n2⟩ := h.ld.safe _ w
      exact ⟨hs, ⟨Enc.nil, by simp⟩, n1, n2⟩

end Tlb
end Verif

namespace Verif.Tlb
variable {α : Type}

/-- A type with values numbered in `n` bits: flags, and enums without fields. -/
def coded (n : Nat) (f : Nat → α) (g : α → Nat) : Tlb α where
  ok _ := True
  store a := Wr.small (g a) n
  load := Rd.small n >>= fun v => Pure.pure (f v)
  R a := Enc.Lit (natBits n (g a))
  enc a := Enc.bits (natBits n (g a))

theorem coded_sound {n : Nat} {f : Nat → α} {g : α → Nat} (hn : n ≤ 8) (hg : ∀ a, g a < 2 ^ n) (hfg : ∀ a, f (g a) = a)
    (hgf : ∀ v, v < 2 ^ n → g (f v) = v) : (coded n f g).Sound :=
  ⟨⟨fun a _ => (Wr.writes_small (g a) hn).writes, fun a _ => rfl⟩, ((Loads.ofTakes (Rd.takes_small hn)).map f).iff fun a e =>
    ⟨by rintro ⟨v, rfl, h, rfl⟩; show _ = _; rw [hgf v h], by intro h; exact ⟨g a, (hfg a).symm, hg a, h⟩⟩⟩

/-- `Lazy<T>` and `LazyExotic<T>` (`cell/lazy.rs:70-83`, `163-190` `Store`, `Load`): a reference to an ordinary, respectively exotic, cell. -/
def lazy (exotic : Bool) : Tlb Cell where
  ok c := c.exotic = exotic
  store := Wr.ref
  load := Rd.ref >>= fun c => Prog.check (decide (c.exotic = exotic)) (if exotic then .unexpectedOrdinaryCell else .unexpectedExoticCell) >>= fun _ =>
    Pure.pure c
  R c e := c.exotic = exotic ∧ e = Enc.ref c
  enc := Enc.ref

theorem lazy_sound (exotic : Bool) : (lazy exotic).Sound :=
  ⟨⟨fun c _ => (Wr.writes_ref c).writes, fun c h => ⟨h, rfl⟩⟩,
    (cell_sound.ld.check (fun c => decide (c.exotic = exotic)) (by cases exotic <;> decide) (by cases exotic <;> decide)).iff fun c e =>
      ⟨fun h => ⟨of_decide_eq_true h.2, h.1.2⟩, fun h => ⟨⟨trivial, h.2⟩, decide_eq_true h.1⟩⟩⟩

/-- `Lazy::new` for ordinary cells (`cell/lazy.rs:175-177`). -/
def lazyNew (acc : Cell → Bool) (T : Tlb α) (v : α) : Except Err Cell := (T.store v).toSl >>= buildSl acc

/-- `Lazy::load` (`cell/lazy.rs:188-190`, `cell/mod.rs:351-354` `parse`). -/
def lazyLoad (T : Tlb α) (c : Cell) : Except Err α :=
  if c.exotic then .error .unexpectedExoticCell
  else if c.bits.length ≤ 1023 ∧ c.refs.length ≤ 4 then (T.load (Sl.reader ⟨c.bits, c.refs⟩)).1
  else .error .cellUnderflow

/-- What `Lazy::new` builds is an ordinary cell with the canonical encoding, and `Lazy::load` gives the value back. -/
theorem Sound.lazy_round {T : Tlb α} (h : T.Sound) {acc : Cell → Bool} {v : α} (hv : T.ok v) {c : Cell} (hc : lazyNew acc T v = .ok c) :
    c = cellOf (T.enc v) ∧ lazyLoad T c = .ok v := by
  unfold lazyNew at hc
  rw [h.stored hv] at hc
  by_cases hf : (T.enc v).Fits
  · rw [if_pos hf] at hc
    have hc : buildSl acc ⟨(T.enc v).1, (T.enc v).2⟩ = .ok c := hc
    unfold buildSl at hc
    split at hc
    · injection hc with hc
      subst hc
      refine ⟨rfl, ?_⟩
      obtain ⟨w, ct⟩ := reader_contents (b := (T.enc v).1) (r := (T.enc v).2) hf
      obtain ⟨s, q, _⟩ := h.ld.reads v _ (h.st.canon v hv) _ Enc.nil w (by rw [ct, Enc.append_nil])
      unfold lazyLoad
      rw [if_neg (show ¬ ((Cell.mk false (T.enc v).1 (T.enc v).2).exotic = true) from Bool.false_ne_true)]
      rw [if_pos (show (Cell.mk false (T.enc v).1 (T.enc v).2).bits.length ≤ 1023 ∧ (Cell.mk false (T.enc v).1 (T.enc v).2).refs.length ≤ 4 from hf)]
      show (T.load (Sl.reader ⟨(T.enc v).1, (T.enc v).2⟩)).1 = _
      rw [q]
    · cases hc
  · rw [if_neg hf] at hc; cases hc

end Verif.Tlb
