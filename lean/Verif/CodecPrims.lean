import Verif.Codec
/-
The elementary reads and writes as programs, with their encodings.
-/
set_option linter.unusedVariables false
set_option linter.unusedSimpArgs false
namespace Verif
open DataBuilder (StoreOp)

/-- `cell/builder.rs:414-417` `has_capacity` on a cell builder. -/
def CellB.hasCapacity {ρ : Type} (b : CellB ρ) (bits refs : Nat) : Bool :=
  b.inner.hasCapacityBits bits && decide (b.refs.length + refs ≤ maxRefCount)

namespace Wr
variable {ρ : Type}

/-- One data store of C01. -/
def op (o : StoreOp) : Wr ρ Unit := fun b => b.onData (o.run b.inner)
def bit (v : Bool) : Wr ρ Unit := op (.bit v)
def zeros (n : Nat) : Wr ρ Unit := op (.zeros n)
def u8 (v : Nat) : Wr ρ Unit := op (.u8 (BitVec.ofNat 8 v))
def u16 (v : Nat) : Wr ρ Unit := op (.u16 (BitVec.ofNat 16 v))
def u32 (v : Nat) : Wr ρ Unit := op (.u32 (BitVec.ofNat 32 v))
def u64 (v : Nat) : Wr ρ Unit := op (.u64 (BitVec.ofNat 64 v))
def u128 (v : Nat) : Wr ρ Unit := op (.u128 (BitVec.ofNat 128 v))
/-- A 256-bit hash as 32 bytes. -/
def u256 (v : List Byte) : Wr ρ Unit := op (.u256 v)
/-- `store_small_uint`; the argument is cast to `u8`. -/
def small (v n : Nat) : Wr ρ Unit := op (.smallUint (BitVec.ofNat 8 v) n)
/-- `store_uint`; the argument is cast to `u64`. -/
def uint (v n : Nat) : Wr ρ Unit := op (.uint (BitVec.ofNat 64 v) n)
def raw (v : List Byte) (n : Nat) : Wr ρ Unit := op (.raw v n)
/-- `store_reference`. -/
def ref (c : ρ) : Wr ρ Unit := fun b => b.storeReference c
/-- `store_slice`. -/
def slice (s : CSlice ρ) : Wr ρ Unit := fun b => b.storeSlice s
/-- `store_builder`. -/
def builder (o : CellB ρ) : Wr ρ Unit := fun b => b.storeBuilder o
/-- `if !builder.has_capacity(bits, refs) { return Err(CellOverflow) }`. -/
def needs (bits refs : Nat) : Wr ρ Unit := fun b =>
  if b.hasCapacity bits refs then (.ok (), b) else (.error .cellOverflow, b)

/-- Every elementary store writes exactly its bits and references, and changes nothing on failure. -/
theorem writes_build (o : BuildOp ρ) (hv : o.Valid) :
    WritesAtomic (fun b => o.run b) ((o.newBits, o.newRefs) : Enc ρ) := by
  have key : ∀ b : CellB ρ, b.WF →
      ((b.contents ++ ((o.newBits, o.newRefs) : Enc ρ) : Enc ρ).Fits →
        o.spec (b.inner.bits, b.refs) = (.ok (), b.contents ++ ((o.newBits, o.newRefs) : Enc ρ))) ∧
      (¬ (b.contents ++ ((o.newBits, o.newRefs) : Enc ρ) : Enc ρ).Fits →
        (o.run b) = (.error .cellOverflow, b)) := by
    intro b hb
    obtain ⟨h1, h2, h3, h4⟩ := C01_cell_store hb o hv
    unfold BuildOp.spec at *
    constructor
    · intro hf
      rw [if_pos]
      · rfl
      · simpa [Enc.Fits, CellB.contents] using hf
    · intro hf
      rw [if_neg (by simpa [Enc.Fits, CellB.contents] using hf)] at h1
      exact Prod.ext h1 (h4 (by rw [h1]; intro h; cases h))
  have hx : ∀ b : CellB ρ, (o.run b).2.exotic = b.exotic := by
    intro b
    have hrefs : ∀ (cs : List ρ) (b : CellB ρ), (b.storeReferences cs).2.exotic = b.exotic := by
      intro cs
      induction cs with
      | nil => intro b; rfl
      | cons c cs ih =>
        intro b
        unfold CellB.storeReferences CellB.storeReference
        split <;> rename_i h
        · split at h
          · have := (Prod.mk.inj h).2; subst this; exact ih _
          · have := (Prod.mk.inj h).2; subst this; exact ih _
        · split at h
          · cases h
          · have := (Prod.mk.inj h).2; subst this; rfl
    cases o with
    | data op => rfl
    | ref c =>
      show (b.storeReference c).2.exotic = _
      unfold CellB.storeReference; split <;> rfl
    | slice s =>
      show (b.storeSlice s).2.exotic = _
      unfold CellB.storeSlice
      split
      · split
        · exact hrefs _ _
        · rfl
      · rfl
    | builder o =>
      show (b.storeBuilder o).2.exotic = _
      unfold CellB.storeBuilder
      split
      · split
        · exact hrefs _ _
        · rfl
      · rfl
  refine ⟨fun b hb => ⟨fun hf => ?_, fun hf => ⟨b, (key b hb).2 hf, hb⟩⟩, fun b hb hf => (key b hb).2 hf⟩
  obtain ⟨h1, h2, h3, h4⟩ := C01_cell_store hb o hv
  rw [(key b hb).1 hf] at h1 h2
  exact ⟨(o.run b).2, Prod.ext h1 rfl, h3, h2, hx b⟩

theorem writes_op (o : StoreOp) (hv : o.Valid) : WritesAtomic (op o : Wr ρ Unit) (Enc.bits o.expected) :=
  writes_build (.data o) hv

theorem writes_bit (v : Bool) : WritesAtomic (bit v : Wr ρ Unit) (Enc.bits [v]) := writes_op (.bit v) trivial
theorem writes_zeros (n : Nat) (h : n ≤ 64512) : WritesAtomic (zeros n : Wr ρ Unit) (Enc.bits (List.replicate n false)) :=
  writes_op (.zeros n) h

theorem writes_u8 {v : Nat} (h : v < 2 ^ 8) : WritesAtomic (u8 v : Wr ρ Unit) (Enc.bits (natBits 8 v)) := by
  have := writes_op (ρ := ρ) (.u8 (BitVec.ofNat 8 v)) trivial
  simp only [StoreOp.expected, BitVec.toNat_ofNat, Nat.mod_eq_of_lt h] at this
  exact this
theorem writes_u16 {v : Nat} (h : v < 2 ^ 16) : WritesAtomic (u16 v : Wr ρ Unit) (Enc.bits (natBits 16 v)) := by
  have := writes_op (ρ := ρ) (.u16 (BitVec.ofNat 16 v)) trivial
  simp only [StoreOp.expected, BitVec.toNat_ofNat, Nat.mod_eq_of_lt h] at this
  exact this
theorem writes_u32 {v : Nat} (h : v < 2 ^ 32) : WritesAtomic (u32 v : Wr ρ Unit) (Enc.bits (natBits 32 v)) := by
  have := writes_op (ρ := ρ) (.u32 (BitVec.ofNat 32 v)) trivial
  simp only [StoreOp.expected, BitVec.toNat_ofNat, Nat.mod_eq_of_lt h] at this
  exact this
theorem writes_u64 {v : Nat} (h : v < 2 ^ 64) : WritesAtomic (u64 v : Wr ρ Unit) (Enc.bits (natBits 64 v)) := by
  have := writes_op (ρ := ρ) (.u64 (BitVec.ofNat 64 v)) trivial
  simp only [StoreOp.expected, BitVec.toNat_ofNat, Nat.mod_eq_of_lt h] at this
  exact this
theorem writes_u128 {v : Nat} (h : v < 2 ^ 128) : WritesAtomic (u128 v : Wr ρ Unit) (Enc.bits (natBits 128 v)) := by
  have := writes_op (ρ := ρ) (.u128 (BitVec.ofNat 128 v)) trivial
  simp only [StoreOp.expected, BitVec.toNat_ofNat, Nat.mod_eq_of_lt h] at this
  exact this
theorem writes_u256 {v : List Byte} (h : v.length = 32) : WritesAtomic (u256 v : Wr ρ Unit) (Enc.bits (bytesToBits v)) :=
  writes_op (.u256 v) h

theorem natBits_mod {w v k : Nat} (h : w ≤ k) : natBits w (v % 2 ^ k) = natBits w v := by
  unfold natBits
  apply List.map_congr_left
  intro i hi
  rw [List.mem_range] at hi
  rw [Nat.testBit_mod_two_pow]
  simp; omega

/-- The bits beyond the width of the machine word do not matter for at most 8 / 64 stored bits. -/
theorem writes_small (v : Nat) {n : Nat} (h : n ≤ 8) : WritesAtomic (small v n : Wr ρ Unit) (Enc.bits (natBits n v)) := by
  have := writes_op (ρ := ρ) (.smallUint (BitVec.ofNat 8 v) n) (show n ≤ 64512 by omega)
  simp only [StoreOp.expected, BitVec.toNat_ofNat, natBits_mod h] at this
  exact this
theorem writes_uint (v : Nat) {n : Nat} (h : n ≤ 64) : WritesAtomic (uint v n : Wr ρ Unit) (Enc.bits (natBits n v)) := by
  have := writes_op (ρ := ρ) (.uint (BitVec.ofNat 64 v) n) (show n ≤ 64512 by omega)
  simp only [StoreOp.expected, BitVec.toNat_ofNat, natBits_mod h] at this
  exact this
theorem writes_raw {v : List Byte} {n : Nat} (h : n ≤ 64512) (hl : v.length < 8192) :
    WritesAtomic (raw v n : Wr ρ Unit) (Enc.bits (rawBits v n)) := writes_op (.raw v n) ⟨h, hl⟩
theorem writes_ref (c : ρ) : WritesAtomic (ref c : Wr ρ Unit) (Enc.ref c) := writes_build (.ref c) trivial
theorem writes_slice {s : CSlice ρ} (h : s.WF) : WritesAtomic (slice s : Wr ρ Unit) s.contents := writes_build (.slice s) h
theorem writes_builder {o : CellB ρ} (h : o.WF) : WritesAtomic (builder o : Wr ρ Unit) o.contents := writes_build (.builder o) h

theorem hasCapacity_iff {b : CellB ρ} (hb : b.WF) {n r : Nat} (hn : n ≤ 64512) :
    b.hasCapacity n r = decide (b.inner.bits.length + n ≤ 1023 ∧ b.refs.length + r ≤ 4) := by
  have h1 := hb.inner.le
  have hm : maxBitLen = 1023 := rfl
  unfold CellB.hasCapacity DataBuilder.hasCapacityBits
  rw [DataBuilder.u16add_eq (by omega), DataBuilder.bits_length, Bool.decide_and]
  rfl

/-- A capacity check in front of a writer of exactly that size makes failures change nothing. -/
theorem needs_then {w : Wr ρ Unit} {e : Enc ρ} (h : Writes w e) {n r : Nat} (hn : e.1.length = n) (hr : e.2.length = r)
    (hb : n ≤ 64512) : WritesAtomic (needs n r >>= fun _ => w) e := by
  have key : ∀ b : CellB ρ, b.WF → (needs n r b) =
      if (b.contents ++ e : Enc ρ).Fits then (.ok (), b) else (.error .cellOverflow, b) := by
    intro b hw
    unfold needs
    rw [hasCapacity_iff hw hb]
    by_cases hf : (b.contents ++ e : Enc ρ).Fits
    · rw [if_pos hf, if_pos]
      simpa [Enc.Fits, CellB.contents, hn, hr] using hf
    · rw [if_neg hf, if_neg]
      simpa [Enc.Fits, CellB.contents, hn, hr] using hf
  have k2 : ∀ b : CellB ρ, b.WF → ¬ (b.contents ++ e : Enc ρ).Fits →
      (needs n r >>= fun _ => w) b = (.error .cellOverflow, b) := by
    intro b hw hf
    have := key b hw
    rw [if_neg hf] at this
    exact Prog.bind_err this
  refine ⟨fun b hw => ⟨fun hf => ?_, fun hf => ⟨b, k2 b hw hf, hw⟩⟩, k2⟩
  have := key b hw
  rw [if_pos hf] at this
  rw [Prog.bind_ok this]
  exact (h b hw).1 hf

end Wr

namespace Rd
variable {ρ : Type}

/-- Run a read and convert its result. -/
def conv {α β : Type} (f : α → β) (l : CSlice ρ → Except Err α × CSlice ρ) : Rd ρ β := fun s => ((l s).1.map f, (l s).2)

def bit : Rd ρ Bool := fun s => s.loadBit
def u8 : Rd ρ Nat := conv BitVec.toNat fun s => s.loadSmallUint 8
def u16 : Rd ρ Nat := conv BitVec.toNat fun s => s.loadWord 2
def u32 : Rd ρ Nat := conv BitVec.toNat fun s => s.loadWord 4
def u64 : Rd ρ Nat := conv BitVec.toNat fun s => s.loadWord 8
def u128 : Rd ρ Nat := conv BitVec.toNat fun s => s.loadU128
def u256 : Rd ρ (List Byte) := fun s => s.loadU256
def small (n : Nat) : Rd ρ Nat := conv BitVec.toNat fun s => s.loadSmallUint n
def uint (n : Nat) : Rd ρ Nat := conv BitVec.toNat fun s => s.loadUint n
def ref : Rd ρ ρ := fun s => s.loadReference
/-- `load_prefix(bits, refs)`. -/
def pref (b r : Nat) : Rd ρ (CSlice ρ) := fun s => s.loadPrefix b r
/-- `skip_first(bits, refs)`. -/
def skip (b r : Nat) : Rd ρ Unit := fun s => s.skipFirst b r

/-- The program `p` takes `n` bits and returns `f` of them, or fails with `CellUnderflow` and leaves
the slice unchanged. -/
def Takes {α : Type} (p : Rd ρ α) (n : Nat) (f : Bits → α) : Prop :=
  ∀ s : CSlice ρ, s.WF →
    (n ≤ s.bits.length → ∃ s', p s = (.ok (f (s.bits.take n)), s') ∧ s'.WF ∧
      s'.contents = (s.bits.drop n, s.refList) ∧ s'.data = s.data ∧ s'.refs = s.refs) ∧
    (¬ n ≤ s.bits.length → p s = (.error .cellUnderflow, s))

theorem takes_of {α β : Type} {l : CSlice ρ → Except Err α × CSlice ρ} {g : α → β} {n : Nat} {f : Bits → β}
    {v : β → Val ρ} (hinj : ∀ x y, v x = v y → x = y)
    (h : ∀ s : CSlice ρ, s.WF → LoadOp.Agrees s (LoadOp.view (fun x => v (g x)) (l s))
      (LoadOp.specTake (s.bits, s.refList) n fun b => v (f b))) : Takes (conv g l) n f := by
  intro s hs
  obtain ⟨h1, h2, h3, h4, h5, h6⟩ := h s hs
  unfold LoadOp.specTake at h1 h2
  simp only [LoadOp.view] at h1 h2 h3 h4 h5 h6
  constructor
  · intro hn
    rw [if_pos hn] at h1 h2
    rcases hl : l s with ⟨r, s1⟩
    rw [hl] at h1 h2 h3 h5 h6
    cases r with
    | error e => cases h1
    | ok a =>
      simp only [Except.map, Except.ok.injEq] at h1
      refine ⟨s1, ?_, h3, h2, h5, h6⟩
      unfold conv
      rw [hl]
      simp only [Except.map, hinj _ _ h1]
  · intro hn
    rw [if_neg hn] at h1 h2
    rcases hl : l s with ⟨r, s1⟩
    rw [hl] at h1 h2 h4
    cases r with
    | ok a => cases h1
    | error e =>
      simp only [Except.map, Except.error.injEq] at h1 h4
      unfold conv
      rw [hl]
      have h5' := h4 e rfl
      subst h1; subst h5'
      rfl

theorem nat_inj (x y : Nat) (h : (Val.nat x : Val ρ) = .nat y) : x = y := Val.nat.inj h

theorem takes_u8 : Takes (u8 : Rd ρ Nat) 8 natOfBits := takes_of (v := Val.nat) nat_inj fun s hs => C03_read hs .u8 trivial
theorem takes_u16 : Takes (u16 : Rd ρ Nat) 16 natOfBits := takes_of (v := Val.nat) nat_inj fun s hs => C03_read hs .u16 trivial
theorem takes_u32 : Takes (u32 : Rd ρ Nat) 32 natOfBits := takes_of (v := Val.nat) nat_inj fun s hs => C03_read hs .u32 trivial
theorem takes_u64 : Takes (u64 : Rd ρ Nat) 64 natOfBits := takes_of (v := Val.nat) nat_inj fun s hs => C03_read hs .u64 trivial
theorem takes_u128 : Takes (u128 : Rd ρ Nat) 128 natOfBits := takes_of (v := Val.nat) nat_inj fun s hs => C03_read hs .u128 trivial
theorem takes_small {n : Nat} (h : n ≤ 8) : Takes (small n : Rd ρ Nat) n natOfBits :=
  takes_of (v := Val.nat) nat_inj fun s hs => by
    have := C03_read hs (.smallUint n) (show n ≤ 64511 by omega)
    simp only [LoadOp.spec, if_pos h] at this
    exact this
theorem takes_uint {n : Nat} (h : n ≤ 64) : Takes (uint n : Rd ρ Nat) n natOfBits :=
  takes_of (v := Val.nat) nat_inj fun s hs => by
    have := C03_read hs (.uint n) (show n ≤ 64511 by omega)
    simp only [LoadOp.spec, if_pos h] at this
    exact this

theorem conv_id {α : Type} (l : CSlice ρ → Except Err α × CSlice ρ) : conv (fun x => x) l = l := by
  funext s
  unfold conv
  rcases l s with ⟨r, s1⟩
  cases r <;> rfl

theorem takes_bit : Takes (bit : Rd ρ Bool) 1 (fun l => l.getD 0 false) := by
  have : Takes (conv (fun x => x) fun s : CSlice ρ => s.loadBit) 1 (fun l => l.getD 0 false) :=
    takes_of (v := Val.bool) (fun x y h => Val.bool.inj h) fun s hs => C03_read hs .bit trivial
  rwa [conv_id] at this

/-- The bytes of a bit string whose length is a multiple of eight. -/
def bytesOf (n : Nat) (l : Bits) : List Byte := toBE n (BitVec.ofNat _ (natOfBits l))

theorem bytesToBits_bytesOf {n : Nat} {l : Bits} (h : l.length = 8 * n) : bytesToBits (bytesOf n l) = l := by
  unfold bytesOf
  apply list_ext_getD
  · simp [h]
  · intro i hi
    simp only [bytesToBits_length, length_toBE] at hi
    rw [bytesToBits_getD, bitAt_toBE, BitVec.getMsbD_eq_getLsbD, BitVec.getLsbD_ofNat, testBit_natOfBits]
    have e1 : 8 * n - 1 - (8 * n - 1 - i) = i := by omega
    have e2 : 8 * n - 1 - i < 8 * n := by omega
    simp [h, hi, e1, e2]

theorem bytesOf_bytesToBits {n : Nat} {v : List Byte} (h : v.length = n) : bytesOf n (bytesToBits v) = v := by
  apply bytesToBits_inj
  rw [bytesToBits_bytesOf]
  simp [h]

theorem takes_u256 : Takes (u256 : Rd ρ (List Byte)) 256 (bytesOf 32) := by
  have key : Takes (conv (fun x => x) fun s : CSlice ρ => s.loadU256) 256 (bytesOf 32) := by
    refine takes_of (v := fun x => Val.bits (bytesToBits x)) (fun x y h => bytesToBits_inj (Val.bits.inj h)) fun s hs => ?_
    have h := C03_read hs .u256 trivial
    have e : LoadOp.specTake (s.bits, s.refList) 256 (fun b => (Val.bits (bytesToBits (bytesOf 32 b)) : Val ρ)) =
        LoadOp.specTake (s.bits, s.refList) 256 (fun b => .bits b) := by
      unfold LoadOp.specTake
      by_cases hl : 256 ≤ s.bits.length
      · rw [if_pos hl, if_pos hl]
        dsimp only
        rw [bytesToBits_bytesOf (by simp; omega)]
      · rw [if_neg hl, if_neg hl]
    rw [e]
    exact h
  rwa [conv_id] at key

theorem Takes.reads {α : Type} {p : Rd ρ α} {n : Nat} {f : Bits → α} (h : Takes p n f) {l : Bits} (hl : l.length = n) :
    Reads p (Enc.bits l) (f l) := by
  intro s rest hs hc
  have hb : s.bits = l ++ rest.1 := congrArg Prod.fst hc
  have hr : s.refList = rest.2 := congrArg Prod.snd hc
  obtain ⟨s', e, wf, c, d1, d2⟩ := (h s hs).1 (by rw [hb, List.length_append]; omega)
  refine ⟨s', ?_, wf, ?_, d1, d2⟩
  · rw [e, hb, ← hl, List.take_left]
  · rw [c, hb, ← hl, List.drop_left, hr]

theorem Takes.safe {α : Type} {p : Rd ρ α} {n : Nat} {f : Bits → α} (h : Takes p n f) : Safe p := by
  intro s hs
  by_cases hn : n ≤ s.bits.length
  · obtain ⟨s', e, wf, c, d1, d2⟩ := (h s hs).1 hn
    rw [e]
    refine ⟨wf, ⟨(s.bits.take n, []), ?_⟩, by simp, by simp⟩
    rw [c]
    exact Prod.ext (List.take_append_drop ..).symm rfl
  · rw [(h s hs).2 hn]
    exact ⟨hs, ⟨Enc.nil, rfl⟩, by simp, by simp⟩

theorem Takes.exact {α : Type} {p : Rd ρ α} {n : Nat} {f : Bits → α} (h : Takes p n f) :
    Exact p (fun v e => ∃ l : Bits, l.length = n ∧ v = f l ∧ e = Enc.bits l) := by
  intro s s' v hs hp
  by_cases hn : n ≤ s.bits.length
  · obtain ⟨s1, e, wf, c, d1, d2⟩ := (h s hs).1 hn
    rw [e] at hp
    obtain ⟨e1, e2⟩ := Prod.mk.inj hp
    injection e1 with e1
    subst e2
    refine ⟨Enc.bits (s.bits.take n), ⟨s.bits.take n, by simp [hn], e1.symm, rfl⟩, ?_, wf⟩
    rw [c]
    exact Prod.ext (List.take_append_drop ..).symm rfl
  · rw [(h s hs).2 hn] at hp; cases hp

/-- A number of `n` bits is read back from its `n`-bit representation. -/
theorem Takes.reads_nat {p : Rd ρ Nat} {n : Nat} (h : Takes p n natOfBits) {v : Nat} (hv : v < 2 ^ n) :
    Reads p (Enc.bits (natBits n v)) v := by
  have := h.reads (l := natBits n v) (by simp)
  rwa [natOfBits_natBits, Nat.mod_eq_of_lt hv] at this

theorem Takes.exact_nat {p : Rd ρ Nat} {n : Nat} (h : Takes p n natOfBits) :
    Exact p (fun v e => v < 2 ^ n ∧ e = Enc.bits (natBits n v)) :=
  h.exact.weaken fun v e ⟨l, h1, h2, h3⟩ => by
    subst h2
    refine ⟨h1 ▸ natOfBits_lt l, ?_⟩
    rw [h3, ← h1, natBits_natOfBits]

theorem reads_bit (v : Bool) : Reads (bit : Rd ρ Bool) (Enc.bits [v]) v := takes_bit.reads (l := [v]) rfl
theorem exact_bit : Exact (bit : Rd ρ Bool) (fun v e => e = Enc.bits [v]) :=
  takes_bit.exact.weaken fun v e ⟨l, h1, h2, h3⟩ => by
    match l, h1 with
    | [x], _ => rw [h3, h2]; rfl
theorem reads_u256 {v : List Byte} (h : v.length = 32) : Reads (u256 : Rd ρ (List Byte)) (Enc.bits (bytesToBits v)) v := by
  have := (takes_u256 (ρ := ρ)).reads (l := bytesToBits v) (by simp [h])
  rwa [bytesOf_bytesToBits h] at this
theorem exact_u256 : Exact (u256 : Rd ρ (List Byte)) (fun v e => v.length = 32 ∧ e = Enc.bits (bytesToBits v)) :=
  takes_u256.exact.weaken fun v e ⟨l, h1, h2, h3⟩ => by
    subst h2
    exact ⟨by simp [bytesOf], by rw [bytesToBits_bytesOf (by omega), h3]⟩

theorem ref_spec {s : CSlice ρ} (hs : s.WF) :
    (∀ c rs, s.refList = c :: rs → ∃ s', ref s = (.ok c, s') ∧ s'.WF ∧ s'.contents = (s.bits, rs) ∧ s'.data = s.data ∧ s'.refs = s.refs) ∧
    (s.refList = [] → ref s = (.error .cellUnderflow, s)) := by
  obtain ⟨h1, h2, h3, h4, h5, h6⟩ := C03_read hs .ref trivial
  simp only [LoadOp.run, LoadOp.view, LoadOp.spec] at h1 h2 h3 h4 h5 h6
  unfold ref
  rcases hl : s.loadReference with ⟨r, s1⟩
  rw [hl] at h1 h2 h3 h4 h5 h6
  constructor
  · intro c rs hc
    rw [hc] at h1 h2
    cases r with
    | error e => cases h1
    | ok a =>
      simp only [Except.map, Except.ok.injEq, Val.cell.injEq] at h1
      subst h1
      exact ⟨s1, rfl, h3, h2, h5, h6⟩
  · intro hc
    rw [hc] at h1
    cases r with
    | ok a => cases h1
    | error e =>
      simp only [Except.map, Except.error.injEq] at h1 h4
      have h5' := h4 e rfl
      subst h1; subst h5'
      rfl

theorem reads_ref (c : ρ) : Reads (ref : Rd ρ ρ) (Enc.ref c) c := by
  intro s rest hs hc
  obtain ⟨s', e, wf, c', d⟩ := (ref_spec hs).1 c rest.2 (congrArg Prod.snd hc)
  have hb : s.bits = rest.1 := congrArg Prod.fst hc
  exact ⟨s', e, wf, by rw [c', hb], d⟩

theorem exact_ref : Exact (ref : Rd ρ ρ) (fun c e => e = Enc.ref c) := by
  intro s s' v hs hp
  cases hr : s.refList with
  | nil => rw [(ref_spec hs).2 hr] at hp; cases hp
  | cons c rs =>
    obtain ⟨s1, e, wf, c', d⟩ := (ref_spec hs).1 c rs hr
    rw [e] at hp
    obtain ⟨e1, e2⟩ := Prod.mk.inj hp
    injection e1 with e1
    subst e1; subst e2
    refine ⟨_, rfl, ?_, wf⟩
    rw [c']
    exact Prod.ext rfl hr

theorem safe_ref : Safe (ref : Rd ρ ρ) := by
  intro s hs
  cases hr : s.refList with
  | nil =>
    rw [(ref_spec hs).2 hr]
    exact ⟨hs, ⟨Enc.nil, rfl⟩, by simp, by simp⟩
  | cons c rs =>
    obtain ⟨s1, e, wf, c', d⟩ := (ref_spec hs).1 c rs hr
    rw [e]
    exact ⟨wf, ⟨Enc.ref c, by rw [c']; exact Prod.ext rfl hr⟩, by simp, by simp⟩

end Rd

theorem WritesAtomic.writes {ρ : Type} {w : Wr ρ Unit} {e : Enc ρ} (h : WritesAtomic w e) : Writes w e := h.1

/-- Splitting a number into a high and a low part. -/
theorem natBits_split (a b v : Nat) : natBits (a + b) v = natBits a (v / 2 ^ b) ++ natBits b v := by
  apply list_ext_getD
  · simp
  · intro i hi
    simp only [natBits_length] at hi
    rw [getD_append_bits]
    simp only [natBits_length]
    have g : ∀ w x j, j < w → (natBits w x).getD j false = x.testBit (w - 1 - j) := by
      intro w x j hj
      simp [natBits, hj]
    split <;> rename_i h
    · rw [g _ _ _ hi, g _ _ _ h, Nat.testBit_div_two_pow]
      congr 1; omega
    · rw [g _ _ _ hi, g _ _ _ (by omega)]
      congr 1; omega

end Verif
