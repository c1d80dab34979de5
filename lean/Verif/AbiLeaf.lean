import Verif.AbiPack
import Verif.DictMergeProps
import Verif.MessageLemmas
import Verif.TypedDictProps
import Verif.CurrencyProps
/-!
# Leaves of ABI values
-/
set_option linter.unusedVariables false
set_option linter.unusedSimpArgs false
namespace Verif
namespace Abi

theorem enc_nil_append (e : Enc Cell) : Enc.nil ++ e = e := by simp
theorem enc_append_nil (e : Enc Cell) : e ++ Enc.nil = e := by simp
theorem flatE_one (e : Leaf) : flatE [e] = e := by simp [flatE]

/-- A leaf that is read after a look at its first bits. -/
theorem Dec.leaf {ver : Ver} {α β : Type} {p : Rd Cell α} {e : Leaf} {x : α} (hp : Reads p e x) {n : Nat} (hn : 0 < n) (he : n ≤ e.1.length) (f : α → β) :
    Dec ver (fun _ => preload n >>= fun _ => p >>= fun x => Pure.pure (f x)) (f x) [e] := by
  intro last s g gs rest ha hl hlast
  obtain ⟨s1, g1, gs1, h1, h2, h3⟩ := ha.front (e := e) (rest := rest) (by simpa using hl) hn he
  obtain ⟨s2, h4, h5⟩ := h2.step hp
  refine ⟨s2, g1, gs1, ?_, h5, h3⟩
  show (preload n >>= fun _ => p >>= fun x => Pure.pure (f x)) s = _
  rw [Prog.bind_ok h1, Prog.bind_ok h4]
  rfl

/-- A leaf that is one reference. -/
theorem Dec.refLeaf {ver : Ver} (hv : 1 ≤ ver.major) {α : Type} {c : Cell} {f : Cell → Rd Cell α} {v : α} (hf : ∀ s, f c s = (.ok v, s)) :
    Dec ver (fun last => loadCell ver last >>= f) v [Enc.ref c] := by
  intro last s g gs rest ha hl hlast
  obtain ⟨s1, g1, gs1, h1, h2, h3⟩ := ha.cell hv (c := c) (rest := rest) (by simpa using hl) hlast
  refine ⟨s1, g1, gs1, ?_, h2, h3⟩
  show (loadCell ver last >>= f) s = _
  rw [Prog.bind_ok h1, hf]

theorem Dec.map {ver : Ver} {α β : Type} {ld : Bool → Rd Cell α} {v : α} {ls : List Leaf} (h : Dec ver ld v ls) (f : α → β) :
    Dec ver (fun last => ld last >>= fun x => Pure.pure (f x)) (f v) ls := by
  intro last s g gs rest ha hl hlast
  obtain ⟨s1, g1, gs1, h1, h2, h3⟩ := h last s g gs rest ha hl hlast
  refine ⟨s1, g1, gs1, ?_, h2, h3⟩
  show (ld last >>= fun x => Pure.pure (f x)) s = _
  rw [Prog.bind_ok h1]
  rfl

theorem Dec.check {ver : Ver} {α β : Type} {ld : Bool → Rd Cell α} {v : α} {ls : List Leaf} (h : Dec ver ld v ls) {c : α → Bool} (f : α → β) (hc : c v = false) :
    Dec ver (fun last => ld last >>= fun x => failIf (c x) (f x)) (f v) ls := by
  intro last s g gs rest ha hl hlast
  obtain ⟨s1, g1, gs1, h1, h2, h3⟩ := h last s g gs rest ha hl hlast
  refine ⟨s1, g1, gs1, ?_, h2, h3⟩
  show (ld last >>= fun x => failIf (c x) (f x)) s = _
  rw [Prog.bind_ok h1]
  unfold failIf give
  rw [hc]
  rfl

theorem Dec.congr {ver : Ver} {α : Type} {ld ld' : Bool → Rd Cell α} {v : α} {ls : List Leaf} (h : Dec ver ld v ls) (e : ∀ last, ld' last = ld last) : Dec ver ld' v ls := by
  rwa [show ld' = ld from funext e]

/-- Two values one after another. -/
theorem Dec.seq {ver : Ver} {α β γ : Type} {ld : Bool → Rd Cell α} {ld2 : Bool → Rd Cell β} {v : α} {w : β} {l1 l2 : List Leaf} (h1 : Dec ver ld v l1)
    (h2 : Dec ver ld2 w l2) (hne : l2 ≠ []) (f : α → β → γ) :
    Dec ver (fun last => ld false >>= fun a => ld2 last >>= fun b => Pure.pure (f a b)) (f v w) (l1 ++ l2) := by
  intro last s g gs rest ha hl hlast
  obtain ⟨s1, g1, gs1, k1, k2, k3⟩ := h1 false s g gs (l2 ++ rest) ha (by rw [hl, List.append_assoc]) ⟨fun h => (by cases h), fun h => absurd (List.append_eq_nil_iff.mp h).1 hne⟩
  obtain ⟨s2, g2, gs2, m1, m2, m3⟩ := h2 last s1 g1 gs1 rest k2 k3 hlast
  refine ⟨s2, g2, gs2, ?_, m2, m3⟩
  show (ld false >>= fun a => ld2 last >>= fun b => Pure.pure (f a b)) s = _
  rw [Prog.bind_ok k1, Prog.bind_ok m1]
  rfl

/-! ### Integers -/

theorem pack_unpack (v : List Byte) : packBytes (bytesToBits v) = v := by
  refine bytesToBits_inj ?_
  rw [packBytes_bits]
  unfold LoadOp.padToBytes
  rw [bytesToBits_length]
  have : 8 * ((8 * v.length + 7) / 8) - 8 * v.length = 0 := by omega
  simp [this]

theorem reads_bytes {v : List Byte} (h : v.length * 8 ≤ 1023) : Reads (Rd.raw v.length (v.length * 8) : Rd Cell (List Byte)) (Enc.bits (bytesToBits v)) v := by
  have ht : Rd.Takes (Rd.raw v.length (v.length * 8) : Rd Cell (List Byte)) (v.length * 8) packBytes := Rd.takes_raw h (by omega)
  have := ht.reads (l := bytesToBits v) (by rw [bytesToBits_length]; omega)
  rwa [pack_unpack] at this

theorem writes_bytes {v : List Byte} (h : v.length < 8000) : Writes (Wr.raw v (v.length * 8) : Wr Cell Unit) (Enc.bits (bytesToBits v)) := by
  have hw : Writes (Wr.raw v (v.length * 8) : Wr Cell Unit) _ := (Wr.writes_raw (by omega) (by omega)).writes
  refine hw.cast ?_
  unfold rawBits
  rw [if_pos (by omega), List.take_of_length_le (by rw [bytesToBits_length]; omega)]

/-- What the bytes of a variable-length integer say. -/
theorem signed_spec (x : Int) : signedBytesBe x ≠ [] ∧ (0 ≤ x → natOfBits (bytesToBits (signedBytesBe x)) = x.toNat) ∧
    ((0 ≤ x → Big.FitsI (8 * (signedBytesBe x).length) x) → Big.sint (bytesToBits (signedBytesBe x)) = x) ∧
    (Big.bitLen x.natAbs + 7) / 8 ≤ (signedBytesBe x).length := by
  unfold signedBytesBe
  by_cases hx : x < 0
  · rw [if_pos hx]
    obtain ⟨h1, h2, h3⟩ := Big.toSigned_two x
    generalize Big.toSignedBytesLe x = l at h1 h2 h3
    refine ⟨by simpa using h1, fun h => by omega, fun _ => ?_, ?_⟩
    · rw [Big.bits_of_le, h3, Big.pow8]
      exact Big.sint_twoBits h2
    · rw [List.length_reverse]
      have := (Big.fitsI_iff.mp h2).2 hx
      have hp : 256 ^ l.length = 2 ^ (8 * l.length) := by rw [show 256 = 2 ^ 8 from rfl, ← Nat.pow_mul]
      have hb : Big.bitLen x.natAbs ≤ 8 * l.length := Big.bitLen_le.mpr (by omega)
      omega
  · rw [if_neg hx]
    obtain ⟨h1, h2⟩ := Big.toBytesLe_spec x.natAbs
    have hlen : (Big.bitLen x.natAbs + 7) / 8 ≤ (Big.toBytesLe x.natAbs).length := by
      unfold Big.toBytesLe
      rw [Big.leBytes_length]
      omega
    generalize Big.toBytesLe x.natAbs = l at h1 h2 hlen
    have hlt := Big.leNat_lt l
    have hp : 256 ^ l.length = 2 ^ (8 * l.length) := by rw [show 256 = 2 ^ 8 from rfl, ← Nat.pow_mul]
    have hxn : ((x.natAbs : Nat) : Int) = x := by omega
    refine ⟨by simpa using h1, fun h => ?_, fun hf => ?_, by rw [List.length_reverse]; exact hlen⟩
    · rw [Big.bits_of_le, natOfBits_natBits, Nat.mod_eq_of_lt (by omega), h2]
      omega
    · have hf := hf (by omega)
      rw [List.length_reverse] at hf
      rw [Big.bits_of_le, h2, ← Big.twoBits_nat, hxn]
      exact Big.sint_twoBits hf

/-- The leaf of a variable-length integer. -/
def varLeaf (n : Nat) (bytes : List Byte) : Leaf := Enc.bits (natBits (lenBits n) bytes.length) ++ Enc.bits (bytesToBits bytes)

theorem varLeaf_bits (n : Nat) (bytes : List Byte) : (varLeaf n bytes).1.length = lenBits n + bytes.length * 8 ∧ (varLeaf n bytes).2 = [] := by
  constructor
  · show (natBits _ _ ++ bytesToBits bytes).length = _
    rw [List.length_append, natBits_length, bytesToBits_length]
    omega
  · rfl

theorem lenBits_spec {n len : Nat} (hn : n ≤ 255) (h1 : 1 ≤ len) (h2 : len ≤ n - 1) : 0 < lenBits n ∧ lenBits n ≤ 8 ∧ len < 2 ^ lenBits n := by
  unfold lenBits
  have h8 : Big.bitLen (n - 1) ≤ 8 := Big.bitLen_le.mpr (by omega)
  have hl : n - 1 < 2 ^ Big.bitLen (n - 1) := Big.bitLen_le.mp (Nat.le_refl _)
  refine ⟨?_, h8, by omega⟩
  rcases Nat.eq_zero_or_pos (Big.bitLen (n - 1)) with h | h
  · rw [h] at hl; omega
  · exact h

theorem writes_var {n : Nat} {bytes : List Byte} (hn : n ≤ 255) (h1 : bytes ≠ []) (h2 : bytes.length ≤ n - 1) :
    Writes (Wr.small bytes.length (lenBits n) >>= fun _ => Wr.raw bytes (bytes.length * 8) : Wr Cell Unit) (varLeaf n bytes) := by
  have hp := List.length_pos_iff.mpr h1
  obtain ⟨_, h8, _⟩ := lenBits_spec hn hp h2
  exact (Wr.writes_small _ h8).writes.seq (f := fun _ => Wr.raw bytes (bytes.length * 8)) (writes_bytes (by omega))

theorem Dec.var {ver : Ver} {α : Type} {n : Nat} {bytes : List Byte} (hn : n ≤ 255) (h1 : bytes ≠ []) (h2 : bytes.length ≤ n - 1) (h3 : bytes.length * 8 ≤ 1023)
    (f : List Byte → α) : Dec ver (fun _ => loadVarRaw n >>= fun b => Pure.pure (f b)) (f bytes) [varLeaf n bytes] := by
  have hp := List.length_pos_iff.mpr h1
  obtain ⟨hl0, h8, hlt⟩ := lenBits_spec hn hp h2
  intro last s g gs rest ha hl hlast
  obtain ⟨s1, g1, gs1, k1, k2, k3⟩ := ha.front (e := varLeaf n bytes) (rest := rest) (by simpa using hl) hl0 (by rw [(varLeaf_bits n bytes).1]; omega)
  have k2' : At ver s1 ((Enc.bits (natBits (lenBits n) bytes.length) ++ flatE [Enc.bits (bytesToBits bytes)]) :: g1) gs1 := by rw [flatE_one]; exact k2
  have hsol : Solid (Enc.bits (bytesToBits bytes)) := by
    refine Or.inl ?_
    intro h
    have := congrArg List.length h
    change (bytesToBits bytes).length = 0 at this
    rw [bytesToBits_length] at this
    omega
  obtain ⟨s2, m1, m2⟩ := k2'.part (by intro e he; rw [List.mem_singleton] at he; subst he; exact hsol) ((Rd.takes_small h8).reads_nat hlt)
  obtain ⟨s3, g3, gs3, r1, r2, r3⟩ := m2.front (e := Enc.bits (bytesToBits bytes)) (rest := rest) (n := bytes.length * 8) (by simpa using k3) (by omega)
    (by show _ ≤ (bytesToBits bytes).length; rw [bytesToBits_length]; omega)
  obtain ⟨s4, q1, q2⟩ := r2.step (reads_bytes h3)
  refine ⟨s4, g3, gs3, ?_, q2, r3⟩
  show (loadVarRaw n >>= fun b => Pure.pure (f b)) s = _
  have hrun : loadVarRaw n s = (.ok bytes, s4) := by
    unfold loadVarRaw
    rw [Prog.bind_ok k1, Prog.bind_ok m1, Prog.bind_ok r1]
    exact q1
  rw [Prog.bind_ok hrun]
  rfl

/-! ### Bytes -/

theorem readBytes_nil : readBytes (Tlb.cellOf Enc.nil) = .ok [] := rfl

theorem readBytes_leaf (v : List Byte) : readBytes (Tlb.cellOf (Enc.bits (bytesToBits v))) = .ok v := by
  show readBytes (.mk false (bytesToBits v) []) = _
  unfold readBytes
  rw [if_neg (by rw [bytesToBits_length]; omega), pack_unpack]

theorem readBytes_more (v : List Byte) {c : Cell} {r : List Byte} (h : readBytes c = .ok r) :
    readBytes (Tlb.cellOf (Enc.ref c ++ Enc.bits (bytesToBits v))) = .ok (v ++ r) := by
  show readBytes (.mk false (bytesToBits v) [c]) = _
  unfold readBytes
  rw [if_neg (by rw [bytesToBits_length]; omega), pack_unpack]
  dsimp only
  rw [h]
  rfl

/-- The builder holds these bytes. -/
def HoldsTail (b : CellB Cell) (tail : List Byte) : Prop :=
  b.WF ∧ readBytes (Tlb.cellOf b.contents) = .ok tail ∧ (b.inner.bits.length = 0 → b.contents = Enc.nil)

theorem writes_ok {w : Wr Cell Unit} {e : Enc Cell} (hw : Writes w e) {b b' : CellB Cell} (wf : b.WF) (h : w b = (.ok (), b')) :
    b'.WF ∧ b'.contents = b.contents ++ e := by
  by_cases hf : (b.contents ++ e : Enc Cell).Fits
  · obtain ⟨b2, r, wf2, c2, _⟩ := (hw b wf).1 hf
    rw [r] at h
    injection h with _ h
    subst h
    exact ⟨wf2, c2⟩
  · obtain ⟨b2, r, _⟩ := (hw b wf).2 hf
    rw [r] at h
    cases h

theorem bytesGo_spec {acc : Cell → Bool} : ∀ (fuel per : Nat) (data : List Byte) (b b' : CellB Cell) (tail : List Byte), bytesGo acc fuel per data b = .ok b' →
    data.length ≤ fuel → (data ≠ [] → 1 ≤ per ∧ per ≤ data.length ∧ per ≤ 127) → HoldsTail b tail → HoldsTail b' (data ++ tail)
  | 0, per, data, b, b', tail, h, hf, hp, hb => by
    have : data = [] := List.length_eq_zero_iff.mp (by omega)
    subst this
    injection h with h
    subst h
    exact hb
  | fuel + 1, per, data, b, b', tail, h, hf, hp, hb => by
    unfold bytesGo at h
    by_cases h0 : data.length = 0
    · rw [if_pos h0] at h
      have : data = [] := List.length_eq_zero_iff.mp h0
      subst this
      injection h with h
      subst h
      exact hb
    · rw [if_neg h0] at h
      obtain ⟨p1, p2, p3⟩ := hp (fun e => h0 (by rw [e]; rfl))
      dsimp only at h
      obtain ⟨wf, hr, hz⟩ := hb
      have hpre : ∀ b1, (if b.inner.bits.length > 0 then
          build acc b >>= fun c => match (Wr.ref c : Wr Cell Unit) .new with
            | (.error e, _) => .error e
            | (.ok _, b') => .ok b'
         else .ok b) = Except.ok (ε := Err) b1 → b1.WF ∧ ((b1.contents = Enc.nil ∧ tail = []) ∨ ∃ c, b1.contents = Enc.ref c ∧ readBytes c = .ok tail) := by
        intro b1 hb1
        by_cases hbit : b.inner.bits.length > 0
        · rw [if_pos hbit] at hb1
          cases hc : build acc b with
          | error x => rw [hc] at hb1; cases hb1
          | ok c =>
            rw [hc] at hb1
            change (match (Wr.ref c : Wr Cell Unit) .new with
              | (.error e, _) => (Except.error e : Except Err (CellB Cell))
              | (.ok _, b') => .ok b') = _ at hb1
            rcases hw : (Wr.ref c : Wr Cell Unit) .new with ⟨r, b2⟩
            rw [hw] at hb1
            cases r with
            | error x => cases hb1
            | ok _ =>
              injection hb1 with hb1
              subst hb1
              obtain ⟨w1, w2⟩ := ref_ok CellB.wf_new hw
              refine ⟨w1, Or.inr ⟨c, ?_, ?_⟩⟩
              · rw [w2]; rfl
              · rw [build_ok hc]; exact hr
        · rw [if_neg hbit] at hb1
          injection hb1 with hb1
          subst hb1
          have hz := hz (by omega)
          refine ⟨wf, Or.inl ⟨hz, ?_⟩⟩
          rw [hz, readBytes_nil] at hr
          injection hr with hr
          exact hr.symm
      generalize hX : (if b.inner.bits.length > 0 then
          build acc b >>= fun c => match (Wr.ref c : Wr Cell Unit) .new with
            | (.error e, _) => .error e
            | (.ok _, b') => .ok b'
         else .ok b : Except Err (CellB Cell)) = X at h hpre
      cases X with
      | error x => cases h
      | ok b1 =>
        obtain ⟨wf1, hb1⟩ := hpre b1 rfl
        change (match (Wr.raw (data.drop (data.length - per)) (per * 8) : Wr Cell Unit) b1 with
          | (.error e, _) => (Except.error e : Except Err (CellB Cell))
          | (.ok _, b') => bytesGo acc fuel (Nat.min 127 (data.length - per)) (data.take (data.length - per)) b') = _ at h
        have hlen : (data.drop (data.length - per)).length = per := by rw [List.length_drop]; omega
        have hw := writes_bytes (v := data.drop (data.length - per)) (by omega)
        rw [hlen] at hw
        rcases hrun : (Wr.raw (data.drop (data.length - per)) (per * 8) : Wr Cell Unit) b1 with ⟨r, b2⟩
        rw [hrun] at h
        cases r with
        | error x => cases h
        | ok _ =>
          change bytesGo acc fuel (Nat.min 127 (data.length - per)) (data.take (data.length - per)) b2 = _ at h
          obtain ⟨wf2, c2⟩ := writes_ok hw wf1 hrun
          have hbits : b2.inner.bits.length = per * 8 := by
            show b2.contents.1.length = _
            rw [c2]
            rcases hb1 with ⟨hb1, _⟩ | ⟨c, hb1, _⟩ <;> rw [hb1]
            · show (bytesToBits _).length = _
              rw [bytesToBits_length, hlen]; omega
            · show (bytesToBits _).length = _
              rw [bytesToBits_length, hlen]; omega
          have key : HoldsTail b2 (data.drop (data.length - per) ++ tail) := by
            refine ⟨wf2, ?_, fun h => by omega⟩
            rcases hb1 with ⟨hb1, rfl⟩ | ⟨c, hb1, hrc⟩
            · rw [c2, hb1, enc_nil_append, readBytes_leaf, List.append_nil]
            · rw [c2, hb1, readBytes_more _ hrc]
          have := bytesGo_spec fuel _ _ b2 b' _ h (by rw [List.length_take]; omega) (by
            intro hne
            have : 0 < (data.take (data.length - per)).length := List.length_pos_iff.mpr hne
            rw [List.length_take] at this ⊢
            have e : Nat.min 127 (data.length - per) = min 127 (data.length - per) := rfl
            omega) key
          rw [← List.append_assoc, List.take_append_drop] at this
          exact this

theorem bytesCell_spec {acc : Cell → Bool} {ver : Ver} {data : List Byte} {c : Cell} (h : bytesCell acc ver data = .ok c) : readBytes c = .ok data := by
  unfold bytesCell at h
  dsimp only at h
  generalize hper : (if ver.major > 1 then (if data.length % 127 = 0 then 127 else data.length % 127) else Nat.min 127 data.length) = per at h
  cases hb : bytesGo acc data.length per data .new with
  | error x => rw [hb] at h; cases h
  | ok b =>
    rw [hb] at h
    change build acc b = .ok c at h
    have hh : HoldsTail b (data ++ []) := bytesGo_spec data.length per data .new b [] hb (Nat.le_refl _) (by
      intro hne
      have hl := List.length_pos_iff.mpr hne
      have e : Nat.min 127 data.length = min 127 data.length := rfl
      rw [← hper]
      split
      · split <;> omega
      · omega) ⟨CellB.wf_new, rfl, fun _ => rfl⟩
    rw [build_ok h, hh.2.1, List.append_nil]

/-! ### Dictionaries -/

/-- Insertions one after another. -/
def insertAll (acc : Cell → Bool) (n : Nat) : List (Bits × Sl) → Option Cell → Except Err (Option Cell)
  | [], d => .ok d
  | (k, v) :: l, d => setLeaf acc d k n v >>= insertAll acc n l

theorem setLeaf_spec {acc : Cell → Bool} {n : Nat} (hn : n ≤ 1023) {d d' : Option Cell} {m : DMap} (hd : RepresentsC acc n d m) {k : Bits} {v : Sl}
    (h : setLeaf acc d k n v = .ok d') : k.length = n ∧ RepresentsC acc n d' (m.put k (some v)) := by
  unfold setLeaf at h
  have hs := C22_step acc hn hd (.insert .set k v)
  have hr : (DOp.insert .set k v).run acc n d = ((dictInsert acc d k n v .set).1.map .flag, (dictInsert acc d k n v .set).2) := rfl
  rw [hr] at hs
  generalize dictInsert acc d k n v .set = out at h hs
  obtain ⟨r, d2⟩ := out
  cases r with
  | error x => cases h
  | ok f =>
    injection h with h
    subst h
    rcases hs with ⟨h1, h2, h3⟩ | ⟨_, ⟨e, h2⟩, _⟩
    · exact ⟨h1, h3⟩
    · cases h2

theorem insertAll_spec {acc : Cell → Bool} {n : Nat} (hn : n ≤ 1023) : ∀ {l : List (Bits × Sl)} {d d' : Option Cell} {m : DMap}, RepresentsC acc n d m →
    insertAll acc n l d = .ok d' → (∀ p ∈ l, p.1.length = n) ∧ RepresentsC acc n d' (m.over l)
  | [], d, d', m, hd, h => by
    injection h with h
    subst h
    exact ⟨(fun p hp => by cases hp), hd⟩
  | (k, v) :: l, d, d', m, hd, h => by
    unfold insertAll at h
    cases hs : setLeaf acc d k n v with
    | error x => rw [hs] at h; cases h
    | ok d1 =>
      rw [hs] at h
      change insertAll acc n l d1 = .ok d' at h
      obtain ⟨h1, h2⟩ := setLeaf_spec hn hd hs
      obtain ⟨h3, h4⟩ := insertAll_spec hn h2 h
      refine ⟨fun p hp => ?_, h4⟩
      rcases List.mem_cons.mp hp with rfl | hp
      · exact h1
      · exact h3 p hp

theorem over_absent {l : List (Bits × Sl)} : ∀ {m : DMap} {k : Bits}, (∀ p ∈ l, p.1 ≠ k) → m.over l k = m k := by
  induction l with
  | nil => intro m k _; rfl
  | cons p l ih =>
    obtain ⟨k0, v0⟩ := p
    intro m k h
    show (m.put k0 (some v0)).over l k = _
    rw [ih (fun p hp => h p (List.mem_cons_of_mem _ hp))]
    exact if_neg (fun e => h (k0, v0) List.mem_cons_self e.symm)

theorem over_listed {l : List (Bits × Sl)} (hp : l.Pairwise (fun p q => keyBefore false false p.1 q.1)) : ∀ {m : DMap} {k : Bits} {v : Sl}, (∀ p ∈ l, m p.1 = none) →
    (m.over l k = some v ↔ (k, v) ∈ l ∨ m k = some v) := by
  induction l with
  | nil => intro m k v _; exact ⟨Or.inr, fun h => h.elim (fun h => by cases h) id⟩
  | cons p l ih =>
    obtain ⟨k0, v0⟩ := p
    intro m k v hm
    rw [List.pairwise_cons] at hp
    obtain ⟨hp1, hp2⟩ := hp
    have hne : ∀ p ∈ l, p.1 ≠ k0 := fun p hpl e => keyBefore_irrefl false false k0 (by have := hp1 p hpl; rwa [e] at this)
    show (m.put k0 (some v0)).over l k = some v ↔ _
    rw [ih hp2 (fun p hpl => (if_neg (hne p hpl)).trans (hm p (List.mem_cons_of_mem _ hpl)))]
    have hk0 : m k0 = none := hm (k0, v0) List.mem_cons_self
    by_cases hk : k = k0
    · subst hk
      have e : m.put k (some v0) k = some v0 := if_pos rfl
      rw [e, hk0]
      constructor
      · rintro (h | h)
        · exact Or.inl (List.mem_cons_of_mem _ h)
        · injection h with h; subst h; exact Or.inl List.mem_cons_self
      · rintro (h | h)
        · rcases List.mem_cons.mp h with h | h
          · injection h with _ h; subst h; exact Or.inr rfl
          · exact Or.inl h
        · cases h
    · have e : m.put k0 (some v0) k = m k := if_neg hk
      rw [e]
      constructor
      · rintro (h | h)
        · exact Or.inl (List.mem_cons_of_mem _ h)
        · exact Or.inr h
      · rintro (h | h)
        · rcases List.mem_cons.mp h with h | h
          · injection h with h _; exact absurd h hk
          · exact Or.inl h
        · exact Or.inr h

/-- A dictionary that has been filled in the order of its keys gives back its entries. -/
theorem filled {acc : Cell → Bool} {n : Nat} (hn : n ≤ 1023) {l : List (Bits × Sl)} {d : Option Cell} (hp : l.Pairwise (fun p q => keyBefore false false p.1 q.1))
    (h : insertAll acc n l none = .ok d) :
    Yields RawIter.next (RawIter.new d n false false) (l.map .ok) ∧ Yields RawValues.next (RawValues.new d n false false) (l.map (fun p => .ok p.2)) ∧
    l.length ≤ 2 ^ n ∧ (d = none ↔ l = []) ∧ ∀ p ∈ l, p.1.length = n := by
  obtain ⟨h1, h2⟩ := insertAll_spec hn (C22_empty acc n) h
  have hl : Listing false false n (DMap.over (fun _ => none) l) l := by
    refine ⟨hp, fun k v => ?_⟩
    rw [over_listed hp (fun _ _ => rfl)]
    constructor
    · intro hk; exact ⟨h1 _ hk, Or.inl hk⟩
    · rintro ⟨_, hk | hk⟩
      · exact hk
      · cases hk
  obtain ⟨l1, a1, a2⟩ := C24_iter acc hn (representsC_any h2) false false
  obtain ⟨l2, b1, b2⟩ := C32_values_unsigned_partial acc hn (representsC_any h2) false
  obtain rfl := C24_listing_unique hl a1
  obtain rfl := C24_listing_unique hl b1
  refine ⟨a2, b2, listing_length hl, ⟨fun hd => ?_, fun hd => ?_⟩, h1⟩
  · subst hd
    cases l with
    | nil => rfl
    | cons p l =>
      obtain ⟨k, v⟩ := p
      have := (hl.2 k v).mp List.mem_cons_self
      rw [h2 k this.1] at this
      cases this.2
  · subst hd
    injection h with h
    exact h.symm

/-- The elements as values in the leaves. -/
def ElemsOf (P : Val → Sl → Prop) : Elems → List Sl → Prop
  | .nil, [] => True
  | .cons v r, s :: l => P v s ∧ ElemsOf P r l
  | _, _ => False

theorem ElemsOf.length {P : Val → Sl → Prop} : ∀ {vs : Elems} {l : List Sl}, ElemsOf P vs l → l.length = vs.length
  | .nil, [], _ => rfl
  | .cons v r, s :: l, h => by rw [List.length_cons, ElemsOf.length h.2]; rfl
  | .nil, _ :: _, h => h.elim
  | .cons _ _, [], h => h.elim

theorem loadValues_spec {part : Bool} {ld : Rd Cell Val} : ∀ {vs : Elems} {l : List Sl} {it : RawValues}, ElemsOf (fun v s => whole part ld s.reader = .ok v) vs l →
    Yields RawValues.next it (l.map .ok) → loadValues part ld vs.length it = .ok vs
  | .nil, [], it, _, _ => rfl
  | .cons v r, s :: l, it, h, hy => by
    obtain ⟨h0, h1⟩ := yieldsT_cons (p := Except.ok (ε := Err) s) hy
    show loadValues part ld (r.length + 1) it = _
    unfold loadValues
    rw [show it.next = (some (.ok s), it.next.2) from Prod.ext h0 rfl]
    dsimp only
    rw [h.1, show loadValues part ld r.length it.next.2 = .ok r from loadValues_spec h.2 h1]
    rfl
  | .nil, _ :: _, _, h, _ => h.elim
  | .cons _ _, [], _, h, _ => h.elim

/-- The entries as keys and values in the dictionary. -/
def EntriesOf (P : PVal → Val → Bits × Sl → Prop) : Entries → List (Bits × Sl) → Prop
  | .nil, [] => True
  | .cons k v r, p :: l => P k v p ∧ EntriesOf P r l
  | _, _ => False

def Entries.app : Entries → Entries → Entries
  | .nil, b => b
  | .cons k v r, b => .cons k v (r.app b)

def Entries.keys : Entries → List PVal
  | .nil => []
  | .cons k _ r => k :: r.keys

theorem Entries.app_nil : ∀ a : Entries, a.app .nil = a
  | .nil => rfl
  | .cons k v r => by rw [Entries.app, Entries.app_nil r]

theorem Entries.app_assoc : ∀ a b c : Entries, (a.app b).app c = a.app (b.app c)
  | .nil, _, _ => rfl
  | .cons k v r, b, c => by rw [Entries.app, Entries.app, Entries.app, Entries.app_assoc r]

theorem Entries.insert_new {k : PVal} {v : Val} : ∀ {m : Entries}, k ∉ m.keys → m.insert k v = m.app (.cons k v .nil)
  | .nil, _ => rfl
  | .cons k' v' r, h => by
    have h1 : k' ≠ k := fun e => h (by rw [e]; exact List.mem_cons_self)
    unfold Entries.insert
    rw [if_neg h1, Entries.insert_new (fun hm => h (List.mem_cons_of_mem _ hm))]
    rfl

theorem Entries.keys_app : ∀ a b : Entries, (a.app b).keys = a.keys ++ b.keys
  | .nil, _ => rfl
  | .cons k v r, b => by rw [Entries.app, Entries.keys, Entries.keys_app r, Entries.keys]; rfl

theorem loadEntries_spec {k : PTy} {ld : Rd Cell Val} : ∀ {es : Entries} {l : List (Bits × Sl)} {fuel : Nat} {it : RawIter} {m : Entries},
    EntriesOf (fun key v p => (k.load (Sl.reader ⟨p.1, []⟩)).1 = .ok key ∧ (ld p.2.reader).1 = .ok v) es l → Yields RawIter.next it (l.map .ok) → l.length < fuel →
    (m.keys ++ es.keys).Nodup → loadEntries k ld fuel it m = .ok (m.app es)
  | es, l, 0, it, m, _, _, hf, _ => absurd hf (Nat.not_lt_zero _)
  | .nil, [], fuel + 1, it, m, _, hy, _, _ => by
    have h0 := (yieldsT_nil hy).1
    unfold loadEntries
    rw [show it.next = (none, it.next.2) from Prod.ext h0 rfl]
    rw [Entries.app_nil]
  | .cons key v r, p :: l, fuel + 1, it, m, h, hy, hf, hn => by
    obtain ⟨h0, h1⟩ := yieldsT_cons (p := Except.ok (ε := Err) p) hy
    unfold loadEntries
    rw [show it.next = (some (.ok p), it.next.2) from Prod.ext h0 rfl]
    dsimp only
    obtain ⟨⟨h2, h3⟩, h4⟩ := h
    rw [h2, h3]
    change loadEntries k ld fuel it.next.2 (m.insert key v) = _
    have hk : key ∉ m.keys := fun hm => by
      have := (List.nodup_append.mp hn).2.2 key hm key List.mem_cons_self
      exact this rfl
    rw [Entries.insert_new hk, loadEntries_spec h4 h1 (by simpa using hf) (by
      rw [Entries.keys_app]
      simpa [Entries.keys] using hn), Entries.app_assoc]
    rfl
  | .nil, _ :: _, _, _, _, h, _, _, _ => h.elim
  | .cons _ _ _, [], _, _, _, h, _, _, _ => h.elim

end Abi
end Verif
