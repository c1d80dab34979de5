import Verif.Message
/-
Lemmas about messages.
-/
set_option linter.unusedVariables false
set_option linter.unusedSimpArgs false
namespace Verif

/-! ### Writers that may want some spare room -/

/-- Like `Writes`, but with fewer than `k` bits of spare room the writer may also fail. -/
def Near (k : Nat) (w : Wr Cell Unit) (e : Enc Cell) : Prop :=
  ∀ b : CellB Cell, b.WF →
    ((b.contents ++ (e ++ Enc.bits (List.replicate k false)) : Enc Cell).Fits → ∃ b', w b = (.ok (), b') ∧ b'.WF ∧ b'.contents = b.contents ++ e ∧ b'.exotic = b.exotic) ∧
    (¬ (b.contents ++ (e ++ Enc.bits (List.replicate k false)) : Enc Cell).Fits →
      (∃ b', w b = (.ok (), b') ∧ b'.WF ∧ b'.contents = b.contents ++ e ∧ b'.exotic = b.exotic) ∨ ∃ b', w b = (.error .cellOverflow, b') ∧ b'.WF)

theorem fits_append (a b : Enc Cell) : (a ++ b : Enc Cell).Fits ↔ a.1.length + b.1.length ≤ 1023 ∧ a.2.length + b.2.length ≤ 4 := by
  unfold Enc.Fits
  rw [Enc.append_fst, Enc.append_snd, List.length_append, List.length_append]

theorem Near.ofWrites {k : Nat} {w : Wr Cell Unit} {e : Enc Cell} (h : Writes w e) : Near k w e := by
  intro b hb
  have hw := h b hb
  refine ⟨fun hf => hw.1 ?_, fun hf => ?_⟩
  · rw [fits_append] at hf ⊢
    rw [Enc.append_fst, Enc.append_snd, List.length_append, List.length_append] at hf
    omega
  · by_cases hf' : (b.contents ++ e : Enc Cell).Fits
    · exact Or.inl (hw.1 hf')
    · exact Or.inr (hw.2 hf')

theorem Near.seq {k : Nat} {w : Wr Cell Unit} {f : Unit → Wr Cell Unit} {e1 e2 : Enc Cell} (h1 : Near k w e1) (h2 : Writes (f ()) e2) (hk : k ≤ e2.1.length) :
    Writes (w >>= f) (e1 ++ e2) := by
  intro b hb
  have hpad : (b.contents ++ (e1 ++ e2) : Enc Cell).Fits → (b.contents ++ (e1 ++ Enc.bits (List.replicate k false)) : Enc Cell).Fits := by
    intro hf
    rw [fits_append, Enc.append_fst, Enc.append_snd, List.length_append, List.length_append] at hf ⊢
    simp only [Enc.bits, List.length_replicate, List.length_nil]
    omega
  refine ⟨fun hf => ?_, fun hf => ?_⟩
  · obtain ⟨b1, r1, wf1, c1, x1⟩ := (h1 b hb).1 (hpad hf)
    obtain ⟨b2, r2, wf2, c2, x2⟩ := (h2 b1 wf1).1 (by rw [c1, Enc.append_assoc]; exact hf)
    exact ⟨b2, by rw [Prog.bind_ok r1, r2], wf2, by rw [c2, c1, Enc.append_assoc], by rw [x2, x1]⟩
  · have key : (∃ b', w b = (.ok (), b') ∧ b'.WF ∧ b'.contents = b.contents ++ e1 ∧ b'.exotic = b.exotic) ∨ ∃ b', w b = (.error .cellOverflow, b') ∧ b'.WF := by
      by_cases hp : (b.contents ++ (e1 ++ Enc.bits (List.replicate k false)) : Enc Cell).Fits
      · exact Or.inl ((h1 b hb).1 hp)
      · exact (h1 b hb).2 hp
    rcases key with ⟨b1, r1, wf1, c1, x1⟩ | ⟨b1, r1, wf1⟩
    · obtain ⟨b2, r2, wf2⟩ := (h2 b1 wf1).2 (by rw [c1, Enc.append_assoc]; exact hf)
      exact ⟨b2, by rw [Prog.bind_ok r1, r2], wf2⟩
    · exact ⟨b1, by rw [Prog.bind_err r1], wf1⟩

/-- A tag, then a capacity check that counts the tag again, then the rest. -/
theorem Near.guarded {t : Wr Cell Unit} {l : Bits} {n : Nat} {w : Wr Cell Unit} {e : Enc Cell} (ht : WritesAtomic t (Enc.bits l)) (hw : Writes w e)
    (hn : l.length + e.1.length = n) (hr : e.2.length = 0) (hb : n ≤ 64512) :
    Near l.length (t >>= fun _ => Wr.needs n 0 >>= fun _ => w) (Enc.bits l ++ e) := by
  intro b hb'
  have hfull : (b.contents ++ (Enc.bits l ++ e ++ Enc.bits (List.replicate l.length false)) : Enc Cell).Fits ↔
      b.contents.1.length + l.length + n ≤ 1023 ∧ b.contents.2.length ≤ 4 := by
    rw [fits_append, Enc.append_fst, Enc.append_snd, List.length_append, List.length_append, Enc.append_fst, Enc.append_snd, List.length_append, List.length_append]
    simp only [Enc.bits, List.length_replicate, List.length_nil]
    omega
  have htag : (b.contents ++ Enc.bits l : Enc Cell).Fits ↔ b.contents.1.length + l.length ≤ 1023 ∧ b.contents.2.length ≤ 4 := by
    rw [fits_append]; simp only [Enc.bits, List.length_nil]; omega
  have hrefs := hb'.contents_fits.2
  by_cases h1 : (b.contents ++ Enc.bits l : Enc Cell).Fits
  · obtain ⟨b1, r1, wf1, c1, x1⟩ := (ht.writes b hb').1 h1
    have hcap : b1.hasCapacity n 0 = decide (b.contents.1.length + l.length + n ≤ 1023) := by
      rw [Wr.hasCapacity_iff wf1 hb]
      have e1 : b1.inner.bits.length = b.contents.1.length + l.length := by
        have := congrArg (fun x : Enc Cell => x.1.length) c1
        simpa [CellB.contents, Enc.append_fst, Enc.bits] using this
      have e2 : b1.refs.length = b.contents.2.length := by
        have := congrArg (fun x : Enc Cell => x.2.length) c1
        simpa [CellB.contents, Enc.append_snd, Enc.bits] using this
      rw [e1, e2]
      congr 1
      exact propext ⟨fun h => h.1, fun h => ⟨h, by omega⟩⟩
    by_cases h2 : b.contents.1.length + l.length + n ≤ 1023
    · have hneeds : Wr.needs n 0 b1 = (.ok (), b1) := by
        unfold Wr.needs; rw [hcap, decide_eq_true h2]; rfl
      have hfit : (b1.contents ++ e : Enc Cell).Fits := by
        rw [c1, fits_append, Enc.append_fst, Enc.append_snd, List.length_append, List.length_append]
        simp only [Enc.bits, List.length_nil]
        omega
      obtain ⟨b2, r2, wf2, c2, x2⟩ := (hw b1 wf1).1 hfit
      have hres : ∃ b', (t >>= fun _ => Wr.needs n 0 >>= fun _ => w) b = (.ok (), b') ∧ b'.WF ∧ b'.contents = b.contents ++ (Enc.bits l ++ e) ∧ b'.exotic = b.exotic :=
        ⟨b2, by rw [Prog.bind_ok r1, Prog.bind_ok hneeds, r2], wf2, by rw [c2, c1, Enc.append_assoc], by rw [x2, x1]⟩
      exact ⟨fun _ => hres, fun _ => Or.inl hres⟩
    · have hneeds : Wr.needs n 0 b1 = (.error .cellOverflow, b1) := by
        unfold Wr.needs; rw [hcap, decide_eq_false h2]; rfl
      refine ⟨fun hf => absurd (hfull.1 hf).1 h2, fun _ => Or.inr ⟨b1, ?_, wf1⟩⟩
      rw [Prog.bind_ok r1, Prog.bind_err hneeds]
  · obtain ⟨b1, r1, wf1⟩ := (ht.writes b hb').2 h1
    refine ⟨fun hf => absurd ?_ h1, fun _ => Or.inr ⟨b1, by rw [Prog.bind_err r1], wf1⟩⟩
    have := hfull.1 hf
    rw [htag]
    omega

/-! ### Addresses and flags -/

theorem extAddr_size {a : Option ExtAddr} (h : extAddr.ok a) : (extAddr.enc a).1.length = extAddrLen a ∧ (extAddr.enc a).2.length = 0 := by
  cases a with
  | none => exact ⟨rfl, rfl⟩
  | some a =>
    have hp := HoldsBits.packs h.2
    refine ⟨?_, rfl⟩
    show ([false, true] ++ (natBits 9 a.len ++ firstBits a.data a.len)).length = 2 + (9 + a.len)
    rw [List.length_append, List.length_append, natBits_length, hp.1]
    simp only [List.length_cons, List.length_nil]

theorem extAddr_sound : extAddr.Sound where
  st := ⟨fun v h => by
      cases v with
      | none => exact (Wr.writes_zeros 2 (by decide)).writes
      | some a =>
        obtain ⟨h1, h2⟩ := h
        have hp := h2.packs
        have hl : a.data.length < 8192 := by
          have := hp.2.1.1
          rw [hp.1] at this
          omega
        have w4 := (Wr.writes_raw (ρ := Cell) (v := a.data) (n := a.len) (by omega) hl).writes
        rw [hp.2.2] at w4
        have w := ((Wr.writes_bit (ρ := Cell) false).writes.seq (f := fun _ => Wr.bit true >>= fun _ => smallStore 9 a.len >>= fun _ => Wr.raw a.data a.len)
          ((Wr.writes_bit true).writes.seq ((uint9_codes.writes a.len h1).seq w4)))
        have hs := extAddr_size (a := some a) ⟨h1, h2⟩
        exact (Wr.needs_then (w.cast (e' := extAddr.enc (some a)) rfl) (hs.1.trans (by show 2 + (9 + a.len) = 2 + 9 + a.len; omega)) hs.2 (by omega)).writes,
    fun v h => by
      cases v with
      | none => rfl
      | some a => exact ⟨h, rfl⟩⟩
  ld := by
    have raw : ∀ n, n ≤ 511 → Loads (Rd.checkedRaw n : Rd Cell (List Byte)) (fun d e => HoldsBits d n ∧ e = Enc.bits (firstBits d n)) := fun n hn =>
      ⟨by rintro d e ⟨h, rfl⟩; exact reads_checkedRaw (by omega) h, exact_checkedRaw (by omega), safe_checkedRaw (by omega)⟩
    have some' : Loads (smallLoad 9 >>= fun n => Rd.checkedRaw n >>= fun d => (pure (some (ExtAddr.mk n d)) : Rd Cell (Option ExtAddr)))
        (fun v e => ∃ n, (Canon (fun n => n ≤ 511) (fun n => Enc.bits (natBits 9 n)) n ⬝ fun e => ∃ d, v = some (ExtAddr.mk n d) ∧ HoldsBits d n ∧
          e = Enc.bits (firstBits d n)) e) :=
      uint9_codes.loads.bind (R := fun n v e => ∃ d, v = some (ExtAddr.mk n d) ∧ HoldsBits d n ∧ e = Enc.bits (firstBits d n))
        (fun n e h => (raw n h.1).map _)
    refine (Loads.onBit (Loads.onBit (k := fun b => if !b then pure none else _) (Loads.pure none) some') (Loads.fail (by decide) (by decide))).iff fun v e => ?_
    constructor
    · rintro (⟨_, _, rfl, (⟨_, _, rfl, ⟨rfl, rfl⟩, rfl⟩ | ⟨_, _, rfl, ⟨n, _, _, ⟨hn, rfl⟩, ⟨d, rfl, hd, rfl⟩, rfl⟩, rfl⟩), rfl⟩ | ⟨_, _, _, h, _⟩)
      · rfl
      · exact ⟨⟨hn, hd⟩, rfl⟩
      · exact h.elim
    · intro h
      cases v with
      | none => cases h; exact Or.inl ⟨_, _, rfl, Or.inl ⟨_, _, rfl, ⟨rfl, rfl⟩, rfl⟩, rfl⟩
      | some a =>
        obtain ⟨h, rfl⟩ := h
        exact Or.inl ⟨_, _, rfl, Or.inr ⟨_, _, rfl, ⟨a.len, _, _, ⟨h.1, rfl⟩, ⟨a.data, rfl, h.2, rfl⟩, rfl⟩, rfl⟩, rfl⟩

theorem intAddr_size {a : IntAddr} (h : Tlb.intAddr.ok a) : (Tlb.intAddr.enc a).1.length = a.bitLen ∧ (Tlb.intAddr.enc a).2.length = 0 := by
  have := (C47_int (ρ := Cell)).2 a h
  exact ⟨this.2.1, by show (IntAddr.enc a : Enc Cell).2.length = 0; rw [this.2.2]; rfl⟩

theorem intAddr_head {a : IntAddr} : ∃ l, (Tlb.intAddr.enc a).1 = true :: l := by
  cases a with
  | std a => exact ⟨_, rfl⟩
  | var a => exact ⟨_, rfl⟩

theorem intAddr_len_le {a : IntAddr} (h : Tlb.intAddr.ok a) : a.bitLen ≤ 600 := by
  cases a with
  | std a => have := anycastLen_le h.1; show 2 + 1 + 8 + 256 + anycastLen a.anycast ≤ 600; omega
  | var a => have := anycastLen_le h.1; have := h.2.1; show 2 + 1 + 9 + 32 + a.len + anycastLen a.anycast ≤ 600; omega

theorem optIntAddr_size {a : Option IntAddr} (h : optIntAddr.ok a) : (optIntAddr.enc a).1.length = optIntAddrLen a ∧ (optIntAddr.enc a).2.length = 0 := by
  cases a with
  | none => exact ⟨rfl, rfl⟩
  | some a => exact intAddr_size h

theorem getBit_zero {s : CSlice Cell} (hs : s.WF) : s.getBit 0 = match s.bits with | [] => .error .cellUnderflow | b :: _ => .ok b := by
  have h1 := hs.start_le
  have h2 := hs.end_le
  have h3 := hs.data_le
  rw [CSlice.getBit_spec hs (by omega)]
  cases s.bits with
  | nil => rfl
  | cons b l => rfl

theorem optIntAddr_sound : optIntAddr.Sound where
  st := ⟨fun v h => by
      cases v with
      | none => exact (Wr.writes_zeros 2 (by decide)).writes
      | some a => exact Tlb.intAddr_sound.st.writes a h,
    fun v h => by
      cases v with
      | none => rfl
      | some a => exact Tlb.intAddr_sound.st.canon a h⟩
  ld := by
    have l1 : Loads (IntAddr.load >>= fun a => (pure (some a) : Rd Cell (Option IntAddr))) _ := Tlb.intAddr_sound.ld.map some
    have l0 := Loads.tag (Rd.takes_small (ρ := Cell) (n := 2) (by decide)) (t := 0) (by decide) (x := .invalidTag) (by decide) (by decide) (Loads.pure (none : Option IntAddr))
    have run : ∀ {s : CSlice Cell}, s.WF → ∀ b l, s.bits = b :: l → optIntAddrLoad s = if b then (IntAddr.load >>= fun a => (pure (some a) : Rd Cell (Option IntAddr))) s
        else (Rd.small 2 >>= fun t => Prog.check (decide (t = 0)) .invalidTag >>= fun _ => (pure none : Rd Cell (Option IntAddr))) s := by
      intro s hs b l hb
      unfold optIntAddrLoad
      rw [getBit_zero hs, hb]
      cases b <;> rfl
    show Loads optIntAddrLoad optIntAddr.R
    refine ⟨?_, ?_, ?_⟩
    · intro v e h s rest hs hc
      have hb : s.bits = e.1 ++ rest.1 := congrArg Prod.fst hc
      cases v with
      | none =>
        have h : e = Enc.bits [false, false] := h
        subst h
        rw [run hs false (false :: rest.1) hb]
        exact l0.reads none _ ⟨_, _, rfl, ⟨rfl, rfl⟩, rfl⟩ s rest hs (by rw [hc, Enc.append_nil]; rfl)
      | some a =>
        obtain ⟨h1, rfl⟩ := h
        obtain ⟨l, hl⟩ := intAddr_head (a := a)
        have hl' : (IntAddr.enc a : Enc Cell).1 = true :: l := hl
        rw [run hs true (l ++ rest.1) (by rw [hb, hl']; rfl)]
        exact l1.reads (some a) _ ⟨a, rfl, h1, rfl⟩ s rest hs hc
    · intro s s' v hs h
      cases hb : s.bits with
      | nil =>
        unfold optIntAddrLoad at h
        rw [getBit_zero hs, hb] at h
        cases h
      | cons b l =>
        rw [run hs b l hb] at h
        cases b with
        | true =>
          obtain ⟨e, ⟨a, rfl, ha⟩, h2⟩ := l1.exact s s' v hs h
          exact ⟨e, ha, h2⟩
        | false =>
          obtain ⟨e, ⟨_, _, rfl, ⟨rfl, rfl⟩, rfl⟩, h2⟩ := l0.exact s s' v hs h
          exact ⟨_, rfl, h2⟩
    · intro s hs
      cases hb : s.bits with
      | nil =>
        unfold optIntAddrLoad
        rw [getBit_zero hs, hb]
        exact ⟨hs, ⟨Enc.nil, by simp⟩, (by intro h; cases h), (by intro h; cases h)⟩
      | cons b l =>
        rw [run hs b l hb]
        cases b with
        | true => exact l1.safe s hs
        | false => exact l0.safe s hs

theorem msgFlags_sound : msgFlags.Sound :=
  (Tlb.coded_sound (n := 3) (f := fun v => MsgFlags.mk (decide (v &&& 4 ≠ 0)) (decide (v &&& 2 ≠ 0)) (decide (v &&& 1 ≠ 0)))
    (g := fun a => a.ihrDisabled.toNat <<< 2 ||| a.bounce.toNat <<< 1 ||| a.bounced.toNat)
    (by decide) (by rintro ⟨a, b, c⟩; cases a <;> cases b <;> cases c <;> decide) (by rintro ⟨a, b, c⟩; cases a <;> cases b <;> cases c <;> decide)
    (by decide)).eq rfl (by intro _ _; trivial) (by intro a _; rfl)
    (by rintro ⟨a, b, c⟩ e; cases a <;> cases b <;> cases c <;> exact Iff.rfl) (by rintro ⟨a, b, c⟩ _; cases a <;> cases b <;> cases c <;> rfl)

/-! ### Headers -/

theorem intInfo_sound {S : Type} {src : Tlb S} (h : src.Sound) : (intInfo src).Sound :=
  ((msgFlags_sound.pair (h.pair (Tlb.intAddr_sound.pair (Tlb.currency_sound.pair (Tlb.tokens_sound.pair (Tlb.tokens_sound.pair
    (Tlb.u64_sound.pair Tlb.u32_sound))))))).record
    (f := fun p => IntInfo.mk p.1 p.2.1 p.2.2.1 p.2.2.2.1 p.2.2.2.2.1 p.2.2.2.2.2.1 p.2.2.2.2.2.2.1 p.2.2.2.2.2.2.2)
    (g := fun a => (a.flags, a.src, a.dst, a.value, a.ihrFee, a.fwdFee, a.createdLt, a.createdAt)) (fun _ => rfl) (fun _ => rfl)).eq
    (by unfold intInfo; tlb_load)

theorem extIn_loads : Loads extIn.load extIn.R :=
  ((((extAddr_sound.pair (Tlb.intAddr_sound.pair Tlb.tokens_sound)).record (f := fun p => ExtInInfo.mk p.1 p.2.1 p.2.2) (g := fun a => (a.src, a.dst, a.importFee))
    (fun _ => rfl) (fun _ => rfl)).eq (T' := { extIn with store := fun a => pairStore extAddr.store (pairStore Tlb.intAddr.store Tlb.tokens.store) (a.src, a.dst, a.importFee) })
    (by unfold extIn; tlb_load))).ld

theorem extOut_loads {S : Type} {src : Tlb S} (h : src.Sound) (g : ExtOutInfo S → Wr Cell Unit) : Loads (extOut src g).load (extOut src g).R :=
  (((h.pair (extAddr_sound.pair (Tlb.u64_sound.pair Tlb.u32_sound))).record (f := fun p => ExtOutInfo.mk p.1 p.2.1 p.2.2.1 p.2.2.2)
    (g := fun a => (a.src, a.dst, a.createdLt, a.createdAt)) (fun _ => rfl) (fun _ => rfl)).eq
    (T' := { extOut src g with store := fun a => pairStore src.store (pairStore extAddr.store (pairStore Tlb.u64.store Tlb.u32.store)) (a.src, a.dst, a.createdLt, a.createdAt) })
    (by unfold extOut; tlb_load)).ld

theorem tokens_size {v : Nat} (h : Tlb.tokens.ok v) : (Tlb.tokens.enc v).1.length = VarKind.tokens.unwrapBitLen v ∧ (Tlb.tokens.enc v).2.length = 0 := by
  refine ⟨?_, rfl⟩
  have hb : ¬ VarKind.tokens.bytes v > VarKind.tokens.maxBytes := by
    have := (VarKind.tokens.bytes_spec (v := v) (j := VarKind.tokens.maxBytes) (by
      have h : v ≤ VarKind.tokens.max := h
      have := VarKind.tokens.max_eq
      have : 2 ^ (8 * VarKind.tokens.maxBytes) ≤ 2 ^ (8 * VarKind.tokens.size) := Nat.pow_le_pow_right (by decide) (by decide)
      omega)).2 (by have h : v ≤ VarKind.tokens.max := h; have := VarKind.tokens.max_eq; omega)
    omega
  show (natBits VarKind.tokens.lenBits _ ++ natBits (8 * VarKind.tokens.bytes v) v).length = _
  unfold VarKind.unwrapBitLen
  rw [if_neg hb, List.length_append, natBits_length, natBits_length, Nat.mul_comm]

theorem currency_size {a : Currency} (h : Tlb.currency.ok a) : (Tlb.currency.enc a).1.length = a.bitLen ∧ (Tlb.currency.enc a).2.length = a.other.isSome.toNat := by
  have := tokens_size (v := a.tokens) h
  obtain ⟨t, o⟩ := a
  constructor
  · show ((VarKind.tokens.enc t : Enc Cell).1 ++ (optEnc Enc.ref o : Enc Cell).1).length = _
    rw [List.length_append]
    show (Tlb.tokens.enc t).1.length + _ = _
    rw [this.1]
    cases o <;> rfl
  · show ((VarKind.tokens.enc t : Enc Cell).2 ++ (optEnc Enc.ref o : Enc Cell).2).length = _
    rw [List.length_append]
    show (Tlb.tokens.enc t).2.length + _ = _
    rw [this.2]
    cases o <;> rfl

theorem intInfo_size {S : Type} {src : Tlb S} {len : S → Nat} {a : IntInfo S} (hs : (src.enc a.src).1.length = len a.src ∧ (src.enc a.src).2.length = 0)
    (h : (intInfo src).ok a) : ((intInfo src).enc a).1.length = a.bitLen len ∧ ((intInfo src).enc a).2.length = a.value.other.isSome.toNat := by
  obtain ⟨_, _, hd, hv, hi, hf, _, _⟩ := h
  have h2 := intAddr_size hd
  have h3 := currency_size hv
  have h4 := tokens_size hi
  have h5 := tokens_size hf
  simp only [intInfo, Enc.append_fst, Enc.append_snd, List.length_append, hs.1, hs.2, h2.1, h2.2, h3.1, h3.2, h4.1, h4.2, h5.1, h5.2]
  simp only [msgFlags, Tlb.u64, Tlb.u32, Tlb.canonical, Enc.bits, natBits_length, List.length_cons, List.length_nil, IntInfo.bitLen]
  omega

theorem extIn_size {a : ExtInInfo} (h : extIn.ok a) : (extIn.enc a).1.length + 2 = a.bitLen ∧ (extIn.enc a).2.length = 0 := by
  obtain ⟨h1, h2, h3⟩ := h
  have h1 := extAddr_size h1
  have h2 := intAddr_size h2
  have h3 := tokens_size h3
  simp only [extIn, Enc.append_fst, Enc.append_snd, List.length_append, h1.1, h1.2, h2.1, h2.2, h3.1, h3.2, ExtInInfo.bitLen]
  exact ⟨by omega, trivial⟩

theorem extOut_size {S : Type} {src : Tlb S} {g : ExtOutInfo S → Wr Cell Unit} {len : S → Nat} {a : ExtOutInfo S}
    (hs : (src.enc a.src).1.length = len a.src ∧ (src.enc a.src).2.length = 0)
    (h : (extOut src g).ok a) : ((extOut src g).enc a).1.length + 2 = a.bitLen len ∧ ((extOut src g).enc a).2.length = 0 := by
  obtain ⟨_, h2, _, _⟩ := h
  have h2 := extAddr_size h2
  simp only [extOut, Enc.append_fst, Enc.append_snd, List.length_append, hs.1, hs.2, h2.1, h2.2, ExtOutInfo.bitLen]
  simp only [Tlb.u64, Tlb.u32, Tlb.canonical, Enc.bits, natBits_length, List.length_nil]
  exact ⟨by omega, trivial⟩

/-- The header kinds, as the messages need them. `slack` is by how many bits the declared size falls short. -/
structure InfoKind.Sound {I : Type} (K : InfoKind I) (slack : I → Nat) : Prop where
  near : ∀ v, K.tlb.ok v → Near 2 (K.tlb.store v) (K.tlb.enc v)
  canon : ∀ v, K.tlb.ok v → K.tlb.R v (K.tlb.enc v)
  ld : Loads K.tlb.load K.tlb.R
  bits : ∀ v, K.tlb.ok v → (K.tlb.enc v).1.length = (K.size v).1 + slack v
  refs : ∀ v, K.tlb.ok v → (K.tlb.enc v).2.length = (K.size v).2
  few : ∀ v, K.tlb.ok v → (K.size v).1 ≤ 3000 ∧ (K.size v).2 ≤ 1

def MsgInfo.slack : MsgInfo → Nat
  | .int _ => 1
  | _ => 0
def RelaxedMsgInfo.slack : RelaxedMsgInfo → Nat
  | .int _ => 1
  | _ => 0

theorem tokens_len_le (v : Nat) : VarKind.tokens.unwrapBitLen v ≤ 124 := by
  unfold VarKind.unwrapBitLen
  have h1 : VarKind.tokens.maxBytes = 15 := rfl
  have h2 : VarKind.tokens.lenBits = 4 := by decide
  have h3 : VarKind.tokens.maxBits = 124 := by decide
  split <;> omega

theorem extAddrLen_le {a : Option ExtAddr} (h : extAddr.ok a) : extAddrLen a ≤ 600 := by
  cases a with
  | none => decide
  | some a => have := h.1; show 2 + (9 + a.len) ≤ 600; omega

theorem optIntAddrLen_le {a : Option IntAddr} (h : optIntAddr.ok a) : optIntAddrLen a ≤ 600 := by
  cases a with
  | none => decide
  | some a => exact intAddr_len_le h

theorem intInfo_few {S : Type} {src : Tlb S} {len : S → Nat} {a : IntInfo S} (hs : len a.src ≤ 600) (h : (intInfo src).ok a) :
    a.bitLen len ≤ 3000 ∧ a.value.other.isSome.toNat ≤ 1 := by
  have h1 := intAddr_len_le h.2.2.1
  have h2 := tokens_len_le a.ihrFee
  have h3 := tokens_len_le a.fwdFee
  have h4 := tokens_len_le a.value.tokens
  refine ⟨?_, by cases a.value.other <;> first | exact Nat.le_refl 1 | exact Nat.zero_le 1⟩
  unfold IntInfo.bitLen Currency.bitLen
  omega

theorem extIn_near {a : ExtInInfo} (h : extIn.ok a) : Near 2 (Wr.small 2 2 >>= fun _ => extIn.store a) (Enc.bits [true, false] ++ extIn.enc a) := by
  have hs := extIn_size h
  have hv : VarKind.tokens.isValid a.importFee = true := decide_eq_true h.2.2
  have he : extIn.store a = Wr.needs a.bitLen 0 >>= fun _ => extAddr.store a.src >>= fun _ => Tlb.intAddr.store a.dst >>= fun _ => Tlb.tokens.store a.importFee := by
    show (Prog.check (VarKind.tokens.isValid a.importFee) .invalidData >>= fun _ => _) = _
    rw [hv, Prog.check_true, Prog.pure_bind']
  rw [he]
  have hl := extAddrLen_le h.1
  have hd := intAddr_len_le h.2.1
  have ht := tokens_len_le a.importFee
  refine Near.guarded (l := [true, false]) (Wr.writes_small 2 (n := 2) (by decide)) (e := extIn.enc a) ?_ ?_ hs.2 ?_
  · exact (extAddr_sound.st.writes _ h.1).seq ((Tlb.intAddr_sound.st.writes _ h.2.1).seq (Tlb.tokens_sound.st.writes _ h.2.2))
  · show 2 + _ = _; omega
  · unfold ExtInInfo.bitLen; omega

theorem extOut_near {a : ExtOutInfo IntAddr} (h : extOutFull.ok a) :
    Near 2 (Wr.small 3 2 >>= fun _ => extOutFull.store a) (Enc.bits [true, true] ++ extOutFull.enc a) := by
  have hs := extOut_size (len := IntAddr.bitLen) (intAddr_size h.1) h
  have hl := extAddrLen_le h.2.1
  have hd := intAddr_len_le h.1
  refine Near.guarded (l := [true, true]) (Wr.writes_small 3 (n := 2) (by decide)) (e := extOutFull.enc a) ?_ ?_ hs.2 ?_
  · exact (Tlb.intAddr_sound.st.writes _ h.1).seq ((extAddr_sound.st.writes _ h.2.1).seq ((Tlb.u64_sound.st.writes _ h.2.2.1).seq (Tlb.u32_sound.st.writes _ h.2.2.2)))
  · show 2 + _ = _; exact (Nat.add_comm _ _).trans hs.1
  · unfold ExtOutInfo.bitLen; omega

theorem extOutRelaxed_writes {a : ExtOutInfo (Option IntAddr)} (h : extOutRelaxed.ok a) : Writes (extOutRelaxed.store a) (extOutRelaxed.enc a) := by
  have := Writes.pure.seq (f := fun _ => optIntAddr.store a.src >>= fun _ => extAddr.store a.dst >>= fun _ => Tlb.u64.store a.createdLt >>= fun _ => Tlb.u32.store a.createdAt)
    ((optIntAddr_sound.st.writes _ h.1).seq ((extAddr_sound.st.writes _ h.2.1).seq ((Tlb.u64_sound.st.writes _ h.2.2.1).seq (Tlb.u32_sound.st.writes _ h.2.2.2))))
  rw [Enc.nil_append] at this
  exact this

theorem fullKind_sound : fullKind.Sound MsgInfo.slack where
  near v h := by
    cases v with
    | int i => exact Near.ofWrites ((Wr.writes_bit false).writes.seq ((intInfo_sound Tlb.intAddr_sound).st.writes i h))
    | extIn i => exact extIn_near h
    | extOut i => exact extOut_near h
  canon v h := by
    cases v with
    | int i => exact ⟨_, _, rfl, (intInfo_sound Tlb.intAddr_sound).st.canon i h, rfl⟩
    | extIn i =>
      exact ⟨_, _, rfl, ⟨_, _, extAddr_sound.st.canon _ h.1, ⟨_, _, Tlb.intAddr_sound.st.canon _ h.2.1, Tlb.tokens_sound.st.canon _ h.2.2, rfl⟩, rfl⟩, rfl⟩
    | extOut i =>
      exact ⟨_, _, rfl, ⟨_, _, Tlb.intAddr_sound.st.canon _ h.1, ⟨_, _, extAddr_sound.st.canon _ h.2.1, ⟨_, _, Tlb.u64_sound.st.canon _ h.2.2.1,
        Tlb.u32_sound.st.canon _ h.2.2.2, rfl⟩, rfl⟩, rfl⟩, rfl⟩
  ld := by
    refine (Loads.onBit (k := fun b => if !b then (intInfo Tlb.intAddr).load >>= fun i => pure (MsgInfo.int i) else _) ((intInfo_sound Tlb.intAddr_sound).ld.map MsgInfo.int)
      (Loads.onBit (k := fun b => if !b then Verif.extIn.load >>= fun i => pure (MsgInfo.extIn i) else extOutFull.load >>= fun i => pure (MsgInfo.extOut i))
        (extIn_loads.map MsgInfo.extIn) ((extOut_loads Tlb.intAddr_sound _).map MsgInfo.extOut))).iff fun v e => ?_
    constructor
    · rintro (⟨_, e2, rfl, ⟨i, rfl, h⟩, rfl⟩ | ⟨_, _, rfl, (⟨_, e2, rfl, ⟨i, rfl, h⟩, rfl⟩ | ⟨_, e2, rfl, ⟨i, rfl, h⟩, rfl⟩), rfl⟩)
      · exact ⟨_, e2, rfl, h, rfl⟩
      · exact ⟨_, e2, rfl, h, rfl⟩
      · exact ⟨_, e2, rfl, h, rfl⟩
    · intro h
      cases v with
      | int i => obtain ⟨_, e2, rfl, h, rfl⟩ := h; exact Or.inl ⟨_, e2, rfl, ⟨i, rfl, h⟩, rfl⟩
      | extIn i => obtain ⟨_, e2, rfl, h, rfl⟩ := h; exact Or.inr ⟨_, _, rfl, Or.inl ⟨_, e2, rfl, ⟨i, rfl, h⟩, rfl⟩, rfl⟩
      | extOut i => obtain ⟨_, e2, rfl, h, rfl⟩ := h; exact Or.inr ⟨_, _, rfl, Or.inr ⟨_, e2, rfl, ⟨i, rfl, h⟩, rfl⟩, rfl⟩
  bits v h := by
    cases v with
    | int i =>
      have := (intInfo_size (len := IntAddr.bitLen) (intAddr_size h.2.1) h).1
      show ([false] ++ ((intInfo Tlb.intAddr).enc i).1).length = i.bitLen IntAddr.bitLen + 1
      rw [List.length_append, this, Nat.add_comm]; rfl
    | extIn i => exact (extIn_size h).1
    | extOut i => exact (extOut_size (len := IntAddr.bitLen) (intAddr_size h.1) h).1
  refs v h := by
    cases v with
    | int i => exact (intInfo_size (len := IntAddr.bitLen) (intAddr_size h.2.1) h).2
    | extIn i => exact (extIn_size h).2
    | extOut i =>
      have hk : extOutFull.ok i := h
      exact (extOut_size (len := IntAddr.bitLen) (intAddr_size h.1) hk).2
  few v h := by
    cases v with
    | int i => exact intInfo_few (intAddr_len_le h.2.1) h
    | extIn i =>
      have := extAddrLen_le h.1
      have := intAddr_len_le h.2.1
      have := tokens_len_le i.importFee
      refine ⟨?_, Nat.zero_le _⟩
      show 2 + extAddrLen i.src + i.dst.bitLen + VarKind.tokens.unwrapBitLen i.importFee ≤ 3000
      omega
    | extOut i =>
      have := extAddrLen_le h.2.1
      have := intAddr_len_le h.1
      refine ⟨?_, Nat.zero_le _⟩
      show 2 + i.src.bitLen + extAddrLen i.dst + 64 + 32 ≤ 3000
      omega

theorem relaxedKind_sound : relaxedKind.Sound RelaxedMsgInfo.slack where
  near v h := by
    cases v with
    | int i => exact Near.ofWrites ((Wr.writes_bit false).writes.seq ((intInfo_sound optIntAddr_sound).st.writes i h))
    | extOut i => exact Near.ofWrites ((Wr.writes_small 3 (n := 2) (by decide)).writes.seq (extOutRelaxed_writes h))
  canon v h := by
    cases v with
    | int i => exact ⟨_, _, rfl, (intInfo_sound optIntAddr_sound).st.canon i h, rfl⟩
    | extOut i =>
      exact ⟨_, _, rfl, ⟨_, _, optIntAddr_sound.st.canon _ h.1, ⟨_, _, extAddr_sound.st.canon _ h.2.1, ⟨_, _, Tlb.u64_sound.st.canon _ h.2.2.1,
        Tlb.u32_sound.st.canon _ h.2.2.2, rfl⟩, rfl⟩, rfl⟩, rfl⟩
  ld := by
    refine (Loads.onBit (k := fun b => if !b then (intInfo optIntAddr).load >>= fun i => pure (RelaxedMsgInfo.int i) else _)
      ((intInfo_sound optIntAddr_sound).ld.map RelaxedMsgInfo.int)
      (Loads.onBit (k := fun b => if b then extOutRelaxed.load >>= fun i => pure (RelaxedMsgInfo.extOut i) else Prog.fail .invalidTag)
        (Loads.fail (by decide) (by decide)) ((extOut_loads optIntAddr_sound _).map RelaxedMsgInfo.extOut))).iff fun v e => ?_
    constructor
    · rintro (⟨_, e2, rfl, ⟨i, rfl, h⟩, rfl⟩ | ⟨_, _, rfl, (⟨_, e2, rfl, h, rfl⟩ | ⟨_, e2, rfl, ⟨i, rfl, h⟩, rfl⟩), rfl⟩)
      · exact ⟨_, e2, rfl, h, rfl⟩
      · exact h.elim
      · exact ⟨_, e2, rfl, h, rfl⟩
    · intro h
      cases v with
      | int i => obtain ⟨_, e2, rfl, h, rfl⟩ := h; exact Or.inl ⟨_, e2, rfl, ⟨i, rfl, h⟩, rfl⟩
      | extOut i => obtain ⟨_, e2, rfl, h, rfl⟩ := h; exact Or.inr ⟨_, _, rfl, Or.inr ⟨_, e2, rfl, ⟨i, rfl, h⟩, rfl⟩, rfl⟩
  bits v h := by
    cases v with
    | int i =>
      have := (intInfo_size (len := optIntAddrLen) (optIntAddr_size h.2.1) h).1
      show ([false] ++ ((intInfo optIntAddr).enc i).1).length = i.bitLen optIntAddrLen + 1
      rw [List.length_append, this, Nat.add_comm]; rfl
    | extOut i => exact (extOut_size (len := optIntAddrLen) (optIntAddr_size h.1) h).1
  refs v h := by
    cases v with
    | int i => exact (intInfo_size (len := optIntAddrLen) (optIntAddr_size h.2.1) h).2
    | extOut i =>
      have hk : extOutRelaxed.ok i := h
      exact (extOut_size (len := optIntAddrLen) (optIntAddr_size h.1) hk).2
  few v h := by
    cases v with
    | int i => exact intInfo_few (optIntAddrLen_le h.2.1) h
    | extOut i =>
      have := extAddrLen_le h.2.1
      have := optIntAddrLen_le h.1
      refine ⟨?_, Nat.zero_le _⟩
      show 2 + optIntAddrLen i.src + extAddrLen i.dst + 64 + 32 ≤ 3000
      omega

/-! ### The init part -/

theorem placed_sound {α : Type} {A : Tlb α} (h : A.Sound) (acc : Cell → Bool) : (placed acc A).Sound where
  st := ⟨fun v hv => by
      obtain ⟨c, v⟩ := v
      cases c with
      | false => exact (Wr.writes_bit false).writes.seq (h.st.writes v hv)
      | true => exact (Wr.writes_bit true).writes.seq ((h.child acc).st.writes v hv),
    fun v hv => by
      obtain ⟨c, v⟩ := v
      cases c with
      | false => exact ⟨_, _, rfl, h.st.canon v hv, rfl⟩
      | true => exact ⟨_, _, rfl, (h.child acc).st.canon v hv, rfl⟩⟩
  ld := (Loads.onBit (k := fun c => (if c then Tlb.childLoad A.load else A.load) >>= fun v => pure (c, v)) (h.ld.map fun v => (false, v))
      ((h.child acc).ld.map fun v => (true, v))).iff fun v e => by
    obtain ⟨c, v⟩ := v
    constructor
    · rintro (⟨_, e2, rfl, ⟨w, h1, h2⟩, rfl⟩ | ⟨_, e2, rfl, ⟨w, h1, h2⟩, rfl⟩)
      · obtain ⟨rfl, rfl⟩ := Prod.mk.inj h1; exact ⟨_, e2, rfl, h2, rfl⟩
      · obtain ⟨rfl, rfl⟩ := Prod.mk.inj h1; exact ⟨_, e2, rfl, h2, rfl⟩
    · rintro ⟨_, e2, rfl, h, rfl⟩
      cases c with
      | false => exact Or.inl ⟨_, e2, rfl, ⟨v, rfl, h⟩, rfl⟩
      | true => exact Or.inr ⟨_, e2, rfl, ⟨v, rfl, h⟩, rfl⟩

/-! ### Bodies -/

/-- What a body kind has to satisfy. `ok`, `enc` and `back` say which bodies can be stored in the root or in a cell of their own, what is
written, and what is loaded back. -/
structure BodyKind.Sound {B : Type} (K : BodyKind B) (ok : Bool → B → Prop) (enc : Bool → B → Enc Cell) (back : Bool → B → B → Prop) : Prop where
  writes : ∀ c b, ok c b → Writes (K.store c b) (enc c b)
  reads : ∀ c b, ok c b → ∀ s : CSlice Cell, s.WF → s.contents = enc c b → ∃ b' s', K.load c s = (.ok b', s') ∧ back c b b' ∧ s'.contents = Enc.nil
  exact : ∀ c (s s' : CSlice Cell) b, s.WF → K.load c s = (.ok b, s') → s.contents = enc c b ++ s'.contents ∧ (c = false → s'.contents = Enc.nil)
  safe : ∀ c, Safe (K.load c)
  size : ∀ c b, ok c b → ((enc c b).1.length, (enc c b).2.length) = if c then (0, 1) else K.size b
  few : ∀ c b, ok c b → (K.size b).1 ≤ 1023 ∧ (K.size b).2 ≤ 4

/-- Specification for slices: any window; in a cell of its own it must be accepted by the context. -/
def sliceOk (acc : Cell → Bool) (c : Bool) (b : CSlice Cell) : Prop := b.WF ∧ b.contents.Fits ∧ (c = true → acc (Tlb.cellOf b.contents) = true)
def sliceEnc (c : Bool) (b : CSlice Cell) : Enc Cell := if c then Enc.ref (Tlb.cellOf b.contents) else b.contents
def sliceBack (_ : Bool) (b b' : CSlice Cell) : Prop := b'.contents = b.contents

theorem childStore_writes {acc : Cell → Bool} {w : Wr Cell Unit} {e : Enc Cell} (hw : Writes w e) (hf : e.Fits) (ha : acc (Tlb.cellOf e) = true) :
    Writes (Tlb.childStore acc w) (Enc.ref (Tlb.cellOf e)) := by
  have h : w.toSl >>= buildSl acc = .ok (Tlb.cellOf e) := by
    rw [Wr.toSl_ok hw hf]
    show buildSl acc _ = _
    unfold buildSl
    exact if_pos ha
  have e2 : Tlb.childStore acc w = Wr.ref (Tlb.cellOf e) := by
    funext b
    unfold Tlb.childStore
    rw [h]
  rw [e2]
  exact (Wr.writes_ref _).writes

theorem remaining_spec {s : CSlice Cell} (hs : s.WF) : s.loadRemaining.2.WF ∧ s.loadRemaining.2.contents = Enc.nil := by
  refine ⟨⟨Nat.le_refl _, hs.end_le, hs.data_le, Nat.le_refl _, hs.rend_le, hs.refs_le⟩, Prod.ext ?_ ?_⟩
  · apply List.eq_nil_of_length_eq_zero
    show s.loadRemaining.2.bits.length = 0
    rw [CSlice.bits_length]
    exact Nat.sub_self _
  · show (s.refs.drop s.range.refsEnd).take (s.range.refsEnd - s.range.refsEnd) = []
    rw [Nat.sub_self]; rfl

theorem contents_size {s : CSlice Cell} (hs : s.WF) : (s.contents.1.length, s.contents.2.length) = (s.range.sizeBits, s.range.sizeRefs) := by
  refine Prod.ext (CSlice.bits_length s) ?_
  show ((s.refs.drop s.range.refsStart).take (s.range.refsEnd - s.range.refsStart)).length = _
  have := hs.rend_le
  rw [List.length_take, List.length_drop]
  unfold SliceRange.sizeRefs
  omega

theorem sliceBody_sound (acc : Cell → Bool) : (sliceBody acc).Sound (sliceOk acc) sliceEnc sliceBack where
  writes c b h := by
    cases c with
    | false => exact (Wr.writes_slice h.1).writes
    | true => exact childStore_writes (Wr.writes_slice h.1).writes h.2.1 (h.2.2 rfl)
  reads c b h s hs hc := by
    cases c with
    | false => exact ⟨s, _, rfl, hc, (remaining_spec hs).2⟩
    | true =>
      obtain ⟨s', h1, _, h3, _⟩ := Tlb.reads_childSlice (c := Tlb.cellOf b.contents) rfl h.2.1 s Enc.nil hs (by rw [hc, Enc.append_nil]; rfl)
      exact ⟨_, s', h1, (Tlb.reader_contents h.2.1).2, h3⟩
  exact c s s' b hs h := by
    cases c with
    | false =>
      obtain ⟨h1, rfl⟩ := Prod.mk.inj h
      cases h1
      exact ⟨by rw [(remaining_spec hs).2, Enc.append_nil]; rfl, fun _ => (remaining_spec hs).2⟩
    | true =>
      obtain ⟨e, ⟨c, rfl, hx, hf, rfl⟩, h2, _⟩ := Tlb.exact_childSlice s s' b hs h
      refine ⟨?_, fun h => (by cases h)⟩
      rw [h2]
      show _ = Enc.ref (Tlb.cellOf _) ++ _
      rw [(Tlb.reader_contents hf).2]
      cases c; cases hx; rfl
  safe c := by
    cases c with
    | false => exact fun s hs => ⟨(remaining_spec hs).1, ⟨s.contents, by rw [show ((sliceBody acc).load false s).2 = s.loadRemaining.2 from rfl, (remaining_spec hs).2, Enc.append_nil]⟩,
        (by intro h; cases h), (by intro h; cases h)⟩
    | true => exact Tlb.safe_childSlice
  size c b h := by
    cases c with
    | false => exact contents_size h.1
    | true => rfl
  few c b h := by
    have := contents_size h.1
    have h1 := congrArg Prod.fst this
    have h2 := congrArg Prod.snd this
    have := h.2.1.1
    have := h.2.1.2
    exact ⟨by show b.range.sizeBits ≤ _; dsimp only at h1; omega, by show b.range.sizeRefs ≤ _; dsimp only at h2; omega⟩

/-- The bits and references of a cell inside a range. -/
def partsContents (b : SliceRange × Cell) : Enc Cell :=
  ((b.2.bits.drop b.1.bitsStart).take (b.1.bitsEnd - b.1.bitsStart), (b.2.refs.drop b.1.refsStart).take (b.1.refsEnd - b.1.refsStart))

/-- The range lies inside the cell. -/
def PartsInside (b : SliceRange × Cell) : Prop :=
  b.1.bitsStart ≤ b.1.bitsEnd ∧ b.1.bitsEnd ≤ b.2.bits.length ∧ b.1.refsStart ≤ b.1.refsEnd ∧ b.1.refsEnd ≤ b.2.refs.length

/-- Specification for a range of a cell: whole cells go into a reference as they are, everything else must be in an ordinary cell. -/
def partsOk (acc acc0 : Cell → Bool) (c : Bool) (b : SliceRange × Cell) : Prop :=
  PartsInside b ∧ (b.2.bits.length ≤ 1023 ∧ b.2.refs.length ≤ 4) ∧
  (c = false → b.2.exotic = false ∧ acc0 (Tlb.cellOf (partsContents b)) = true) ∧
  (c = true → b.1 ≠ fullRange b.2 → b.2.exotic = false ∧ acc (Tlb.cellOf (partsContents b)) = true)
/-- The cell that is loaded back. -/
def partsCell (c : Bool) (b : SliceRange × Cell) : Cell := if c && decide (b.1 = fullRange b.2) then b.2 else Tlb.cellOf (partsContents b)
def partsEnc (c : Bool) (b : SliceRange × Cell) : Enc Cell := if c then Enc.ref (partsCell true b) else partsContents b
def partsBack (c : Bool) (b b' : SliceRange × Cell) : Prop := b' = (fullRange (partsCell c b), partsCell c b)

theorem applyRange_spec {b : SliceRange × Cell} (h : PartsInside b) (hx : b.2.exotic = false) (hf : b.2.bits.length ≤ 1023 ∧ b.2.refs.length ≤ 4) :
    ∃ s, applyRange b.1 b.2 = .ok s ∧ s.WF ∧ s.contents = partsContents b := by
  obtain ⟨r, c⟩ := b
  obtain ⟨h1, h2, h3, h4⟩ := h
  dsimp only at *
  obtain ⟨w, ct⟩ := Tlb.reader_contents hf
  refine ⟨_, by unfold applyRange; rw [hx, if_neg (by decide)], ?_, ?_⟩
  · rw [Nat.min_eq_left h2, Nat.min_eq_left h4, Nat.min_eq_left h1, Nat.min_eq_left h3]
    exact ⟨h1, Nat.le_trans h2 w.end_le, w.data_le, h3, h4, w.refs_le⟩
  · rw [Nat.min_eq_left h2, Nat.min_eq_left h4, Nat.min_eq_left h1, Nat.min_eq_left h3]
    refine Prod.ext ?_ rfl
    have hb : (List.range (c.bits.length - 0)).map (fun i => bitAt (packBytes c.bits) (0 + i)) = c.bits := congrArg Prod.fst ct
    show (List.range (r.bitsEnd - r.bitsStart)).map (fun i => bitAt (packBytes c.bits) (r.bitsStart + i)) = (c.bits.drop r.bitsStart).take (r.bitsEnd - r.bitsStart)
    conv => rhs; rw [← hb]
    rw [← List.map_drop, ← List.map_take]
    apply List.ext_getElem
    · simp; omega
    · intro i _ _
      simp

theorem partsContents_fits {b : SliceRange × Cell} (hf : b.2.bits.length ≤ 1023 ∧ b.2.refs.length ≤ 4) : (partsContents b).Fits := by
  refine ⟨?_, ?_⟩
  · show ((b.2.bits.drop _).take _).length ≤ 1023
    rw [List.length_take, List.length_drop]; omega
  · show ((b.2.refs.drop _).take _).length ≤ 4
    rw [List.length_take, List.length_drop]; omega

theorem partsContents_full (c : Cell) : partsContents (fullRange c, c) = (c.bits, c.refs) := by
  refine Prod.ext ?_ ?_
  · show (c.bits.drop 0).take (c.bits.length - 0) = c.bits
    simp
  · show (c.refs.drop 0).take (c.refs.length - 0) = c.refs
    simp

theorem parts_load_false {acc acc0 : Cell → Bool} {s : CSlice Cell} (hs : s.WF) :
    (partsBody acc acc0).load false s = if s.contents.Fits then
      (if acc0 (Tlb.cellOf s.contents) then (.ok (fullRange (Tlb.cellOf s.contents), Tlb.cellOf s.contents), s.loadRemaining.2) else (.error .depthOverflow, s.loadRemaining.2))
      else (.error .cellOverflow, s.loadRemaining.2) := by
  show (match (Wr.slice s).toSl >>= buildSl acc0 with
      | .error e => ((.error e : Except Err (SliceRange × Cell)), s.loadRemaining.2)
      | .ok c => (.ok (fullRange c, c), s.loadRemaining.2)) = _
  by_cases hf : s.contents.Fits
  · rw [if_pos hf, Wr.toSl_ok (Wr.writes_slice hs).writes hf]
    show (match buildSl acc0 _ with
      | .error e => ((.error e : Except Err (SliceRange × Cell)), s.loadRemaining.2)
      | .ok c => (.ok (fullRange c, c), s.loadRemaining.2)) = _
    unfold buildSl
    show (match (if acc0 (Tlb.cellOf s.contents) then (.ok (Tlb.cellOf s.contents) : Except Err Cell) else .error .depthOverflow) with
      | .error e => ((.error e : Except Err (SliceRange × Cell)), s.loadRemaining.2)
      | .ok c => (.ok (fullRange c, c), s.loadRemaining.2)) = _
    by_cases ha : acc0 (Tlb.cellOf s.contents) = true
    · rw [if_pos ha, if_pos ha]
    · rw [if_neg ha, if_neg ha]
  · rw [if_neg hf]
    obtain ⟨b', r, _⟩ := (Wr.writes_slice hs).writes .new CellB.wf_new |>.2 (by rw [show (CellB.new : CellB Cell).contents = Enc.nil from rfl, Enc.nil_append]; exact hf)
    have : (Wr.slice s).toSl = .error .cellOverflow := by unfold Wr.toSl; rw [r]
    rw [this]
    rfl

theorem partsBody_sound (acc acc0 : Cell → Bool) : (partsBody acc acc0).Sound (partsOk acc acc0) partsEnc partsBack where
  writes c b h := by
    obtain ⟨hi, hf, h0, h1⟩ := h
    cases c with
    | false =>
      obtain ⟨s, e, w, ct⟩ := applyRange_spec hi (h0 rfl).1 hf
      have : (partsBody acc acc0).store false b = Wr.slice s := by
        show (match applyRange b.1 b.2 with
          | .error e => Prog.fail e
          | .ok s => sliceOrCell acc false (Wr.slice s)) = _
        rw [e]; rfl
      rw [this]
      show Writes _ (partsContents b)
      rw [← ct]
      exact (Wr.writes_slice w).writes
    | true =>
      by_cases hq : b.1 = fullRange b.2
      · have : (partsBody acc acc0).store true b = Wr.ref b.2 := if_pos (by rw [decide_eq_true hq]; rfl)
        rw [this]
        have : partsEnc true b = Enc.ref b.2 := by
          show Enc.ref (partsCell true b) = _
          rw [show partsCell true b = b.2 from if_pos (by rw [decide_eq_true hq]; rfl)]
        rw [this]
        exact (Wr.writes_ref _).writes
      · obtain ⟨hx, ha⟩ := h1 rfl hq
        obtain ⟨s, e, w, ct⟩ := applyRange_spec hi hx hf
        have : (partsBody acc acc0).store true b = Tlb.childStore acc (Wr.slice s) := by
          have h2 : (partsBody acc acc0).store true b = (match applyRange b.1 b.2 with
            | .error e => Prog.fail e
            | .ok s => sliceOrCell acc true (Wr.slice s)) := if_neg (by rw [decide_eq_false hq]; decide)
          rw [h2, e]; rfl
        rw [this]
        have : partsEnc true b = Enc.ref (Tlb.cellOf (partsContents b)) := by
          show Enc.ref (partsCell true b) = _
          rw [show partsCell true b = Tlb.cellOf (partsContents b) from if_neg (by rw [decide_eq_false hq]; decide)]
        rw [this, ← ct]
        exact childStore_writes (Wr.writes_slice w).writes (by rw [ct]; exact partsContents_fits hf) (by rw [ct]; exact ha)
  reads c b h s hs hc := by
    obtain ⟨hi, hf, h0, h1⟩ := h
    cases c with
    | false =>
      have hc' : s.contents = partsContents b := hc
      rw [parts_load_false hs, hc', if_pos (partsContents_fits hf), if_pos (h0 rfl).2]
      exact ⟨_, _, rfl, rfl, (remaining_spec hs).2⟩
    | true =>
      obtain ⟨s', h1, w, h3, _⟩ := Rd.reads_ref (partsCell true b) s Enc.nil hs (by rw [hc, Enc.append_nil]; rfl)
      refine ⟨_, s', ?_, rfl, h3⟩
      show (Rd.ref >>= fun c => (pure (fullRange c, c) : Rd Cell _)) s = _
      rw [Prog.bind_ok h1]
      rfl
  exact c s s' b hs h := by
    cases c with
    | false =>
      rw [parts_load_false hs] at h
      split at h
      · split at h
        · obtain ⟨h1, rfl⟩ := Prod.mk.inj h
          cases h1
          refine ⟨?_, fun _ => (remaining_spec hs).2⟩
          rw [(remaining_spec hs).2, Enc.append_nil]
          show _ = partsContents _
          rw [partsContents_full]
          rfl
        · cases h
      · cases h
    | true =>
      have h' : (Rd.ref >>= fun c => (pure (fullRange c, c) : Rd Cell _)) s = (.ok b, s') := h
      obtain ⟨c, s1, e1, e2⟩ := Prog.bind_inv h'
      obtain ⟨h2, rfl⟩ := Prod.mk.inj e2
      cases h2
      obtain ⟨e, rfl, h3, _⟩ := Rd.exact_ref _ _ _ hs e1
      refine ⟨?_, fun h => (by cases h)⟩
      rw [h3]
      show _ = Enc.ref (partsCell true _) ++ _
      rw [show partsCell true (fullRange c, c) = c from if_pos (by rw [decide_eq_true rfl]; rfl)]
  safe c := by
    cases c with
    | false =>
      intro s hs
      have hx : ∃ e, s.contents = e ++ s.loadRemaining.2.contents := ⟨s.contents, by rw [(remaining_spec hs).2, Enc.append_nil]⟩
      rw [parts_load_false hs]
      split
      · split
        · exact ⟨(remaining_spec hs).1, hx, (by intro h; cases h), (by intro h; cases h)⟩
        · exact ⟨(remaining_spec hs).1, hx, (by intro h; cases h), (by intro h; cases h)⟩
      · exact ⟨(remaining_spec hs).1, hx, (by intro h; cases h), (by intro h; cases h)⟩
    | true => exact Rd.safe_ref.bind fun c => Safe.pure _
  size c b h := by
    obtain ⟨hi, hf, h0, h1⟩ := h
    obtain ⟨i1, i2, i3, i4⟩ := hi
    cases c with
    | true => rfl
    | false =>
      refine Prod.ext ?_ ?_
      · show ((b.2.bits.drop _).take _).length = b.1.bitsEnd - b.1.bitsStart
        rw [List.length_take, List.length_drop]; omega
      · show ((b.2.refs.drop _).take _).length = b.1.refsEnd - b.1.refsStart
        rw [List.length_take, List.length_drop]; omega
  few c b h := by
    obtain ⟨⟨i1, i2, i3, i4⟩, hf, -⟩ := h
    refine ⟨?_, ?_⟩
    · show b.1.bitsEnd - b.1.bitsStart ≤ _; omega
    · show b.1.refsEnd - b.1.refsStart ≤ _; omega

end Verif
