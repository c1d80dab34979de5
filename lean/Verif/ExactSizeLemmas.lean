import Verif.ExactSize
set_option linter.unusedVariables false
set_option linter.unusedSimpArgs false
namespace Verif

/-! ### Helper lemmas -/

/-- On success the program has written exactly `e`; otherwise it failed for lack of room. -/
def Puts (w : Wr Cell Unit) (e : Enc Cell) : Prop :=
  ∀ b : CellB Cell, b.WF → (∃ b', w b = (.ok (), b') ∧ b'.WF ∧ b'.contents = b.contents ++ e) ∨ ∃ b', w b = (.error .cellOverflow, b') ∧ b'.WF

theorem Puts.ofWrites {w : Wr Cell Unit} {e : Enc Cell} (h : Writes w e) : Puts w e := by
  intro b hb
  by_cases hf : (b.contents ++ e : Enc Cell).Fits
  · obtain ⟨b', h1, h2, h3, _⟩ := (h b hb).1 hf
    exact .inl ⟨b', h1, h2, h3⟩
  · exact .inr ((h b hb).2 hf)

theorem Puts.ofNear {k : Nat} {w : Wr Cell Unit} {e : Enc Cell} (h : Near k w e) : Puts w e := by
  intro b hb
  by_cases hf : (b.contents ++ (e ++ Enc.bits (List.replicate k false)) : Enc Cell).Fits
  · obtain ⟨b', h1, h2, h3, _⟩ := (h b hb).1 hf
    exact .inl ⟨b', h1, h2, h3⟩
  · rcases (h b hb).2 hf with ⟨b', h1, h2, h3, _⟩ | h
    · exact .inl ⟨b', h1, h2, h3⟩
    · exact .inr h

theorem Puts.seq {w : Wr Cell Unit} {f : Unit → Wr Cell Unit} {e1 e2 : Enc Cell} (h1 : Puts w e1) (h2 : Puts (f ()) e2) : Puts (w >>= f) (e1 ++ e2) := by
  intro b hb
  rcases h1 b hb with ⟨b1, r1, w1, c1⟩ | ⟨b1, r1, w1⟩
  · rw [Prog.bind_ok r1]
    rcases h2 b1 w1 with ⟨b2, r2, w2, c2⟩ | h
    · exact .inl ⟨b2, r2, w2, by rw [c2, c1, Enc.append_assoc]⟩
    · exact .inr h
  · exact .inr ⟨b1, Prog.bind_err r1, w1⟩

theorem opt_writes {α : Type} {A : Tlb α} (h : ∀ v, Writes (A.store v) (A.enc v)) (o : Option α) : Writes (A.opt.store o) (A.opt.enc o) :=
  match o with
  | none => (Wr.writes_bit false).writes
  | some v => (Wr.writes_bit true).writes.seq (h v)

theorem dict_writes (o : Option Cell) : Writes (Tlb.dict.store o) (Tlb.dict.enc o) :=
  opt_writes (fun c => (Wr.writes_ref c).writes) o

theorem stateInit_writes (a : StateInit) : Writes (stateInit.store a) (stateInit.enc a) :=
  (opt_writes (A := splitDepth) (fun v => (Wr.writes_small v (by decide)).writes) a.splitDepth).seq
    ((opt_writes (A := specialFlags) (fun v => specialFlags_sound.st.writes v trivial) a.special).seq
      ((opt_writes (A := Tlb.cell) (fun c => (Wr.writes_ref c).writes) a.code).seq
        ((opt_writes (A := Tlb.cell) (fun c => (Wr.writes_ref c).writes) a.data).seq (dict_writes a.libraries))))

theorem stateInit_size' (a : StateInit) : (stateInit.enc a).1.length = a.bitLen ∧ (stateInit.enc a).2.length = a.refCount := by
  obtain ⟨d, s, c, t, l⟩ := a
  cases d <;> cases s <;> cases c <;> cases t <;> cases l <;> exact ⟨rfl, rfl⟩

theorem least_bytes (k : VarKind) {v : Nat} (h : v ≤ k.max) : LeastBytes (k.bytes v) v := by
  have hm := k.max_eq
  have hs : v < 2 ^ (8 * k.size) := by
    have : 2 ^ (8 * k.maxBytes) ≤ 2 ^ (8 * k.size) := Nat.pow_le_pow_right (by decide) (by cases k <;> decide)
    omega
  exact ⟨(k.bytes_spec hs).1 (Nat.le_refl _), fun m hm => (k.bytes_spec hs).2 hm⟩

theorem least_bytes248 {a : V248} (h : a.WF) : LeastBytes a.bytes a.val :=
  ⟨(V248.bytes_spec h).1 (Nat.le_refl _), fun m hm => (V248.bytes_spec h).2 hm⟩

namespace SzTy

/-- What is stored. -/
def enc : (t : SzTy) → t.Val → Enc Cell
  | unit, _ => Enc.nil
  | small k, v => Enc.bits (natBits k.bits v)
  | splitDepth, v => Enc.bits (natBits 5 v)
  | var k, v => varEnc k.lenBits (k.bytes v) v
  | v248, v => varEnc 5 (V248.bytes v) (V248.val v)
  | cell, c => Enc.ref c
  | lazy _, c => Enc.ref c
  | slice, s => CSlice.contents s
  | dict, d => Tlb.dict.enc d
  | currency, c => varEnc VarKind.tokens.lenBits (VarKind.tokens.bytes (Currency.tokens c)) (Currency.tokens c) ++ Tlb.dict.enc (Currency.other c)
  | stateInit, i => Verif.stateInit.enc i
  | msgInfo, i => Verif.msgInfo.enc i
  | relaxedInfo, i => Verif.relaxedInfo.enc i
  | option t, o => optEnc t.enc o
  | pair a b, p => a.enc p.1 ++ b.enc p.2

theorem puts : ∀ (t : SzTy) (v : t.Val), t.Good v → Puts (t.store v) (t.enc v) ∧ (t.Plain → Writes (t.store v) (t.enc v))
  | unit, _, _ => have h := Writes.pure; ⟨.ofWrites h, fun _ => h⟩
  | small k, v, h => have h := ((C44_small (ρ := Cell) (n := k.bits) (by cases k <;> simp [SmallW.bits])).1 v h).1.writes; ⟨.ofWrites h, fun _ => h⟩
  | splitDepth, v, _ => have h := (Wr.writes_small (ρ := Cell) v (n := 5) (by decide)).writes; ⟨.ofWrites h, fun _ => h⟩
  | var k, v, h => have h := (C41_store (ρ := Cell) k h (least_bytes k h)).1.writes; ⟨.ofWrites h, fun _ => h⟩
  | v248, v, h => have h := (V248.C41_v248_store (ρ := Cell) h.1 h.2 (least_bytes248 h.1)).1.writes; ⟨.ofWrites h, fun _ => h⟩
  | cell, c, _ => have h := (Wr.writes_ref c).writes; ⟨.ofWrites h, fun _ => h⟩
  | lazy _, c, _ => have h := (Wr.writes_ref c).writes; ⟨.ofWrites h, fun _ => h⟩
  | slice, s, h => have h := (Wr.writes_slice h).writes; ⟨.ofWrites h, fun _ => h⟩
  | dict, d, _ => have h := dict_writes d; ⟨.ofWrites h, fun _ => h⟩
  | currency, c, h => have h := (C41_store (ρ := Cell) .tokens h (least_bytes .tokens h)).1.writes.seq (f := fun _ => optStore Wr.ref (Currency.other c)) (dict_writes _)
    ⟨.ofWrites h, fun _ => h⟩
  | stateInit, i, _ => have h := stateInit_writes i; ⟨.ofWrites h, fun _ => h⟩
  | msgInfo, i, h => ⟨.ofNear (fullKind_sound.near i h), fun h => h.elim⟩
  | relaxedInfo, i, h => ⟨.ofNear (relaxedKind_sound.near i h), fun h => h.elim⟩
  | option t, none, _ => have h := (Wr.writes_bit (ρ := Cell) false).writes; ⟨.ofWrites h, fun _ => h⟩
  | option t, some v, h => have i := puts t v h
    ⟨(Puts.ofWrites (Wr.writes_bit true).writes).seq (f := fun _ => t.store v) i.1, fun p => (Wr.writes_bit true).writes.seq (f := fun _ => t.store v) (i.2 p)⟩
  | pair a b, p, h => have i := puts a p.1 h.1; have j := puts b p.2 h.2
    ⟨i.1.seq (f := fun _ => b.store p.2) j.1, fun q => (i.2 q.1).seq (f := fun _ => b.store p.2) (j.2 q.2)⟩

/-- The sum without any bound. -/
def total (t : SzTy) (v : t.Val) : CSize := ⟨(t.enc v).1.length - t.internals v, (t.enc v).2.length⟩

theorem internals_le : ∀ (t : SzTy) (v : t.Val), t.Good v → t.internals v ≤ (t.enc v).1.length
  | unit, _, _ | small _, _, _ | splitDepth, _, _ | var _, _, _ | v248, _, _ | cell, _, _ | lazy _, _, _ | slice, _, _ | dict, _, _ | currency, _, _
  | stateInit, _, _ | option _, none, _ => Nat.zero_le _
  | msgInfo, .int i, h => by have := fullKind_sound.bits (.int i) h; show 1 ≤ (fullKind.tlb.enc (.int i)).1.length; rw [this]; exact Nat.le_add_left _ _
  | msgInfo, .extIn _, _ | msgInfo, .extOut _, _ | relaxedInfo, .extOut _, _ => Nat.zero_le _
  | relaxedInfo, .int i, h => by have := relaxedKind_sound.bits (.int i) h; show 1 ≤ (relaxedKind.tlb.enc (.int i)).1.length; rw [this]; exact Nat.le_add_left _ _
  | option t, some v, h => by
    have := internals_le t v h
    show t.internals v ≤ ([true] ++ (t.enc v).1).length
    rw [List.length_append]; omega
  | pair a b, p, h => by
    have := internals_le a p.1 h.1
    have := internals_le b p.2 h.2
    show a.internals p.1 + b.internals p.2 ≤ ((a.enc p.1).1 ++ (b.enc p.2).1).length
    rw [List.length_append]; omega

theorem internals_plain : ∀ (t : SzTy) (v : t.Val), t.Plain → t.internals v = 0
  | unit, _, _ | small _, _, _ | splitDepth, _, _ | var _, _, _ | v248, _, _ | cell, _, _ | lazy _, _, _ | slice, _, _ | dict, _, _ | currency, _, _
  | stateInit, _, _ | option _, none, _ => rfl
  | msgInfo, _, h | relaxedInfo, _, h => h.elim
  | option t, some v, h => internals_plain t v h
  | pair a b, p, h => by show a.internals p.1 + b.internals p.2 = 0; rw [internals_plain a p.1 h.1, internals_plain b p.2 h.2]

/-- What a sum of sizes gives in the two builds. -/
def bounded (dbg : Bool) (x y : Nat) : Except Err CSize :=
  if x < 2 ^ 16 ∧ y < 2 ^ 8 then .ok ⟨x, y⟩ else if dbg then .error .panic else .ok ⟨x % 2 ^ 16, y % 2 ^ 8⟩

theorem bounded_small (dbg : Bool) {x y : Nat} (hx : x < 2 ^ 16) (hy : y < 2 ^ 8) : bounded dbg x y = .ok ⟨x, y⟩ := if_pos ⟨hx, hy⟩

theorem bounded_false (x y : Nat) : bounded false x y = .ok ⟨x % 2 ^ 16, y % 2 ^ 8⟩ := by
  unfold bounded
  split
  · next h => rw [Nat.mod_eq_of_lt h.1, Nat.mod_eq_of_lt h.2]
  · rfl

theorem bounded_add (dbg : Bool) (a b c d : Nat) :
    (bounded dbg a b >>= fun x => bounded dbg c d >>= fun y => CSize.add dbg x y) = bounded dbg (a + c) (b + d) := by
  cases dbg with
  | false =>
    rw [bounded_false, bounded_false, bounded_false]
    show CSize.add false _ _ = _
    show bounded false _ _ = _
    rw [bounded_false]
    dsimp only
    rw [← Nat.add_mod, ← Nat.add_mod]
  | true =>
    by_cases h1 : a < 2 ^ 16 ∧ b < 2 ^ 8
    · rw [bounded_small true h1.1 h1.2]
      show (bounded true c d >>= fun y => CSize.add true ⟨a, b⟩ y) = _
      by_cases h2 : c < 2 ^ 16 ∧ d < 2 ^ 8
      · rw [bounded_small true h2.1 h2.2]
        show bounded true _ _ = _
        rfl
      · have e : bounded true c d = .error .panic := by unfold bounded; rw [if_neg h2]; rfl
        have e' : bounded true (a + c) (b + d) = .error .panic := by unfold bounded; rw [if_neg (by omega)]; rfl
        rw [e, e']; rfl
    · have e : bounded true a b = .error .panic := by unfold bounded; rw [if_neg h1]; rfl
      have e' : bounded true (a + c) (b + d) = .error .panic := by unfold bounded; rw [if_neg (by omega)]; rfl
      rw [e, e']; rfl

theorem dict_len (d : Option Cell) : (Tlb.dict.enc d).1.length = 1 ∧ (Tlb.dict.enc d).2.length = d.isSome.toNat := by cases d <;> exact ⟨rfl, rfl⟩

theorem size_bits (dbg : Bool) (n v : Nat) (h : n < 2 ^ 16) : Except.ok ⟨n, 0⟩ = bounded dbg (natBits n v).length 0 := by
  rw [natBits_length, bounded_small dbg h (by decide)]

theorem size_var (dbg : Bool) (k : VarKind) {v : Nat} (h : v ≤ k.max) :
    Except.ok ⟨(k.bitLen v).getD 0, 0⟩ = bounded dbg (varEnc (ρ := Cell) k.lenBits (k.bytes v) v).1.length 0 := by
  have e := (C41_store (ρ := Cell) k h (least_bytes k h)).2.1
  have hb : (varEnc (ρ := Cell) k.lenBits (k.bytes v) v).1.length < 2 ^ 16 := by
    have : k.bytes v ≤ k.maxBytes := (least_bytes k h).2 _ (by have := k.max_eq; omega)
    have h15 := k.maxBytes_le
    have h8 := k.lenBits_le
    simp [varEnc, Enc.bits]; omega
  rw [e, bounded_small dbg hb (by decide)]; rfl

theorem size_v248 (dbg : Bool) {v : V248} (h1 : v.WF) (h2 : v.val < 2 ^ 248) :
    Except.ok ⟨v.bitLen.getD 0, 0⟩ = bounded dbg (varEnc (ρ := Cell) 5 v.bytes v.val).1.length 0 := by
  have e := (V248.C41_v248_store (ρ := Cell) h1 h2 (least_bytes248 h1)).2.1
  have hb : (varEnc (ρ := Cell) 5 v.bytes v.val).1.length < 2 ^ 16 := by
    have : v.bytes ≤ 31 := (least_bytes248 h1).2 _ h2
    simp [varEnc, Enc.bits]; omega
  rw [e, bounded_small dbg hb (by decide)]; rfl

theorem size_eq (dbg : Bool) : ∀ (t : SzTy) (v : t.Val), t.Good v → t.size dbg v = bounded dbg ((t.enc v).1.length - t.internals v) (t.enc v).2.length
  | unit, _, _ => by show _ = bounded dbg 0 0; rw [bounded_small dbg (by decide) (by decide)]; rfl
  | small k, v, _ => size_bits dbg k.bits v (by cases k <;> decide)
  | splitDepth, v, _ => size_bits dbg 5 v (by decide)
  | var k, v, h => size_var dbg k h
  | v248, v, h => size_v248 dbg h.1 h.2
  | cell, _, _ => by show _ = bounded dbg 0 1; rw [bounded_small dbg (by decide) (by decide)]; rfl
  | lazy _, _, _ => by show _ = bounded dbg 0 1; rw [bounded_small dbg (by decide) (by decide)]; rfl
  | slice, s, h => by
    have e := contents_size h
    have h1 : (CSlice.contents s).1.length = (CSlice.range s).sizeBits := congrArg Prod.fst e
    have h2 : (CSlice.contents s).2.length = (CSlice.range s).sizeRefs := congrArg Prod.snd e
    show _ = bounded dbg (CSlice.contents s).1.length (CSlice.contents s).2.length
    have b1 : (CSlice.range s).sizeBits ≤ 1024 := by
      have := CSlice.WF.end_le h; have := CSlice.WF.data_le h
      unfold SliceRange.sizeBits; omega
    have b2 : (CSlice.range s).sizeRefs ≤ 4 := by
      have := CSlice.WF.rend_le h; have := CSlice.WF.refs_le h
      unfold SliceRange.sizeRefs; omega
    rw [h1, h2, bounded_small dbg (by omega) (by omega)]
    rfl
  | dict, d, _ => by
    show _ = bounded dbg (Tlb.dict.enc d).1.length (Tlb.dict.enc d).2.length
    rw [(dict_len d).1, (dict_len d).2, bounded_small dbg (by decide) (by have := Bool.toNat_le (Option.isSome d); omega)]
    rfl
  | currency, c, h => by
    have e := (C41_store (ρ := Cell) .tokens h (least_bytes .tokens h)).2.1
    show CSize.add dbg ⟨(VarKind.tokens.bitLen (Currency.tokens c)).getD 0, 0⟩ ⟨1, (Currency.other c).isSome.toNat⟩ = bounded dbg
      ((varEnc (ρ := Cell) VarKind.tokens.lenBits (VarKind.tokens.bytes (Currency.tokens c)) (Currency.tokens c)).1 ++ (Tlb.dict.enc (Currency.other c)).1).length
      ([] ++ (Tlb.dict.enc (Currency.other c)).2).length
    rw [e, List.length_append, List.nil_append, (dict_len _).1, (dict_len _).2]
    show bounded dbg _ _ = _
    rw [Nat.zero_add]
    rfl
  | stateInit, i, _ => by
    show _ = bounded dbg (Verif.stateInit.enc i).1.length (Verif.stateInit.enc i).2.length
    rw [(stateInit_size' i).1, (stateInit_size' i).2]
    have h := stateInit_small i
    have : StateInit.refCount i ≤ 3 := by
      unfold StateInit.refCount
      have := Bool.toNat_le (StateInit.code i).isSome
      have := Bool.toNat_le (StateInit.data i).isSome
      have := Bool.toNat_le (StateInit.libraries i).isSome
      omega
    rw [bounded_small dbg (by omega) (by omega)]; rfl
  | msgInfo, i, h => by
    have e1 := fullKind_sound.bits i h
    have e2 := fullKind_sound.refs i h
    have f := fullKind_sound.few i h
    have hs : SzTy.internals msgInfo i = MsgInfo.slack i := by cases i <;> rfl
    show _ = bounded dbg ((fullKind.tlb.enc i).1.length - SzTy.internals msgInfo i) (fullKind.tlb.enc i).2.length
    rw [hs, e1, e2, Nat.add_sub_cancel, bounded_small dbg (by omega) (by omega)]
    rfl
  | relaxedInfo, i, h => by
    have e1 := relaxedKind_sound.bits i h
    have e2 := relaxedKind_sound.refs i h
    have f := relaxedKind_sound.few i h
    have hs : SzTy.internals relaxedInfo i = RelaxedMsgInfo.slack i := by cases i <;> rfl
    show _ = bounded dbg ((relaxedKind.tlb.enc i).1.length - SzTy.internals relaxedInfo i) (relaxedKind.tlb.enc i).2.length
    rw [hs, e1, e2, Nat.add_sub_cancel, bounded_small dbg (by omega) (by omega)]
    rfl
  | option t, none, _ => by show _ = bounded dbg 1 0; rw [bounded_small dbg (by decide) (by decide)]; rfl
  | option t, some v, h => by
    have i := size_eq dbg t v h
    have l := internals_le t v h
    show (t.size dbg v >>= fun s => CSize.add dbg ⟨1, 0⟩ s) = bounded dbg (([true] ++ (t.enc v).1).length - t.internals v) ([] ++ (t.enc v).2).length
    rw [i, List.length_append, List.nil_append]
    have e := bounded_add dbg 1 0 ((t.enc v).1.length - t.internals v) (t.enc v).2.length
    rw [bounded_small dbg (by decide) (by decide)] at e
    have e2 : ([true].length + (t.enc v).1.length - t.internals v) = 1 + ((t.enc v).1.length - t.internals v) := by
      show 1 + _ - _ = _
      omega
    rw [e2]
    rw [Nat.zero_add] at e
    exact e
  | pair a b, p, h => by
    have i := size_eq dbg a p.1 h.1
    have j := size_eq dbg b p.2 h.2
    have l1 := internals_le a p.1 h.1
    have l2 := internals_le b p.2 h.2
    show (a.size dbg p.1 >>= fun x => b.size dbg p.2 >>= fun y => CSize.add dbg x y) =
      bounded dbg (((a.enc p.1).1 ++ (b.enc p.2).1).length - (a.internals p.1 + b.internals p.2)) ((a.enc p.1).2 ++ (b.enc p.2).2).length
    rw [i, j, bounded_add, List.length_append, List.length_append]
    congr 1
    omega

end SzTy

theorem storeAll_writes : ∀ (l : List AnySized), (∀ v ∈ l, v.1.Plain ∧ v.1.Good v.2) →
    ∃ e : Enc Cell, Writes (storeAll l) e ∧ e.1.length = (l.map fun v => (v.1.enc v.2).1.length).sum ∧ e.2.length = (l.map fun v => (v.1.enc v.2).2.length).sum
  | [], _ => ⟨Enc.nil, Writes.pure, rfl, rfl⟩
  | v :: l, h => by
    obtain ⟨e, w, h1, h2⟩ := storeAll_writes l fun v hv => h v (List.mem_cons_of_mem _ hv)
    have hv := h v List.mem_cons_self
    refine ⟨v.1.enc v.2 ++ e, ((v.1.puts v.2 hv.2).2 hv.1).seq w, ?_, ?_⟩
    · rw [Enc.append_fst, List.length_append, h1]; rfl
    · rw [Enc.append_snd, List.length_append, h2]; rfl

namespace CSize

theorem min_add_cap (a b M : Nat) (c : Nat) : Nat.min (Nat.min (a + b) M + c) M = Nat.min (a + b + c) M := by
  show min (min (a + b) M + c) M = min (a + b + c) M
  omega

theorem fold_sat (l : List CSize) (a : CSize) (ha : a.bits ≤ 2 ^ 16 - 1 ∧ a.refs ≤ 2 ^ 8 - 1) :
    l.foldl saturatingAdd a = ⟨Nat.min (a.bits + (l.map CSize.bits).sum) (2 ^ 16 - 1), Nat.min (a.refs + (l.map CSize.refs).sum) (2 ^ 8 - 1)⟩ := by
  induction l generalizing a with
  | nil =>
    obtain ⟨x, y⟩ := a
    show _ = CSize.mk (min (x + 0) _) (min (y + 0) _)
    rw [Nat.add_zero, Nat.add_zero, Nat.min_eq_left ha.1, Nat.min_eq_left ha.2]
    rfl
  | cons b l ih =>
    rw [List.foldl_cons, ih _ ⟨Nat.min_le_right _ _, Nat.min_le_right _ _⟩]
    simp only [saturatingAdd, List.map_cons, List.sum_cons, min_add_cap, Nat.add_assoc]

end CSize

theorem TreeStats.fold_add (l : List TreeStats) (a : TreeStats) (ha : a.Valid) :
    l.foldl TreeStats.add a = ⟨Nat.min (a.bitCount + (l.map TreeStats.bitCount).sum) (2 ^ 64 - 1), Nat.min (a.cellCount + (l.map TreeStats.cellCount).sum) (2 ^ 64 - 1)⟩ := by
  induction l generalizing a with
  | nil =>
    obtain ⟨x, y⟩ := a
    obtain ⟨h1, h2⟩ := ha
    dsimp only at h1 h2
    show _ = TreeStats.mk (min (x + 0) _) (min (y + 0) _)
    rw [Nat.add_zero, Nat.add_zero, Nat.min_eq_left (by omega), Nat.min_eq_left (by omega)]
    rfl
  | cons b l ih =>
    rw [List.foldl_cons, ih _ ⟨Nat.lt_of_le_of_lt (Nat.min_le_right _ _) (by decide), Nat.lt_of_le_of_lt (Nat.min_le_right _ _) (by decide)⟩]
    simp only [TreeStats.add, List.map_cons, List.sum_cons, CSize.min_add_cap, Nat.add_assoc]

end Verif
