import Verif.TlbMore
import Verif.ShardProps
/-
Combinators for schemes in which an earlier field decides about a later one, and the schemes of shard and block identifiers.
-/
set_option linter.unusedVariables false
set_option linter.unusedSimpArgs false
namespace Verif

namespace Tlb
variable {α β : Type}

/-! ### Model -/

/-- A part that is there exactly if a flag read before says so. -/
def cond (c : Bool) (A : Tlb α) : Tlb (Option α) where
  ok v := v.isSome = c ∧ ∀ a, v = some a → A.ok a
  store v := match v with
    | some a => A.store a
    | none => pure ()
  load := match c with
    | true => A.load >>= fun a => pure (some a)
    | false => pure none
  R v e := match v with
    | some a => c = true ∧ A.R a e
    | none => c = false ∧ e = Enc.nil
  enc v := match v with
    | some a => A.enc a
    | none => Enc.nil

/-- A field that decides what follows. -/
def dep (A : Tlb α) (B : α → Tlb β) : Tlb (α × β) where
  ok v := A.ok v.1 ∧ (B v.1).ok v.2
  store v := A.store v.1 >>= fun _ => (B v.1).store v.2
  load := A.load >>= fun a => (B a).load >>= fun b => pure (a, b)
  R v := A.R v.1 ⬝ (B v.1).R v.2
  enc v := A.enc v.1 ++ (B v.1).enc v.2

/-- `models/block/block_id.rs:461-491` `Store` and `Load` for `ShardIdent`: the length of the prefix, the workchain, the prefix without its final
one. The loader ignores the bits behind the prefix. -/
def shardIdent : Tlb ShardIdent where
  ok s := IsI32 s.workchain ∧ ∃ p, s.Is s.workchain p
  store := ShardIdent.store
  load := ShardIdent.load
  R s e := ∃ p l, IsI32 s.workchain ∧ s.Is s.workchain p ∧ l.length = 64 ∧ p <+: l ∧
    e = Enc.bits (natBits 8 p.length) ++ (Enc.bits (natBits 32 (i32ToU32 s.workchain)) ++ Enc.bits l)
  enc s := Enc.bits (natBits 8 s.prefixLen) ++ (Enc.bits (natBits 32 (i32ToU32 s.workchain)) ++ Enc.bits (natBits 64 (s.pfx - ShardIdent.tag s.pfx).toNat))

/-- `models/block/block_id.rs:10-19` `BlockId` derives `Store` and `Load`. -/
def blockId : Tlb ShardIdent.BlockId where
  ok b := shardIdent.ok b.shard ∧ u32.ok b.seqno ∧ hash.ok b.rootHash ∧ hash.ok b.fileHash
  store := ShardIdent.BlockId.store
  load := ShardIdent.BlockId.load
  R b := shardIdent.R b.shard ⬝ u32.R b.seqno ⬝ hash.R b.rootHash ⬝ hash.R b.fileHash
  enc b := shardIdent.enc b.shard ++ (u32.enc b.seqno ++ (hash.enc b.rootHash ++ hash.enc b.fileHash))

/-- `dict/aug.rs:64-85` `Store` and `Load` for `AugDict`: the root, then the extra value of the whole dictionary. -/
def augDict (A : Tlb α) : Tlb (Option Cell × α) := dict.pair A

/-- A fixed number of raw bytes (`load_raw`, `store_raw`). -/
def bytes (n : Nat) : Tlb (List Byte) :=
  canonical (fun v => v.length = n) (fun v => Wr.raw v (8 * n)) (Rd.raw n (8 * n)) (fun v => Enc.bits (bytesToBits v))

/-- Loading from a slice that was taken from a child before. -/
def within (l : Rd Cell α) (t : CSlice Cell) : Rd Cell α := fun s => ((l t).1, s)

/-- `BlockchainConfigParams` (`models/config/mod.rs:609-623` `Store`, `Load`): the root of a dictionary that must not be empty, as a plain reference. -/
def mandatory : Tlb (Option Cell) where
  ok d := d.isSome = true
  store d := match d with
    | some c => Wr.ref c
    | none => Prog.fail .invalidData
  load := Rd.ref >>= fun c => pure (some c)
  R d e := ∃ c, d = some c ∧ e = Enc.ref c
  enc d := match d with
    | some c => Enc.ref c
    | none => Enc.nil

/-- A condition that only loading checks. -/
def guarded (c : α → Bool) (A : Tlb α) : Tlb α where
  ok v := A.ok v ∧ c v = true
  store := A.store
  load := A.load >>= fun v => Prog.check (c v) .invalidData >>= fun _ => pure v
  R v e := A.R v e ∧ c v = true
  enc := A.enc

/-- A reference to a cell that is built before and opened when loaded; its contents are read behind what follows. -/
def later (acc : Cell → Bool) (A : Tlb α) (B : Tlb β) : Tlb (α × β) where
  ok v := (A.child acc).ok v.1 ∧ B.ok v.2
  store v := Wr.ref (cellOf (A.enc v.1)) >>= fun _ => B.store v.2
  load := childSlice >>= fun t => B.load >>= fun b => within A.load t >>= fun a => pure (a, b)
  R v := (A.child acc).R v.1 ⬝ B.R v.2
  enc v := Enc.ref (cellOf (A.enc v.1)) ++ B.enc v.2

/-! ### Lemmas -/

theorem Sound.cond {A : Tlb α} (h : A.Sound) (c : Bool) : (A.cond c).Sound where
  st := ⟨fun v hv => match v, hv with
      | some a, hv => h.st.writes a (hv.2 a rfl)
      | none, _ => Writes.pure,
    fun v hv => match v, hv with
      | some a, hv => ⟨hv.1.symm, h.st.canon a (hv.2 a rfl)⟩
      | none, hv => ⟨hv.1.symm, rfl⟩⟩
  ld := by
    cases c with
    | true =>
      exact (h.ld.map some).iff fun v e => by
        cases v with
        | none => exact ⟨(by rintro ⟨a, h, _⟩; cases h), (by rintro ⟨h, _⟩; cases h)⟩
        | some a => exact ⟨by rintro ⟨_, h, h'⟩; cases h; exact ⟨rfl, h'⟩, by rintro ⟨_, h⟩; exact ⟨a, rfl, h⟩⟩
    | false =>
      exact (Loads.pure none).iff fun v e => by
        cases v with
        | none => exact ⟨fun h => ⟨rfl, h.2⟩, fun h => ⟨rfl, h.2⟩⟩
        | some a => exact ⟨(by rintro ⟨h, _⟩; cases h), (by rintro ⟨h, _⟩; cases h)⟩

theorem Sound.dep {A : Tlb α} {B : α → Tlb β} (ha : A.Sound) (hb : ∀ a, (B a).Sound) : (A.dep B).Sound where
  st := ⟨fun v h => (ha.st.writes _ h.1).seq ((hb _).st.writes _ h.2), fun v h => ⟨_, _, ha.st.canon _ h.1, (hb _).st.canon _ h.2, rfl⟩⟩
  ld := (ha.ld.bind (R := fun a v e => v.1 = a ∧ (B a).R v.2 e) (fun a _ _ => ((hb a).ld.map fun b => (a, b)).iff fun v e =>
    ⟨by rintro ⟨b, rfl, h⟩; exact ⟨rfl, h⟩, by rintro ⟨rfl, h⟩; exact ⟨v.2, rfl, h⟩⟩)).iff fun v e =>
    ⟨by rintro ⟨a, e1, e2, h1, ⟨rfl, h2⟩, rfl⟩; exact ⟨e1, e2, h1, h2, rfl⟩,
     by rintro ⟨e1, e2, h1, h2, rfl⟩; exact ⟨v.1, e1, e2, h1, ⟨rfl, h2⟩, rfl⟩⟩

/-- A struct made from some of the tuples. -/
theorem Sound.structOn {T : Tlb α} {T' : Tlb β} (h : T.Sound) (f : α → β) (g : β → α) (hl : T'.load = T.load >>= fun a => Pure.pure (f a))
    (ho : ∀ v, T'.ok v → T.ok (g v)) (hs : ∀ v, T'.ok v → T'.store v = T.store (g v)) (he : ∀ v, T'.ok v → T'.enc v = T.enc (g v))
    (hfg : ∀ v, T'.ok v → f (g v) = v) (hr : ∀ v e, (∃ a, v = f a ∧ T.R a e) ↔ T'.R v e) : T'.Sound :=
  ⟨⟨fun v hv => by rw [hs v hv, he v hv]; exact h.st.writes _ (ho v hv),
    fun v hv => (hr _ _).1 ⟨g v, (hfg v hv).symm, by rw [he v hv]; exact h.st.canon _ (ho v hv)⟩⟩, by rw [hl]; exact (h.ld.map f).iff hr⟩

open ShardIdent in
theorem shardIdent_sound : shardIdent.Sound where
  st := by
    refine ⟨fun s ⟨hw, p, hp⟩ => ?_, fun s ⟨hw, p, hp⟩ => ?_⟩
    · have := (C46_cell (ρ := Cell) hp hw).1
      have e : shardIdent.enc s = ShardIdent.enc s.workchain p := by
        show Enc.bits (natBits 8 s.prefixLen) ++ (Enc.bits (natBits 32 (i32ToU32 s.workchain)) ++ Enc.bits (natBits 64 (s.pfx - ShardIdent.tag s.pfx).toNat)) = _
        rw [prefixLen_eq hp.2, noTag_bits hp.2]
        unfold ShardIdent.enc
        rw [Enc.append_assoc]
      rw [e]
      exact this
    · refine ⟨p, p ++ List.replicate (64 - p.length) false, hw, hp, ?_, List.prefix_append _ _, ?_⟩
      · have := hp.2.1; simp; omega
      · show Enc.bits (natBits 8 s.prefixLen) ++ (Enc.bits (natBits 32 (i32ToU32 s.workchain)) ++ Enc.bits (natBits 64 (s.pfx - ShardIdent.tag s.pfx).toNat)) = _
        rw [prefixLen_eq hp.2, noTag_bits hp.2]
  ld := by
    have hx := C46_cell (ρ := Cell) (s := ⟨0, 0x8000000000000000⟩) (w := 0) (p := []) ⟨rfl, by decide, by decide⟩ (by unfold IsI32; decide)
    refine ⟨?_, ?_, hx.2.2.2⟩
    · rintro s e ⟨p, l, hw, hs, hl, ⟨t, rfl⟩, rfl⟩
      have hp := hs.2.1
      show Reads ShardIdent.load _ s
      unfold ShardIdent.load
      refine (Rd.takes_u8.reads_nat (v := p.length) (by omega)).bind ?_
      refine Reads.cast (Reads.bind (Reads.check (decide_eq_true hp)) (Reads.bind (Rd.takes_u32.reads_nat (i32_lt s.workchain)) ?_)) (Enc.nil_append _)
      refine Reads.cast (Reads.bind (Rd.takes_u64.reads hl) (w := s) (e2 := Enc.nil) ?_) (Enc.append_nil _)
      have hd := load_word hl hp
      rw [List.take_left] at hd
      rw [i32_round hw]
      have hx := hd.inj hs.2
      dsimp only
      rw [hx]
      exact Reads.pure s
    · refine hx.2.2.1.weaken ?_
      rintro s e ⟨w, p, l, h1, h2, h3, h4, rfl⟩
      obtain rfl := h2.1
      exact ⟨p, l, h1, h2, h3, h4, Enc.append_assoc ..⟩

theorem blockId_sound : blockId.Sound :=
  (shardIdent_sound.pair (u32_sound.pair (hash_sound.pair hash_sound))).struct (fun p => ⟨p.1, p.2.1, p.2.2.1, p.2.2.2⟩) (fun b => (b.shard, b.seqno, b.rootHash, b.fileHash))
    (fun _ => rfl) (fun _ => rfl) (by unfold blockId; tlb_more; rfl) (fun _ h => h) (fun _ _ => rfl) (fun _ _ => Iff.rfl) (fun _ _ => rfl)

theorem Sound.augDict {A : Tlb α} (h : A.Sound) : (A.augDict).Sound := dict_sound.pair h

theorem bytes_sound {n : Nat} (hn : 8 * n ≤ 1023) : (bytes n).Sound := by
  have ht : Rd.Takes (Rd.raw (ρ := Cell) n (8 * n)) (8 * n) packBytes := Rd.takes_raw hn (by omega)
  have hpack : ∀ v : List Byte, v.length = n → packBytes (bytesToBits v) = v := fun v hv => by
    apply bytesToBits_inj
    have h := packBytes_packs (bytesToBits v)
    rw [h.2, h.1, bytesToBits_length]
    rw [show 8 * ((8 * v.length + 7) / 8) - 8 * v.length = 0 by omega]
    simp
  have hbits : ∀ l : Bits, l.length = 8 * n → bytesToBits (packBytes l) = l ∧ (packBytes l).length = n := fun l hl => by
    have h := packBytes_packs l
    have h1 : (packBytes l).length = n := by rw [h.1, hl]; omega
    refine ⟨?_, h1⟩
    rw [h.2, h1, hl]
    simp
  refine ⟨⟨fun v hv => ?_, fun v hv => ⟨hv, rfl⟩⟩, ⟨?_, ?_, ht.safe⟩⟩
  · have hv : v.length = n := hv
    have h := (Wr.writes_raw (ρ := Cell) (v := v) (n := 8 * n) (by omega) (by omega)).writes
    have e : rawBits v (8 * n) = bytesToBits v := by
      unfold rawBits
      rw [if_pos (by omega), List.take_of_length_le (by rw [bytesToBits_length]; omega)]
    rw [e] at h
    exact h
  · rintro v e ⟨hv, rfl⟩
    have h := ht.reads (l := bytesToBits v) (by rw [bytesToBits_length, hv])
    rw [hpack v hv] at h
    exact h
  · refine ht.exact.weaken ?_
    rintro v e ⟨l, hl, rfl, rfl⟩
    obtain ⟨h1, h2⟩ := hbits l hl
    exact ⟨h2, by dsimp only; rw [h1]⟩

theorem mandatory_sound : mandatory.Sound :=
  ⟨⟨fun v hv => match v, hv with
      | some c, _ => (Wr.writes_ref c).writes
      | none, h => (by cases h), fun v hv => match v, hv with
      | some c, _ => ⟨c, rfl, rfl⟩
      | none, h => (by cases h)⟩,
    (cell_sound.ld.map some).iff fun v e => ⟨by rintro ⟨c, rfl, h⟩; exact ⟨c, rfl, h.2⟩, by rintro ⟨c, rfl, h⟩; exact ⟨c, rfl, trivial, h⟩⟩⟩

theorem childSlice_loads : Loads childSlice (fun t e => ∃ c : Cell, e = Enc.ref c ∧ c.exotic = false ∧ (c.bits.length ≤ 1023 ∧ c.refs.length ≤ 4) ∧
    t = Sl.reader ⟨c.bits, c.refs⟩) :=
  ⟨by rintro t e ⟨c, rfl, h1, h2, rfl⟩; exact reads_childSlice h1 h2, exact_childSlice, safe_childSlice⟩

theorem within_loads {A : Tlb α} (h : A.Sound) {t : CSlice Cell} (ht : t.WF) : Loads (within A.load t) (fun a e => (A.load t).1 = .ok a ∧ e = Enc.nil) := by
  refine ⟨?_, ?_, ?_⟩
  · rintro a e ⟨h1, rfl⟩ s rest hs hc
    exact ⟨s, by unfold within; rw [h1], hs, by rw [hc, Enc.nil_append], rfl, rfl⟩
  · intro s s' v hs hp
    obtain ⟨h1, rfl⟩ := Prod.mk.inj hp
    exact ⟨Enc.nil, ⟨h1, rfl⟩, by simp, hs⟩
  · intro s hs
    obtain ⟨_, _, n1, n2⟩ := h.ld.safe t ht
    exact ⟨hs, ⟨Enc.nil, (Enc.nil_append _).symm⟩, n1, n2⟩

theorem within_starts {A : Tlb α} (h : A.Sound) {c : Cell} (hx : c.exotic = false) (hf : c.bits.length ≤ 1023 ∧ c.refs.length ≤ 4) {a : α} :
    (A.load (Sl.reader ⟨c.bits, c.refs⟩)).1 = .ok a ↔ CellStarts (A.R a) c := by
  obtain ⟨w, ct⟩ := reader_contents hf
  constructor
  · intro h1
    obtain ⟨e, hr, hc, _⟩ := h.ld.exact _ (A.load (Sl.reader ⟨c.bits, c.refs⟩)).2 a w (Prod.ext h1 rfl)
    exact ⟨hx, hf, e, _, hr, by rw [← ct, hc]⟩
  · rintro ⟨_, _, e1, rest, hr, hc⟩
    obtain ⟨s', q, _⟩ := h.ld.reads a e1 hr _ rest w (by rw [ct, hc])
    rw [q]

/-- A child whose contents are read later. -/
theorem Sound.childLater {A : Tlb α} (h : A.Sound) (acc : Cell → Bool) {l : CSlice Cell → Rd Cell β} {p : β → α} {S : β → Enc Cell → Prop}
    (hl : ∀ t : CSlice Cell, t.WF → Loads (l t) (fun v e => (A.load t).1 = .ok (p v) ∧ S v e)) :
    Loads (childSlice >>= l) (fun v => (A.child acc).R (p v) ⬝ S v) :=
  (childSlice_loads.bind (R := fun t v e => (A.load t).1 = .ok (p v) ∧ S v e) (fun t e ht => by
    obtain ⟨c, _, _, hf, rfl⟩ := ht
    exact hl _ (reader_contents hf).1)).iff fun v e => by
    constructor
    · rintro ⟨t, e1, e2, ⟨c, rfl, hx, hf, rfl⟩, ⟨h1, h2⟩, rfl⟩
      exact ⟨_, _, ⟨c, rfl, (within_starts h hx hf).1 h1⟩, h2, rfl⟩
    · rintro ⟨e1, e2, ⟨c, rfl, hc⟩, h2, rfl⟩
      exact ⟨_, _, _, ⟨c, rfl, hc.1, hc.2.1, rfl⟩, ⟨(within_starts h hc.1 hc.2.1).2 hc, h2⟩, rfl⟩

theorem Sound.guarded {A : Tlb α} (h : A.Sound) (c : α → Bool) : (A.guarded c).Sound :=
  ⟨⟨fun v hv => h.st.writes v hv.1, fun v hv => ⟨h.st.canon v hv.1, hv.2⟩⟩, h.ld.check c (by decide) (by decide)⟩

/-- One of two tags, each with its own continuation. -/
theorem _root_.Verif.Loads.twoTags {p : Rd Cell Nat} {n a b : Nat} (hp : Rd.Takes p n natOfBits) (ha : a < 2 ^ n) (hb : b < 2 ^ n) (hab : a ≠ b)
    {la lb : Rd Cell α} {Ra Rb : α → Enc Cell → Prop} (hla : Loads la Ra) (hlb : Loads lb Rb) :
    Loads (p >>= fun t => if t = a then la else if t = b then lb else Prog.fail .invalidTag)
      (fun v e => (Enc.Lit (natBits n a) ⬝ Ra v) e ∨ (Enc.Lit (natBits n b) ⬝ Rb v) e) :=
  (Loads.onNat hp (R := fun t v e => (t = a ∧ Ra v e) ∨ (t = b ∧ Rb v e)) (fun t _ => by
    by_cases h1 : t = a
    · rw [if_pos h1]
      exact hla.iff fun v e => ⟨fun h => .inl ⟨h1, h⟩, by rintro (⟨_, h⟩ | ⟨h, _⟩); exact h; exact absurd (h1.symm.trans h) hab⟩
    · rw [if_neg h1]
      by_cases h2 : t = b
      · rw [if_pos h2]
        exact hlb.iff fun v e => ⟨fun h => .inr ⟨h2, h⟩, by rintro (⟨h, _⟩ | ⟨_, h⟩); exact absurd h h1; exact h⟩
      · rw [if_neg h2]
        exact Loads.nothing (by decide) (by decide) fun v e h => by rcases h with ⟨h, _⟩ | ⟨h, _⟩; exact h1 h; exact h2 h)).iff fun v e => by
    constructor
    · rintro ⟨t, _, e1, e2, h1, ⟨rfl, h⟩ | ⟨rfl, h⟩, rfl⟩
      · exact .inl ⟨e1, e2, h1, h, rfl⟩
      · exact .inr ⟨e1, e2, h1, h, rfl⟩
    · rintro (⟨e1, e2, h1, h, rfl⟩ | ⟨e1, e2, h1, h, rfl⟩)
      · exact ⟨_, ha, e1, e2, h1, .inl ⟨rfl, h⟩, rfl⟩
      · exact ⟨_, hb, e1, e2, h1, .inr ⟨rfl, h⟩, rfl⟩

theorem Sound.laterLoads {A : Tlb α} (h : A.Sound) (acc : Cell → Bool) {lb : Rd Cell β} {Rb : β → Enc Cell → Prop} (hb : Loads lb Rb) :
    Loads (childSlice >>= fun t => lb >>= fun b => within A.load t >>= fun a => Pure.pure (a, b)) (fun v => (A.child acc).R v.1 ⬝ Rb v.2) :=
  h.childLater acc (p := fun v : α × β => v.1) (S := fun v => Rb v.2) fun t ht =>
    (hb.bind (R := fun b v e => v.2 = b ∧ (A.load t).1 = .ok v.1 ∧ e = Enc.nil) (fun b _ _ => ((within_loads h ht).map fun a => (a, b)).iff fun v e =>
      ⟨by rintro ⟨a, rfl, h1, h2⟩; exact ⟨rfl, h1, h2⟩, by rintro ⟨rfl, h1, h2⟩; exact ⟨v.1, rfl, h1, h2⟩⟩)).iff fun v e =>
      ⟨by rintro ⟨b, e1, e2, h1, ⟨rfl, h2, rfl⟩, rfl⟩; exact ⟨h2, by rw [Enc.append_nil]; exact h1⟩,
       by rintro ⟨h1, h2⟩; exact ⟨v.2, e, Enc.nil, h2, ⟨rfl, h1, rfl⟩, (Enc.append_nil _).symm⟩⟩

theorem Sound.later {A : Tlb α} {B : Tlb β} (h : A.Sound) (hb : B.Sound) (acc : Cell → Bool) : (later acc A B).Sound :=
  ⟨⟨fun v hv => (Wr.writes_ref _).writes.seq (hb.st.writes _ hv.2), fun v hv => ⟨_, _, (h.child acc).st.canon _ hv.1, hb.st.canon _ hv.2, rfl⟩⟩,
    h.laterLoads acc hb.ld⟩

/-- Two children, opened one after the other, then read. -/
theorem Sound.twoChildren {A : Tlb α} {B : Tlb β} (h : A.Sound) (hb : B.Sound) (acc : Cell → Bool) :
    Loads (childSlice >>= fun t => childSlice >>= fun u => within A.load t >>= fun a => within B.load u >>= fun b => Pure.pure (a, b))
      (fun v => (A.child acc).R v.1 ⬝ (B.child acc).R v.2) :=
  h.childLater acc (p := fun v : α × β => v.1) (S := fun v => (B.child acc).R v.2) fun t ht =>
    (hb.childLater acc (p := fun v : α × β => v.2) (S := fun v e => (A.load t).1 = .ok v.1 ∧ e = Enc.nil) fun u hu =>
      ((within_loads h ht).bind (R := fun a v e => v.1 = a ∧ (B.load u).1 = .ok v.2 ∧ e = Enc.nil) (fun a _ _ => ((within_loads hb hu).map fun b => (a, b)).iff fun v e =>
        ⟨by rintro ⟨b, rfl, h1, h2⟩; exact ⟨rfl, h1, h2⟩, by rintro ⟨rfl, h1, h2⟩; exact ⟨v.2, rfl, h1, h2⟩⟩)).iff fun v e =>
        ⟨by rintro ⟨a, e1, e2, ⟨h1, rfl⟩, ⟨rfl, h2, rfl⟩, rfl⟩; exact ⟨h2, h1, Enc.append_nil _⟩,
         by rintro ⟨h1, h2, rfl⟩; exact ⟨v.1, Enc.nil, Enc.nil, ⟨h2, rfl⟩, ⟨rfl, h1, rfl⟩, (Enc.append_nil _).symm⟩⟩).iff fun v e =>
      ⟨by rintro ⟨e1, e2, h1, ⟨h2, rfl⟩, rfl⟩; exact ⟨h2, by rw [Enc.append_nil]; exact h1⟩,
       by rintro ⟨h1, h2⟩; exact ⟨e, Enc.nil, h2, ⟨h1, rfl⟩, (Enc.append_nil _).symm⟩⟩

end Tlb
end Verif
